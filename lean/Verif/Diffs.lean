import Verif.Changes
import Verif.Versions

/-!
# The walk of `diff` and its result
-/

namespace Space

open List

/-- `ids` are the commits after snapshot `a` up to and including snapshot `n` on the history
of `n`, oldest first. -/
inductive Commits (md : Metadata) (a : Nat) : Nat → List Nat → Prop where
  | here : Commits md a a []
  | next {p n : Nat} {ids : List Nat} {snap : Snapshot} : Commits md a p ids → md.snaps.get? n = some snap →
      snap.parent = some p → Commits md a n (ids ++ [n])

section
variable {fs : FS} {md : Metadata}

theorem Commits.le (hok : MdOK fs md) {a n : Nat} {ids : List Nat} (h : Commits md a n ids) : a ≤ n := by
  induction h with
  | here => exact Nat.le_refl _
  | next _ hs hp ih =>
    have := (hok.parents _ _ _ hs hp).1
    omega

theorem Commits.trans {a b c : Nat} {xs ys : List Nat} (h1 : Commits md a b xs) (h2 : Commits md b c ys) :
    Commits md a c (xs ++ ys) := by
  induction h2 with
  | here => simpa using h1
  | next _ hs hp ih => rw [← List.append_assoc]; exact .next ih hs hp

theorem Commits.anc {a n : Nat} {ids : List Nat} (h : Commits md a n ids) : Anc md n a := by
  induction h with
  | here => exact .self
  | next _ hs hp ih => exact (Anc.parent .self hs hp).trans ih

theorem Anc.commits {a n : Nat} (h : Anc md n a) : ∃ ids, Commits md a n ids := by
  induction h with
  | self => exact ⟨[], .here⟩
  | parent _ hs hp ih =>
    obtain ⟨ids, h⟩ := ih
    exact ⟨_, (Commits.next .here hs hp).trans h⟩

/-- The history is a line. -/
theorem Commits.unique (hok : MdOK fs md) {a n : Nat} {xs ys : List Nat} (h1 : Commits md a n xs)
    (h2 : Commits md a n ys) : xs = ys := by
  induction h1 generalizing ys with
  | here =>
    cases h2 with
    | here => rfl
    | next h hs hp =>
      have := h.le hok
      have := (hok.parents _ _ _ hs hp).1
      omega
  | next h hs hp ih =>
    cases h2 with
    | here =>
      have := h.le hok
      have := (hok.parents _ _ _ hs hp).1
      omega
    | next h' hs' hp' =>
      rw [hs] at hs'
      cases hs'
      rw [hp] at hp'
      cases hp'
      rw [ih h']

/-- Splitting a history at an ancestor. -/
theorem Commits.split (hok : MdOK fs md) {a b c : Nat} {xs ys : List Nat} (h1 : Commits md a c xs)
    (h2 : Commits md b c ys) (hab : a ≤ b) : ∃ zs, Commits md a b zs := by
  induction h2 generalizing xs with
  | here => exact ⟨xs, h1⟩
  | next h hs hp ih =>
    cases h1 with
    | here =>
      have := h.le hok
      have := (hok.parents _ _ _ hs hp).1
      omega
    | next h' hs' hp' =>
      rw [hs] at hs'
      cases hs'
      rw [hp] at hp'
      cases hp'
      exact ih h'

theorem walkBack_eq (hok : MdOK fs md) (a : Nat) : ∀ (fuel : Nat) (snap : Snapshot) (acc : List Nat),
    md.snaps.get? snap.id = some snap → snap.id + 2 ≤ fuel →
    ∃ ids, walkBack md a fuel snap acc = .ok (ids ++ acc) ∧ (snap.id < a → ids = []) ∧
      ((∃ xs, Commits md a snap.id xs ∧ ids = a :: xs) ∨
        ((∀ xs, ¬ Commits md a snap.id xs) ∧ ids.head? ≠ some a))
  | 0, snap, acc, _, hf => by omega
  | fuel + 1, snap, acc, hs, hf => by
    unfold walkBack
    by_cases hge : snap.id ≥ a
    · rw [if_pos hge]
      cases hp : snap.parent with
      | none =>
        refine ⟨[snap.id], rfl, fun h => by omega, ?_⟩
        by_cases he : a = snap.id
        · exact Or.inl ⟨[], he ▸ .here, by rw [he]⟩
        · refine Or.inr ⟨fun xs hx => ?_, by simpa using fun h => he h.symm⟩
          cases hx with
          | here => exact he rfl
          | next h hs' hp' =>
            rw [hs] at hs'
            cases hs'
            rw [hp] at hp'
            cases hp'
      | some p =>
        obtain ⟨hlt, hsome⟩ := hok.parents _ _ _ hs hp
        obtain ⟨sp, hsp⟩ := Option.isSome_iff_exists.mp hsome
        have hid := hok.ids _ _ hsp
        subst hid
        obtain ⟨ids, h1, h2, h3⟩ := walkBack_eq hok a fuel sp (snap.id :: acc) hsp (by omega)
        refine ⟨ids ++ [snap.id], ?_, fun h => by omega, ?_⟩
        · simp only [Metadata.snapshot, hsp, h1, List.append_assoc, List.singleton_append]
        · by_cases he : a = snap.id
          · refine Or.inl ⟨[], he ▸ .here, ?_⟩
            rw [h2 (by omega), he]
            rfl
          · rcases h3 with ⟨xs, hc, rfl⟩ | ⟨hno, hhd⟩
            · exact Or.inl ⟨xs ++ [snap.id], .next hc hs hp, rfl⟩
            · refine Or.inr ⟨fun xs hx => ?_, ?_⟩
              · generalize hn : snap.id = n at hx
                cases hx with
                | here => exact he hn.symm
                | next h hs' hp' =>
                  rw [← hn, hs] at hs'
                  cases hs'
                  rw [hp] at hp'
                  cases hp'
                  exact hno _ h
              · cases ids with
                | nil => simpa using fun h => he h.symm
                | cons i ids => simpa using hhd
    · rw [if_neg hge]
      refine ⟨[], rfl, fun _ => rfl, Or.inr ⟨fun xs hx => ?_, by simp⟩⟩
      exact hge (hx.le hok)

theorem orderedIds_ok (hok : MdOK fs md) {a b : Nat} {ids : List Nat} :
    orderedIds md a b = .ok ids ↔ a < b ∧ Commits md a b ids := by
  unfold orderedIds
  by_cases hge : a ≥ b
  · rw [if_pos hge]
    exact ⟨fun h => by (cases h), fun h => by omega⟩
  · rw [if_neg hge]
    cases hs : md.snaps.get? b with
    | none =>
      simp only [Metadata.snapshot, hs]
      refine ⟨fun h => by (cases h), fun ⟨_, h⟩ => ?_⟩
      cases h with
      | here => omega
      | next _ hs' _ => rw [hs] at hs'; cases hs'
    | some snap =>
      have hid := hok.ids _ _ hs
      subst hid
      obtain ⟨l, h1, h2, h3⟩ := walkBack_eq hok a (snap.id + 2) snap [] hs (Nat.le_refl _)
      simp only [Metadata.snapshot, hs, h1, List.append_nil]
      rcases h3 with ⟨xs, hc, rfl⟩ | ⟨hno, hhd⟩
      · simp only [ne_eq, not_true_eq_false, if_false, Except.ok.injEq]
        constructor
        · rintro rfl
          exact ⟨by omega, hc⟩
        · rintro ⟨-, h⟩
          exact hc.unique hok h
      · refine ⟨fun h => ?_, fun ⟨_, h⟩ => absurd h (hno _)⟩
        cases l with
        | nil => cases h
        | cons i l =>
          simp only [List.head?_cons, ne_eq, Option.some.injEq] at hhd
          simp only [ne_eq, if_pos (fun h => hhd h.symm : ¬ a = i)] at h
          cases h

theorem readChangeIds_ok {E : Env} {batch : Nat} : ∀ {ids : List Nat} {cs : List ChangeData},
    readChangeIds E fs md batch ids = .ok cs ↔
      ∃ css : List (List ChangeData), css.map .ok = ids.map (readChanges E fs md batch) ∧ cs = css.flatten
  | [], cs => by
    simp only [readChangeIds, Except.ok.injEq, List.map_nil, List.map_eq_nil_iff]
    constructor
    · rintro rfl; exact ⟨[], rfl, rfl⟩
    · rintro ⟨_, rfl, rfl⟩; rfl
  | i :: is, cs => by
    simp only [readChangeIds, List.map_cons]
    cases hc : readChanges E fs md batch i with
    | error e =>
      refine ⟨fun h => by (cases h), ?_⟩
      rintro ⟨css, h, -⟩
      cases css with
      | nil => cases h
      | cons c css => simp at h
    | ok c =>
      simp only
      cases hr : readChangeIds E fs md batch is with
      | error e =>
        refine ⟨fun h => by (cases h), ?_⟩
        rintro ⟨css, h, -⟩
        cases css with
        | nil => cases h
        | cons c' css =>
          simp only [List.map_cons, List.cons.injEq] at h
          have := readChangeIds_ok.mpr ⟨css, h.2, rfl⟩
          rw [hr] at this
          cases this
      | ok cs' =>
        obtain ⟨css, h1, h2⟩ := readChangeIds_ok.mp hr
        simp only [Except.ok.injEq]
        constructor
        · rintro rfl
          exact ⟨c :: css, by simp [h1], by simp [h2]⟩
        · rintro ⟨css', h, rfl⟩
          cases css' with
          | nil => cases h
          | cons c' css' =>
            simp only [List.map_cons, List.cons.injEq, Except.ok.injEq] at h
            have := readChangeIds_ok.mpr ⟨css', h.2, rfl⟩
            rw [hr] at this
            cases this
            rw [h.1]
            rfl

theorem readChangeIds_append {E : Env} {batch : Nat} {xs ys : List Nat} {cs : List ChangeData} :
    readChangeIds E fs md batch (xs ++ ys) = .ok cs ↔
      ∃ c d, readChangeIds E fs md batch xs = .ok c ∧ readChangeIds E fs md batch ys = .ok d ∧ cs = c ++ d := by
  constructor
  · intro h
    obtain ⟨css, h1, rfl⟩ := readChangeIds_ok.mp h
    rw [List.map_append] at h1
    obtain ⟨c, d, rfl, hc, hd⟩ := List.map_eq_append_iff.mp h1
    exact ⟨_, _, readChangeIds_ok.mpr ⟨c, hc, rfl⟩, readChangeIds_ok.mpr ⟨d, hd, rfl⟩, by simp⟩
  · rintro ⟨c, d, h1, h2, rfl⟩
    obtain ⟨cs, hc, rfl⟩ := readChangeIds_ok.mp h1
    obtain ⟨ds, hd, rfl⟩ := readChangeIds_ok.mp h2
    exact readChangeIds_ok.mpr ⟨cs ++ ds, by simp [hc, hd], by simp⟩

end

/-- A diff addresses the stored metadata. -/
theorem tableDiff_target {E : Env} {s : Schema} {w : World} {md : Metadata} {h : Handle}
    (hw : WOK s w md) (hh : HandleOK s w h) (batch : Nat) (a b : Version) :
    tableDiff E h w batch a b =
      match md.versionId a with
      | .error e => .error e
      | .ok ia =>
        match md.versionId b with
        | .error e => .error e
        | .ok ib =>
          match orderedIds md ia ib with
          | .error e => .error e
          | .ok ids => readChangeIds E w.fs md batch ids := by
  obtain ⟨b', h', e1, e2, e3, -⟩ := reload_eq hw hh
  unfold tableDiff
  rw [e1]
  simp only [diffHandle, e2]
  rfl

/-- When a diff succeeds. -/
theorem tableDiff_ok {E : Env} {s : Schema} {w : World} {md : Metadata} {h : Handle}
    (hw : WOK s w md) (hh : HandleOK s w h) {batch : Nat} {a b : Version} {cs : List ChangeData} :
    tableDiff E h w batch a b = .ok cs ↔ ∃ ia ib ids, md.versionId a = .ok ia ∧ md.versionId b = .ok ib ∧
      ia < ib ∧ Commits md ia ib ids ∧ readChangeIds E w.fs md batch ids = .ok cs := by
  rw [tableDiff_target hw hh]
  cases ha : md.versionId a with
  | error e => simp
  | ok ia =>
    cases hb : md.versionId b with
    | error e => simp
    | ok ib =>
      simp only
      cases ho : orderedIds md ia ib with
      | error e =>
        simp only [reduceCtorEq, Except.ok.injEq, false_iff]
        rintro ⟨ia', ib', ids, rfl, rfl, h1, h2, -⟩
        rw [(orderedIds_ok hw.ok).mpr ⟨h1, h2⟩] at ho
        cases ho
      | ok ids =>
        obtain ⟨h1, h2⟩ := (orderedIds_ok hw.ok).mp ho
        simp only [Except.ok.injEq]
        constructor
        · intro h
          exact ⟨ia, ib, ids, rfl, rfl, h1, h2, h⟩
        · rintro ⟨ia', ib', ids', rfl, rfl, -, h4, h5⟩
          rw [h2.unique hw.ok h4]
          exact h5

/-! ## Commits along histories -/

/-- Tags are put on reachable snapshots. -/
def noRevive (σ : Sys) (ev : Event) : Prop :=
  ∀ i name id r md, ev = .call i (.addTag name (some id)) r → σ.w.stored = some md → Live md id

/-- A calm step keeps the stored snapshots, or commits the result of a mutation. -/
theorem commit_step {E : Env} {s : Schema} (hn : s.names.Nodup) {σ σ' : Sys} {ev : Event} {md : Metadata}
    (hr : Reach E s calm σ) (hok : SysOK E s σ md) (hp : calm σ ev) (hs : Step E s σ ev σ') :
    ∃ md', SysOK E s σ' md' ∧ FSLe σ.w.fs σ'.w.fs ∧ Change σ ev σ'.w.fs md md' ∧
      ((md'.snaps = md.snaps ∧ ∀ b, ¬ CommitEvent σ ev b) ∨
        ∃ b q i m n sl sl' w h1 w1 p cur snap, Committed σ'.w.fs md md' b q n cur snap ∧
        md.maxRefId < n ∧ Lands σ ev i m ∧ Landing E s m i σ σ' sl sl' w h1 w1 p cur snap) := by
  obtain ⟨md', hok', hle, hch, -, -⟩ := step_full hn hok hs
  refine ⟨md', hok', hle, hch hp.1, ?_⟩
  cases hch hp.1 with
  | same eq hc => exact Or.inl ⟨by rw [eq], hc⟩
  | addRef name kind k can eq _ hc => exact Or.inl ⟨by rw [eq], hc⟩
  | removeRef name kind k was eq _ hc => exact Or.inl ⟨by rw [eq], hc⟩
  | commit b q n cur snap com new hc =>
    refine Or.inr ?_
    obtain ⟨i, sl, hsl, hb, hev⟩ := hc
    obtain ⟨m, hl⟩ : ∃ m, Lands σ ev i m := by
      rcases hev with ⟨m, rfl⟩ | rfl
      · exact ⟨m, Or.inl rfl⟩
      · cases hs with
        | commit hi hrun => exact ⟨_, Or.inr ⟨rfl, _, _, _, hi, rfl⟩⟩
    obtain ⟨sl0, sl', w, h1, w1, p, cur', snap', hl'⟩ := landed hn hr hs hl
    have := hl'.slot
    rw [hsl] at this
    cases this
    have hcur : cur' = cur := by
      have := hl'.succ.head
      simp only [headOf, hok.wok.storedEq, Option.bind_some, hb, target_head com.head com.curGet,
        Except.toOption, Option.some.injEq] at this
      exact this.symm
    have hsnap : snap' = snap := by
      have := hl'.succ.head'
      simp only [headOf, hok'.wok.storedEq, Option.bind_some, hl'.branch, hb, target_head com.newHead com.newSnap,
        Except.toOption, Option.some.injEq] at this
      exact this.symm
    subst hcur
    subst hsnap
    exact ⟨b, q, i, m, n, _, sl', w, h1, w1, p, cur', snap', com, new, hl, hl'⟩

/-- What is reachable after a commit. -/
theorem Committed.live {fs fs' : FS} {md md' : Metadata} {b : String} {q : Patch} {n : Nat} {cur snap : Snapshot}
    (hok : MdOK fs md) (com : Committed fs' md md' b q n cur snap) (new : md.maxRefId < n) {k : Nat}
    (h : Live md' k) : k = n ∨ Live md k := by
  induction h with
  | main =>
    rcases com.move with ⟨-, h, -⟩ | ⟨-, h, -⟩
    · exact Or.inl h
    · exact Or.inr (h ▸ .main)
  | @ref name r hr =>
    rcases com.move with ⟨-, -, h⟩ | ⟨-, -, r', h1, -, h2⟩
    · rw [h] at hr; exact Or.inr (.ref hr)
    · rw [h2] at hr
      by_cases hb : name = b
      · subst hb
        rw [AMap.get?_set_self] at hr
        cases hr
        exact Or.inl rfl
      · rw [AMap.get?_set_ne _ _ hb] at hr
        exact Or.inr (.ref hr)
  | @parent m p' sn _ hs hp ih =>
    right
    rcases ih with rfl | ih
    · rw [com.newSnap] at hs
      cases hs
      rw [com.parent] at hp
      cases hp
      exact currentId_live com.head
    · have hle := ih.le hok
      rw [com.snaps, AMap.get?_set_ne _ _ (by omega)] at hs
      exact .parent ih hs hp

/-- What is reachable after other tidy steps. -/
theorem Change.live {σ : Sys} {ev : Event} {fs' : FS} {md md' : Metadata} (hmd : σ.w.stored = some md)
    (h : Change σ ev fs' md md') (hs : md'.snaps = md.snaps) (hrev : noRevive σ ev)
    (hnc : ∀ b, ¬ CommitEvent σ ev b) {k : Nat} (hk : Live md' k) : Live md k := by
  cases h with
  | same eq => exact eq ▸ hk
  | commit b p n cur snap com new hc => exact absurd hc (hnc b)
  | addRef name kind n can eq call =>
    have hn : Live md n := by
      obtain ⟨i, r, ⟨-, id, rfl, hev⟩ | ⟨-, rfl, -⟩⟩ := call
      · cases id with
        | none => exact .main
        | some id => exact hrev i name id r md hev hmd
      · exact .main
    subst eq
    induction hk with
    | main => exact .main
    | @ref nm r hr =>
      by_cases hb : nm = name
      · subst hb
        simp only at hr
        rw [AMap.get?_set_self] at hr
        cases hr
        exact hn
      · simp only at hr
        rw [AMap.get?_set_ne _ _ hb] at hr
        exact .ref hr
    | parent _ hs hp ih => exact .parent ih hs hp
  | removeRef name kind n was eq call =>
    subst eq
    induction hk with
    | main => exact .main
    | @ref nm r hr =>
      by_cases hb : nm = name
      · subst hb
        simp only at hr
        rw [AMap.get?_erase_self] at hr
        cases hr
      · simp only at hr
        rw [AMap.get?_erase_ne _ hb] at hr
        exact .ref hr
    | parent _ hs hp ih => exact .parent ih hs hp

/-- A relation between the snapshots of reachable commits and their parents, which files
written later do not change, and which every mutation that lands establishes. -/
theorem chain_invariant {E : Env} {s : Schema} (hn : s.names.Nodup) {P : Sys → Event → Prop}
    (hP : ∀ {σ ev}, P σ ev → calm σ ev ∧ noRevive σ ev) {Good : FS → Snapshot → Snapshot → Prop}
    (hmono : ∀ {fs fs' cur snap}, FSLe fs fs' → SnapOK fs s cur → SnapOK fs s snap → Good fs cur snap →
      Good fs' cur snap)
    (hland : ∀ {σ σ' ev i m sl sl' w h1 w1 p cur snap}, P σ ev → Lands σ ev i m →
      Landing E s m i σ σ' sl sl' w h1 w1 p cur snap → Good σ'.w.fs cur snap)
    {σ : Sys} (h : Reach E s P σ) {md : Metadata} (hmd : σ.w.stored = some md) {n q : Nat}
    {cur snap : Snapshot} (hl : Live md n) (hs : md.snaps.get? n = some snap) (hp : snap.parent = some q)
    (hc : md.snaps.get? q = some cur) : Good σ.w.fs cur snap := by
  obtain ⟨σ0, hst, hrun⟩ := h
  have key : Reach E s calm σ ∧ ∀ md, σ.w.stored = some md → ∀ n q cur snap, Live md n →
      md.snaps.get? n = some snap → snap.parent = some q → md.snaps.get? q = some cur → Good σ.w.fs cur snap := by
    refine Run.invariant (P := P) (I := fun σ => Reach E s calm σ ∧ ∀ md, σ.w.stored = some md → ∀ n q cur snap,
      Live md n → md.snaps.get? n = some snap → snap.parent = some q → md.snaps.get? q = some cur →
        Good σ.w.fs cur snap) ?_ ⟨⟨σ0, hst, .refl _⟩, ?_⟩ hrun
    · rintro σ σ' ev ⟨hr, hi⟩ hp hs
      obtain ⟨hcalm, hrev⟩ := hP hp
      refine ⟨hr.step hcalm hs, ?_⟩
      obtain ⟨md, hok⟩ := reach_ok hn (hr.imp anyStep_of)
      obtain ⟨md', hok', hle, hch, hsn⟩ := commit_step hn hr hok hcalm hs
      intro md2 hmd2 n q cur snap hlive hget hpar hcur
      have := hok'.wok.storedEq.symm.trans hmd2
      cases this
      have old : Live md n → md.snaps.get? n = some snap → md.snaps.get? q = some cur → Good σ'.w.fs cur snap := by
        intro a b c
        have h1 := hok.wok.ok.snaps _ _ b
        have h2 := hok.wok.ok.snaps _ _ c
        rw [hok.wok.schema] at h1 h2
        exact hmono hle h2 h1 (hi md hok.wok.storedEq n q cur snap a b hpar c)
      rcases hsn with ⟨hsn, hnc⟩ | ⟨b, p', i, m, k, sl, sl', w, h1, w1, p, cur', snap', com, new, hlands, hland'⟩
      · rw [hsn] at hget hcur
        exact old (hch.live hok.wok.storedEq hsn hrev hnc hlive) hget hcur
      · rcases com.live hok.wok.ok new hlive with rfl | hlive
        · rw [com.newSnap] at hget
          cases hget
          rw [com.parent] at hpar
          cases hpar
          have : md.snaps.get? cur'.id = some cur := by
            rw [com.snaps, AMap.get?_set_ne] at hcur
            · exact hcur
            · have := (currentId_live com.head).le hok.wok.ok
              omega
          rw [com.curGet] at this
          cases this
          exact hland hp hlands hland'
        · have hle1 := hlive.le hok.wok.ok
          rw [com.snaps, AMap.get?_set_ne _ _ (by omega)] at hget
          have hle2 := (Live.parent hlive hget hpar).le hok.wok.ok
          rw [com.snaps, AMap.get?_set_ne _ _ (by omega)] at hcur
          exact old hlive hget hcur
    · intro md hmd n q cur snap _ hget hpar
      rw [started_md hst] at hmd
      cases hmd
      simp only [AMap.get?] at hget
      split at hget
      · cases hget; cases hpar
      · cases hget
  exact key.2 md hmd n q cur snap hl hs hp hc

end Space
