import Verif.Sys
import Verif.TableRead

/-! # How the stored metadata evolves -/

namespace Space

/-- Snapshot ids reachable in the metadata: the heads of main, of the branches and
of the tags, and the parents of reachable snapshots. -/
inductive Live (md : Metadata) : Nat → Prop where
  | main : Live md md.current
  | ref {name : String} {r : Ref} : md.refs.get? name = some r → Live md r.id
  | parent {n p : Nat} {snap : Snapshot} : Live md n → md.snaps.get? n = some snap →
      snap.parent = some p → Live md p

/-- `a` is `n` or an ancestor of `n`. -/
inductive Anc (md : Metadata) (n : Nat) : Nat → Prop where
  | self : Anc md n n
  | parent {m p : Nat} {snap : Snapshot} : Anc md n m → md.snaps.get? m = some snap →
      snap.parent = some p → Anc md n p

theorem Live.le {fs : FS} {md : Metadata} (hok : MdOK fs md) {n : Nat} (h : Live md n) :
    n ≤ md.maxRefId := by
  induction h with
  | main => exact current_le_max md
  | ref hr => exact ref_le_max hr
  | parent _ hs hp ih => have := (hok.parents _ _ _ hs hp).1; omega

theorem Live.isSome {fs : FS} {md : Metadata} (hok : MdOK fs md) {n : Nat} (h : Live md n) :
    (md.snaps.get? n).isSome := by
  cases h with
  | main => exact hok.cur
  | ref hr => exact hok.refs _ _ hr
  | parent _ hs hp => exact (hok.parents _ _ _ hs hp).2

theorem Anc.live {md : Metadata} {n m : Nat} (hn : Live md n) (h : Anc md n m) : Live md m := by
  induction h with
  | self => exact hn
  | parent _ hs hp ih => exact .parent ih hs hp

theorem currentId_live {md : Metadata} {b : String} {n : Nat} (h : md.currentId b = .ok n) :
    Live md n := by
  unfold Metadata.currentId at h
  split at h
  · cases h; exact .main
  · unfold Metadata.lookupRef at h
    cases hr : md.refs.get? b with
    | none => rw [hr] at h; cases h
    | some r => rw [hr] at h; cases h; exact .ref hr

theorem Anc.keep {fs : FS} {md md' : Metadata} (hok : MdOK fs md)
    (hkeep : ∀ n, n ≤ md.maxRefId → md'.snaps.get? n = md.snaps.get? n) {n m : Nat}
    (hn : Live md n) (h : Anc md n m) : Anc md' n m := by
  induction h with
  | self => exact .self
  | parent ha hs hp ih =>
    refine .parent ih ?_ hp
    rw [hkeep _ ((ha.live hn).le hok)]
    exact hs

theorem Anc.trans {md : Metadata} {a b c : Nat} (h1 : Anc md a b) (h2 : Anc md b c) : Anc md a c := by
  induction h2 with
  | self => exact h1
  | parent _ hs hp ih => exact .parent ih hs hp

/-- Tidy steps change no snapshot up to the largest head. -/
theorem Change.keep {σ : Sys} {ev : Event} {fs' : FS} {md md' : Metadata}
    (h : Change σ ev fs' md md') {n : Nat} (hn : n ≤ md.maxRefId) :
    md'.snaps.get? n = md.snaps.get? n := by
  cases h with
  | same e _ => rw [e]
  | commit b p k cur snap com new _ =>
    rw [com.snaps, AMap.get?_set_ne _ _ (by omega)]
  | addRef name kind k can e _ _ => rw [e]
  | removeRef name kind k was e _ _ => rw [e]

/-- The new head after a commit. -/
theorem Committed.newHead {fs' : FS} {md md' : Metadata} {b : String} {p : Patch} {n : Nat}
    {cur snap : Snapshot} (com : Committed fs' md md' b p n cur snap) :
    md'.currentId b = .ok n := by
  unfold Metadata.currentId Metadata.lookupRef
  rcases com.move with ⟨rfl, h2, -⟩ | ⟨h1, -, r, -, -, h2⟩
  · simp [h2]
  · rw [if_neg h1, h2, AMap.get?_set_self]; rfl

/-- Other branches stay where they are. -/
theorem Committed.otherHead {fs' : FS} {md md' : Metadata} {b c : String} {p : Patch} {n : Nat}
    {cur snap : Snapshot} (com : Committed fs' md md' b p n cur snap) (hc : c ≠ b) :
    md'.currentId c = md.currentId c := by
  unfold Metadata.currentId Metadata.lookupRef
  rcases com.move with ⟨rfl, -, h2⟩ | ⟨h1, h0, r, -, -, h2⟩
  · rw [if_neg hc, if_neg hc, h2]
  · rw [h0, h2, AMap.get?_set_ne _ _ hc]

/-- Other references stay as they are. -/
theorem Committed.otherRef {fs' : FS} {md md' : Metadata} {b c : String} {p : Patch} {n : Nat}
    {cur snap : Snapshot} (com : Committed fs' md md' b p n cur snap) (hc : c ≠ b) :
    md'.refs.get? c = md.refs.get? c := by
  rcases com.move with ⟨rfl, -, h2⟩ | ⟨h1, h0, r, -, -, h2⟩
  · rw [h2]
  · rw [h2, AMap.get?_set_ne _ _ hc]

/-- Tags stay where they are. -/
theorem Committed.tagRef {fs' : FS} {md md' : Metadata} {b c : String} {p : Patch} {n k : Nat}
    {cur snap : Snapshot} (com : Committed fs' md md' b p n cur snap)
    (hc : md.refs.get? c = some { id := k, kind := .tag }) :
    md'.refs.get? c = some { id := k, kind := .tag } := by
  rcases com.move with ⟨rfl, -, h2⟩ | ⟨h1, h0, r, h3, h4, h2⟩
  · rw [h2]; exact hc
  · have : c ≠ b := by
      rintro rfl
      rw [hc] at h3
      cases h3
      cases h4
    rw [h2, AMap.get?_set_ne _ _ this]; exact hc

/-! ## Histories without removal of branches -/

/-- All snapshots are at most some branch head. -/
def Bounded (md : Metadata) : Prop :=
  ∀ n, (md.snaps.get? n).isSome → n ≤ md.current ∨
    ∃ name r, md.refs.get? name = some r ∧ r.kind = .branch ∧ n ≤ r.id

theorem Bounded.le {md : Metadata} (h : Bounded md) {n : Nat} (hn : (md.snaps.get? n).isSome) :
    n ≤ md.maxRefId := by
  rcases h n hn with h1 | ⟨name, r, h1, -, h3⟩
  · exact Nat.le_trans h1 (current_le_max md)
  · exact Nat.le_trans h3 (ref_le_max h1)

theorem Change.bounded {σ : Sys} {ev : Event} {fs' : FS} {md md' : Metadata}
    (h : Change σ ev fs' md md') (hk : ev.keepsBranches) (hb : Bounded md) : Bounded md' := by
  cases h with
  | same e _ => rw [e]; exact hb
  | commit b p k cur snap com new _ =>
    intro n hn
    rcases com.move with ⟨h1, h2, h3⟩ | ⟨h1, h2, r, h3, h4, h5⟩
    · rw [com.snaps, AMap.get?_set] at hn
      by_cases he : n = k
      · subst he; exact Or.inl (by omega)
      · rw [if_neg he] at hn
        have := hb.le hn
        exact Or.inl (by omega)
    · right
      refine ⟨b, { r with id := k }, by rw [h5, AMap.get?_set_self], h4, ?_⟩
      rw [com.snaps, AMap.get?_set] at hn
      by_cases he : n = k
      · subst he; exact Nat.le_refl _
      · rw [if_neg he] at hn
        have := hb.le hn
        simp only
        omega
  | addRef name kind k can e _ _ =>
    intro n hn
    rw [e] at hn ⊢
    rcases hb n hn with h1 | ⟨nm, r, h1, h2, h3⟩
    · exact Or.inl h1
    · refine Or.inr ⟨nm, r, ?_, h2, h3⟩
      rw [AMap.get?_set_ne _ _ (by rintro rfl; rw [can.unused] at h1; cases h1)]
      exact h1
  | removeRef name kind k was e keep _ =>
    intro n hn
    rw [e] at hn ⊢
    rcases hb n hn with h1 | ⟨nm, r, h1, h2, h3⟩
    · exact Or.inl h1
    · refine Or.inr ⟨nm, r, ?_, h2, h3⟩
      rw [AMap.get?_erase_ne]
      · exact h1
      · rintro rfl
        rw [was] at h1
        cases h1
        obtain ⟨i, r, ⟨h0, -⟩ | ⟨-, h0⟩⟩ := keep
        · simp only at h2; rw [h0] at h2; cases h2
        · rw [h0] at hk; exact hk

/-- Existing snapshots stay as they are. -/
theorem Change.keepAll {σ : Sys} {ev : Event} {fs' : FS} {md md' : Metadata}
    (h : Change σ ev fs' md md') (hb : Bounded md) {n : Nat} {snap : Snapshot}
    (hn : md.snaps.get? n = some snap) : md'.snaps.get? n = some snap := by
  rw [h.keep (hb.le (by rw [hn]; rfl))]
  exact hn

/-- Heads only advance, and a commit advances its branch. -/
theorem Change.heads {σ : Sys} {ev : Event} {fs' : FS} {md md' : Metadata}
    (h : Change σ ev fs' md md') {b : String} (hk : ∀ i r, ev ≠ .call i (.removeBranch b) r) {n : Nat}
    (hr : b = mainBranch ∨ ∃ r, md.refs.get? b = some r ∧ r.kind = .branch)
    (hb : md.currentId b = .ok n) :
    (b = mainBranch ∨ ∃ r, md'.refs.get? b = some r ∧ r.kind = .branch) ∧
    ∃ m, md'.currentId b = .ok m ∧ n ≤ m ∧ (CommitEvent σ ev b → n < m) := by
  cases h with
  | same e hc => rw [e]; exact ⟨hr, n, hb, Nat.le_refl _, fun h => absurd h (hc b)⟩
  | commit c p k cur snap com new hce =>
    by_cases he : b = c
    · subst he
      refine ⟨?_, k, com.newHead, ?_, fun _ => ?_⟩
      · rcases hr with rfl | ⟨r, h1, h2⟩
        · exact Or.inl rfl
        · right
          rcases com.move with ⟨rfl, -, h4⟩ | ⟨-, -, r', h5, h6, h4⟩
          · exact ⟨r, by rw [h4]; exact h1, h2⟩
          · exact ⟨{ r' with id := k }, by rw [h4, AMap.get?_set_self], h6⟩
      all_goals
        have : n ≤ md.maxRefId := by
          unfold Metadata.currentId at hb
          split at hb
          · cases hb; exact current_le_max md
          · unfold Metadata.lookupRef at hb
            cases hr' : md.refs.get? b with
            | none => rw [hr'] at hb; cases hb
            | some r => rw [hr'] at hb; cases hb; exact ref_le_max hr'
        omega
    · refine ⟨?_, n, by rw [com.otherHead he]; exact hb, Nat.le_refl _, fun hx => ?_⟩
      · rcases hr with rfl | ⟨r, h1, h2⟩
        · exact Or.inl rfl
        · exact Or.inr ⟨r, by rw [com.otherRef he]; exact h1, h2⟩
      · exfalso
        obtain ⟨i, sl, h1, h2, h3⟩ := hx
        obtain ⟨j, sl', h1', h2', h3'⟩ := hce
        have : i = j := by
          rcases h3 with ⟨m, h3⟩ | h3 <;> rcases h3' with ⟨m', h3'⟩ | h3'
          · rw [h3] at h3'; simp only [Event.call.injEq] at h3'; exact h3'.1
          · rw [h3] at h3'; cases h3'
          · rw [h3] at h3'; cases h3'
          · rw [h3] at h3'; simp only [Event.commit.injEq] at h3'; exact h3'.1
        subst this
        rw [h1] at h1'
        cases h1'
        exact he (h2.symm.trans h2')
  | addRef name kind k can e _ hc =>
    rw [e]
    by_cases hm : b = mainBranch
    · subst hm
      exact ⟨Or.inl rfl, n, hb, Nat.le_refl _, fun h => absurd h (hc _)⟩
    · obtain ⟨r, h1, h2⟩ := hr.resolve_left hm
      have hne : b ≠ name := by rintro rfl; rw [can.unused] at h1; cases h1
      refine ⟨Or.inr ⟨r, by simp only; rw [AMap.get?_set_ne _ _ hne]; exact h1, h2⟩, n, ?_, Nat.le_refl _,
        fun h => absurd h (hc _)⟩
      unfold Metadata.currentId Metadata.lookupRef at hb ⊢
      rw [if_neg hm] at hb ⊢
      simp only
      rw [AMap.get?_set_ne _ _ hne]
      exact hb
  | removeRef name kind k was e keep hc =>
    rw [e]
    by_cases hm : b = mainBranch
    · subst hm
      exact ⟨Or.inl rfl, n, hb, Nat.le_refl _, fun h => absurd h (hc _)⟩
    · obtain ⟨r, h1, h2⟩ := hr.resolve_left hm
      have hne : b ≠ name := by
        rintro rfl
        rw [was] at h1
        cases h1
        obtain ⟨i, r, ⟨h0, -⟩ | ⟨-, h0⟩⟩ := keep
        · simp only at h2; rw [h0] at h2; cases h2
        · exact hk _ _ h0
      refine ⟨Or.inr ⟨r, by simp only; rw [AMap.get?_erase_ne _ hne]; exact h1, h2⟩, n, ?_, Nat.le_refl _,
        fun h => absurd h (hc _)⟩
      unfold Metadata.currentId Metadata.lookupRef at hb ⊢
      rw [if_neg hm] at hb ⊢
      simp only
      rw [AMap.get?_erase_ne _ hne]
      exact hb

/-! ## Runs -/

theorem Run.imp {E : Env} {s : Schema} {P Q : Sys → Event → Prop} (h : ∀ σ ev, P σ ev → Q σ ev)
    {σ σ' : Sys} (hr : Run E s P σ σ') : Run E s Q σ σ' := by
  induction hr with
  | refl => exact .refl _
  | step _ hp hs ih => exact .step ih (h _ _ hp) hs

theorem Run.trans {E : Env} {s : Schema} {P : Sys → Event → Prop} {a b c : Sys}
    (h1 : Run E s P a b) (h2 : Run E s P b c) : Run E s P a c := by
  induction h2 with
  | refl => exact h1
  | step _ hp hs ih => exact .step ih hp hs

theorem Reach.imp {E : Env} {s : Schema} {P Q : Sys → Event → Prop} (h : ∀ σ ev, P σ ev → Q σ ev)
    {σ : Sys} (hr : Reach E s P σ) : Reach E s Q σ := by
  obtain ⟨a, h1, h2⟩ := hr
  exact ⟨a, h1, h2.imp h⟩

theorem Reach.run {E : Env} {s : Schema} {P : Sys → Event → Prop} {σ σ' : Sys} (h : Reach E s P σ)
    (hr : Run E s P σ σ') : Reach E s P σ' := by
  obtain ⟨a, h1, h2⟩ := h
  exact ⟨a, h1, h2.trans hr⟩

theorem Reach.step {E : Env} {s : Schema} {P : Sys → Event → Prop} {σ σ' : Sys} {ev : Event}
    (h : Reach E s P σ) (hp : P σ ev) (hr : Step E s σ ev σ') : Reach E s P σ' :=
  h.run (.step (.refl _) hp hr)

theorem anyStep_of {P : Sys → Event → Prop} : ∀ σ ev, P σ ev → anyStep σ ev := fun _ _ _ => trivial

/-- Along a run with an invariant. -/
theorem Run.invariant {E : Env} {s : Schema} {P : Sys → Event → Prop} {I : Sys → Prop}
    (hstep : ∀ {σ σ' ev}, I σ → P σ ev → Step E s σ ev σ' → I σ') {σ σ' : Sys} (h : I σ)
    (hr : Run E s P σ σ') : I σ' := by
  induction hr with
  | refl => exact h
  | step _ hp hs ih => exact hstep ih hp hs

theorem SysOK.slot {E : Env} {s : Schema} {σ : Sys} {md : Metadata} (h : SysOK E s σ md) {sl : Slot}
    (hs : sl ∈ σ.slots) : HandleOK s σ.w sl.h := (h.slots sl hs).1

theorem started_md {s : Schema} {σ : Sys} (h : Started s σ) :
    σ.w.stored = some { schema := s, current := 0, snaps := [(0, { id := 0 })], refs := [] } := by
  obtain ⟨w0, hd, h1, h2, h3⟩ := h
  obtain ⟨a, -, -, -, e⟩ := create_ok h1 h2
  rw [a.storedEq, e]

/-- In histories without removal of branches every snapshot is below some branch. -/
theorem growing_bounded {E : Env} {s : Schema} (hn : s.names.Nodup) {σ : Sys}
    (hr : Reach E s growing σ) : ∃ md, SysOK E s σ md ∧ Bounded md := by
  obtain ⟨σ0, h0, h⟩ := hr
  obtain ⟨md0, h1⟩ := started_ok (E := E) h0
  have h2 := started_md h0
  rw [h1.wok.storedEq] at h2
  cases h2
  refine Run.invariant (I := fun σ => ∃ md, SysOK E s σ md ∧ Bounded md) ?_ ⟨_, h1, ?_⟩ h
  · rintro σ σ' ev ⟨md, a, b⟩ hp hs
    obtain ⟨md', c, -, d⟩ := step_ok hn a hs
    exact ⟨md', c, (d hp.1).bounded hp.2 b⟩
  · intro n hx
    left
    simp only [AMap.get?] at hx
    split at hx
    · rename_i h3; omega
    · simp at hx

/-! ## One handle -/

/-- Only whole calls on the one handle (and files the user puts elsewhere, and
files left by processes that died). -/
def solo (σ : Sys) (ev : Event) : Prop :=
  σ.slots.length = 1 ∧ ((∃ c r, ev = .call 0 c r) ∨ (∃ p, ev = .external p) ∨ ev = .orphans)

/-- A single handle always holds the stored metadata. -/
theorem solo_step {E : Env} {s : Schema} (hn : s.names.Nodup) {σ σ' : Sys} {ev : Event}
    (hi : ∃ h, σ.slots = [⟨h, .idle⟩] ∧ SysOK E s σ h.md) (hp : solo σ ev) (hs : Step E s σ ev σ') :
    tidy σ ev ∧ ∃ h, σ'.slots = [⟨h, .idle⟩] ∧ SysOK E s σ' h.md := by
  obtain ⟨h, h1, h2⟩ := hi
  obtain ⟨md', h3, h4, -⟩ := step_ok hn h2 hs
  have hw := h2.wok
  rcases hp with ⟨-, ⟨c, r, rfl⟩ | ⟨p, rfl⟩ | rfl⟩
  · refine ⟨⟨trivial, ?_⟩, ?_⟩
    · intro _ sl hsl
      rw [h1] at hsl
      simp only [List.getElem?_cons_zero, Option.some.injEq] at hsl
      subst hsl
      exact hw.storedEq
    · cases hs with
      | @call w slots _ h0 _ _ h' w' hx hadm hex =>
        simp only at h1
        subst h1
        simp only [List.getElem?_cons_zero, Option.some.injEq, Slot.mk.injEq, and_true] at hx
        subst hx
        refine ⟨h', rfl, ?_⟩
        obtain ⟨a, b⟩ := exec_post hw (h2.slot (List.mem_singleton.mpr rfl)) hn c hadm hex
        have key : md' = h'.md := by
          cases b with
          | same g _ k =>
            have := h3.wok.unique (hw.grows g)
            rcases k with k | k <;> rw [this, k]
          | commit m h1 w1 p n cur snap _ _ mt => exact h3.wok.unique mt.step.wok
          | addRef name kind n _ _ _ o => exact h3.wok.unique o.wok
          | removeRef name kind n _ _ _ o => exact h3.wok.unique o.wok
        rw [← key]
        exact h3
  · refine ⟨⟨trivial, trivial⟩, ?_⟩
    cases hs with
    | @external w slots x c hx =>
      refine ⟨h, h1, ?_⟩
      have := h3.wok.unique ((hw.external (c := c) hx).2)
      rw [← this]
      exact h3
  · refine ⟨⟨trivial, trivial⟩, ?_⟩
    cases hs with
    | @orphans w slots w' g =>
      refine ⟨h, h1, ?_⟩
      have := h3.wok.unique (hw.adds g)
      rw [← this]
      exact h3

theorem solo_inv {E : Env} {s : Schema} (hn : s.names.Nodup) {σ : Sys} (hr : Reach E s solo σ) :
    ∃ h, σ.slots = [⟨h, .idle⟩] ∧ SysOK E s σ h.md := by
  obtain ⟨σ0, h0, h⟩ := hr
  refine Run.invariant (I := fun σ => ∃ h, σ.slots = [⟨h, .idle⟩] ∧ SysOK E s σ h.md)
    (fun hi hp hs => (solo_step hn hi hp hs).2) ?_ h
  obtain ⟨md, h1⟩ := started_ok (E := E) h0
  obtain ⟨w0, hd, h2, h3, h4⟩ := h0
  obtain ⟨a, -⟩ := create_ok h2 h3
  have := h1.wok.unique a
  subst this
  exact ⟨hd, h4, h1⟩

theorem solo_tidy {E : Env} {s : Schema} (hn : s.names.Nodup) {P : Sys → Event → Prop} {σ σ' : Sys}
    (hr : Reach E s solo σ) (h : Run E s (fun σ ev => solo σ ev ∧ P σ ev) σ σ') :
    Run E s (fun σ ev => tidy σ ev ∧ P σ ev) σ σ' := by
  induction h with
  | refl => exact .refl _
  | step hr' hp hs ih =>
    have := solo_step hn (solo_inv hn (hr.run (hr'.imp (fun _ _ h => h.1)))) hp.1 hs
    exact .step ih ⟨this.1, hp.2⟩ hs

end Space
