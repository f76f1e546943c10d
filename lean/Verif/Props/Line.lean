import Verif.Props.Txn
import Verif.Diffs
import Verif.Demo

/-! # C83: the history of a branch is its successful mutations -/

set_option autoImplicit false

namespace Space

/-- A run of steps satisfying `P`, with the versions that the successful mutations
on branch `b` were given when they committed, in their order. The branch itself is
not removed. -/
inductive Track (E : Env) (s : Schema) (P : Sys → Event → Prop) (b : String) : Sys → List Nat → Sys → Prop where
  | start (σ : Sys) : Track E s P b σ [] σ
  | commit {σ τ τ' : Sys} {ev : Event} {ids : List Nat} {md : Metadata} {n : Nat} :
      Track E s P b σ ids τ → P τ ev → CommitEvent τ ev b → Step E s τ ev τ' →
      τ'.w.stored = some md → md.currentId b = .ok n → Track E s P b σ (ids ++ [n]) τ'
  | other {σ τ τ' : Sys} {ev : Event} {ids : List Nat} :
      Track E s P b σ ids τ → P τ ev → ¬ CommitEvent τ ev b → (∀ i r, ev ≠ .call i (.removeBranch b) r) →
      Step E s τ ev τ' → Track E s P b σ ids τ'

/-- The event commits to one branch. -/
theorem CommitEvent.unique {σ : Sys} {ev : Event} {b c : String} (h1 : CommitEvent σ ev b)
    (h2 : CommitEvent σ ev c) : b = c := by
  obtain ⟨i, sl, a1, rfl, a3⟩ := h1
  obtain ⟨j, sl', b1, rfl, b3⟩ := h2
  have : i = j := by
    rcases a3 with ⟨m, rfl⟩ | rfl <;> rcases b3 with ⟨m', h⟩ | h <;> cases h <;> rfl
  subst this
  rw [a1] at b1
  cases b1
  rfl

/-- No mutation is the removal of a branch. -/
theorem CommitEvent.notRemove {σ : Sys} {ev : Event} {b c : String} (h : CommitEvent σ ev b) (i : Nat)
    (r : Result) : ev ≠ .call i (.removeBranch c) r := by
  obtain ⟨j, sl, -, -, ⟨m, rfl⟩ | rfl⟩ := h <;> intro h <;> cases h

theorem Commits.keep {fs : FS} {md md' : Metadata} (hok : MdOK fs md)
    (hkeep : ∀ n, n ≤ md.maxRefId → md'.snaps.get? n = md.snaps.get? n) {a n : Nat} {ids : List Nat}
    (hn : Live md n) (h : Commits md a n ids) : Commits md' a n ids := by
  induction h with
  | here => exact .here
  | next h hs hp ih =>
    refine .next (ih (.parent hn hs hp)) ?_ hp
    rw [hkeep _ (hn.le hok)]
    exact hs

/-- How a tidy step moves a branch. -/
theorem Change.line {σ : Sys} {ev : Event} {fs' : FS} {md md' : Metadata} (h : Change σ ev fs' md md')
    {b : String} {k : Nat} (hrem : ∀ i r, ev ≠ .call i (.removeBranch b) r)
    (hbr : b = mainBranch ∨ ∃ r, md.refs.get? b = some r ∧ r.kind = .branch)
    (hb : md.currentId b = .ok k) :
    (¬ CommitEvent σ ev b ∧ md'.currentId b = .ok k) ∨
      (CommitEvent σ ev b ∧ ∃ n, md'.currentId b = .ok n ∧ k < n ∧ Commits md' k n [n]) := by
  have hup := (h.heads hrem hbr hb).2
  cases h with
  | same e hc => exact Or.inl ⟨hc b, by rw [e]; exact hb⟩
  | commit c p n cur snap com new hce =>
    by_cases hbc : b = c
    · subst hbc
      have hk : cur.id = k := by
        have := com.head
        rw [hb] at this
        exact (Except.ok.inj this).symm
      subst hk
      refine Or.inr ⟨hce, n, com.newHead, ?_, ?_⟩
      · obtain ⟨m, h1, -, h3⟩ := hup
        rw [com.newHead] at h1
        cases h1
        exact h3 hce
      · refine Commits.next (ids := []) (snap := snap) .here ?_ com.parent
        rw [com.snaps, AMap.get?_set_self]
    · exact Or.inl ⟨fun h => hbc (h.unique hce), by rw [com.otherHead hbc]; exact hb⟩
  | addRef name kind j can e _ hc =>
    refine Or.inl ⟨hc b, ?_⟩
    rw [← hb, e]
    unfold Metadata.currentId Metadata.lookupRef
    by_cases hm : b = mainBranch
    · simp [hm]
    · obtain ⟨r, h1, h2⟩ := hbr.resolve_left hm
      have hne : b ≠ name := by rintro rfl; rw [can.unused] at h1; cases h1
      simp only [hm, ↓reduceIte]
      rw [AMap.get?_set_ne _ _ hne]
  | removeRef name kind j was e hcall hc =>
    refine Or.inl ⟨hc b, ?_⟩
    rw [← hb, e]
    unfold Metadata.currentId Metadata.lookupRef
    by_cases hm : b = mainBranch
    · simp [hm]
    · obtain ⟨r, h1, h2⟩ := hbr.resolve_left hm
      have hne : b ≠ name := by
        rintro rfl
        obtain ⟨i, r', ⟨h0, -⟩ | ⟨-, h0⟩⟩ := hcall
        · rw [was] at h1; cases h1; simp only at h2; rw [h0] at h2; cases h2
        · exact hrem _ _ h0
      simp only [hm, ↓reduceIte]
      rw [AMap.get?_erase_ne _ hne]

/-- C83 where commits are atomic and references are written by up-to-date handles:
whatever the handles do between two moments, also on other branches, which may be
removed, the versions on the way from the earlier head of a branch to the later one
are exactly those that the successful mutations on it made, in their order; their
ids grow; and the earlier head reads as it did. (Missing: other histories, for
which the property is false.) -/
theorem C83_partial {E : Env} {s : Schema} (hn : s.names.Nodup) {b : String} {σ σ' : Sys} {ids : List Nat}
    (h1 : Reach E s anyStep σ) {md : Metadata} (hmd : σ.w.stored = some md)
    (hbr : b = mainBranch ∨ ∃ r, md.refs.get? b = some r ∧ r.kind = .branch) {n : Nat}
    (hb : md.currentId b = .ok n) (h2 : Track E s tidy b σ ids σ') :
    ∃ md' k, σ'.w.stored = some md' ∧ md'.currentId b = .ok k ∧ Commits md' n k ids ∧
      List.Pairwise (· < ·) (n :: ids) ∧
      ∀ sl ∈ σ.slots, ∀ sl' ∈ σ'.slots, ∀ o rows, tableRead E sl.h σ.w o (some (.id n)) = .ok rows →
        tableRead E sl'.h σ'.w o (some (.id n)) = .ok rows := by
  obtain ⟨md0, a1⟩ := reach_ok hn h1
  have := stored_of a1 hmd
  subst this
  have key : ∃ md2 k, SysOK E s σ' md2 ∧ FSLe σ.w.fs σ'.w.fs ∧
      (b = mainBranch ∨ ∃ r, md2.refs.get? b = some r ∧ r.kind = .branch) ∧
      md2.currentId b = .ok k ∧ Commits md2 n k ids ∧ md2.snaps.get? n = md.snaps.get? n ∧
      List.Pairwise (· < ·) (n :: ids) ∧ ∀ i ∈ n :: ids, i ≤ k := by
    induction h2 with
    | start => exact ⟨md, n, a1, FSLe.refl _, hbr, hb, .here, rfl, by simp, by simp⟩
    | commit _ hq hce hst hmd' hhead ih =>
      obtain ⟨md2, k, b1, b2, b3, b4, b5, b6, b7, b8⟩ := ih
      obtain ⟨md3, c1, c2, c3⟩ := step_ok hn b1 hst
      have ch := c3 hq
      have := stored_of c1 hmd'
      subst this
      obtain ⟨d1, -⟩ := ch.heads (hce.notRemove (c := b)) b3 b4
      rcases ch.line (hce.notRemove (c := b)) b3 b4 with ⟨h, -⟩ | ⟨-, m, e1, e2, e3⟩
      · exact absurd hce h
      · rw [hhead] at e1
        cases e1
        have b5' := b5.keep b1.wok.ok (fun j hj => ch.keep hj) (currentId_live b4)
        refine ⟨_, _, c1, b2.trans c2, d1, hhead, b5'.trans e3, ?_, ?_, ?_⟩
        · rw [ch.keep ?_]
          · exact b6
          · exact (b5.anc.live (currentId_live b4)).le b1.wok.ok
        · rw [← List.cons_append, List.pairwise_append]
          refine ⟨b7, by simp, ?_⟩
          intro i hi j hj
          have := b8 i hi
          simp only [List.mem_singleton] at hj
          omega
        · intro i hi
          rw [← List.cons_append, List.mem_append] at hi
          rcases hi with hi | hi
          · have := b8 i hi
            omega
          · simp only [List.mem_singleton] at hi
            omega
    | other _ hq hce hrem hst ih =>
      obtain ⟨md2, k, b1, b2, b3, b4, b5, b6, b7, b8⟩ := ih
      obtain ⟨md3, c1, c2, c3⟩ := step_ok hn b1 hst
      have ch := c3 hq
      obtain ⟨d1, -⟩ := ch.heads hrem b3 b4
      rcases ch.line hrem b3 b4 with ⟨-, e1⟩ | ⟨h, -⟩
      · refine ⟨md3, k, c1, b2.trans c2, d1, e1,
          b5.keep b1.wok.ok (fun j hj => ch.keep hj) (currentId_live b4), ?_, b7, b8⟩
        rw [ch.keep ?_]
        · exact b6
        · exact (b5.anc.live (currentId_live b4)).le b1.wok.ok
      · exact absurd h hce
  obtain ⟨md2, k, b1, b2, -, b4, b5, b6, b7, -⟩ := key
  refine ⟨md2, k, b1.wok.storedEq, b4, b5, b7, fun sl hs sl' hs' o rows hr => ?_⟩
  refine tableRead_same a1.wok (a1.slot hs) b1.wok (b1.slot hs') b2 ?_ hr
  intro snap ht
  rw [target_id] at ht ⊢
  rw [snapshot_eq b6]
  exact ht

namespace Demo

/-- A mutation on the branch, as equations that can be computed. -/
theorem Track.mutate {E : Env} {s : Schema} {P : Sys → Event → Prop} {b : String} {σ τ : Sys} {ids : List Nat}
    {i n : Nat} {m : Mutation} (h : Track E s P b σ ids τ) (hP : P τ (.call i (.mutate m) (.job .succeeded)))
    (hact : (act E τ (.call i (.mutate m))).map (fun x => outOf x.1) = some (.res (.job .succeeded)))
    (hbr : (τ.slots[i]?).map (·.h.branch) = some b)
    (hhead : (doing E τ (.call i (.mutate m))).w.stored.map (·.currentId b) = some (.ok n)) :
    Track E s P b σ (ids ++ [n]) (doing E τ (.call i (.mutate m))) := by
  obtain ⟨-, hst⟩ := doing_step (E := E) (s := s) hact
  obtain ⟨sl, h1, -, h2⟩ := slot_of hbr
  obtain ⟨md, h3, h4⟩ := stored_of_map hhead
  exact .commit h hP ⟨i, sl, h1, h2, Or.inl ⟨m, rfl⟩⟩ hst h3 h4

/-- A call by a handle of another branch, or one that is no mutation. -/
theorem Track.pass {E : Env} {s : Schema} {P : Sys → Event → Prop} {b : String} {σ τ : Sys} {ids : List Nat}
    {i : Nat} {c : Call} {r : Result} (h : Track E s P b σ ids τ) (hP : P τ (.call i c r))
    (hact : (act E τ (.call i c)).map (fun x => outOf x.1) = some (.res r))
    (hbr : (τ.slots[i]?).map (·.h.branch) ≠ some b ∨ ∀ m, c ≠ .mutate m) (hrem : c ≠ .removeBranch b) :
    Track E s P b σ ids (doing E τ (.call i c)) := by
  obtain ⟨-, hst⟩ := doing_step (E := E) (s := s) hact
  refine .other h hP ?_ ?_ hst
  · rintro ⟨j, sl, h1, h2, ⟨m, h3⟩ | h3⟩
    · cases h3
      rcases hbr with hbr | hbr
      · rw [h1] at hbr
        exact hbr (congrArg some h2)
      · exact hbr _ rfl
    · cases h3
  · intro j r' he
    cases he
    exact hrem rfl

/-- Two handles on main and one on a branch. -/
abbrev lineage : Sys :=
  after env anyB schema [.call 0 (.addBranch "dev"), .load, .load, .call 1 (.setBranch "dev")]

/-- The first mutation on main, the second on the branch, the third on main again. -/
abbrev lineage1 : Sys := doing env lineage (.call 0 (.mutate (.append [[row 1 "x" [1]]])))

@[inherit_doc lineage1]
abbrev lineage2 : Sys := doing env lineage1 (.call 1 (.mutate (.append [[row 2 "y" [2]]])))

@[inherit_doc lineage1]
abbrev lineage3 : Sys := doing env lineage2 (.call 2 (.mutate (.append [[row 3 "z" [3]]])))

/-- A case for `C83_partial`: the versions 1 and 3 are on main, 2 is on the branch. -/
example : Reach env schema anyStep lineage ∧ Track env schema tidy "main" lineage [1, 3] lineage3 ∧
    lineage.w.stored.map (·.currentId "main") = some (.ok 0) :=
  ⟨after_reach (fun _ _ _ => trivial) _,
    Track.mutate (i := 2) (ids := [1])
      (Track.pass (i := 1) (r := .job .succeeded)
        (Track.mutate (i := 0) (ids := []) (.start _) ⟨trivial, fun h => by cases h⟩ (by decide +kernel) (by decide +kernel)
          (by decide +kernel))
        ⟨trivial, fun h => by cases h⟩ (by decide +kernel) (Or.inl (by decide +kernel)) (fun h => by cases h))
      ⟨trivial, fun h => by cases h⟩ (by decide +kernel) (by decide +kernel) (by decide +kernel),
    by decide +kernel⟩

/-- C83 is false: a handle that has not reloaded adds a tag and writes its old
metadata back; the mutation of the other handle is no longer in the history. -/
theorem C83_violated : ∃ (σ σ' : Sys) (md' : Metadata), Reach env schema anyStep σ ∧
    Track env schema anyStep "main" σ [1] σ' ∧ σ.w.stored.map (·.currentId "main") = some (.ok 0) ∧
    σ'.w.stored = some md' ∧ md'.currentId "main" = .ok 0 ∧ ¬ Commits md' 0 0 [1] := by
  have h1 := Track.mutate (E := env) (s := schema) (P := anyStep) (b := "main") (i := 0) (n := 1) (ids := [])
    (m := .append [[row 1 "x" [1]]]) (.start (after env anyB schema [.load])) trivial (by decide +kernel)
    (by decide +kernel) (by decide +kernel)
  have h2 := Track.pass (i := 1) (c := .addTag "t" none) (r := .returned) h1 trivial (by decide +kernel)
    (Or.inr (fun m h => by cases h)) (fun h => by cases h)
  have hr : Reach env schema anyStep (after env anyB schema [.load]) := after_reach (fun _ _ _ => trivial) _
  obtain ⟨md', h3, h4⟩ := stored_of_map (f := fun md => md.currentId "main") (x := .ok 0)
    (w := (doing env (doing env (after env anyB schema [.load]) (.call 0 (.mutate (.append [[row 1 "x" [1]]]))))
      (.call 1 (.addTag "t" none))).w) (by decide +kernel)
  refine ⟨_, _, md', hr, h2, by decide +kernel, h3, h4, ?_⟩
  intro h
  generalize hids : [1] = ids at h
  cases h with
  | here => cases hids
  | next h hs hp =>
    have : ([1] : List Nat).getLast? = some 0 := by rw [hids]; simp
    cases this

end Demo

end Space
