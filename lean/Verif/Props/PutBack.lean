import Verif.Props.ReadWrites

/-! # C94: what was deleted or replaced can be put back -/

set_option autoImplicit false

namespace Space

open List

section
variable {E : Env} {s : Schema} {e : Expr} {A B shown : List Row}

/-- What is shown with a filter are rows of the table, with its columns. -/
theorem Done.shownRows (hn : s.names.Nodup) (hlast : s.writeNames = s.names) (he : FilterFits s e) {i : Nat} {m : Mutation}
    {σ σ' : Sys} {sl : Slot} (h : Done E s i m σ σ') (hi : σ.slots[i]? = some sl)
    (hs : ReadsBy E e σ sl.h.branch shown) :
    ∃ old, Reads E σ sl.h.branch old ∧ shown = old.filter (fun r => e.truth E.I r == some true) ∧
      ∀ r ∈ old, r.cols = s.names := by
  obtain ⟨hr0, -⟩ := h.reach
  obtain ⟨sl', sl1, w, h1, w1, p, cur, snap, hl, hr, -⟩ := h.landing hn
  cases hi.symm.trans hl.slot
  refine ⟨_, hr, ?_, fun r hm => ?_⟩
  · have hb := hr.by hn he hr0
    have := (hs _ (List.mem_of_getElem? hi) rfl).symm.trans (hb _ (List.mem_of_getElem? hi) rfl)
    exact Except.ok.inj this
  · obtain ⟨x, -, rfl⟩ := List.mem_map.mp hm
    rw [hlast]
    simp only [Row.cols, Row.select, List.map_map]
    exact List.map_id _

theorem shown_rest {p : Row → Bool} {old : List Row} : old.filter (fun r => !p r) ++ old.filter p ~ old :=
  perm_append_comm.trans (filter_append_perm p old)

/-- C94 for a delete and an append of what was shown with its filter, for filters that fit the schema and are null on no row,
on layouts on which the delete loses no row: the rows there were are there again.  Missing: other layouts, see
`C94_violated_loss`; filters that are null on a row, see `C92_violated_null`. -/
theorem C94_append_partial (hn : s.names.Nodup) (hlast : s.writeNames = s.names) (he : FilterFits s e) {σ σ' : Sys}
    {br br' : String} (hs : ReadsBy E e σ br shown)
    (h : InTurn E s (fun m h w => SafeDelete E s m e h w) (fun m _ _ => Appending m shown) σ br σ' br') :
    ∃ old new, Reads E σ br old ∧ Reads E σ' br' new ∧ ((∀ r ∈ old, e.truth E.I r ≠ none) → new ~ old) := by
  have h' := h
  obtain ⟨i, j, m1, m2, σ1, σ2, sl, sl1, sl2, h1, h2, k1, k2, k3, hv, p1, p2, rfl, rfl⟩ := h'
  obtain ⟨old, r1, hsh, hc⟩ := h1.shownRows hn hlast he k1 hs
  obtain ⟨old', new, r2, r3, e1⟩ := C89_deleteAppend_partial hn hlast he
    (fun r hr => hc r (by rw [hsh] at hr; exact (List.mem_filter.mp hr).1)) h
  cases r2.unique k1 r1
  refine ⟨_, new, r1, r3, fun hnn => (e1 hnn).trans ?_⟩
  rw [hsh]
  exact shown_rest (p := fun r => e.truth E.I r == some true)

/-- C94 for a delete and an insert of what was shown with its filter, for the same filters and layouts. -/
theorem C94_insert_partial (hk : KeySchema s) (hlast : s.writeNames = s.names) (he : FilterFits s e) {σ σ' : Sys}
    {br br' : String} (hs : ReadsBy E e σ br shown)
    (h : InTurn E s (fun m h w => SafeDelete E s m e h w) (fun m _ _ => Inserting m shown) σ br σ' br') :
    ∃ old new, Reads E σ br old ∧ Reads E σ' br' new ∧
      (KeysSet s old → (∀ r ∈ old, e.truth E.I r ≠ none) → new ~ old) := by
  have h' := h
  obtain ⟨i, j, m1, m2, σ1, σ2, sl, sl1, sl2, h1, h2, k1, k2, k3, hv, p1, p2, rfl, rfl⟩ := h'
  obtain ⟨old, r1, hsh, hc⟩ := h1.shownRows hk.names hlast he k1 hs
  obtain ⟨old', new, r2, r3, e1⟩ := C91_deleteInsert_partial hk hlast he
    (fun r hr => hc r (by rw [hsh] at hr; exact (List.mem_filter.mp hr).1)) h
  cases r2.unique k1 r1
  refine ⟨_, new, r1, r3, fun hset hnn => (e1 hset hnn).1.trans ?_⟩
  rw [hsh]
  exact shown_rest (p := fun r => e.truth E.I r == some true)

/-- C94 for an upsert and an upsert of the rows that it replaced, for keys without null and NaN, on layouts on which neither loses a
row: the rows there were are there again, and no others, if and only if the first upsert had no new key. -/
theorem C94_upsert_partial (hk : KeySchema s) (hlast : s.writeNames = s.names) (ha : ∀ r ∈ A, r.cols = s.names)
    (hA : KeysSet s A) {σ σ' : Sys} {br br' : String} {old : List Row} (hold : Reads E σ br old) (hset : KeysSet s old)
    (hB : B ~ old.filter (fun r => decide (s.pks.map r.val ∈ keysOf s A)))
    (h : TwoUpserts E s A B σ br σ' br') :
    ∃ new, Reads E σ' br' new ∧ (new ~ old ↔ ∀ k ∈ keysOf s A, k ∈ keysOf s old) := by
  obtain ⟨old', new, r1, r2, e1⟩ := C88_rows_partial hk hA h
  obtain ⟨i, j, m1, m2, σ1, σ2, sl, sl1, sl2, h1, h2, -, -, k1, k2, k3, hv, -, -, rfl, rfl⟩ := h
  cases r1.unique k1 hold
  refine ⟨new, r2, ?_⟩
  have hcols : ∀ r ∈ old, r.cols = s.names := by
    obtain ⟨sl', sl1', w, h1', w1, p, cur, snap, hl, hr, -⟩ := h1.landing hk.names
    cases k1.symm.trans hl.slot
    have hu := hr.unique k1 hold
    intro r hm
    rw [← hu] at hm
    obtain ⟨x, -, rfl⟩ := List.mem_map.mp hm
    rw [hlast]
    simp only [Row.cols, Row.select, List.map_map]
    exact List.map_id _
  have hmB : ∀ r, r ∈ B ↔ r ∈ old ∧ s.pks.map r.val ∈ keysOf s A := fun r => by
    rw [hB.mem_iff, List.mem_filter, decide_eq_true_eq]
  have hkB : ∀ k, k ∈ keysOf s B ↔ k ∈ keysOf s A ∧ k ∈ keysOf s old := by
    intro k
    rw [mem_keysOf, mem_keysOf (rows := old)]
    constructor
    · rintro ⟨r, hr, rfl⟩
      obtain ⟨x1, x2⟩ := (hmB r).mp hr
      exact ⟨x2, r, x1, rfl⟩
    · rintro ⟨x2, r, x1, rfl⟩
      exact ⟨r, (hmB r).mpr ⟨x1, x2⟩, rfl⟩
  have q := e1 hset
  have hsel : ((A.filter (fun r => decide (s.pks.map r.val ∉ keysOf s B))) ++ B).map (·.select s.writeNames) =
      (A.filter (fun r => decide (s.pks.map r.val ∉ keysOf s B))) ++ B := by
    rw [hlast]
    refine select_rows hk.names fun r hr => ?_
    rcases List.mem_append.mp hr with hr | hr
    · exact ha r (List.mem_filter.mp hr).1
    · exact hcols r ((hmB r).mp hr).1
  rw [hsel] at q
  have hfil : old.filter (fun r => decide (s.pks.map r.val ∉ keysOf s A ∧ s.pks.map r.val ∉ keysOf s B)) =
      old.filter (fun r => !decide (s.pks.map r.val ∈ keysOf s A)) := by
    refine List.filter_congr fun r _ => ?_
    by_cases hx : s.pks.map r.val ∈ keysOf s A
    · simp [hx]
    · have : s.pks.map r.val ∉ keysOf s B := fun hb => hx ((hkB _).mp hb).1
      simp [hx, this]
  rw [hfil] at q
  have q2 : new ~ old ++ A.filter (fun r => decide (s.pks.map r.val ∉ keysOf s B)) := by
    refine q.trans ?_
    refine (Perm.append_left _ (perm_append_comm.trans (hB.append_right _))).trans ?_
    rw [← List.append_assoc]
    exact shown_rest.append_right _
  constructor
  · intro hp k hkA
    have hl := (q2.symm.trans hp).length_eq
    rw [List.length_append] at hl
    have h0 : A.filter (fun r => decide (s.pks.map r.val ∉ keysOf s B)) = [] := List.eq_nil_of_length_eq_zero (by omega)
    obtain ⟨r, hr, rfl⟩ := mem_keysOf.mp hkA
    have := List.filter_eq_nil_iff.mp h0 r hr
    rw [decide_eq_true_eq, Classical.not_not] at this
    exact ((hkB _).mp this).2
  · intro hall
    have h0 : A.filter (fun r => decide (s.pks.map r.val ∉ keysOf s B)) = [] := by
      refine List.filter_eq_nil_iff.mpr fun r hr => ?_
      rw [decide_eq_true_eq, Classical.not_not]
      have : s.pks.map r.val ∈ keysOf s A := mem_keysOf.mpr ⟨r, hr, rfl⟩
      exact (hkB _).mpr ⟨this, hall _ this⟩
    rw [h0, List.append_nil] at q2
    exact q2

end

open Demo

/-- Four rows: one deleted and appended again, by Ray; two deleted and inserted again; two replaced and put back; and one replaced
and one added, of which the latter stays. -/
example : FilterFits schema (idIs "equal" 3) ∧ FilterFits schema (idIs "gt" 2) ∧
    (∃ σ σ', InTurn env schema (fun m h w => SafeDelete env schema m (idIs "equal" 3) h w)
      (fun m _ _ => Appending m [row 3 "c" [3]]) σ mainBranch σ' mainBranch ∧
      ReadsBy env (idIs "equal" 3) σ mainBranch [row 3 "c" [3]] ∧ Reads env σ mainBranch [row 1 "a" [1], row 2 "b" [2], row 3 "c" [3], row 4 "d" [4]] ∧
      Reads env σ' mainBranch [row 1 "a" [1], row 2 "b" [2], row 4 "d" [4], row 3 "c" [3]]) ∧
    (∃ σ σ', InTurn env schema (fun m h w => SafeDelete env schema m (idIs "gt" 2) h w)
      (fun m _ _ => Inserting m [row 3 "c" [3], row 4 "d" [4]]) σ mainBranch σ' mainBranch ∧
      ReadsBy env (idIs "gt" 2) σ mainBranch [row 3 "c" [3], row 4 "d" [4]] ∧ Reads env σ mainBranch [row 1 "a" [1], row 2 "b" [2], row 3 "c" [3], row 4 "d" [4]] ∧
      Reads env σ' mainBranch [row 1 "a" [1], row 2 "b" [2], row 3 "c" [3], row 4 "d" [4]]) ∧
    (∃ σ σ', TwoUpserts env schema [row 1 "A" [], row 2 "B" []] [row 1 "a" [1], row 2 "b" [2]] σ mainBranch σ' mainBranch ∧
      Reads env σ mainBranch [row 1 "a" [1], row 2 "b" [2], row 3 "c" [3], row 4 "d" [4]] ∧
      Reads env σ' mainBranch [row 3 "c" [3], row 4 "d" [4], row 1 "a" [1], row 2 "b" [2]]) ∧
    (∃ σ σ', TwoUpserts env schema [row 1 "A" [], row 6 "F" []] [row 1 "a" [1]] σ mainBranch σ' mainBranch ∧
      Reads env σ mainBranch [row 1 "a" [1], row 2 "b" [2], row 3 "c" [3], row 4 "d" [4]] ∧
      Reads env σ' mainBranch [row 2 "b" [2], row 3 "c" [3], row 4 "d" [4], row 6 "F" [], row 1 "a" [1]]) := by
  let as : List Act := [.call 0 (.mutate (.append [[row 1 "a" [1], row 2 "b" [2], row 3 "c" [3], row 4 "d" [4]]]))]
  have f1 : FilterFits schema (idIs "equal" 3) := fitsB_fits (by decide)
  have f2 : FilterFits schema (idIs "gt" 2) := fitsB_fits (by decide)
  have hl : Appending (.append [[row 3 "c" [3]]]) [row 3 "c" [3]] := Or.inl ⟨_, rfl, rfl⟩
  have hr : Inserting (.insert [row 3 "c" [3], row 4 "d" [4]]) [row 3 "c" [3], row 4 "d" [4]] := rfl
  have key : ∀ {P Q : Mutation → Handle → World → Prop} {e : Expr} {old new shown : List Row}, FilterFits schema e →
      old.filter (fun r => e.truth env.I r == some true) = shown →
      (∃ σ σ', InTurn env schema P Q σ mainBranch σ' mainBranch ∧ Reads env σ mainBranch old ∧ Reads env σ' mainBranch new) →
      ∃ σ σ', InTurn env schema P Q σ mainBranch σ' mainBranch ∧ ReadsBy env e σ mainBranch shown ∧
        Reads env σ mainBranch old ∧ Reads env σ' mainBranch new := by
    rintro P Q e old new shown he rfl ⟨σ, σ', h, h1, h2⟩
    have h' := h
    obtain ⟨i, j, m1, m2, σ1, σ2, sl, sl1, sl2, d1, -⟩ := h'
    exact ⟨σ, σ', h, h1.by keys.names he d1.reach.1, h1, h2⟩
  exact ⟨f1, f2,
    key f1 (by decide) (inTurn_of as (m1 := .rayDelete (idIs "equal" 3)) (q := fun _ _ => true) (fun _ _ => safeDeleteB_safe)
      (fun _ _ _ => hl)
      (by decide +kernel) (by decide +kernel) (by decide +kernel) (by decide +kernel)
      (by decide +kernel) (by decide +kernel) (by decide +kernel)),
    key f2 (by decide) (inTurn_of as (m1 := .delete (idIs "gt" 2)) (q := fun _ _ => true) (fun _ _ => safeDeleteB_safe)
      (fun _ _ _ => hr)
      (by decide +kernel) (by decide +kernel) (by decide +kernel) (by decide +kernel)
      (by decide +kernel) (by decide +kernel) (by decide +kernel)),
    twoUpserts_of as (m1 := .upsert [row 1 "A" [], row 2 "B" []])
      (m2 := .rayInsert .upsert 2 [0, 1] [row 1 "a" [1], row 2 "b" [2]]) rfl rfl
      (by decide +kernel) (by decide +kernel) (by decide +kernel) (by decide +kernel)
      (by decide +kernel) (by decide +kernel) (by decide +kernel),
    twoUpserts_of as (m1 := .upsert [row 1 "A" [], row 6 "F" []]) (m2 := .upsert [row 1 "a" [1]]) rfl rfl
      (by decide +kernel) (by decide +kernel) (by decide +kernel) (by decide +kernel)
      (by decide +kernel) (by decide +kernel) (by decide +kernel)⟩

/-- C94 is false where a delete loses rows: the row 5, which was not shown, does not come back. -/
theorem C94_violated_loss : ∃ e old shown mid new, FilterFits schema e ∧ (∀ r ∈ old, e.truth env.I r ≠ none) ∧
    shown = old.filter (fun r => e.truth env.I r == some true) ∧
    Undoing env schema (.delete e) (.append [shown]) old mid new ∧ ¬ new ~ old := by
  refine ⟨idIs "lt" 5, [row 1 "a" [1], row 2 "b" [2], row 3 "c" [3], row 4 "d" [4], row 5 "e" [5]],
    [row 1 "a" [1], row 2 "b" [2], row 3 "c" [3], row 4 "d" [4]], [],
    [row 1 "a" [1], row 2 "b" [2], row 3 "c" [3], row 4 "d" [4]], fitsB_fits (by decide), by decide, by decide,
    undoing_of [.call 0 (.mutate (.append [[row 1 "a" [1], row 2 "b" [2], row 3 "c" [3], row 4 "d" [4]],
      [row 5 "e" [5]]]))]
      (by decide +kernel) (by decide +kernel) (by decide +kernel) (by decide +kernel)
      (by decide +kernel) (by decide +kernel) (by decide +kernel), ?_⟩
  intro h
  have := h.length_eq
  revert this
  decide

end Space
