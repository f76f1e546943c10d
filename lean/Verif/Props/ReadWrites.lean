import Verif.Props.ShownDeleted

/-! # C93: reading what was written -/

set_option autoImplicit false

namespace Space

open List

section
variable {E : Env} {s : Schema} {e : Expr} {A : List Row}

theorem mem_leftBy {t : Row → Bool} {lay : List (List (List Row))} {r : Row}
    (h : r ∈ leftBy (fun r => some (t r)) lay) : r ∈ lay.flatten.flatten ∧ t r = false := by
  unfold leftBy at h
  split at h
  · obtain ⟨h1, h2⟩ := List.mem_filter.mp h
    exact ⟨h1, by simpa using h2⟩
  · obtain ⟨file, hf, hr⟩ := List.mem_flatten.mp h
    obtain ⟨man, hm, hfm⟩ := List.mem_flatten.mp hf
    obtain ⟨hm, hno⟩ := List.mem_filter.mp hm
    refine ⟨List.mem_flatten.mpr ⟨file, List.mem_flatten.mpr ⟨man, hm, hfm⟩, hr⟩, ?_⟩
    simp only [Bool.not_eq_true', List.any_eq_false, List.any_eq_true, not_exists, not_and] at hno
    have := hno file hfm r hr
    simpa using this

/-- The rows that an upsert keeps were there and have other keys, on every layout. -/
theorem Done.upsertKept (hk : KeySchema s) (hlast : s.writeNames = s.names) (hc : ∀ r ∈ A, r.cols = s.names) {i : Nat}
    {m : Mutation} {σ σ' : Sys} {sl : Slot} (ha : m.inserts = some (.upsert, A)) (h : Done E s i m σ σ')
    (hi : σ.slots[i]? = some sl) :
    ∃ old new, Reads E σ sl.h.branch old ∧ Reads E σ' sl.h.branch new ∧
      (KeysSet s old → ∃ kept, new ~ kept ++ A ∧ ∀ r ∈ kept, r ∈ old ∧ s.pks.map r.val ∉ keysOf s A) := by
  obtain ⟨sl', old, new, k1, k2, k3, k4⟩ := h.upsertEffect hk ha
  cases hi.symm.trans k1
  refine ⟨old, new, k2, k3, fun hset =>
    ⟨(leftBy (fun r => some (decide (s.pks.map r.val ∈ keysOf s A))) (headLayout s sl.h σ.w)).map (·.select s.writeNames),
      ?_, ?_⟩⟩
  · have := (k4 hset).1
    rw [List.map_append] at this
    have hA : A.map (·.select s.writeNames) = A := by rw [hlast, select_rows hk.names hc]
    rwa [hA] at this
  · intro r hr
    obtain ⟨x, hx, rfl⟩ := List.mem_map.mp hr
    obtain ⟨sl', sl1, w, h1, w1, p, cur, snap, hl, hr0, -⟩ := h.landing hk.names
    cases hi.symm.trans hl.slot
    have hold := hr0.unique hi k2
    rw [hl.layout] at hx
    obtain ⟨x1, x2⟩ := mem_leftBy hx
    rw [layout_flatten] at x1
    have hkx : s.pks.map (x.select s.writeNames).val = s.pks.map x.val := keyOf_select hk x
    rw [hkx]
    refine ⟨?_, by simpa using x2⟩
    rw [← hold]
    exact List.mem_map_of_mem x1

/-- A mutation that writes these rows by key, local or by Ray. -/
def Writing (m : Mutation) (A : List Row) : Prop :=
  m.inserts = some (.insert, A) ∨ m.inserts = some (.upsert, A)

/-- C93 for keys without null and NaN and filters that fit the schema, on every layout, local and by Ray: with a filter that is true,
of the rows there were, only of such with keys that were written, exactly those rows written are read of which it is
true.  Missing: keys with NaN, see `C93_violated_nan`; filters for which reads are wrong, see C05. -/
theorem C93_partial (hk : KeySchema s) (hlast : s.writeNames = s.names) (he : FilterFits s e)
    (hc : ∀ r ∈ A, r.cols = s.names) {i : Nat} {m : Mutation} {σ σ' : Sys} {sl : Slot} (ha : Writing m A)
    (h : Done E s i m σ σ') (hi : σ.slots[i]? = some sl) :
    ∃ old shown, Reads E σ sl.h.branch old ∧ ReadsBy E e σ' sl.h.branch shown ∧
      (KeysSet s old → (∀ r ∈ old, e.truth E.I r = some true → s.pks.map r.val ∈ keysOf s A) →
        shown ~ A.filter (fun r => e.truth E.I r == some true)) := by
  obtain ⟨hr0, ev, hst0⟩ := h.reach
  have key : ∃ old new, Reads E σ sl.h.branch old ∧ Reads E σ' sl.h.branch new ∧
      (KeysSet s old → ∃ kept, new ~ kept ++ A ∧ ∀ r ∈ kept, r ∈ old ∧ s.pks.map r.val ∉ keysOf s A) := by
    rcases ha with ha | ha
    · obtain ⟨-, old, new, r1, r2, e1, d1⟩ := Inserting.rows hk hlast hc ha h hi
      exact ⟨old, new, r1, r2, fun hset => ⟨old, e1, fun r hr => ⟨hr, d1 hset r hr⟩⟩⟩
    · exact h.upsertKept hk hlast hc ha hi
  obtain ⟨old, new, r1, r2, e1⟩ := key
  refine ⟨old, _, r1, r2.by hk.names he (hr0.step trivial hst0), fun hset hall => ?_⟩
  obtain ⟨kept, q1, q2⟩ := e1 hset
  refine (q1.filter _).trans (Perm.of_eq ?_)
  rw [List.filter_append]
  have : kept.filter (fun r => e.truth E.I r == some true) = [] := by
    refine List.filter_eq_nil_iff.mpr fun r hr ht => ?_
    obtain ⟨x1, x2⟩ := q2 r hr
    exact x2 (hall r x1 (by simpa using ht))
  rw [this, List.nil_append]

end

open Demo

/-- Three rows: an upsert of two keys, one of them new, then shown by key; an insert by Ray, shown by a
range; and an upsert into two files that loses the row 5, after which what was written is shown all the same. -/
example : KeysSet schema [row 1 "a" [1], row 2 "b" [2], row 5 "e" [5]] ∧
    FilterFits schema (idIs "equal" 2) ∧ FilterFits schema (idIs "gt" 5) ∧ FilterFits schema (idIs "lt" 5) ∧
    (∀ r ∈ [row 1 "a" [1], row 2 "b" [2], row 3 "c" [3], row 4 "d" [4], row 5 "e" [5]], (idIs "lt" 5).truth env.I r = some true →
      schema.pks.map r.val ∈ keysOf schema [row 1 "A" [], row 2 "B" [], row 3 "C" [], row 4 "D" []]) ∧
    Writing (.upsert [row 2 "B" [], row 7 "g" [7]]) [row 2 "B" [], row 7 "g" [7]] ∧
    Showing (.upsert [row 2 "B" [], row 7 "g" [7]]) (idIs "equal" 2) (fun _ _ => True)
      [row 1 "a" [1], row 2 "b" [2], row 5 "e" [5]] [row 2 "b" [2]]
      [row 1 "a" [1], row 5 "e" [5], row 2 "B" [], row 7 "g" [7]] [row 2 "B" []] ∧
    Showing (.rayInsert .insert 2 [1, 0] [row 6 "f" [], row 7 "g" [7]]) (idIs "gt" 5) (fun _ _ => True)
      [row 1 "a" [1], row 2 "b" [2], row 5 "e" [5]] []
      [row 1 "a" [1], row 2 "b" [2], row 5 "e" [5], row 6 "f" [], row 7 "g" [7]] [row 6 "f" [], row 7 "g" [7]] ∧
    Showing (.upsert [row 1 "A" [], row 2 "B" [], row 3 "C" [], row 4 "D" []]) (idIs "lt" 5) (fun _ _ => True)
      [row 1 "a" [1], row 2 "b" [2], row 3 "c" [3], row 4 "d" [4], row 5 "e" [5]]
      [row 1 "a" [1], row 2 "b" [2], row 3 "c" [3], row 4 "d" [4]]
      [row 1 "A" [], row 2 "B" [], row 3 "C" [], row 4 "D" []]
      [row 1 "A" [], row 2 "B" [], row 3 "C" [], row 4 "D" []] := by
  let as : List Act := [.call 0 (.mutate (.append [[row 1 "a" [1], row 2 "b" [2], row 5 "e" [5]]]))]
  exact ⟨keysSetB_set (by decide), fitsB_fits (by decide), fitsB_fits (by decide), fitsB_fits (by decide), by decide, Or.inr rfl,
    showing_of as (p := fun _ _ => true) (fun _ _ _ => trivial) (by decide +kernel) (by decide +kernel) (by decide +kernel)
      (by decide +kernel) (by decide +kernel) (by decide +kernel),
    showing_of as (p := fun _ _ => true) (fun _ _ _ => trivial) (by decide +kernel) (by decide +kernel) (by decide +kernel)
      (by decide +kernel) (by decide +kernel) (by decide +kernel),
    showing_of [.call 0 (.mutate (.append [[row 1 "a" [1], row 2 "b" [2], row 3 "c" [3], row 4 "d" [4]], [row 5 "e" [5]]]))]
      (p := fun _ _ => true) (fun _ _ _ => trivial) (by decide +kernel) (by decide +kernel) (by decide +kernel)
      (by decide +kernel) (by decide +kernel) (by decide +kernel)⟩

/-- C93 is false for keys with NaN: the row that the upsert should have replaced is shown too. -/
theorem C93_violated_nan : ∃ e A old shown σ σ' sl, FilterFits floatKey e ∧
    (∀ r ∈ old, e.truth env.I r = some true → floatKey.pks.map r.val ∈ keysOf floatKey A) ∧
    Done env floatKey 0 (.upsert A) σ σ' ∧ σ.slots[0]? = some sl ∧ sl.h.branch = mainBranch ∧ Reads env σ mainBranch old ∧
    ReadsBy env e σ' mainBranch shown ∧ ¬ shown ~ A.filter (fun r => e.truth env.I r == some true) := by
  let as : List Act := [.call 0 (.mutate (.append [[rowX .nan "a"]]))]
  obtain ⟨-, hs1⟩ := doing_step (E := env) (s := floatKey) (σ := after env anyB floatKey as)
    (a := .call 0 (.mutate (.upsert [rowX .nan "b"]))) (o := .res (.job .succeeded)) (by decide +kernel)
  obtain ⟨sl, k0, -, k1⟩ := slot_of (σ := after env anyB floatKey as) (i := 0) (f := fun sl => sl.h.branch)
    (x := mainBranch) (by decide +kernel)
  refine ⟨.bin "not_equal" (.sel "txt") (.lit (.str "z")), [rowX .nan "b"], [rowX .nan "a"], [rowX .nan "a", rowX .nan "b"],
    _, _, sl, fitsB_fits (by decide), by decide, .call (after_reach (fun _ _ _ => trivial) _) hs1, k0, k1,
    reads_of (by decide +kernel), readsBy_of (by decide +kernel), ?_⟩
  intro h
  have := h.length_eq
  revert this
  decide

end Space
