import Verif.Props.InsertTurns

/-! # C92: a delete removes what a read with its filter shows -/

set_option autoImplicit false

namespace Space

open List

section
variable {E : Env} {s : Schema} {e : Expr}

/-- Every handle on the branch reads these rows with the filter. -/
def ReadsBy (E : Env) (e : Expr) (σ : Sys) (b : String) (rows : List Row) : Prop :=
  ∀ sl ∈ σ.slots, sl.h.branch = b → tableRead E sl.h σ.w { filter := some e } none = .ok rows

theorem Reads.by (hn : s.names.Nodup) (he : FilterFits s e) {σ : Sys} (hr : Reach E s anyStep σ) {b : String}
    {rows : List Row} (h : Reads E σ b rows) : ReadsBy E e σ b (rows.filter (fun r => e.truth E.I r == some true)) := by
  intro sl hsl hb
  rw [(C05_partial hn hr hsl he none).1, h sl hsl hb]
  rfl

/-- C92, what is shown afterwards, for local deletes by filters that fit the schema, null or not, on every layout: with the
filter nothing.  Missing: deletes by Ray on some layouts, see `C92_violated_ray`. -/
theorem C92_gone_partial (hn : s.names.Nodup) (he : FilterFits s e) {i : Nat} {σ σ' : Sys}
    (h : Done E s i (.delete e) σ σ') : ∃ sl, σ.slots[i]? = some sl ∧ ReadsBy E e σ' sl.h.branch [] := by
  obtain ⟨hr0, ev, hst0⟩ := h.reach
  obtain ⟨sl, old, new, nulls, lost, k1, k2, k3, k4, k5, -⟩ := C04_sound hn he h
  refine ⟨sl, k1, ?_⟩
  have := k3.by hn he (hr0.step trivial hst0)
  rwa [List.filter_eq_nil_iff.mpr] at this
  intro r hr ht
  rcases List.mem_append.mp (k5.mem_iff.mp (List.mem_append_left _ hr)) with hx | hx
  · have hx := (List.mem_filter.mp hx).2
    simp only [beq_iff_eq] at ht hx
    rw [ht] at hx
    cases hx
  · have hx := (List.mem_filter.mp (k4.subset hx)).2
    simp only [beq_iff_eq] at ht hx
    rw [ht] at hx
    cases hx

/-- C92 for filters that fit the schema and are null on no row, local and by Ray, on layouts on which the delete loses no row: the
rows shown with the filter before, and those there are after, are the rows there were; with the filter nothing is shown after.
Missing: other layouts, see `C92_violated_loss` and `C92_violated_ray`; filters that are null on a row, see
`C92_violated_null`. -/
theorem C92_partial (hn : s.names.Nodup) (he : FilterFits s e) {i : Nat} {m : Mutation} {σ σ' : Sys} {sl : Slot}
    (h : Done E s i m σ σ') (hi : σ.slots[i]? = some sl) (hs : SafeDelete E s m e sl.h σ.w) :
    ∃ old shown new, Reads E σ sl.h.branch old ∧ ReadsBy E e σ sl.h.branch shown ∧ Reads E σ' sl.h.branch new ∧
      ((∀ r ∈ old, e.truth E.I r ≠ none) → shown ++ new ~ old ∧ ReadsBy E e σ' sl.h.branch []) := by
  obtain ⟨hr0, ev, hst0⟩ := h.reach
  obtain ⟨old, new, r1, r2, e1⟩ := SafeDelete.rows hn he h hi hs
  refine ⟨old, _, new, r1, r1.by hn he hr0, r2, fun hnn => ?_⟩
  have q := e1 hnn
  constructor
  · refine (q.append_left _).trans ?_
    have := filter_append_perm (fun r => e.truth E.I r == some true) old
    refine Perm.trans (Perm.of_eq ?_) this
    congr 1
  · have := r2.by hn he (hr0.step trivial hst0)
    rwa [List.filter_eq_nil_iff.mpr] at this
    intro r hr ht
    have := (List.mem_filter.mp (q.mem_iff.mp hr)).2
    simp only [beq_iff_eq] at ht
    rw [ht] at this
    cases this

end

open Demo

def Demo.readsByB (E : Env) (e : Expr) (σ : Sys) (rows : List Row) : Bool :=
  σ.slots.all (fun sl => sl.h.branch != mainBranch || decide (tableRead E sl.h σ.w { filter := some e } none = .ok rows))

theorem Demo.readsBy_of {E : Env} {e : Expr} {σ : Sys} {rows : List Row} (h : readsByB E e σ rows = true) :
    ReadsBy E e σ mainBranch rows := by
  intro sl hsl hb
  have := List.all_eq_true.mp h sl hsl
  simpa [hb] using this

/-- On a table with the rows `old`, shown with the filter as `shown`, a mutation takes effect that leaves the rows `new`, shown
with the filter as `after`; `P` is said of the state in which it begins. -/
def Demo.Showing (m : Mutation) (e : Expr) (P : Handle → World → Prop) (old shown new after : List Row) : Prop :=
  ∃ σ σ' sl, Done env schema 0 m σ σ' ∧ σ.slots[0]? = some sl ∧ sl.h.branch = mainBranch ∧ P sl.h σ.w ∧
    Reads env σ mainBranch old ∧ ReadsBy env e σ mainBranch shown ∧ Reads env σ' mainBranch new ∧
    ReadsBy env e σ' mainBranch after

theorem Demo.showing_of (as : List Act) {m : Mutation} {e : Expr} {P : Handle → World → Prop} {p : Handle → World → Bool}
    (hp : ∀ h w, p h w = true → P h w) {old shown new last : List Row}
    (h1 : (act env (after env anyB schema as) (.call 0 (.mutate m))).map (fun x => outOf x.1) = some (.res (.job .succeeded)))
    (h2 : ((after env anyB schema as).slots[0]?).map
        (fun sl => (sl.h.branch, p sl.h (after env anyB schema as).w)) = some (mainBranch, true))
    (h3 : readsB env (after env anyB schema as) old = true)
    (h4 : readsByB env e (after env anyB schema as) shown = true)
    (h5 : readsB env (doing env (after env anyB schema as) (.call 0 (.mutate m))) new = true)
    (h6 : readsByB env e (doing env (after env anyB schema as) (.call 0 (.mutate m))) last = true) :
    Showing m e P old shown new last := by
  obtain ⟨-, hs1⟩ := doing_step (E := env) (s := schema) h1
  obtain ⟨sl, k0, -, k5⟩ := slot_of h2
  simp only [Prod.mk.injEq] at k5
  exact ⟨_, _, sl, .call (after_reach (fun _ _ _ => trivial) _) hs1, k0, k5.1, hp _ _ k5.2, reads_of h3, readsBy_of h4,
    reads_of h5, readsBy_of h6⟩

/-- Rows in two files, of which a delete removes two, by the local runner and, from one file, by Ray. -/
example : FilterFits schema (idIn 1 4) ∧ FilterFits schema (idIs "equal" 5) ∧
    Showing (.delete (idIn 1 4)) (idIn 1 4) (SafeDelete env schema (.delete (idIn 1 4)) (idIn 1 4))
      [row 1 "a" [1], row 2 "b" [2], row 3 "c" [3], row 5 "e" [5], row 6 "f" [6]] [row 2 "b" [2], row 3 "c" [3]]
      [row 1 "a" [1], row 5 "e" [5], row 6 "f" [6]] [] ∧
    Showing (.rayDelete (idIs "equal" 5)) (idIs "equal" 5) (SafeDelete env schema (.rayDelete (idIs "equal" 5)) (idIs "equal" 5))
      [row 1 "a" [1], row 2 "b" [2], row 3 "c" [3], row 5 "e" [5], row 6 "f" [6]] [row 5 "e" [5]]
      [row 1 "a" [1], row 2 "b" [2], row 3 "c" [3], row 6 "f" [6]] [] := by
  let as : List Act := [.call 0 (.mutate (.append [[row 1 "a" [1], row 2 "b" [2], row 3 "c" [3]],
    [row 5 "e" [5], row 6 "f" [6]]]))]
  exact ⟨fitsB_fits (by decide), fitsB_fits (by decide),
    showing_of as (fun _ _ => safeDeleteB_safe) (by decide +kernel) (by decide +kernel) (by decide +kernel) (by decide +kernel)
      (by decide +kernel) (by decide +kernel),
    showing_of as (fun _ _ => safeDeleteB_safe) (by decide +kernel) (by decide +kernel) (by decide +kernel) (by decide +kernel)
      (by decide +kernel) (by decide +kernel)⟩

/-- C92 is false where a delete loses rows: the last row is gone though it was not shown. -/
theorem C92_violated_loss : ∃ e old shown new, FilterFits schema e ∧ (∀ r ∈ old, e.truth env.I r ≠ none) ∧
    Showing (.delete e) e (fun _ _ => True) old shown new [] ∧ ¬ shown ++ new ~ old := by
  refine ⟨idIs "lt" 5, [row 1 "a" [1], row 2 "b" [2], row 3 "c" [3], row 4 "d" [4], row 5 "e" [5]],
    [row 1 "a" [1], row 2 "b" [2], row 3 "c" [3], row 4 "d" [4]], [], fitsB_fits (by decide), by decide,
    showing_of [.call 0 (.mutate (.append [[row 1 "a" [1], row 2 "b" [2], row 3 "c" [3], row 4 "d" [4]],
      [row 5 "e" [5]]]))] (p := fun _ _ => true) (fun _ _ _ => trivial) (by decide +kernel) (by decide +kernel)
      (by decide +kernel) (by decide +kernel) (by decide +kernel) (by decide +kernel), ?_⟩
  intro h
  have := h.length_eq
  revert this
  decide

/-- C92 is false for filters that are null on a row: the row without text is gone though it was not shown. -/
theorem C92_violated_null : ∃ e old shown new, FilterFits schema e ∧
    Showing (.delete e) e (fun _ _ => True) old shown new [] ∧ ¬ shown ++ new ~ old := by
  refine ⟨.bin "equal" (.sel "txt") (.lit (.str "a")), [row 1 "a" [1], rowNull 2 [2], row 3 "c" [3]], [row 1 "a" [1]],
    [row 3 "c" [3]], fitsB_fits (by decide),
    showing_of [.call 0 (.mutate (.append [[row 1 "a" [1], rowNull 2 [2], row 3 "c" [3]]]))] (p := fun _ _ => true)
      (fun _ _ _ => trivial) (by decide +kernel) (by decide +kernel) (by decide +kernel) (by decide +kernel) (by decide +kernel)
      (by decide +kernel), ?_⟩
  intro h
  have := h.length_eq
  revert this
  decide

/-- C92 is false for deletes by Ray: rows to delete are there, and shown, afterwards. -/
theorem C92_violated_ray : ∃ e old shown new last, FilterFits schema e ∧ (∀ r ∈ old, e.truth env.I r ≠ none) ∧
    Showing (.rayDelete e) e (fun _ _ => True) old shown new last ∧ last ≠ [] := by
  refine ⟨idIn 3 6, [row 1 "a" [1], row 2 "b" [2], row 3 "c" [3], row 4 "d" [4], row 5 "e" [5], row 6 "f" [6]],
    [row 4 "d" [4], row 5 "e" [5]], [row 5 "e" [5], row 6 "f" [6], row 1 "a" [1], row 2 "b" [2], row 3 "c" [3],
      row 1 "a" [1], row 2 "b" [2], row 3 "c" [3], row 4 "d" [4], row 6 "f" [6]], [row 5 "e" [5], row 4 "d" [4]],
    FilterFits.of_flat (by decide) (by decide) (by decide) (by decide) (by decide) (by decide), by decide,
    showing_of [.call 0 (.mutate (.append [[row 1 "a" [1], row 2 "b" [2], row 3 "c" [3], row 4 "d" [4]],
      [row 5 "e" [5], row 6 "f" [6]]]))] (p := fun _ _ => true) (fun _ _ _ => trivial) (by decide +kernel) (by decide +kernel)
      (by decide +kernel) (by decide +kernel) (by decide +kernel) (by decide +kernel), by decide⟩

end Space
