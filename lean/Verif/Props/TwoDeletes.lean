import Verif.Props.Undo
import Verif.Props.Stats

/-! # C87: the order of two deletes -/

set_option autoImplicit false

namespace Space

open List

section
variable {E : Env} {s : Schema} {a b : Expr}

/-- A delete by filter `e`, local or by Ray, by a handle in whose branch the rows lie such that no row is lost
or kept by mistake (see C04 and C23). -/
def SafeDelete (E : Env) (s : Schema) (m : Mutation) (e : Expr) (h : Handle) (w : World) : Prop :=
  (m = .delete e ∧ DeleteSafe (e.truth E.I) (headLayout s h w)) ∨
  (m = .rayDelete e ∧ RaySafe (e.truth E.I) (headLayout s h w))

/-- A branch of a handle reads as one list. -/
theorem Reads.unique {σ : Sys} {i : Nat} {sl : Slot} {x y : List Row} (hsl : σ.slots[i]? = some sl)
    (h1 : Reads E σ sl.h.branch x) (h2 : Reads E σ sl.h.branch y) : x = y := by
  have := (h1 _ (List.mem_of_getElem? hsl) rfl).symm.trans (h2 _ (List.mem_of_getElem? hsl) rfl)
  exact Except.ok.inj this

/-- One such delete: the rows on which the filter is not true stay. -/
theorem SafeDelete.rows (hn : s.names.Nodup) {e : Expr} (he : FilterFits s e) {i : Nat} {σ σ' : Sys} {sl : Slot}
    {m : Mutation} (h : Done E s i m σ σ') (hi : σ.slots[i]? = some sl) (hs : SafeDelete E s m e sl.h σ.w) :
    ∃ old new, Reads E σ sl.h.branch old ∧ Reads E σ' sl.h.branch new ∧
      ((∀ r ∈ old, e.truth E.I r ≠ none) → new ~ old.filter (fun r => e.truth E.I r != some true)) := by
  have key : ∃ old new nulls, Reads E σ sl.h.branch old ∧ Reads E σ' sl.h.branch new ∧
      nulls.Sublist (old.filter (fun r => e.truth E.I r == none)) ∧
      new ~ old.filter (fun r => e.truth E.I r == some false) ++ nulls := by
    rcases hs with ⟨rfl, hs⟩ | ⟨rfl, hs⟩
    · obtain ⟨sl', old, k1, k2, k3⟩ := C04_partial hn he h
      cases hi.symm.trans k1
      obtain ⟨new, nulls, j1, j2, j3⟩ := k3 hs
      exact ⟨old, new, nulls, k2, j1, j2, j3⟩
    · obtain ⟨sl', old, k1, k2, k3⟩ := C23_rows_partial hn he h
      cases hi.symm.trans k1
      obtain ⟨new, nulls, j1, j2, j3⟩ := k3 hs
      exact ⟨old, new, nulls, k2, j1, j2, j3⟩
  obtain ⟨old, new, nulls, k1, k2, j2, j3⟩ := key
  refine ⟨old, new, k1, k2, fun hnn => ?_⟩
  have h0 : old.filter (fun r => e.truth E.I r == none) = [] :=
    List.filter_eq_nil_iff.mpr fun r hr => by simpa using hnn r hr
  rw [h0, List.sublist_nil] at j2
  rw [j2, List.append_nil] at j3
  have : old.filter (fun r => e.truth E.I r == some false) = old.filter (fun r => e.truth E.I r != some true) := by
    refine List.filter_congr fun r hr => ?_
    have := hnn r hr
    cases ht : e.truth E.I r with
    | none => exact absurd ht this
    | some x => cases x <;> rfl
  rwa [this] at j3

/-- At the version that a mutation left, a branch reads as after the mutation. -/
theorem SameVersion.reads (hn : s.names.Nodup) {σ1 σ2 : Sys} {sl1 sl2 : Slot} (hr : Reach E s anyStep σ1)
    {i : Nat} (hi : σ1.slots[i]? = some sl1) (hv : SameVersion E s σ1 sl1 σ2 sl2) {rows : List Row} {cur : Snapshot}
    (hc : headOf sl1.h σ1.w = some cur) (h : Reads E σ1 sl1.h.branch rows) : Reads E σ2 sl2.h.branch rows := by
  obtain ⟨hle, hr2⟩ := hv.le hn hr
  obtain ⟨md, hok⟩ := reach_ok hn hr
  obtain ⟨md2, hok2⟩ := reach_ok hn hr2
  intro x hx hb
  rw [← h _ (List.mem_of_getElem? hi) rfl]
  refine tableRead_agree hok.wok (hok.slots _ (List.mem_of_getElem? hi)).1 hok2.wok (hok2.slots _ hx).1 hle ?_
  have h2 := hv.2.trans hc
  unfold headOf at hc h2
  rw [hok.wok.storedEq] at hc
  rw [hok2.wok.storedEq] at h2
  simp only [Option.bind_some] at hc h2
  rw [hb]
  cases ht : md.target sl1.h.branch none with
  | error e => rw [ht] at hc; cases hc
  | ok c =>
    cases ht2 : md2.target sl2.h.branch none with
    | error e => rw [ht2] at h2; cases h2
    | ok c2 =>
      rw [ht] at hc
      rw [ht2] at h2
      cases hc
      cases h2
      rfl

/-- Two deletes that took effect, the first by `a` on branch `br`, the second by `b` on the version that the first left,
by any handle (its branch is `br'`). -/
def Twofold (E : Env) (s : Schema) (a b : Expr) (σ : Sys) (br : String) (σ' : Sys) (br' : String) : Prop :=
  ∃ i j m1 m2 σ1 σ2 sl sl1 sl2, Done E s i m1 σ σ1 ∧ Done E s j m2 σ2 σ' ∧
    σ.slots[i]? = some sl ∧ σ1.slots[i]? = some sl1 ∧ σ2.slots[j]? = some sl2 ∧ SameVersion E s σ1 sl1 σ2 sl2 ∧
    SafeDelete E s m1 a sl.h σ.w ∧ SafeDelete E s m2 b sl2.h σ2.w ∧ sl.h.branch = br ∧ sl2.h.branch = br'

/-- One delete by `e` on branch `br`. -/
def Onefold (E : Env) (s : Schema) (e : Expr) (σ : Sys) (br : String) (σ' : Sys) : Prop :=
  ∃ i m sl, Done E s i m σ σ' ∧ σ.slots[i]? = some sl ∧ SafeDelete E s m e sl.h σ.w ∧ sl.h.branch = br

/-- C87, for filters that fit the schema and are null on no row, on layouts on which deletes lose no row: two deletes,
each local or by Ray, the second on the version that the first left, leave the rows on which neither filter is true.
Missing: other layouts, see `C87_violated_loss`; filters that are null on some row, see `C87_violated_null`. -/
theorem C87_rows_partial (hn : s.names.Nodup) (ha : FilterFits s a) (hb : FilterFits s b) {σ σ' : Sys}
    {br br' : String} (h : Twofold E s a b σ br σ' br') :
    ∃ old new, Reads E σ br old ∧ Reads E σ' br' new ∧
      ((∀ r ∈ old, a.truth E.I r ≠ none ∧ b.truth E.I r ≠ none) →
        new ~ old.filter (fun r => a.truth E.I r != some true && b.truth E.I r != some true)) := by
  obtain ⟨i, j, m1, m2, σ1, σ2, sl, sl1, sl2, h1, h2, k1, k2, k3, hv, s1, s2, rfl, rfl⟩ := h
  obtain ⟨old, mid, r1, r2, e1⟩ := s1.rows hn ha h1 k1
  obtain ⟨mid', new, r3, r4, e2⟩ := s2.rows hn hb h2 k3
  obtain ⟨hr0, ev, hst0⟩ := h1.reach
  obtain ⟨sla, slb, w, h1', w1, p, cur, snap, hl, -, -⟩ := h1.landing hn
  cases hl.slot.symm.trans k1
  cases hl.slot'.symm.trans k2
  rw [← hl.branch] at r2
  have r2' := hv.reads hn (hr0.step trivial hst0) k2 hl.succ.head' r2
  cases r2'.unique k3 r3
  refine ⟨old, new, r1, r4, fun hnn => ?_⟩
  have p1 := e1 fun r hr => (hnn r hr).1
  have p2 := e2 fun r hr => (hnn r (List.mem_filter.mp (p1.mem_iff.mp hr)).1).2
  refine p2.trans ((p1.filter _).trans ?_)
  rw [List.filter_filter]
  refine Perm.of_eq (List.filter_congr fun r _ => Bool.and_comm _ _)

/-- C87, order, for the same filters and layouts: from states in which the branch has the same rows, deleting by `a`
and then by `b` leaves the rows that deleting by `b` and then by `a` leaves. -/
theorem C87_order_partial (hn : s.names.Nodup) (ha : FilterFits s a) (hb : FilterFits s b) {σ σ' τ τ' : Sys}
    {br br' cr cr' : String} (h : Twofold E s a b σ br σ' br') (g : Twofold E s b a τ cr τ' cr') :
    ∃ old old' new new', Reads E σ br old ∧ Reads E τ cr old' ∧ Reads E σ' br' new ∧ Reads E τ' cr' new' ∧
      (old' ~ old → (∀ r ∈ old, a.truth E.I r ≠ none ∧ b.truth E.I r ≠ none) → new' ~ new) := by
  obtain ⟨old, new, r1, r2, e1⟩ := C87_rows_partial hn ha hb h
  obtain ⟨old', new', r3, r4, e2⟩ := C87_rows_partial hn hb ha g
  refine ⟨old, old', new, new', r1, r3, r2, r4, fun hp hnn => ?_⟩
  refine (e2 fun r hr => (hnn r (hp.mem_iff.mp hr)).symm).trans (((hp.filter _).trans ?_).trans (e1 hnn).symm)
  exact Perm.of_eq (List.filter_congr fun r _ => Bool.and_comm _ _)

theorem FilterFits.or (ha : FilterFits s a) (hb : FilterFits s b) : FilterFits s (.bin "or" a b) := by
  refine ⟨⟨ha.prune.1, ha.prune.2.1, ?_, ?_⟩, ?_, ?_⟩
  · have h1 := ha.prune.2.2.1
    have h2 := hb.prune.2.2.1
    simp [Expr.pruneSafe, h1, h2]
  · intro c hc
    exact (List.mem_append.mp hc).elim (ha.prune.2.2.2 c) (hb.prune.2.2.2 c)
  · intro c hc
    exact (List.mem_append.mp hc).elim (ha.names c) (hb.names c)
  · intro c hc
    exact (List.mem_append.mp hc).elim (ha.plain c) (hb.plain c)

/-- C87, one delete for two, for the same filters and layouts: from states in which the branch has the same rows, one
delete by `a or b` leaves the rows that deleting by `a` and then by `b` leaves. -/
theorem C87_or_partial (hn : s.names.Nodup) (ha : FilterFits s a) (hb : FilterFits s b) {σ σ' τ τ' : Sys}
    {br br' cr : String} (h : Twofold E s a b σ br σ' br') (g : Onefold E s (.bin "or" a b) τ cr τ') :
    ∃ old old' new new', Reads E σ br old ∧ Reads E τ cr old' ∧ Reads E σ' br' new ∧ Reads E τ' cr new' ∧
      (old' ~ old → (∀ r ∈ old, a.truth E.I r ≠ none ∧ b.truth E.I r ≠ none) → new' ~ new) := by
  obtain ⟨old, new, r1, r2, e1⟩ := C87_rows_partial hn ha hb h
  obtain ⟨i, m, sl, g1, g2, g3, rfl⟩ := g
  obtain ⟨old', new', r3, r4, e2⟩ := g3.rows hn (ha.or hb) g1 g2
  refine ⟨old, old', new, new', r1, r3, r2, r4, fun hp hnn => ?_⟩
  have hor : ∀ r ∈ old, (Expr.bin "or" a b).truth E.I r ≠ none ∧
      ((Expr.bin "or" a b).truth E.I r != some true) = (a.truth E.I r != some true && b.truth E.I r != some true) := by
    intro r hr
    rw [truth_or]
    obtain ⟨h1, h2⟩ := hnn r hr
    cases hx : a.truth E.I r with
    | none => exact absurd hx h1
    | some x =>
      cases hy : b.truth E.I r with
      | none => exact absurd hy h2
      | some y => cases x <;> cases y <;> simp [kOr]
  refine (e2 fun r hr => (hor r (hp.mem_iff.mp hr)).1).trans (((hp.filter _).trans ?_).trans (e1 hnn).symm)
  exact Perm.of_eq (List.filter_congr fun r hr => (hor r hr).2)

end

open Demo

/-- Decides `SafeDelete`. -/
def Demo.safeDeleteB (E : Env) (s : Schema) (m : Mutation) (e : Expr) (h : Handle) (w : World) : Bool :=
  match m with
  | .delete e' => decide (e' = e) && safeB (e.truth E.I) (headLayout s h w)
  | .rayDelete e' => decide (e' = e) && raySafeB (e.truth E.I) (headLayout s h w)
  | _ => false

theorem Demo.safeDeleteB_safe {E : Env} {s : Schema} {m : Mutation} {e : Expr} {h : Handle} {w : World}
    (hb : safeDeleteB E s m e h w = true) : SafeDelete E s m e h w := by
  unfold safeDeleteB at hb
  split at hb
  · simp only [Bool.and_eq_true, decide_eq_true_eq] at hb
    exact Or.inl ⟨by rw [hb.1], safeB_safe hb.2⟩
  · simp only [Bool.and_eq_true, decide_eq_true_eq] at hb
    exact Or.inr ⟨by rw [hb.1], raySafeB_safe hb.2⟩
  · cases hb

/-- The state after two mutations by handles 0 and 1. -/
def Demo.between (E : Env) (s : Schema) (as : List Act) (m1 : Mutation) : Sys :=
  more E anyB [.load] (doing E (after E anyB s as) (.call 0 (.mutate m1)))

theorem Demo.twofold_of {E : Env} {s : Schema} (as : List Act) {m1 m2 : Mutation} {a b : Expr} {old new : List Row}
    (h1 : (act E (after E anyB s as) (.call 0 (.mutate m1))).map (fun x => outOf x.1) = some (.res (.job .succeeded)))
    (h2 : ((doing E (after E anyB s as) (.call 0 (.mutate m1))).slots[0]?).map
        (fun sl => headOf sl.h (doing E (after E anyB s as) (.call 0 (.mutate m1))).w) =
      ((between E s as m1).slots[1]?).map (fun sl => headOf sl.h (between E s as m1).w))
    (h3 : ((between E s as m1).slots[1]?).map
        (fun sl => (sl.h.branch, safeDeleteB E s m2 b sl.h (between E s as m1).w)) = some (mainBranch, true))
    (h4 : (act E (between E s as m1) (.call 1 (.mutate m2))).map (fun x => outOf x.1) = some (.res (.job .succeeded)))
    (h5 : ((after E anyB s as).slots[0]?).map
        (fun sl => (sl.h.branch, safeDeleteB E s m1 a sl.h (after E anyB s as).w)) = some (mainBranch, true))
    (h6 : readsB E (after E anyB s as) old = true)
    (h7 : readsB E (doing E (between E s as m1) (.call 1 (.mutate m2))) new = true) :
    ∃ σ σ', Twofold E s a b σ mainBranch σ' mainBranch ∧ Reads E σ mainBranch old ∧ Reads E σ' mainBranch new := by
  obtain ⟨-, hs1⟩ := doing_step (E := E) (s := s) h1
  obtain ⟨-, hs2⟩ := doing_step (E := E) (s := s) h4
  obtain ⟨sl, k0, -, k5⟩ := slot_of h5
  obtain ⟨sl2, k1, -, k2⟩ := slot_of h3
  simp only [Prod.mk.injEq] at k5 k2
  have hr : Reach E s anyStep (after E anyB s as) := after_reach (fun _ _ _ => trivial) _
  have hrun : Run E s anyStep (doing E (after E anyB s as) (.call 0 (.mutate m1))) (between E s as m1) :=
    more_run (fun _ _ _ => trivial) _ _
  rw [k1] at h2
  obtain ⟨sl1, k3, -, k4⟩ := slot_of h2
  exact ⟨_, _, ⟨0, 1, m1, m2, _, _, sl, sl1, sl2, .call hr hs1, .call ((hr.step trivial hs1).run hrun) hs2, k0, k3, k1,
    ⟨hrun, k4.symm⟩, safeDeleteB_safe k5.2, safeDeleteB_safe k2.2, k5.1, k2.1⟩, reads_of h6, reads_of h7⟩

theorem Demo.onefold_of {E : Env} {s : Schema} (as : List Act) {m : Mutation} {e : Expr} {old new : List Row}
    (h1 : (act E (after E anyB s as) (.call 0 (.mutate m))).map (fun x => outOf x.1) = some (.res (.job .succeeded)))
    (h5 : ((after E anyB s as).slots[0]?).map
        (fun sl => (sl.h.branch, safeDeleteB E s m e sl.h (after E anyB s as).w)) = some (mainBranch, true))
    (h6 : readsB E (after E anyB s as) old = true)
    (h7 : readsB E (doing E (after E anyB s as) (.call 0 (.mutate m))) new = true) :
    ∃ σ σ', Onefold E s e σ mainBranch σ' ∧ Reads E σ mainBranch old ∧ Reads E σ' mainBranch new := by
  obtain ⟨-, hs1⟩ := doing_step (E := E) (s := s) h1
  obtain ⟨sl, k0, -, k5⟩ := slot_of h5
  simp only [Prod.mk.injEq] at k5
  exact ⟨_, _, ⟨0, m, sl, .call (after_reach (fun _ _ _ => trivial) _) hs1, k0, safeDeleteB_safe k5.2, k5.1⟩,
    reads_of h6, reads_of h7⟩

/-- Four rows: those with key 1 go and then those above 2, by Ray; or the other way round; or all in one delete. -/
example : FilterFits schema (idIs "equal" 1) ∧ FilterFits schema (idIs "gt" 2) ∧
    (∃ σ σ', Twofold env schema (idIs "equal" 1) (idIs "gt" 2) σ mainBranch σ' mainBranch ∧
      Reads env σ mainBranch [row 1 "a" [1], row 2 "b" [2], row 3 "c" [3], row 4 "d" [4]] ∧
      Reads env σ' mainBranch [row 2 "b" [2]]) ∧
    (∃ σ σ', Twofold env schema (idIs "gt" 2) (idIs "equal" 1) σ mainBranch σ' mainBranch ∧
      Reads env σ mainBranch [row 1 "a" [1], row 2 "b" [2], row 3 "c" [3], row 4 "d" [4]] ∧
      Reads env σ' mainBranch [row 2 "b" [2]]) ∧
    (∃ σ σ', Onefold env schema (.bin "or" (idIs "equal" 1) (idIs "gt" 2)) σ mainBranch σ' ∧
      Reads env σ mainBranch [row 1 "a" [1], row 2 "b" [2], row 3 "c" [3], row 4 "d" [4]] ∧
      Reads env σ' mainBranch [row 2 "b" [2]]) ∧
    (∀ r ∈ [row 1 "a" [1], row 2 "b" [2], row 3 "c" [3], row 4 "d" [4]],
      (idIs "equal" 1).truth env.I r ≠ none ∧ (idIs "gt" 2).truth env.I r ≠ none) := by
  let as : List Act := [.call 0 (.mutate (.append [[row 1 "a" [1], row 2 "b" [2], row 3 "c" [3], row 4 "d" [4]]]))]
  refine ⟨fitsB_fits (by decide), fitsB_fits (by decide),
    twofold_of as (m1 := .delete (idIs "equal" 1)) (m2 := .rayDelete (idIs "gt" 2)) (by decide +kernel) (by decide +kernel)
      (by decide +kernel) (by decide +kernel) (by decide +kernel) (by decide +kernel) (by decide +kernel),
    twofold_of as (m1 := .rayDelete (idIs "gt" 2)) (m2 := .delete (idIs "equal" 1)) (by decide +kernel) (by decide +kernel)
      (by decide +kernel) (by decide +kernel) (by decide +kernel) (by decide +kernel) (by decide +kernel),
    onefold_of as (m := .delete (.bin "or" (idIs "equal" 1) (idIs "gt" 2))) (by decide +kernel) (by decide +kernel)
      (by decide +kernel) (by decide +kernel), by decide⟩

/-- C87 is false where a delete loses rows: with the two deletes in one order the row with key 8 stays, in the other it
is lost. -/
theorem C87_violated_loss : ∃ a b old mid mid' new new', FilterFits schema a ∧ FilterFits schema b ∧
    (∀ r ∈ old, a.truth env.I r ≠ none ∧ b.truth env.I r ≠ none) ∧
    Undoing env schema (.delete a) (.delete b) old mid new ∧ Undoing env schema (.delete b) (.delete a) old mid' new' ∧
    ¬ new' ~ new := by
  let as : List Act := [.call 0 (.mutate (.append [[row 1 "a" [1], row 2 "b" [2], row 3 "c" [3]],
    [row 4 "d" [4], row 5 "e" [5], row 6 "f" [6]], [row 7 "g" [7], row 8 "h" [8]]]))]
  refine ⟨.bin "or" (idIs "equal" 1) (idIn 3 7), .bin "or" (idIn 1 4) (idIs "equal" 7),
    [row 1 "a" [1], row 2 "b" [2], row 3 "c" [3], row 4 "d" [4], row 5 "e" [5], row 6 "f" [6], row 7 "g" [7],
      row 8 "h" [8]], _, _, [row 8 "h" [8]], [], fitsB_fits (by decide), fitsB_fits (by decide), by decide,
    undoing_of as (mid := [row 7 "g" [7], row 8 "h" [8], row 2 "b" [2], row 3 "c" [3]]) (by decide +kernel)
      (by decide +kernel) (by decide +kernel) (by decide +kernel) (by decide +kernel) (by decide +kernel)
      (by decide +kernel),
    undoing_of as (mid := [row 1 "a" [1], row 4 "d" [4], row 5 "e" [5], row 6 "f" [6], row 8 "h" [8]])
      (by decide +kernel) (by decide +kernel) (by decide +kernel) (by decide +kernel) (by decide +kernel)
      (by decide +kernel) (by decide +kernel), by decide⟩

/-- A row without key. -/
def Demo.rowNoKey (t : String) (b : List Nat) : Row := [("id", .null), ("txt", .sc (.str t)), ("img", .sc (.bytes b))]

/-- C87 is false where a filter is null on a row: a row without key stays in two deletes and goes in one, for only
in the one is its file looked at by the filter that is null on it. -/
theorem C87_violated_null : ∃ a b old mid new new', FilterFits schema a ∧ FilterFits schema b ∧
    Undoing env schema (.delete a) (.delete b) old mid new ∧
    (∃ σ σ', Onefold env schema (.bin "or" a b) σ mainBranch σ' ∧ Reads env σ mainBranch old ∧
      Reads env σ' mainBranch new') ∧ ¬ new' ~ new := by
  let as : List Act := [.call 0 (.mutate (.append [[rowNoKey "x" [1], row 1 "y" [2]]])),
    .call 0 (.mutate (.append [[row 7 "z" [4], row 2 "a" [5], row 3 "c" [6]]]))]
  refine ⟨idIs "gt" 5, .bin "equal" (.sel "txt") (.lit (.str "a")),
    [rowNoKey "x" [1], row 1 "y" [2], row 7 "z" [4], row 2 "a" [5], row 3 "c" [6]],
    [rowNoKey "x" [1], row 1 "y" [2], row 2 "a" [5], row 3 "c" [6]], [rowNoKey "x" [1], row 1 "y" [2], row 3 "c" [6]],
    [row 1 "y" [2], row 3 "c" [6]], fitsB_fits (by decide), fitsB_fits (by decide),
    undoing_of as (by decide +kernel) (by decide +kernel) (by decide +kernel) (by decide +kernel) (by decide +kernel)
      (by decide +kernel) (by decide +kernel),
    onefold_of as (m := .delete (.bin "or" (idIs "gt" 5) (.bin "equal" (.sel "txt") (.lit (.str "a")))))
      (by decide +kernel) (by decide +kernel) (by decide +kernel) (by decide +kernel), ?_⟩
  intro h
  have := h.length_eq
  revert this
  decide

end Space
