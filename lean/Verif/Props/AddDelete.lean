import Verif.Props.TwoDeletes

/-! # C89: appends in turn with appends and deletes -/

set_option autoImplicit false

namespace Space

open List

section
variable {E : Env} {s : Schema} {e : Expr} {a b : List Row}

/-- An append of these rows, local or by Ray, from one table, several tables or several sources of tables. -/
def Appending (m : Mutation) (rows : List Row) : Prop :=
  (∃ tables, m = .append tables ∧ rows = tables.flatten) ∨
  (∃ n sched, m = .rayAppend n sched rows) ∨
  (∃ n sched sources, m = .rayAppendFrom n sched sources ∧ rows = sources.flatten.flatten)

theorem Appending.added {m : Mutation} {rows : List Row} (h : Appending m rows) : m.added = some rows := by
  rcases h with ⟨tables, rfl, rfl⟩ | ⟨n, sched, rfl⟩ | ⟨n, sched, sources, rfl, rfl⟩ <;> rfl

theorem Appending.rows (hn : s.names.Nodup) (hlast : s.writeNames = s.names) {i : Nat} {m : Mutation} {rows : List Row}
    {σ σ' : Sys} {sl : Slot} (ha : Appending m rows) (hc : ∀ r ∈ rows, r.cols = s.names) (h : Done E s i m σ σ')
    (hi : σ.slots[i]? = some sl) :
    ∃ old new, Reads E σ sl.h.branch old ∧ Reads E σ' sl.h.branch new ∧ new ~ old ++ rows := by
  obtain ⟨sl', old, new, k1, k2, k3, k4⟩ := h.adds hn ha.added
  cases hi.symm.trans k1
  rw [hlast, select_rows hn hc] at k4
  exact ⟨old, new, k2, k3, k4⟩

/-- Two mutations that took effect, `m1` by a handle on branch `br` and `m2` by any handle (on branch `br'`) on the version
that `m1` left; `P` and `Q` are said of them and of the states in which they begin. -/
def InTurn (E : Env) (s : Schema) (P Q : Mutation → Handle → World → Prop) (σ : Sys) (br : String) (σ' : Sys)
    (br' : String) : Prop :=
  ∃ i j m1 m2 σ1 σ2 sl sl1 sl2, Done E s i m1 σ σ1 ∧ Done E s j m2 σ2 σ' ∧
    σ.slots[i]? = some sl ∧ σ1.slots[i]? = some sl1 ∧ σ2.slots[j]? = some sl2 ∧ SameVersion E s σ1 sl1 σ2 sl2 ∧
    P m1 sl.h σ.w ∧ Q m2 sl2.h σ2.w ∧ sl.h.branch = br ∧ sl2.h.branch = br'

/-- The second mutation finds what the first left. -/
theorem Done.between (hn : s.names.Nodup) {i j : Nat} {m : Mutation} {σ σ1 σ2 : Sys} {sl sl1 sl2 : Slot} {mid mid' : List Row}
    (h : Done E s i m σ σ1) (k1 : σ.slots[i]? = some sl) (k2 : σ1.slots[i]? = some sl1) (k3 : σ2.slots[j]? = some sl2)
    (hv : SameVersion E s σ1 sl1 σ2 sl2) (hr : Reads E σ1 sl.h.branch mid) (hr' : Reads E σ2 sl2.h.branch mid') :
    mid' = mid := by
  obtain ⟨hr0, ev, hst0⟩ := h.reach
  obtain ⟨sla, slb, w, h1', w1, p, cur, snap, hl, -, -⟩ := h.landing hn
  cases hl.slot.symm.trans k1
  cases hl.slot'.symm.trans k2
  rw [← hl.branch] at hr
  have := hv.reads hn (hr0.step trivial hst0) k2 hl.succ.head' hr
  exact hr'.unique k3 this

/-- C89 for two appends: they leave the rows there were and all rows of both. -/
theorem C89_appends (hn : s.names.Nodup) (hlast : s.writeNames = s.names) (ha : ∀ r ∈ a, r.cols = s.names)
    (hb : ∀ r ∈ b, r.cols = s.names) {σ σ' : Sys} {br br' : String}
    (h : InTurn E s (fun m _ _ => Appending m a) (fun m _ _ => Appending m b) σ br σ' br') :
    ∃ old new, Reads E σ br old ∧ Reads E σ' br' new ∧ new ~ old ++ a ++ b := by
  obtain ⟨i, j, m1, m2, σ1, σ2, sl, sl1, sl2, h1, h2, k1, k2, k3, hv, p1, p2, rfl, rfl⟩ := h
  obtain ⟨old, mid, r1, r2, e1⟩ := p1.rows hn hlast ha h1 k1
  obtain ⟨mid', new, r3, r4, e2⟩ := p2.rows hn hlast hb h2 k3
  cases h1.between hn k1 k2 k3 hv r2 r3
  exact ⟨old, new, r1, r4, e2.trans (e1.append_right _)⟩

/-- C89 for the order of two appends: from states in which the branch has the same rows, both orders leave the same rows, and
so does one append of the rows of both. -/
theorem C89_appends_order (hn : s.names.Nodup) (hlast : s.writeNames = s.names) (ha : ∀ r ∈ a, r.cols = s.names)
    (hb : ∀ r ∈ b, r.cols = s.names) {σ σ' τ τ' υ υ' : Sys} {br br' cr cr' : String} {i : Nat} {m : Mutation} {sl : Slot}
    (h : InTurn E s (fun m _ _ => Appending m a) (fun m _ _ => Appending m b) σ br σ' br')
    (g : InTurn E s (fun m _ _ => Appending m b) (fun m _ _ => Appending m a) τ cr τ' cr')
    (f : Done E s i m υ υ') (hm : Appending m (a ++ b)) (hi : υ.slots[i]? = some sl) :
    ∃ old old' old'' new new' new'', Reads E σ br old ∧ Reads E τ cr old' ∧ Reads E υ sl.h.branch old'' ∧
      Reads E σ' br' new ∧ Reads E τ' cr' new' ∧ Reads E υ' sl.h.branch new'' ∧
      (old' ~ old → new' ~ new) ∧ (old'' ~ old → new'' ~ new) := by
  obtain ⟨old, new, r1, r2, e1⟩ := C89_appends hn hlast ha hb h
  obtain ⟨old', new', r3, r4, e2⟩ := C89_appends hn hlast hb ha g
  obtain ⟨old'', new'', r5, r6, e3⟩ := hm.rows hn hlast
    (fun r hr => (List.mem_append.mp hr).elim (ha r) (hb r)) f hi
  refine ⟨old, old', old'', new, new', new'', r1, r3, r5, r2, r4, r6, fun hp => ?_, fun hp => ?_⟩
  · refine e2.trans (Perm.trans ?_ e1.symm)
    rw [List.append_assoc, List.append_assoc]
    exact hp.append perm_append_comm
  · refine e3.trans (Perm.trans ?_ e1.symm)
    rw [List.append_assoc]
    exact hp.append_right _

/-- C89 for an append and then a delete, by a filter that fits the schema and is null on no row, on layouts on which the
delete loses no row: the rows there were and those appended stay but for those on which the filter is true.  Missing: other
layouts, see `C89_violated`; filters that are null on some row, see C04 and C87. -/
theorem C89_appendDelete_partial (hn : s.names.Nodup) (hlast : s.writeNames = s.names) (he : FilterFits s e)
    (ha : ∀ r ∈ a, r.cols = s.names) {σ σ' : Sys} {br br' : String}
    (h : InTurn E s (fun m _ _ => Appending m a) (fun m h w => SafeDelete E s m e h w) σ br σ' br') :
    ∃ old new, Reads E σ br old ∧ Reads E σ' br' new ∧
      ((∀ r ∈ old ++ a, e.truth E.I r ≠ none) → new ~ (old ++ a).filter (fun r => e.truth E.I r != some true)) := by
  obtain ⟨i, j, m1, m2, σ1, σ2, sl, sl1, sl2, h1, h2, k1, k2, k3, hv, p1, p2, rfl, rfl⟩ := h
  obtain ⟨old, mid, r1, r2, e1⟩ := p1.rows hn hlast ha h1 k1
  obtain ⟨mid', new, r3, r4, e2⟩ := p2.rows hn he h2 k3
  cases h1.between hn k1 k2 k3 hv r2 r3
  exact ⟨old, new, r1, r4, fun hnn => (e2 fun r hr => hnn r (e1.mem_iff.mp hr)).trans (e1.filter _)⟩

/-- C89 for a delete and then an append, for the same filters and layouts: all rows appended are there. -/
theorem C89_deleteAppend_partial (hn : s.names.Nodup) (hlast : s.writeNames = s.names) (he : FilterFits s e)
    (ha : ∀ r ∈ a, r.cols = s.names) {σ σ' : Sys} {br br' : String}
    (h : InTurn E s (fun m h w => SafeDelete E s m e h w) (fun m _ _ => Appending m a) σ br σ' br') :
    ∃ old new, Reads E σ br old ∧ Reads E σ' br' new ∧
      ((∀ r ∈ old, e.truth E.I r ≠ none) → new ~ old.filter (fun r => e.truth E.I r != some true) ++ a) := by
  obtain ⟨i, j, m1, m2, σ1, σ2, sl, sl1, sl2, h1, h2, k1, k2, k3, hv, p1, p2, rfl, rfl⟩ := h
  obtain ⟨old, mid, r1, r2, e1⟩ := p1.rows hn he h1 k1
  obtain ⟨mid', new, r3, r4, e2⟩ := p2.rows hn hlast ha h2 k3
  cases h1.between hn k1 k2 k3 hv r2 r3
  exact ⟨old, new, r1, r4, fun hnn => e2.trans ((e1 hnn).append_right _)⟩

/-- C89 for the order of an append and a delete, for the same filters and layouts: from states in which the branch has the
same rows, both orders leave the same rows if and only if the filter is true on none of the rows appended. -/
theorem C89_order_partial (hn : s.names.Nodup) (hlast : s.writeNames = s.names) (he : FilterFits s e)
    (ha : ∀ r ∈ a, r.cols = s.names) {σ σ' τ τ' : Sys} {br br' cr cr' : String}
    (h : InTurn E s (fun m _ _ => Appending m a) (fun m h w => SafeDelete E s m e h w) σ br σ' br')
    (g : InTurn E s (fun m h w => SafeDelete E s m e h w) (fun m _ _ => Appending m a) τ cr τ' cr') :
    ∃ old old' new new', Reads E σ br old ∧ Reads E τ cr old' ∧ Reads E σ' br' new ∧ Reads E τ' cr' new' ∧
      (old' ~ old → (∀ r ∈ old ++ a, e.truth E.I r ≠ none) →
        (new' ~ new ↔ ∀ r ∈ a, e.truth E.I r = some false)) := by
  obtain ⟨old, new, r1, r2, e1⟩ := C89_appendDelete_partial hn hlast he ha h
  obtain ⟨old', new', r3, r4, e2⟩ := C89_deleteAppend_partial hn hlast he ha g
  refine ⟨old, old', new, new', r1, r3, r2, r4, fun hp hnn => ?_⟩
  have q1 := e1 hnn
  have q2 := (e2 fun r hr => hnn r (List.mem_append_left _ (hp.mem_iff.mp hr))).trans ((hp.filter _).append_right _)
  rw [List.filter_append] at q1
  constructor
  · intro hx r hr
    have hl := (q2.symm.trans (hx.trans q1)).length_eq
    rw [List.length_append, List.length_append] at hl
    have hl : a.length = (a.filter (fun r => e.truth E.I r != some true)).length := by omega
    have hall := List.length_filter_eq_length_iff.mp hl.symm r hr
    have := hnn r (List.mem_append_right _ hr)
    cases ht : e.truth E.I r with
    | none => exact absurd ht this
    | some x =>
      cases x with
      | false => rfl
      | true => rw [ht] at hall; cases hall
  · intro hall
    have : a.filter (fun r => e.truth E.I r != some true) = a :=
      List.filter_eq_self.mpr fun r hr => by rw [hall r hr]; rfl
    rw [this] at q1
    exact q2.trans q1.symm

end

open Demo

theorem Demo.inTurn_of {E : Env} {s : Schema} (as : List Act) {m1 m2 : Mutation} {P Q : Mutation → Handle → World → Prop}
    {p q : Handle → World → Bool} (hp : ∀ h w, p h w = true → P m1 h w) (hq : ∀ h w, q h w = true → Q m2 h w)
    {old new : List Row}
    (h1 : (act E (after E anyB s as) (.call 0 (.mutate m1))).map (fun x => outOf x.1) = some (.res (.job .succeeded)))
    (h2 : ((doing E (after E anyB s as) (.call 0 (.mutate m1))).slots[0]?).map
        (fun sl => headOf sl.h (doing E (after E anyB s as) (.call 0 (.mutate m1))).w) =
      ((between E s as m1).slots[1]?).map (fun sl => headOf sl.h (between E s as m1).w))
    (h3 : ((between E s as m1).slots[1]?).map
        (fun sl => (sl.h.branch, q sl.h (between E s as m1).w)) = some (mainBranch, true))
    (h4 : (act E (between E s as m1) (.call 1 (.mutate m2))).map (fun x => outOf x.1) = some (.res (.job .succeeded)))
    (h5 : ((after E anyB s as).slots[0]?).map
        (fun sl => (sl.h.branch, p sl.h (after E anyB s as).w)) = some (mainBranch, true))
    (h6 : readsB E (after E anyB s as) old = true)
    (h7 : readsB E (doing E (between E s as m1) (.call 1 (.mutate m2))) new = true) :
    ∃ σ σ', InTurn E s P Q σ mainBranch σ' mainBranch ∧ Reads E σ mainBranch old ∧ Reads E σ' mainBranch new := by
  obtain ⟨-, hs1⟩ := doing_step (E := E) (s := s) h1
  obtain ⟨-, hs2⟩ := doing_step (E := E) (s := s) h4
  obtain ⟨sl, k0, -, k5⟩ := slot_of h5
  obtain ⟨sl2, k1, -, k2⟩ := slot_of h3
  simp only [Prod.mk.injEq] at k5 k2
  have hr : Reach E s anyStep (after E anyB s as) := after_reach (fun _ _ _ => trivial) _
  have hrun : Run E s anyStep (doing E (after E anyB s as) (.call 0 (.mutate m1))) (between E s as m1) :=
    more_run (fun _ _ _ => trivial) _ _
  rw [k1] at h2
  obtain ⟨sl1, k3, -, k4⟩ := slot_of h2
  exact ⟨_, _, ⟨0, 1, m1, m2, _, _, sl, sl1, sl2, .call hr hs1, .call ((hr.step trivial hs1).run hrun) hs2, k0, k3, k1,
    ⟨hrun, k4.symm⟩, hp _ _ k5.2, hq _ _ k2.2, k5.1, k2.1⟩, reads_of h6, reads_of h7⟩

/-- Two rows, then an append of two tables and one of two rows by Ray; and the other way round. -/
example : (∃ σ σ', InTurn env schema (fun m _ _ => Appending m [row 3 "c" [3], row 4 "d" []])
      (fun m _ _ => Appending m [row 5 "e" [5], row 6 "f" [6]]) σ mainBranch σ' mainBranch ∧
      Reads env σ mainBranch [row 1 "a" [1], row 2 "b" [2]] ∧
      Reads env σ' mainBranch [row 1 "a" [1], row 2 "b" [2], row 3 "c" [3], row 4 "d" [], row 5 "e" [5], row 6 "f" [6]]) ∧
    (∃ σ σ', InTurn env schema (fun m _ _ => Appending m [row 5 "e" [5], row 6 "f" [6]])
      (fun m _ _ => Appending m [row 3 "c" [3], row 4 "d" []]) σ mainBranch σ' mainBranch ∧
      Reads env σ mainBranch [row 1 "a" [1], row 2 "b" [2]] ∧
      Reads env σ' mainBranch [row 1 "a" [1], row 2 "b" [2], row 5 "e" [5], row 6 "f" [6], row 3 "c" [3], row 4 "d" []]) := by
  let as : List Act := [.call 0 (.mutate (.append [[row 1 "a" [1], row 2 "b" [2]]]))]
  have hl : Appending (.append [[row 3 "c" [3]], [row 4 "d" []]]) [row 3 "c" [3], row 4 "d" []] := Or.inl ⟨_, rfl, rfl⟩
  have hr : Appending (.rayAppend 2 [1, 0] [row 5 "e" [5], row 6 "f" [6]]) [row 5 "e" [5], row 6 "f" [6]] :=
    Or.inr (Or.inl ⟨_, _, rfl⟩)
  exact ⟨inTurn_of as (p := fun _ _ => true) (q := fun _ _ => true) (fun _ _ _ => hl) (fun _ _ _ => hr) (by decide +kernel)
      (by decide +kernel) (by decide +kernel) (by decide +kernel) (by decide +kernel) (by decide +kernel) (by decide +kernel),
    inTurn_of as (p := fun _ _ => true) (q := fun _ _ => true) (fun _ _ _ => hr) (fun _ _ _ => hl) (by decide +kernel)
      (by decide +kernel) (by decide +kernel) (by decide +kernel) (by decide +kernel) (by decide +kernel) (by decide +kernel)⟩

/-- Two rows, an append of two and a delete of one of the rows there were, in both orders; and a delete of a row appended,
for which the order matters. -/
example : FilterFits schema (idIs "equal" 1) ∧ FilterFits schema (idIs "gt" 3) ∧
    (∃ σ σ', InTurn env schema (fun m _ _ => Appending m [row 3 "c" [3], row 4 "d" []])
      (fun m h w => SafeDelete env schema m (idIs "equal" 1) h w) σ mainBranch σ' mainBranch ∧
      Reads env σ mainBranch [row 1 "a" [1], row 2 "b" [2]] ∧
      Reads env σ' mainBranch [row 3 "c" [3], row 4 "d" [], row 2 "b" [2]]) ∧
    (∃ σ σ', InTurn env schema (fun m h w => SafeDelete env schema m (idIs "equal" 1) h w)
      (fun m _ _ => Appending m [row 3 "c" [3], row 4 "d" []]) σ mainBranch σ' mainBranch ∧
      Reads env σ mainBranch [row 1 "a" [1], row 2 "b" [2]] ∧
      Reads env σ' mainBranch [row 2 "b" [2], row 3 "c" [3], row 4 "d" []]) ∧
    (∃ σ σ', InTurn env schema (fun m _ _ => Appending m [row 3 "c" [3], row 4 "d" []])
      (fun m h w => SafeDelete env schema m (idIs "gt" 3) h w) σ mainBranch σ' mainBranch ∧
      Reads env σ mainBranch [row 1 "a" [1], row 2 "b" [2]] ∧
      Reads env σ' mainBranch [row 1 "a" [1], row 2 "b" [2], row 3 "c" [3]]) := by
  let as : List Act := [.call 0 (.mutate (.append [[row 1 "a" [1], row 2 "b" [2]]]))]
  have hl : Appending (.append [[row 3 "c" [3]], [row 4 "d" []]]) [row 3 "c" [3], row 4 "d" []] := Or.inl ⟨_, rfl, rfl⟩
  exact ⟨fitsB_fits (by decide), fitsB_fits (by decide),
    inTurn_of as (p := fun _ _ => true) (m2 := .rayDelete (idIs "equal" 1)) (fun _ _ _ => hl) (fun _ _ => safeDeleteB_safe)
      (by decide +kernel) (by decide +kernel) (by decide +kernel) (by decide +kernel) (by decide +kernel) (by decide +kernel)
      (by decide +kernel),
    inTurn_of as (q := fun _ _ => true) (m1 := .delete (idIs "equal" 1)) (fun _ _ => safeDeleteB_safe) (fun _ _ _ => hl)
      (by decide +kernel) (by decide +kernel) (by decide +kernel) (by decide +kernel) (by decide +kernel) (by decide +kernel)
      (by decide +kernel),
    inTurn_of as (p := fun _ _ => true) (m2 := .delete (idIs "gt" 3)) (fun _ _ _ => hl) (fun _ _ => safeDeleteB_safe)
      (by decide +kernel) (by decide +kernel) (by decide +kernel) (by decide +kernel) (by decide +kernel) (by decide +kernel)
      (by decide +kernel)⟩

/-- C89 is false where the delete loses rows: of two files appended, one with all rows to delete, nothing is left. -/
theorem C89_violated : ∃ e a m new, FilterFits schema e ∧ Appending m a ∧ (∀ r ∈ a, e.truth env.I r ≠ none) ∧
    Undoing env schema m (.delete e) [] a new ∧ ¬ new ~ a.filter (fun r => e.truth env.I r != some true) := by
  refine ⟨idIs "lt" 5, [row 1 "a" [1], row 2 "b" [2], row 3 "c" [3], row 4 "d" [4], row 5 "e" [5]],
    .append [[row 1 "a" [1], row 2 "b" [2], row 3 "c" [3], row 4 "d" [4]], [row 5 "e" [5]]], [],
    fitsB_fits (by decide), Or.inl ⟨_, rfl, rfl⟩, by decide,
    undoing_of [] (by decide +kernel) (by decide +kernel) (by decide +kernel) (by decide +kernel) (by decide +kernel)
      (by decide +kernel) (by decide +kernel), ?_⟩
  intro h
  have := h.length_eq
  revert this
  decide

end Space
