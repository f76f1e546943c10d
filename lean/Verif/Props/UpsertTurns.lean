import Verif.Props.AddDelete
import Verif.Props.TwoUpserts

/-! # C90: upserts in turn with deletes and appends -/

set_option autoImplicit false

namespace Space

open List

section
variable {E : Env} {s : Schema} {e : Expr} {A B : List Row}

/-- An upsert of `A`, local or by Ray, on a layout on which it loses no row. -/
def Upserting (s : Schema) (A : List Row) (m : Mutation) (h : Handle) (w : World) : Prop :=
  m.inserts = some (.upsert, A) ∧ SafeUpsert s A h w

/-- The row has none of the keys of the rows `A`. -/
def Other (s : Schema) (A : List Row) (r : Row) : Bool := decide (s.pks.map r.val ∉ keysOf s A)

theorem Upserting.rows (hk : KeySchema s) (hlast : s.writeNames = s.names) (hc : ∀ r ∈ A, r.cols = s.names) {i : Nat}
    {m : Mutation} {σ σ' : Sys} {sl : Slot} (ha : Upserting s A m sl.h σ.w) (h : Done E s i m σ σ')
    (hi : σ.slots[i]? = some sl) :
    ∃ old new, Reads E σ sl.h.branch old ∧ Reads E σ' sl.h.branch new ∧
      (KeysSet s old → new ~ old.filter (Other s A) ++ A) := by
  obtain ⟨sl', old, new, k1, k2, k3, k4⟩ := h.upsertEffect hk ha.1
  cases hi.symm.trans k1
  refine ⟨old, new, k2, k3, fun hset => ?_⟩
  have := (k4 hset).2.mpr ha.2
  rw [hlast, select_rows hk.names hc] at this
  exact this

/-- C90 for an upsert and then a delete, for keys without null and NaN, filters that fit the schema and are null on no row,
on layouts on which neither loses a row: of the rows upserted and of those there were with other keys, those stay on which the filter
is not true.  Missing: other layouts, see `C90_violated`; NaN and null, see C04 and C08. -/
theorem C90_upsertDelete_partial (hk : KeySchema s) (hlast : s.writeNames = s.names) (he : FilterFits s e)
    (hc : ∀ r ∈ A, r.cols = s.names) {σ σ' : Sys} {br br' : String}
    (h : InTurn E s (Upserting s A) (fun m h w => SafeDelete E s m e h w) σ br σ' br') :
    ∃ old new, Reads E σ br old ∧ Reads E σ' br' new ∧
      (KeysSet s old → (∀ r ∈ old ++ A, e.truth E.I r ≠ none) →
        new ~ (old.filter (Other s A) ++ A).filter (fun r => e.truth E.I r != some true)) := by
  have hn := hk.names
  obtain ⟨i, j, m1, m2, σ1, σ2, sl, sl1, sl2, h1, h2, k1, k2, k3, hv, p1, p2, rfl, rfl⟩ := h
  obtain ⟨old, mid, r1, r2, e1⟩ := p1.rows hk hlast hc h1 k1
  obtain ⟨mid', new, r3, r4, e2⟩ := p2.rows hn he h2 k3
  cases h1.between hn k1 k2 k3 hv r2 r3
  refine ⟨old, new, r1, r4, fun hset hnn => ?_⟩
  have q1 := e1 hset
  refine (e2 fun r hr => hnn r ?_).trans (q1.filter _)
  rcases List.mem_append.mp (q1.mem_iff.mp hr) with hr | hr
  · exact List.mem_append_left _ (List.mem_filter.mp hr).1
  · exact List.mem_append_right _ hr

/-- C90 for a delete and then an upsert, for the same keys, filters and layouts: all rows upserted are there. -/
theorem C90_deleteUpsert_partial (hk : KeySchema s) (hlast : s.writeNames = s.names) (he : FilterFits s e)
    (hc : ∀ r ∈ A, r.cols = s.names) {σ σ' : Sys} {br br' : String}
    (h : InTurn E s (fun m h w => SafeDelete E s m e h w) (Upserting s A) σ br σ' br') :
    ∃ old new, Reads E σ br old ∧ Reads E σ' br' new ∧
      (KeysSet s old → (∀ r ∈ old, e.truth E.I r ≠ none) →
        new ~ old.filter (fun r => e.truth E.I r != some true && Other s A r) ++ A) := by
  have hn := hk.names
  obtain ⟨i, j, m1, m2, σ1, σ2, sl, sl1, sl2, h1, h2, k1, k2, k3, hv, p1, p2, rfl, rfl⟩ := h
  obtain ⟨old, mid, r1, r2, e1⟩ := p1.rows hn he h1 k1
  obtain ⟨mid', new, r3, r4, e2⟩ := p2.rows hk hlast hc h2 k3
  cases h1.between hn k1 k2 k3 hv r2 r3
  refine ⟨old, new, r1, r4, fun hset hnn => ?_⟩
  have q1 := e1 hnn
  refine (e2 fun r hr => hset r (List.mem_filter.mp (q1.mem_iff.mp hr)).1).trans (Perm.append_right _ ?_)
  refine (q1.filter _).trans (Perm.of_eq ?_)
  rw [List.filter_filter]
  exact List.filter_congr fun r _ => Bool.and_comm _ _

/-- C90, order of an upsert and a delete, for the same keys, filters and layouts: from states in which the branch has the
same rows, both orders leave the same rows if and only if the filter is true on none of the rows upserted. -/
theorem C90_order_partial (hk : KeySchema s) (hlast : s.writeNames = s.names) (he : FilterFits s e)
    (hc : ∀ r ∈ A, r.cols = s.names) {σ σ' τ τ' : Sys} {br br' cr cr' : String}
    (h : InTurn E s (Upserting s A) (fun m h w => SafeDelete E s m e h w) σ br σ' br')
    (g : InTurn E s (fun m h w => SafeDelete E s m e h w) (Upserting s A) τ cr τ' cr') :
    ∃ old old' new new', Reads E σ br old ∧ Reads E τ cr old' ∧ Reads E σ' br' new ∧ Reads E τ' cr' new' ∧
      (old' ~ old → KeysSet s old → (∀ r ∈ old ++ A, e.truth E.I r ≠ none) →
        (new' ~ new ↔ ∀ r ∈ A, e.truth E.I r = some false)) := by
  obtain ⟨old, new, r1, r2, e1⟩ := C90_upsertDelete_partial hk hlast he hc h
  obtain ⟨old', new', r3, r4, e2⟩ := C90_deleteUpsert_partial hk hlast he hc g
  refine ⟨old, old', new, new', r1, r3, r2, r4, fun hp hset hnn => ?_⟩
  have q1 := e1 hset hnn
  have q2 := (e2 (fun r hr => hset r (hp.mem_iff.mp hr))
    fun r hr => hnn r (List.mem_append_left _ (hp.mem_iff.mp hr))).trans ((hp.filter _).append_right _)
  rw [List.filter_append, List.filter_filter] at q1
  constructor
  · intro hx r hr
    have hl := (q2.symm.trans (hx.trans q1)).length_eq
    rw [List.length_append, List.length_append] at hl
    have hl : A.length = (A.filter (fun r => e.truth E.I r != some true)).length := by omega
    have hall := List.length_filter_eq_length_iff.mp hl.symm r hr
    have := hnn r (List.mem_append_right _ hr)
    cases ht : e.truth E.I r with
    | none => exact absurd ht this
    | some x =>
      cases x with
      | false => rfl
      | true => rw [ht] at hall; cases hall
  · intro hall
    have : A.filter (fun r => e.truth E.I r != some true) = A :=
      List.filter_eq_self.mpr fun r hr => by rw [hall r hr]; rfl
    rw [this] at q1
    exact q2.trans q1.symm

/-- C90, deletes that an upsert makes good, for the same keys, filters and layouts: if the filter is true only on rows whose
keys the upsert has, the delete and then the upsert leave what the upsert alone leaves. -/
theorem C90_needless_partial (hk : KeySchema s) (hlast : s.writeNames = s.names) (he : FilterFits s e)
    (hc : ∀ r ∈ A, r.cols = s.names) {σ σ' τ τ' : Sys} {br br' cr : String}
    (h : InTurn E s (fun m h w => SafeDelete E s m e h w) (Upserting s A) σ br σ' br') (g : OneUpsert E s A τ cr τ') :
    ∃ old old' new new', Reads E σ br old ∧ Reads E τ cr old' ∧ Reads E σ' br' new ∧ Reads E τ' cr new' ∧
      (old' ~ old → KeysSet s old → (∀ r ∈ old, e.truth E.I r ≠ none) →
        (∀ r ∈ old, e.truth E.I r = some true → s.pks.map r.val ∈ keysOf s A) → new' ~ new) := by
  obtain ⟨old, new, r1, r2, e1⟩ := C90_deleteUpsert_partial hk hlast he hc h
  obtain ⟨i, m, sl, g1, g2, g3, g4, rfl⟩ := g
  obtain ⟨old', new', r3, r4, e2⟩ := Upserting.rows hk hlast hc ⟨g2, g4⟩ g1 g3
  refine ⟨old, old', new, new', r1, r3, r2, r4, fun hp hset hnn hall => ?_⟩
  refine (e2 fun r hr => hset r (hp.mem_iff.mp hr)).trans (Perm.trans (Perm.append_right _ ?_) (e1 hset hnn).symm)
  refine (hp.filter _).trans (Perm.of_eq (List.filter_congr fun r hr => ?_))
  cases ho : Other s A r with
  | false => simp
  | true =>
    have : e.truth E.I r ≠ some true := by
      intro ht
      simp only [Other, decide_eq_true_eq] at ho
      exact ho (hall r hr ht)
    simp [this]

/-- C90 for an append and then an upsert, for keys without null and NaN, on layouts on which the upsert loses no row: of the rows
there were and of those appended the ones with keys of the upsert are replaced. -/
theorem C90_appendUpsert_partial (hk : KeySchema s) (hlast : s.writeNames = s.names) (hc : ∀ r ∈ A, r.cols = s.names)
    (hb : ∀ r ∈ B, r.cols = s.names) (hB : KeysSet s B) {σ σ' : Sys} {br br' : String}
    (h : InTurn E s (fun m _ _ => Appending m B) (Upserting s A) σ br σ' br') :
    ∃ old new, Reads E σ br old ∧ Reads E σ' br' new ∧
      (KeysSet s old → new ~ (old ++ B).filter (Other s A) ++ A) := by
  have hn := hk.names
  obtain ⟨i, j, m1, m2, σ1, σ2, sl, sl1, sl2, h1, h2, k1, k2, k3, hv, p1, p2, rfl, rfl⟩ := h
  obtain ⟨old, mid, r1, r2, e1⟩ := p1.rows hn hlast hb h1 k1
  obtain ⟨mid', new, r3, r4, e2⟩ := p2.rows hk hlast hc h2 k3
  cases h1.between hn k1 k2 k3 hv r2 r3
  refine ⟨old, new, r1, r4, fun hset => (e2 fun r hr => ?_).trans ((e1.filter _).append_right _)⟩
  rcases List.mem_append.mp (e1.mem_iff.mp hr) with hr | hr
  · exact hset r hr
  · exact hB r hr

/-- C90 for an upsert and then an append, for the same keys and layouts. -/
theorem C90_upsertAppend_partial (hk : KeySchema s) (hlast : s.writeNames = s.names) (hc : ∀ r ∈ A, r.cols = s.names)
    (hb : ∀ r ∈ B, r.cols = s.names) {σ σ' : Sys} {br br' : String}
    (h : InTurn E s (Upserting s A) (fun m _ _ => Appending m B) σ br σ' br') :
    ∃ old new, Reads E σ br old ∧ Reads E σ' br' new ∧
      (KeysSet s old → new ~ old.filter (Other s A) ++ A ++ B) := by
  have hn := hk.names
  obtain ⟨i, j, m1, m2, σ1, σ2, sl, sl1, sl2, h1, h2, k1, k2, k3, hv, p1, p2, rfl, rfl⟩ := h
  obtain ⟨old, mid, r1, r2, e1⟩ := p1.rows hk hlast hc h1 k1
  obtain ⟨mid', new, r3, r4, e2⟩ := p2.rows hn hlast hb h2 k3
  cases h1.between hn k1 k2 k3 hv r2 r3
  exact ⟨old, new, r1, r4, fun hset => e2.trans ((e1 hset).append_right _)⟩

/-- C90, order of an upsert and an append, for the same keys and layouts: from states in which the branch has the same rows,
both orders leave the same rows if and only if no row appended has a key of the upsert. -/
theorem C90_appendOrder_partial (hk : KeySchema s) (hlast : s.writeNames = s.names) (hc : ∀ r ∈ A, r.cols = s.names)
    (hb : ∀ r ∈ B, r.cols = s.names) (hB : KeysSet s B) {σ σ' τ τ' : Sys} {br br' cr cr' : String}
    (h : InTurn E s (Upserting s A) (fun m _ _ => Appending m B) σ br σ' br')
    (g : InTurn E s (fun m _ _ => Appending m B) (Upserting s A) τ cr τ' cr') :
    ∃ old old' new new', Reads E σ br old ∧ Reads E τ cr old' ∧ Reads E σ' br' new ∧ Reads E τ' cr' new' ∧
      (old' ~ old → KeysSet s old → (new' ~ new ↔ ∀ r ∈ B, s.pks.map r.val ∉ keysOf s A)) := by
  obtain ⟨old, new, r1, r2, e1⟩ := C90_upsertAppend_partial hk hlast hc hb h
  obtain ⟨old', new', r3, r4, e2⟩ := C90_appendUpsert_partial hk hlast hc hb hB g
  refine ⟨old, old', new, new', r1, r3, r2, r4, fun hp hset => ?_⟩
  have q1 := e1 hset
  have q2 := (e2 fun r hr => hset r (hp.mem_iff.mp hr)).trans (((hp.append_right B).filter _).append_right _)
  rw [List.filter_append] at q2
  constructor
  · intro hx r hr
    have hl := (q2.symm.trans (hx.trans q1)).length_eq
    simp only [List.length_append] at hl
    have hl : (B.filter (Other s A)).length = B.length := by omega
    have := List.length_filter_eq_length_iff.mp hl r hr
    simpa [Other] using this
  · intro hall
    have : B.filter (Other s A) = B :=
      List.filter_eq_self.mpr fun r hr => by simpa [Other] using hall r hr
    rw [this] at q2
    refine q2.trans (Perm.trans ?_ q1.symm)
    rw [List.append_assoc, List.append_assoc]
    exact Perm.append_left _ perm_append_comm

end

open Demo

theorem Demo.upserting_of {s : Schema} {A : List Row} {m : Mutation} (hm : m.inserts = some (.upsert, A)) {h : Handle}
    {w : World} (hs : safeUpsertB s A h w = true) : Upserting s A m h w := ⟨hm, sparedB_spared hs⟩

/-- Four rows, an upsert that replaces one and adds one, and a delete of another, in both orders; a delete of a row upserted,
for which the order matters; and a delete of the row that the upsert has anyway. -/
example : schema.writeNames = schema.names ∧ KeysSet schema [row 1 "a" [1], row 2 "b" [2], row 3 "c" [3], row 4 "d" [4]] ∧
    FilterFits schema (idIs "equal" 3) ∧ FilterFits schema (idIs "gt" 5) ∧ FilterFits schema (idIs "equal" 1) ∧
    (∃ σ σ', InTurn env schema (Upserting schema [row 1 "A" [5], row 6 "F" [6]])
      (fun m h w => SafeDelete env schema m (idIs "equal" 3) h w) σ mainBranch σ' mainBranch ∧
      Reads env σ mainBranch [row 1 "a" [1], row 2 "b" [2], row 3 "c" [3], row 4 "d" [4]] ∧
      Reads env σ' mainBranch [row 1 "A" [5], row 6 "F" [6], row 2 "b" [2], row 4 "d" [4]]) ∧
    (∃ σ σ', InTurn env schema (fun m h w => SafeDelete env schema m (idIs "equal" 3) h w)
      (Upserting schema [row 1 "A" [5], row 6 "F" [6]]) σ mainBranch σ' mainBranch ∧
      Reads env σ mainBranch [row 1 "a" [1], row 2 "b" [2], row 3 "c" [3], row 4 "d" [4]] ∧
      Reads env σ' mainBranch [row 2 "b" [2], row 4 "d" [4], row 1 "A" [5], row 6 "F" [6]]) ∧
    (∃ σ σ', InTurn env schema (Upserting schema [row 1 "A" [5], row 6 "F" [6]])
      (fun m h w => SafeDelete env schema m (idIs "gt" 5) h w) σ mainBranch σ' mainBranch ∧
      Reads env σ mainBranch [row 1 "a" [1], row 2 "b" [2], row 3 "c" [3], row 4 "d" [4]] ∧
      Reads env σ' mainBranch [row 2 "b" [2], row 3 "c" [3], row 4 "d" [4], row 1 "A" [5]]) ∧
    (∃ σ σ', InTurn env schema (fun m h w => SafeDelete env schema m (idIs "equal" 1) h w)
      (Upserting schema [row 1 "A" [5], row 6 "F" [6]]) σ mainBranch σ' mainBranch ∧
      Reads env σ mainBranch [row 1 "a" [1], row 2 "b" [2], row 3 "c" [3], row 4 "d" [4]] ∧
      Reads env σ' mainBranch [row 2 "b" [2], row 3 "c" [3], row 4 "d" [4], row 1 "A" [5], row 6 "F" [6]]) := by
  let as : List Act := [.call 0 (.mutate (.append [[row 1 "a" [1], row 2 "b" [2], row 3 "c" [3], row 4 "d" [4]]]))]
  exact ⟨by decide, keysSetB_set (by decide), fitsB_fits (by decide), fitsB_fits (by decide), fitsB_fits (by decide),
    inTurn_of as (m1 := .upsert [row 1 "A" [5], row 6 "F" [6]]) (m2 := .rayDelete (idIs "equal" 3))
      (fun _ _ => upserting_of rfl) (fun _ _ => safeDeleteB_safe)
      (by decide +kernel) (by decide +kernel) (by decide +kernel) (by decide +kernel)
      (by decide +kernel) (by decide +kernel) (by decide +kernel),
    inTurn_of as (m1 := .delete (idIs "equal" 3)) (m2 := .rayInsert .upsert 2 [0, 1] [row 1 "A" [5], row 6 "F" [6]])
      (fun _ _ => safeDeleteB_safe) (fun _ _ => upserting_of rfl)
      (by decide +kernel) (by decide +kernel) (by decide +kernel) (by decide +kernel)
      (by decide +kernel) (by decide +kernel) (by decide +kernel),
    inTurn_of as (m1 := .upsert [row 1 "A" [5], row 6 "F" [6]]) (m2 := .delete (idIs "gt" 5))
      (fun _ _ => upserting_of rfl) (fun _ _ => safeDeleteB_safe)
      (by decide +kernel) (by decide +kernel) (by decide +kernel) (by decide +kernel)
      (by decide +kernel) (by decide +kernel) (by decide +kernel),
    inTurn_of as (m1 := .delete (idIs "equal" 1)) (m2 := .rayInsert .upsert 2 [0, 1] [row 1 "A" [5], row 6 "F" [6]])
      (fun _ _ => safeDeleteB_safe) (fun _ _ => upserting_of rfl)
      (by decide +kernel) (by decide +kernel) (by decide +kernel) (by decide +kernel)
      (by decide +kernel) (by decide +kernel) (by decide +kernel)⟩

/-- The same upsert in turn with an append of two rows, one with a key of the upsert. -/
example :
    (∃ σ σ', InTurn env schema (Upserting schema [row 1 "A" [5], row 6 "F" [6]])
      (fun m _ _ => Appending m [row 6 "B" [], row 7 "g" [7]]) σ mainBranch σ' mainBranch ∧
      Reads env σ mainBranch [row 1 "a" [1], row 2 "b" [2], row 3 "c" [3], row 4 "d" [4]] ∧
      Reads env σ' mainBranch [row 2 "b" [2], row 3 "c" [3], row 4 "d" [4], row 1 "A" [5], row 6 "F" [6], row 6 "B" [],
        row 7 "g" [7]]) ∧
    (∃ σ σ', InTurn env schema (fun m _ _ => Appending m [row 6 "B" [], row 7 "g" [7]])
      (Upserting schema [row 1 "A" [5], row 6 "F" [6]]) σ mainBranch σ' mainBranch ∧
      Reads env σ mainBranch [row 1 "a" [1], row 2 "b" [2], row 3 "c" [3], row 4 "d" [4]] ∧
      Reads env σ' mainBranch [row 2 "b" [2], row 3 "c" [3], row 4 "d" [4], row 7 "g" [7], row 1 "A" [5],
        row 6 "F" [6]]) ∧
    KeysSet schema [row 6 "B" [], row 7 "g" [7]] := by
  let as : List Act := [.call 0 (.mutate (.append [[row 1 "a" [1], row 2 "b" [2], row 3 "c" [3], row 4 "d" [4]]]))]
  have hl : Appending (.append [[row 6 "B" [], row 7 "g" [7]]]) [row 6 "B" [], row 7 "g" [7]] := Or.inl ⟨_, rfl, rfl⟩
  exact ⟨inTurn_of as (m1 := .upsert [row 1 "A" [5], row 6 "F" [6]]) (q := fun _ _ => true)
      (fun _ _ => upserting_of rfl) (fun _ _ _ => hl)
      (by decide +kernel) (by decide +kernel) (by decide +kernel) (by decide +kernel)
      (by decide +kernel) (by decide +kernel) (by decide +kernel),
    inTurn_of as (m2 := .rayInsert .upsert 2 [0, 1] [row 1 "A" [5], row 6 "F" [6]]) (p := fun _ _ => true)
      (fun _ _ _ => hl) (fun _ _ => upserting_of rfl)
      (by decide +kernel) (by decide +kernel) (by decide +kernel) (by decide +kernel)
      (by decide +kernel) (by decide +kernel) (by decide +kernel),
    keysSetB_set (by decide)⟩

/-- C90 is false where the delete loses rows: of the rows there were and the row upserted only the latter is left. -/
theorem C90_violated : ∃ e A old mid new, FilterFits schema e ∧ KeysSet schema old ∧ KeysSet schema A ∧
    (∀ r ∈ old, e.truth env.I r ≠ none) ∧ Undoing env schema (.delete e) (.upsert A) old mid new ∧
    ¬ new ~ old.filter (fun r => e.truth env.I r != some true && Other schema A r) ++ A := by
  refine ⟨idIs "lt" 5, [row 9 "i" []], [row 1 "a" [1], row 2 "b" [2], row 3 "c" [3], row 4 "d" [4], row 5 "e" [5]], [],
    [row 9 "i" []], fitsB_fits (by decide), keysSetB_set (by decide), keysSetB_set (by decide), by decide,
    undoing_of [.call 0 (.mutate (.append [[row 1 "a" [1], row 2 "b" [2], row 3 "c" [3], row 4 "d" [4]],
      [row 5 "e" [5]]]))]
      (by decide +kernel) (by decide +kernel) (by decide +kernel) (by decide +kernel)
      (by decide +kernel) (by decide +kernel) (by decide +kernel), ?_⟩
  intro h
  have := h.length_eq
  revert this
  decide

end Space
