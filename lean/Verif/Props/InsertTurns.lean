import Verif.Props.UpsertTurns

/-! # C91: inserts in turn with inserts and deletes, and instead of upserts -/

set_option autoImplicit false

namespace Space

open List

section
variable {E : Env} {s : Schema} {e : Expr} {A B : List Row}

/-- An insert of these rows, local or by Ray. -/
def Inserting (m : Mutation) (rows : List Row) : Prop := m.inserts = some (.insert, rows)

theorem mem_keysOf {rows : List Row} {k : List Val} : k ∈ keysOf s rows ↔ ∃ r ∈ rows, s.pks.map r.val = k := List.mem_map

theorem keysOf_append : keysOf s (A ++ B) = keysOf s A ++ keysOf s B := List.map_append

/-- What an insert that took effect left, and that none of its keys was there. -/
theorem Inserting.rows (hk : KeySchema s) (hlast : s.writeNames = s.names) (hc : ∀ r ∈ A, r.cols = s.names) {i : Nat}
    {m : Mutation} {σ σ' : Sys} {sl : Slot} (ha : Inserting m A) (h : Done E s i m σ σ') (hi : σ.slots[i]? = some sl) :
    (keysOf s A).Nodup ∧ ∃ old new, Reads E σ sl.h.branch old ∧ Reads E σ' sl.h.branch new ∧ new ~ old ++ A ∧
      (KeysSet s old → ∀ r ∈ old, s.pks.map r.val ∉ keysOf s A) := by
  obtain ⟨sl', sl1, w, h1, w1, p, cur, snap, hl, hr, hr'⟩ := h.landing hk.names
  cases hi.symm.trans hl.slot
  obtain ⟨a, -, c, he⟩ := hl.succ.insertG hk ha
  have hss : (·.select s.writeNames) ∘ (·.select s.writeNames) = ((·.select s.writeNames) : Row → Row) := by
    funext r
    exact select_select (fun c hc => hc)
  refine ⟨a, _, _, hr, hr', ?_, fun hset r hr => ?_⟩
  · have := he.map (·.select s.writeNames)
    rw [List.map_append, List.map_map, hss] at this
    rw [hlast, select_rows hk.names hc] at this
    rw [hlast]
    exact this
  · obtain ⟨x, hx, rfl⟩ := List.mem_map.mp hr
    have hkx : s.pks.map (x.select s.writeNames).val = s.pks.map x.val := keyOf_select hk x
    rw [hkx]
    refine c x hx fun k hkk hnan => ?_
    obtain ⟨v, hv, hvn⟩ := hset _ hr k hkk
    rw [select_val (writeNames_sub.mpr (hk.keys k hkk)), hnan] at hv
    cases hv
    exact hvn rfl

/-- An upsert that took effect, of rows whose keys were not there: on every layout it adds its rows. -/
theorem Done.upsertNew (hk : KeySchema s) (hlast : s.writeNames = s.names) (hc : ∀ r ∈ A, r.cols = s.names) {i : Nat}
    {m : Mutation} {σ σ' : Sys} {sl : Slot} (ha : m.inserts = some (.upsert, A)) (h : Done E s i m σ σ')
    (hi : σ.slots[i]? = some sl) :
    ∃ old new, Reads E σ sl.h.branch old ∧ Reads E σ' sl.h.branch new ∧
      (KeysSet s old → (∀ r ∈ old, s.pks.map r.val ∉ keysOf s A) → new ~ old ++ A) := by
  obtain ⟨sl', old, new, k1, k2, k3, k4⟩ := h.upsertEffect hk ha
  cases hi.symm.trans k1
  refine ⟨old, new, k2, k3, fun hset hno => ?_⟩
  obtain ⟨sl', sl1, w, h1, w1, p, cur, snap, hl, hr, -⟩ := h.landing hk.names
  cases hi.symm.trans hl.slot
  have hold := hr.unique hi k2
  have hsp : Spared (fun r => some (decide (s.pks.map r.val ∈ keysOf s A))) (headLayout s sl.h σ.w) := by
    rw [hl.layout]
    refine Or.inr fun man hm ⟨file, hf, r, hr1, ht⟩ => ?_
    exfalso
    have hmem : r ∈ snapRows w.fs s cur := by
      rw [← layout_flatten]
      exact List.mem_flatten.mpr ⟨file, List.mem_flatten.mpr ⟨man, hm, hf⟩, hr1⟩
    refine hno (r.select s.writeNames) (by rw [← hold]; exact List.mem_map_of_mem hmem) ?_
    have hkx : s.pks.map (r.select s.writeNames).val = s.pks.map r.val := keyOf_select hk r
    rw [hkx]
    simpa using ht
  have := (k4 hset).2.mpr hsp
  rw [hlast, select_rows hk.names hc] at this
  refine this.trans (Perm.append_right _ (Perm.of_eq (List.filter_eq_self.mpr fun r hr => ?_)))
  simpa using hno r hr

/-- C91 for two inserts, for keys without null and NaN: their keys are distinct and new, and they leave the rows there were and
all rows of both.  Missing: keys with NaN, see `C91_violated_nan`. -/
theorem C91_inserts_partial (hk : KeySchema s) (hlast : s.writeNames = s.names) (ha : ∀ r ∈ A, r.cols = s.names)
    (hb : ∀ r ∈ B, r.cols = s.names) (hA : KeysSet s A) {σ σ' : Sys} {br br' : String}
    (h : InTurn E s (fun m _ _ => Inserting m A) (fun m _ _ => Inserting m B) σ br σ' br') :
    ∃ old new, Reads E σ br old ∧ Reads E σ' br' new ∧ new ~ old ++ A ++ B ∧
      (KeysSet s old → (keysOf s (A ++ B)).Nodup ∧ ∀ r ∈ old, s.pks.map r.val ∉ keysOf s (A ++ B)) := by
  obtain ⟨i, j, m1, m2, σ1, σ2, sl, sl1, sl2, h1, h2, k1, k2, k3, hv, p1, p2, rfl, rfl⟩ := h
  obtain ⟨n1, old, mid, r1, r2, e1, d1⟩ := Inserting.rows hk hlast ha p1 h1 k1
  obtain ⟨n2, mid', new, r3, r4, e2, d2⟩ := Inserting.rows hk hlast hb p2 h2 k3
  cases h1.between hk.names k1 k2 k3 hv r2 r3
  refine ⟨old, new, r1, r4, e2.trans (e1.append_right _), fun hset => ?_⟩
  have hno := d2 fun r hr => (List.mem_append.mp (e1.mem_iff.mp hr)).elim (hset r) (hA r)
  rw [keysOf_append]
  refine ⟨List.nodup_append.mpr ⟨n1, n2, fun a ha b hb hab => ?_⟩, fun r hr hx => ?_⟩
  · subst hab
    obtain ⟨r, hr, rfl⟩ := mem_keysOf.mp ha
    exact hno r (e1.mem_iff.mpr (List.mem_append_right _ hr)) hb
  · rcases List.mem_append.mp hx with hx | hx
    · exact d1 hset r hr hx
    · exact hno r (e1.mem_iff.mpr (List.mem_append_left _ hr)) hx

/-- C91 for the order of two inserts, for keys without null and NaN: from states in which the branch has the same rows, both
orders leave the same rows, and so does one insert of the rows of both. -/
theorem C91_inserts_order_partial (hk : KeySchema s) (hlast : s.writeNames = s.names) (ha : ∀ r ∈ A, r.cols = s.names)
    (hb : ∀ r ∈ B, r.cols = s.names) (hA : KeysSet s A) (hB : KeysSet s B) {σ σ' τ τ' υ υ' : Sys} {br br' cr cr' : String}
    {i : Nat} {m : Mutation} {sl : Slot}
    (h : InTurn E s (fun m _ _ => Inserting m A) (fun m _ _ => Inserting m B) σ br σ' br')
    (g : InTurn E s (fun m _ _ => Inserting m B) (fun m _ _ => Inserting m A) τ cr τ' cr')
    (f : Done E s i m υ υ') (hm : Inserting m (A ++ B)) (hi : υ.slots[i]? = some sl) :
    ∃ old old' old'' new new' new'', Reads E σ br old ∧ Reads E τ cr old' ∧ Reads E υ sl.h.branch old'' ∧
      Reads E σ' br' new ∧ Reads E τ' cr' new' ∧ Reads E υ' sl.h.branch new'' ∧
      (old' ~ old → new' ~ new) ∧ (old'' ~ old → new'' ~ new) := by
  obtain ⟨old, new, r1, r2, e1, -⟩ := C91_inserts_partial hk hlast ha hb hA h
  obtain ⟨old', new', r3, r4, e2, -⟩ := C91_inserts_partial hk hlast hb ha hB g
  obtain ⟨-, old'', new'', r5, r6, e3, -⟩ := Inserting.rows hk hlast
    (fun r hr => (List.mem_append.mp hr).elim (ha r) (hb r)) hm f hi
  refine ⟨old, old', old'', new, new', new'', r1, r3, r5, r2, r4, r6, fun hp => ?_, fun hp => ?_⟩
  · refine e2.trans (Perm.trans ?_ e1.symm)
    rw [List.append_assoc, List.append_assoc]
    exact hp.append perm_append_comm
  · refine e3.trans (Perm.trans ?_ e1.symm)
    rw [List.append_assoc]
    exact hp.append_right _

/-- C91, an upsert for an insert, for keys without null and NaN, on every layout: where an insert takes effect, an upsert of its
rows that takes effect leaves the same rows. -/
theorem C91_upsert_partial (hk : KeySchema s) (hlast : s.writeNames = s.names) (hc : ∀ r ∈ A, r.cols = s.names) {i j : Nat}
    {m1 m2 : Mutation} {σ σ' τ τ' : Sys} {sl sl' : Slot} (h : Done E s i m1 σ σ') (h1 : Inserting m1 A)
    (hi : σ.slots[i]? = some sl) (g : Done E s j m2 τ τ') (h2 : m2.inserts = some (.upsert, A)) (hj : τ.slots[j]? = some sl') :
    ∃ old old' new new', Reads E σ sl.h.branch old ∧ Reads E τ sl'.h.branch old' ∧ Reads E σ' sl.h.branch new ∧
      Reads E τ' sl'.h.branch new' ∧ (old' ~ old → KeysSet s old → new' ~ new) := by
  obtain ⟨-, old, new, r1, r2, e1, d1⟩ := Inserting.rows hk hlast hc h1 h hi
  obtain ⟨old', new', r3, r4, e2⟩ := g.upsertNew hk hlast hc h2 hj
  refine ⟨old, old', new, new', r1, r3, r2, r4, fun hp hset => ?_⟩
  refine (e2 (fun r hr => hset r (hp.mem_iff.mp hr)) fun r hr => d1 hset r (hp.mem_iff.mp hr)).trans ?_
  exact (hp.append_right _).trans e1.symm

/-- C91 for a delete and then an insert, for keys without null and NaN, filters that fit the schema and are null on no row, on
layouts on which the delete loses no row: the filter was true of every row there was with a key of the insert, and all rows
on which it was not true and those of the insert are there.  Missing: other layouts, see `C91_violated_loss`. -/
theorem C91_deleteInsert_partial (hk : KeySchema s) (hlast : s.writeNames = s.names) (he : FilterFits s e)
    (hc : ∀ r ∈ A, r.cols = s.names) {σ σ' : Sys} {br br' : String}
    (h : InTurn E s (fun m h w => SafeDelete E s m e h w) (fun m _ _ => Inserting m A) σ br σ' br') :
    ∃ old new, Reads E σ br old ∧ Reads E σ' br' new ∧
      (KeysSet s old → (∀ r ∈ old, e.truth E.I r ≠ none) →
        new ~ old.filter (fun r => e.truth E.I r != some true) ++ A ∧
        ∀ r ∈ old, s.pks.map r.val ∈ keysOf s A → e.truth E.I r = some true) := by
  have hn := hk.names
  obtain ⟨i, j, m1, m2, σ1, σ2, sl, sl1, sl2, h1, h2, k1, k2, k3, hv, p1, p2, rfl, rfl⟩ := h
  obtain ⟨old, mid, r1, r2, e1⟩ := p1.rows hn he h1 k1
  obtain ⟨-, mid', new, r3, r4, e2, d2⟩ := Inserting.rows hk hlast hc p2 h2 k3
  cases h1.between hn k1 k2 k3 hv r2 r3
  refine ⟨old, new, r1, r4, fun hset hnn => ?_⟩
  have q1 := e1 hnn
  refine ⟨e2.trans (q1.append_right _), fun r hr hx => ?_⟩
  by_cases ht : e.truth E.I r = some true
  · exact ht
  · have hmid : r ∈ mid := q1.mem_iff.mpr (List.mem_filter.mpr ⟨hr, by simpa using ht⟩)
    exact absurd hx (d2 (fun x hx => hset x (List.mem_filter.mp (q1.mem_iff.mp hx)).1) r hmid)

/-- C91, a delete and an insert for an upsert, for the same keys, filters and layouts: if the filter is true only on rows whose
keys the insert has, they leave the rows that an upsert leaves. -/
theorem C91_replace_partial (hk : KeySchema s) (hlast : s.writeNames = s.names) (he : FilterFits s e)
    (hc : ∀ r ∈ A, r.cols = s.names) {σ σ' τ τ' : Sys} {br br' cr : String}
    (h : InTurn E s (fun m h w => SafeDelete E s m e h w) (fun m _ _ => Inserting m A) σ br σ' br')
    (g : OneUpsert E s A τ cr τ') :
    ∃ old old' new new', Reads E σ br old ∧ Reads E τ cr old' ∧ Reads E σ' br' new ∧ Reads E τ' cr new' ∧
      (old' ~ old → KeysSet s old → (∀ r ∈ old, e.truth E.I r ≠ none) →
        (∀ r ∈ old, e.truth E.I r = some true → s.pks.map r.val ∈ keysOf s A) → new' ~ new) := by
  obtain ⟨old, new, r1, r2, e1⟩ := C91_deleteInsert_partial hk hlast he hc h
  obtain ⟨i, m, sl, g1, g2, g3, g4, rfl⟩ := g
  obtain ⟨old', new', r3, r4, e2⟩ := Upserting.rows hk hlast hc ⟨g2, g4⟩ g1 g3
  refine ⟨old, old', new, new', r1, r3, r2, r4, fun hp hset hnn hall => ?_⟩
  obtain ⟨q1, q2⟩ := e1 hset hnn
  refine (e2 fun r hr => hset r (hp.mem_iff.mp hr)).trans (Perm.trans (Perm.append_right _ ?_) q1.symm)
  refine (hp.filter _).trans (Perm.of_eq (List.filter_congr fun r hr => ?_))
  by_cases hx : s.pks.map r.val ∈ keysOf s A
  · simp [Other, hx, q2 r hr hx]
  · have : e.truth E.I r ≠ some true := fun ht => hx (hall r hr ht)
    simp [Other, hx, this]

/-- C91 for an insert and then a delete, for the same filters and layouts: of the rows there were and those of the insert, those
stay on which the filter is not true. -/
theorem C91_insertDelete_partial (hk : KeySchema s) (hlast : s.writeNames = s.names) (he : FilterFits s e)
    (hc : ∀ r ∈ A, r.cols = s.names) {σ σ' : Sys} {br br' : String}
    (h : InTurn E s (fun m _ _ => Inserting m A) (fun m h w => SafeDelete E s m e h w) σ br σ' br') :
    ∃ old new, Reads E σ br old ∧ Reads E σ' br' new ∧
      ((∀ r ∈ old ++ A, e.truth E.I r ≠ none) → new ~ (old ++ A).filter (fun r => e.truth E.I r != some true)) := by
  have hn := hk.names
  obtain ⟨i, j, m1, m2, σ1, σ2, sl, sl1, sl2, h1, h2, k1, k2, k3, hv, p1, p2, rfl, rfl⟩ := h
  obtain ⟨-, old, mid, r1, r2, e1, -⟩ := Inserting.rows hk hlast hc p1 h1 k1
  obtain ⟨mid', new, r3, r4, e2⟩ := p2.rows hn he h2 k3
  cases h1.between hn k1 k2 k3 hv r2 r3
  exact ⟨old, new, r1, r4, fun hnn => (e2 fun r hr => hnn r (e1.mem_iff.mp hr)).trans (e1.filter _)⟩

end

open Demo

/-- Four rows, an insert of two and one of a third by Ray, in both orders and as one; the same as an upsert. -/
example :
    (∃ σ σ', InTurn env schema (fun m _ _ => Inserting m [row 5 "e" [5], row 6 "f" [6]])
      (fun m _ _ => Inserting m [row 7 "g" [7]]) σ mainBranch σ' mainBranch ∧ Reads env σ mainBranch [row 1 "a" [1], row 2 "b" [2], row 3 "c" [3], row 4 "d" [4]] ∧
      Reads env σ' mainBranch ([row 1 "a" [1], row 2 "b" [2], row 3 "c" [3], row 4 "d" [4]] ++ [row 5 "e" [5], row 6 "f" [6], row 7 "g" [7]])) ∧
    (∃ σ σ', InTurn env schema (fun m _ _ => Inserting m [row 7 "g" [7]])
      (fun m _ _ => Inserting m [row 5 "e" [5], row 6 "f" [6]]) σ mainBranch σ' mainBranch ∧ Reads env σ mainBranch [row 1 "a" [1], row 2 "b" [2], row 3 "c" [3], row 4 "d" [4]] ∧
      Reads env σ' mainBranch ([row 1 "a" [1], row 2 "b" [2], row 3 "c" [3], row 4 "d" [4]] ++ [row 7 "g" [7], row 5 "e" [5], row 6 "f" [6]])) ∧
    (∃ σ σ' σ'' sl, Done env schema 0 (.insert ([row 5 "e" [5], row 6 "f" [6]] ++ [row 7 "g" [7]])) σ σ' ∧
      Done env schema 0 (.upsert ([row 5 "e" [5], row 6 "f" [6]] ++ [row 7 "g" [7]])) σ σ'' ∧
      σ.slots[0]? = some sl ∧ Reads env σ mainBranch [row 1 "a" [1], row 2 "b" [2], row 3 "c" [3], row 4 "d" [4]] ∧
      Reads env σ' mainBranch ([row 1 "a" [1], row 2 "b" [2], row 3 "c" [3], row 4 "d" [4]] ++ [row 5 "e" [5], row 6 "f" [6], row 7 "g" [7]]) ∧
      Reads env σ'' mainBranch ([row 1 "a" [1], row 2 "b" [2], row 3 "c" [3], row 4 "d" [4]] ++ [row 5 "e" [5], row 6 "f" [6], row 7 "g" [7]])) ∧
    KeysSet schema [row 1 "a" [1], row 2 "b" [2], row 3 "c" [3], row 4 "d" [4]] ∧ KeysSet schema [row 5 "e" [5], row 6 "f" [6]] ∧ KeysSet schema [row 7 "g" [7]] := by
  let as : List Act := [.call 0 (.mutate (.append [[row 1 "a" [1], row 2 "b" [2], row 3 "c" [3], row 4 "d" [4]]]))]
  have hl : Inserting (.insert [row 5 "e" [5], row 6 "f" [6]]) [row 5 "e" [5], row 6 "f" [6]] := rfl
  have hr : Inserting (.rayInsert .insert 2 [1, 0] [row 7 "g" [7]]) [row 7 "g" [7]] := rfl
  refine ⟨inTurn_of as (p := fun _ _ => true) (q := fun _ _ => true) (fun _ _ _ => hl) (fun _ _ _ => hr)
      (by decide +kernel) (by decide +kernel) (by decide +kernel) (by decide +kernel)
      (by decide +kernel) (by decide +kernel) (by decide +kernel),
    inTurn_of as (p := fun _ _ => true) (q := fun _ _ => true) (fun _ _ _ => hr) (fun _ _ _ => hl)
      (by decide +kernel) (by decide +kernel) (by decide +kernel) (by decide +kernel)
      (by decide +kernel) (by decide +kernel) (by decide +kernel), ?_,
    keysSetB_set (by decide), keysSetB_set (by decide), keysSetB_set (by decide)⟩
  obtain ⟨-, hs1⟩ := doing_step (E := env) (s := schema) (σ := after env anyB schema as)
    (a := .call 0 (.mutate (.insert ([row 5 "e" [5], row 6 "f" [6]] ++ [row 7 "g" [7]]))))
    (o := .res (.job .succeeded)) (by decide +kernel)
  obtain ⟨-, hs2⟩ := doing_step (E := env) (s := schema) (σ := after env anyB schema as)
    (a := .call 0 (.mutate (.upsert ([row 5 "e" [5], row 6 "f" [6]] ++ [row 7 "g" [7]]))))
    (o := .res (.job .succeeded)) (by decide +kernel)
  obtain ⟨sl, k0, -, -⟩ := slot_of (σ := after env anyB schema as) (i := 0) (f := fun sl => sl.h.branch)
    (x := mainBranch) (by decide +kernel)
  exact ⟨_, _, _, sl, .call (after_reach (fun _ _ _ => trivial) _) hs1, .call (after_reach (fun _ _ _ => trivial) _) hs2, k0,
    reads_of (by decide +kernel), reads_of (by decide +kernel), reads_of (by decide +kernel)⟩

/-- A delete of one of four rows and an insert of a row with its key and another, as an upsert would leave; an insert of
two rows and a delete of one of them. -/
example : FilterFits schema (idIs "equal" 1) ∧ FilterFits schema (idIs "equal" 5) ∧
    (∃ σ σ', InTurn env schema (fun m h w => SafeDelete env schema m (idIs "equal" 1) h w)
      (fun m _ _ => Inserting m [row 1 "A" [5], row 6 "F" [6]]) σ mainBranch σ' mainBranch ∧ Reads env σ mainBranch [row 1 "a" [1], row 2 "b" [2], row 3 "c" [3], row 4 "d" [4]] ∧
      Reads env σ' mainBranch [row 2 "b" [2], row 3 "c" [3], row 4 "d" [4], row 1 "A" [5], row 6 "F" [6]]) ∧
    (∃ σ σ', OneUpsert env schema [row 1 "A" [5], row 6 "F" [6]] σ mainBranch σ' ∧ Reads env σ mainBranch [row 1 "a" [1], row 2 "b" [2], row 3 "c" [3], row 4 "d" [4]] ∧
      Reads env σ' mainBranch [row 2 "b" [2], row 3 "c" [3], row 4 "d" [4], row 1 "A" [5], row 6 "F" [6]]) ∧
    (∃ σ σ', InTurn env schema (fun m _ _ => Inserting m [row 5 "e" [5], row 6 "f" [6]])
      (fun m h w => SafeDelete env schema m (idIs "equal" 5) h w) σ mainBranch σ' mainBranch ∧ Reads env σ mainBranch [row 1 "a" [1], row 2 "b" [2], row 3 "c" [3], row 4 "d" [4]] ∧
      Reads env σ' mainBranch ([row 1 "a" [1], row 2 "b" [2], row 3 "c" [3], row 4 "d" [4]] ++ [row 6 "f" [6]])) ∧
    (∀ r ∈ [row 1 "a" [1], row 2 "b" [2], row 3 "c" [3], row 4 "d" [4]],
      (idIs "equal" 1).truth env.I r = some true → schema.pks.map r.val ∈ keysOf schema [row 1 "A" [5], row 6 "F" [6]]) := by
  let as : List Act := [.call 0 (.mutate (.append [[row 1 "a" [1], row 2 "b" [2], row 3 "c" [3], row 4 "d" [4]]]))]
  have hl : Inserting (.insert [row 1 "A" [5], row 6 "F" [6]]) [row 1 "A" [5], row 6 "F" [6]] := rfl
  have hr : Inserting (.insert [row 5 "e" [5], row 6 "f" [6]]) [row 5 "e" [5], row 6 "f" [6]] := rfl
  refine ⟨fitsB_fits (by decide), fitsB_fits (by decide),
    inTurn_of as (m1 := .delete (idIs "equal" 1)) (q := fun _ _ => true) (fun _ _ => safeDeleteB_safe) (fun _ _ _ => hl)
      (by decide +kernel) (by decide +kernel) (by decide +kernel) (by decide +kernel)
      (by decide +kernel) (by decide +kernel) (by decide +kernel), ?_,
    inTurn_of as (m2 := .delete (idIs "equal" 5)) (p := fun _ _ => true) (fun _ _ _ => hr) (fun _ _ => safeDeleteB_safe)
      (by decide +kernel) (by decide +kernel) (by decide +kernel) (by decide +kernel)
      (by decide +kernel) (by decide +kernel) (by decide +kernel), by decide⟩
  let m : Mutation := .upsert [row 1 "A" [5], row 6 "F" [6]]
  obtain ⟨-, hs1⟩ := doing_step (E := env) (s := schema) (σ := after env anyB schema as) (a := .call 0 (.mutate m))
    (o := .res (.job .succeeded)) (by decide +kernel)
  obtain ⟨sl, k0, -, k5⟩ := slot_of (σ := after env anyB schema as) (i := 0) (f := fun sl => (sl.h.branch,
    safeUpsertB schema [row 1 "A" [5], row 6 "F" [6]] sl.h (after env anyB schema as).w)) (x := (mainBranch, true))
    (by decide +kernel)
  simp only [Prod.mk.injEq] at k5
  exact ⟨_, _, ⟨0, m, sl, .call (after_reach (fun _ _ _ => trivial) _) hs1, rfl, k0, sparedB_spared k5.2, k5.1⟩,
    reads_of (by decide +kernel), reads_of (by decide +kernel)⟩

/-- C91 is false where the delete loses rows: of the rows there were and the row inserted only the latter is left. -/
theorem C91_violated_loss : ∃ e A old mid new, FilterFits schema e ∧ KeysSet schema old ∧ KeysSet schema A ∧
    (∀ r ∈ old, e.truth env.I r ≠ none) ∧ Undoing env schema (.delete e) (.insert A) old mid new ∧
    ¬ new ~ old.filter (fun r => e.truth env.I r != some true) ++ A := by
  refine ⟨idIs "lt" 5, [row 9 "i" []], [row 1 "a" [1], row 2 "b" [2], row 3 "c" [3], row 4 "d" [4], row 5 "e" [5]], [],
    [row 9 "i" []], fitsB_fits (by decide), keysSetB_set (by decide), keysSetB_set (by decide), by decide,
    undoing_of [.call 0 (.mutate (.append [[row 1 "a" [1], row 2 "b" [2], row 3 "c" [3], row 4 "d" [4]],
      [row 5 "e" [5]]]))]
      (by decide +kernel) (by decide +kernel) (by decide +kernel) (by decide +kernel)
      (by decide +kernel) (by decide +kernel) (by decide +kernel), ?_⟩
  intro h
  have := h.length_eq
  revert this
  decide

/-- C91 is false for keys with NaN: of two inserts of one key both take effect. -/
theorem C91_violated_nan : Undoing env floatKey (.insert [rowX .nan "a"]) (.insert [rowX .nan "b"]) []
    [rowX .nan "a"] [rowX .nan "a", rowX .nan "b"] ∧
    ¬ (keysOf floatKey ([rowX .nan "a"] ++ [rowX .nan "b"])).Nodup :=
  ⟨undoing_of [] (by decide +kernel) (by decide +kernel) (by decide +kernel) (by decide +kernel) (by decide +kernel)
    (by decide +kernel) (by decide +kernel), by decide⟩

end Space
