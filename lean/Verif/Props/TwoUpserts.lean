import Verif.Props.TwoDeletes
import Verif.Props.Refine

/-! # C88: the order of two upserts -/

set_option autoImplicit false

namespace Space

open List

section
variable {E : Env} {s : Schema} {A B : List Row}

/-- The branch of the handle lies in files such that an upsert of `rows` loses no row (see C08). -/
def SafeUpsert (s : Schema) (rows : List Row) (h : Handle) (w : World) : Prop :=
  Spared (fun r => some (decide (s.pks.map r.val ∈ keysOf s rows))) (headLayout s h w)

/-- Two upserts that took effect, local or by Ray, the first of `A` on branch `br`, the second of `B` on the version
that the first left, by any handle (its branch is `br'`). -/
def TwoUpserts (E : Env) (s : Schema) (A B : List Row) (σ : Sys) (br : String) (σ' : Sys) (br' : String) : Prop :=
  ∃ i j m1 m2 σ1 σ2 sl sl1 sl2, Done E s i m1 σ σ1 ∧ Done E s j m2 σ2 σ' ∧
    m1.inserts = some (.upsert, A) ∧ m2.inserts = some (.upsert, B) ∧
    σ.slots[i]? = some sl ∧ σ1.slots[i]? = some sl1 ∧ σ2.slots[j]? = some sl2 ∧ SameVersion E s σ1 sl1 σ2 sl2 ∧
    SafeUpsert s A sl.h σ.w ∧ SafeUpsert s B sl2.h σ2.w ∧ sl.h.branch = br ∧ sl2.h.branch = br'

/-- C88, for keys without null and NaN, on layouts on which upserts lose no row: two upserts, the second on the version
that the first left, leave the rows of the second, those of the first with other keys than these, and those there were
with keys that neither has.  Missing: other layouts, see `C88_violated_loss`; NaN in keys, see `C88_violated_nan`. -/
theorem C88_rows_partial (hk : KeySchema s) (hA : KeysSet s A) {σ σ' : Sys} {br br' : String}
    (h : TwoUpserts E s A B σ br σ' br') :
    ∃ old new, Reads E σ br old ∧ Reads E σ' br' new ∧
      (KeysSet s old →
        new ~ old.filter (fun r => decide (s.pks.map r.val ∉ keysOf s A ∧ s.pks.map r.val ∉ keysOf s B)) ++
          ((A.filter (fun r => decide (s.pks.map r.val ∉ keysOf s B))) ++ B).map (·.select s.writeNames)) := by
  have hn := hk.names
  obtain ⟨i, j, m1, m2, σ1, σ2, sl, sl1, sl2, h1, h2, i1, i2, k1, k2, k3, hv, s1, s2, rfl, rfl⟩ := h
  obtain ⟨sl', old, mid, l1, r1, r2, e1⟩ := h1.upsertEffect hk i1
  cases k1.symm.trans l1
  obtain ⟨sl2', mid', new, l2, r3, r4, e2⟩ := h2.upsertEffect hk i2
  cases k3.symm.trans l2
  obtain ⟨hr0, ev, hst0⟩ := h1.reach
  obtain ⟨sla, slb, w, h1', w1, p, cur, snap, hl, -, -⟩ := h1.landing hn
  cases hl.slot.symm.trans k1
  cases hl.slot'.symm.trans k2
  rw [← hl.branch] at r2
  have r2' := hv.reads hn (hr0.step trivial hst0) k2 hl.succ.head' r2
  cases r2'.unique k3 r3
  refine ⟨old, new, r1, r4, fun hset => ?_⟩
  have p1 := (e1 hset).2.mpr s1
  have hmid : KeysSet s mid := by
    intro r hr k hkk
    rcases List.mem_append.mp (p1.mem_iff.mp hr) with hr | hr
    · exact hset r (List.mem_filter.mp hr).1 k hkk
    · obtain ⟨a, ha, rfl⟩ := List.mem_map.mp hr
      rw [select_val (writeNames_sub.mpr (hk.keys k hkk))]
      exact hA a ha k hkk
  have p2 := (e2 hmid).2.mpr s2
  refine p2.trans ?_
  rw [List.map_append, ← List.append_assoc]
  refine Perm.append ((p1.filter _).trans (Perm.of_eq ?_)) (Perm.refl _)
  rw [List.filter_append, List.filter_filter, List.filter_map]
  congr 1
  · refine List.filter_congr fun r _ => ?_
    rw [Bool.eq_iff_iff]
    simp only [Bool.and_eq_true, decide_eq_true_eq]
    exact and_comm
  · refine congrArg _ (List.filter_congr fun r _ => ?_)
    rw [Function.comp_apply]
    rw [show s.pks.map (r.select s.writeNames).val = s.pks.map r.val from keyOf_select hk r]

/-- C88, order, for the same keys and layouts: from states in which the branch has the same rows, upserts of rows that
have no key in common leave the same rows in either order. -/
theorem C88_order_partial (hk : KeySchema s) (hA : KeysSet s A) (hB : KeysSet s B)
    (hd : ∀ x ∈ keysOf s A, x ∉ keysOf s B) {σ σ' τ τ' : Sys} {br br' cr cr' : String}
    (h : TwoUpserts E s A B σ br σ' br') (g : TwoUpserts E s B A τ cr τ' cr') :
    ∃ old old' new new', Reads E σ br old ∧ Reads E τ cr old' ∧ Reads E σ' br' new ∧ Reads E τ' cr' new' ∧
      (old' ~ old → KeysSet s old → new' ~ new) := by
  obtain ⟨old, new, r1, r2, e1⟩ := C88_rows_partial hk hA h
  obtain ⟨old', new', r3, r4, e2⟩ := C88_rows_partial hk hB g
  refine ⟨old, old', new, new', r1, r3, r2, r4, fun hp hset => ?_⟩
  have full : ∀ {X Y : List Row}, (∀ x ∈ keysOf s X, x ∉ keysOf s Y) →
      X.filter (fun r => decide (s.pks.map r.val ∉ keysOf s Y)) = X := by
    intro X Y h
    refine List.filter_eq_self.mpr fun r hr => ?_
    simp only [decide_eq_true_eq]
    exact h _ (List.mem_map_of_mem (f := fun r => s.pks.map r.val) hr)
  have q1 := e1 hset
  have q2 := e2 fun r hr => hset r (hp.mem_iff.mp hr)
  rw [full hd] at q1
  rw [full fun x hx hx' => hd x hx' hx] at q2
  refine (q2.trans ?_).trans q1.symm
  refine Perm.append ((hp.filter _).trans (Perm.of_eq (List.filter_congr fun r _ => ?_))) ?_
  · rw [Bool.eq_iff_iff]
    simp only [decide_eq_true_eq]
    exact and_comm
  · exact List.perm_append_comm.map _

/-- One upsert that took effect on branch `br`. -/
def OneUpsert (E : Env) (s : Schema) (A : List Row) (σ : Sys) (br : String) (σ' : Sys) : Prop :=
  ∃ i m sl, Done E s i m σ σ' ∧ m.inserts = some (.upsert, A) ∧ σ.slots[i]? = some sl ∧ SafeUpsert s A sl.h σ.w ∧
    sl.h.branch = br

/-- C88, one upsert for two, for the same keys and layouts: from states in which the branch has the same rows, one
upsert of `A ++ B` leaves the rows that the upserts of `A` and then `B` leave, if `A` and `B` have no key in common. -/
theorem C88_one_partial (hk : KeySchema s) (hA : KeysSet s A) (hd : ∀ x ∈ keysOf s A, x ∉ keysOf s B)
    {σ σ' τ τ' : Sys} {br br' cr : String} (h : TwoUpserts E s A B σ br σ' br') (g : OneUpsert E s (A ++ B) τ cr τ') :
    ∃ old old' new new', Reads E σ br old ∧ Reads E τ cr old' ∧ Reads E σ' br' new ∧ Reads E τ' cr new' ∧
      (old' ~ old → KeysSet s old → new' ~ new) := by
  obtain ⟨old, new, r1, r2, e1⟩ := C88_rows_partial hk hA h
  obtain ⟨i, m, sl, g1, g2, g3, g4, rfl⟩ := g
  obtain ⟨sl', old', new', l1, r3, r4, e2⟩ := g1.upsertEffect hk g2
  cases g3.symm.trans l1
  refine ⟨old, old', new, new', r1, r3, r2, r4, fun hp hset => ?_⟩
  have q1 := e1 hset
  have q2 := (e2 fun r hr => hset r (hp.mem_iff.mp hr)).2.mpr g4
  have full : A.filter (fun r => decide (s.pks.map r.val ∉ keysOf s B)) = A := by
    refine List.filter_eq_self.mpr fun r hr => ?_
    simp only [decide_eq_true_eq]
    exact hd _ (List.mem_map_of_mem (f := fun r => s.pks.map r.val) hr)
  rw [full] at q1
  refine (q2.trans ?_).trans q1.symm
  refine Perm.append ((hp.filter _).trans (Perm.of_eq (List.filter_congr fun r _ => ?_))) (Perm.refl _)
  have : keysOf s (A ++ B) = keysOf s A ++ keysOf s B := List.map_append
  rw [Bool.eq_iff_iff, decide_eq_true_eq, decide_eq_true_eq, this, List.mem_append, not_or]

end

open Demo

/-- Decides `SafeUpsert`. -/
def Demo.safeUpsertB (s : Schema) (rows : List Row) (h : Handle) (w : World) : Bool :=
  sparedB (fun r => some (decide (s.pks.map r.val ∈ keysOf s rows))) (headLayout s h w)

theorem Demo.twoUpserts_of {E : Env} {s : Schema} (as : List Act) {m1 m2 : Mutation} {A B : List Row} {old new : List Row}
    (i1 : m1.inserts = some (.upsert, A)) (i2 : m2.inserts = some (.upsert, B))
    (h1 : (act E (after E anyB s as) (.call 0 (.mutate m1))).map (fun x => outOf x.1) = some (.res (.job .succeeded)))
    (h2 : ((doing E (after E anyB s as) (.call 0 (.mutate m1))).slots[0]?).map
        (fun sl => headOf sl.h (doing E (after E anyB s as) (.call 0 (.mutate m1))).w) =
      ((between E s as m1).slots[1]?).map (fun sl => headOf sl.h (between E s as m1).w))
    (h3 : ((between E s as m1).slots[1]?).map
        (fun sl => (sl.h.branch, safeUpsertB s B sl.h (between E s as m1).w)) = some (mainBranch, true))
    (h4 : (act E (between E s as m1) (.call 1 (.mutate m2))).map (fun x => outOf x.1) = some (.res (.job .succeeded)))
    (h5 : ((after E anyB s as).slots[0]?).map
        (fun sl => (sl.h.branch, safeUpsertB s A sl.h (after E anyB s as).w)) = some (mainBranch, true))
    (h6 : readsB E (after E anyB s as) old = true)
    (h7 : readsB E (doing E (between E s as m1) (.call 1 (.mutate m2))) new = true) :
    ∃ σ σ', TwoUpserts E s A B σ mainBranch σ' mainBranch ∧ Reads E σ mainBranch old ∧ Reads E σ' mainBranch new := by
  obtain ⟨-, hs1⟩ := doing_step (E := E) (s := s) h1
  obtain ⟨-, hs2⟩ := doing_step (E := E) (s := s) h4
  obtain ⟨sl, k0, -, k5⟩ := slot_of h5
  obtain ⟨sl2, k1, -, k2⟩ := slot_of h3
  simp only [Prod.mk.injEq] at k5 k2
  have hr : Reach E s anyStep (after E anyB s as) := after_reach (fun _ _ _ => trivial) _
  have hrun : Run E s anyStep (doing E (after E anyB s as) (.call 0 (.mutate m1))) (between E s as m1) :=
    more_run (fun _ _ _ => trivial) _ _
  rw [k1] at h2
  obtain ⟨sl1, k3, -, k4⟩ := slot_of h2
  exact ⟨_, _, ⟨0, 1, m1, m2, _, _, sl, sl1, sl2, .call hr hs1, .call ((hr.step trivial hs1).run hrun) hs2, i1, i2,
    k0, k3, k1, ⟨hrun, k4.symm⟩, sparedB_spared k5.2, sparedB_spared k2.2, k5.1, k2.1⟩, reads_of h6, reads_of h7⟩

/-- Four rows, of which two upserts, one local and one by Ray, replace one each and add another, in either order or
in one. -/
example :
    (∃ σ σ', TwoUpserts env schema [row 1 "A" [5], row 6 "F" [6]] [row 2 "B" [], row 5 "E" [7]] σ mainBranch σ' mainBranch ∧
      Reads env σ mainBranch [row 1 "a" [1], row 2 "b" [2], row 3 "c" [3], row 4 "d" [4]] ∧
      Reads env σ' mainBranch [row 1 "A" [5], row 6 "F" [6], row 3 "c" [3], row 4 "d" [4], row 2 "B" [], row 5 "E" [7]]) ∧
    (∃ σ σ', TwoUpserts env schema [row 2 "B" [], row 5 "E" [7]] [row 1 "A" [5], row 6 "F" [6]] σ mainBranch σ' mainBranch ∧
      Reads env σ mainBranch [row 1 "a" [1], row 2 "b" [2], row 3 "c" [3], row 4 "d" [4]] ∧
      Reads env σ' mainBranch [row 2 "B" [], row 5 "E" [7], row 3 "c" [3], row 4 "d" [4], row 1 "A" [5], row 6 "F" [6]]) ∧
    (∃ σ σ', OneUpsert env schema ([row 1 "A" [5], row 6 "F" [6]] ++ [row 2 "B" [], row 5 "E" [7]]) σ mainBranch σ' ∧
      Reads env σ mainBranch [row 1 "a" [1], row 2 "b" [2], row 3 "c" [3], row 4 "d" [4]] ∧
      Reads env σ' mainBranch [row 3 "c" [3], row 4 "d" [4], row 1 "A" [5], row 6 "F" [6], row 2 "B" [], row 5 "E" [7]]) ∧
    KeysSet schema [row 1 "a" [1], row 2 "b" [2], row 3 "c" [3], row 4 "d" [4]] ∧
    KeysSet schema [row 1 "A" [5], row 6 "F" [6]] ∧ KeysSet schema [row 2 "B" [], row 5 "E" [7]] ∧
    (∀ x ∈ keysOf schema [row 1 "A" [5], row 6 "F" [6]], x ∉ keysOf schema [row 2 "B" [], row 5 "E" [7]]) := by
  let as : List Act := [.call 0 (.mutate (.append [[row 1 "a" [1], row 2 "b" [2], row 3 "c" [3], row 4 "d" [4]]]))]
  refine ⟨twoUpserts_of as (m1 := .upsert [row 1 "A" [5], row 6 "F" [6]])
      (m2 := .rayInsert .upsert 2 [0, 1] [row 2 "B" [], row 5 "E" [7]]) rfl rfl (by decide +kernel) (by decide +kernel)
      (by decide +kernel) (by decide +kernel) (by decide +kernel) (by decide +kernel) (by decide +kernel),
    twoUpserts_of as (m1 := .rayInsert .upsert 2 [0, 1] [row 2 "B" [], row 5 "E" [7]])
      (m2 := .upsert [row 1 "A" [5], row 6 "F" [6]]) rfl rfl (by decide +kernel) (by decide +kernel)
      (by decide +kernel) (by decide +kernel) (by decide +kernel) (by decide +kernel) (by decide +kernel), ?_,
    keysSetB_set (by decide), keysSetB_set (by decide), keysSetB_set (by decide), by decide⟩
  let m : Mutation := .upsert ([row 1 "A" [5], row 6 "F" [6]] ++ [row 2 "B" [], row 5 "E" [7]])
  obtain ⟨-, hs1⟩ := doing_step (E := env) (s := schema) (σ := after env anyB schema as) (a := .call 0 (.mutate m))
    (o := .res (.job .succeeded)) (by decide +kernel)
  obtain ⟨sl, k0, -, k5⟩ := slot_of (σ := after env anyB schema as) (i := 0) (f := fun sl => (sl.h.branch,
    safeUpsertB schema ([row 1 "A" [5], row 6 "F" [6]] ++ [row 2 "B" [], row 5 "E" [7]]) sl.h
      (after env anyB schema as).w)) (x := (mainBranch, true)) (by decide +kernel)
  simp only [Prod.mk.injEq] at k5
  exact ⟨_, _, ⟨0, m, sl, .call (after_reach (fun _ _ _ => trivial) _) hs1, rfl, k0, sparedB_spared k5.2, k5.1⟩,
    reads_of (by decide +kernel), reads_of (by decide +kernel)⟩

/-- C88 is false where an upsert loses rows: with the two upserts in one order the row with key 8 stays, in the other
it is lost. -/
theorem C88_violated_loss : ∃ A B old mid mid' new new', KeysSet schema A ∧ KeysSet schema B ∧ KeysSet schema old ∧
    (∀ x ∈ keysOf schema A, x ∉ keysOf schema B) ∧
    Undoing env schema (.upsert A) (.upsert B) old mid new ∧ Undoing env schema (.upsert B) (.upsert A) old mid' new' ∧
    ¬ new' ~ new := by
  let as : List Act := [.call 0 (.mutate (.append [[row 1 "a" [1], row 2 "b" [2], row 3 "c" [3]],
    [row 4 "d" [4], row 5 "e" [5], row 6 "f" [6]], [row 7 "g" [7], row 8 "h" [8]]]))]
  refine ⟨[row 1 "A" [], row 4 "D" [], row 5 "E" [], row 6 "F" []], [row 2 "B" [], row 3 "C" [], row 7 "G" []],
    [row 1 "a" [1], row 2 "b" [2], row 3 "c" [3], row 4 "d" [4], row 5 "e" [5], row 6 "f" [6], row 7 "g" [7],
      row 8 "h" [8]], _, _,
    [row 1 "A" [], row 4 "D" [], row 5 "E" [], row 6 "F" [], row 8 "h" [8], row 2 "B" [], row 3 "C" [], row 7 "G" []],
    [row 2 "B" [], row 3 "C" [], row 7 "G" [], row 1 "A" [], row 4 "D" [], row 5 "E" [], row 6 "F" []],
    keysSetB_set (by decide), keysSetB_set (by decide), keysSetB_set (by decide), by decide,
    undoing_of as (mid := [row 7 "g" [7], row 8 "h" [8], row 2 "b" [2], row 3 "c" [3], row 1 "A" [], row 4 "D" [],
        row 5 "E" [], row 6 "F" []]) (by decide +kernel)
      (by decide +kernel) (by decide +kernel) (by decide +kernel) (by decide +kernel) (by decide +kernel)
      (by decide +kernel),
    undoing_of as (mid := [row 1 "a" [1], row 4 "d" [4], row 5 "e" [5], row 6 "f" [6], row 8 "h" [8], row 2 "B" [],
        row 3 "C" [], row 7 "G" []])
      (by decide +kernel) (by decide +kernel) (by decide +kernel) (by decide +kernel) (by decide +kernel)
      (by decide +kernel) (by decide +kernel), ?_⟩
  intro h
  have := h.length_eq
  revert this
  decide

/-- C88 is false for keys with NaN: the row of the first upsert stays beside that of the second. -/
theorem C88_violated_nan : Undoing env floatKey (.upsert [rowX .nan "a"]) (.upsert [rowX .nan "b"]) []
    [rowX .nan "a"] [rowX .nan "a", rowX .nan "b"] :=
  undoing_of [] (by decide +kernel) (by decide +kernel) (by decide +kernel) (by decide +kernel) (by decide +kernel)
    (by decide +kernel) (by decide +kernel)

end Space
