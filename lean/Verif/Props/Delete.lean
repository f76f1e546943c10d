import Verif.Props.Append
import Verif.Props.Reading

/-!
# C04: delete
-/

set_option autoImplicit false

namespace Space

open Demo List

theorem truth_select {s : Schema} {e : Expr} (he : FilterFits s e) (I : Interp) (r : Row) :
    e.truth I (r.select s.writeNames) = e.truth I r := by
  unfold Expr.truth
  rw [eval_congr e fun c hc => select_val (writeNames_sub.mpr (he.names c hc))]

theorem filter_select {s : Schema} {e : Expr} (he : FilterFits s e) (I : Interp) (x : Option Bool)
    (rows : List Row) :
    (rows.filter (fun r => e.truth I r == x)).map (·.select s.writeNames) =
      (rows.map (·.select s.writeNames)).filter (fun r => e.truth I r == x) := by
  rw [List.filter_map]
  congr 1
  refine List.filter_congr fun r _ => ?_
  simp only [Function.comp_apply, truth_select he]

/-- C04, what holds on every layout: after a delete the branch has no row on which the
filter is true, and no row it did not have (not more often, either): the rows now
and the rows lost are together the rows on which the filter was false and some of the
rows on which it was null. -/
theorem C04_sound {E : Env} {s : Schema} (hn : s.names.Nodup) {i : Nat} {e : Expr} (he : FilterFits s e)
    {σ σ' : Sys} (h : Done E s i (.delete e) σ σ') :
    ∃ sl old new nulls lost, σ.slots[i]? = some sl ∧ Reads E σ sl.h.branch old ∧ Reads E σ' sl.h.branch new ∧
      nulls.Sublist (old.filter (fun r => e.truth E.I r == none)) ∧
      new ++ lost ~ old.filter (fun r => e.truth E.I r == some false) ++ nulls ∧
      (DeleteSafe (e.truth E.I) (headLayout s sl.h σ.w) → lost = []) := by
  obtain ⟨sl, sl', w, h1, w1, p, cur, snap, hl, hr, hr'⟩ := h.landing hn
  obtain ⟨nulls, lost, k1, k2, k3⟩ := hl.succ.delete_lost hn he
  refine ⟨sl, _, _, nulls.map (·.select s.writeNames), lost.map (·.select s.writeNames), hl.slot, hr, hr', ?_, ?_, ?_⟩
  · rw [← filter_select he]
    exact k1.map _
  · rw [← filter_select he, ← List.map_append, ← List.map_append]
    exact k2.map _
  · intro hs
    rw [hl.layout] at hs
    rw [k3 hs]
    rfl

/-- C04, for filters that fit the schema and layouts on which the delete loses no file:
the branch reads as the rows on which the filter is false, together with some of the
rows on which it is null.  Missing: that all rows on which it is null stay
(`C04_violated_null`), other layouts (`C04_violated_loss`), other filters
(`C04_violated_not`). -/
theorem C04_partial {E : Env} {s : Schema} (hn : s.names.Nodup) {i : Nat} {e : Expr} (he : FilterFits s e)
    {σ σ' : Sys} (h : Done E s i (.delete e) σ σ') :
    ∃ sl old, σ.slots[i]? = some sl ∧ Reads E σ sl.h.branch old ∧
      (DeleteSafe (e.truth E.I) (headLayout s sl.h σ.w) →
        ∃ new nulls, Reads E σ' sl.h.branch new ∧
          nulls.Sublist (old.filter (fun r => e.truth E.I r == none)) ∧
          new ~ old.filter (fun r => e.truth E.I r == some false) ++ nulls) := by
  obtain ⟨sl, old, new, nulls, lost, k1, k2, k3, k4, k5, k6⟩ := C04_sound hn he h
  refine ⟨sl, old, k1, k2, fun hs => ⟨new, nulls, k3, k4, ?_⟩⟩
  rw [k6 hs, List.append_nil] at k5
  exact k5

/-- If the filter is null on no row, exactly the rows on which it is true go. -/
theorem C04_exact_partial {E : Env} {s : Schema} (hn : s.names.Nodup) {i : Nat} {e : Expr} (he : FilterFits s e)
    {σ σ' : Sys} (h : Done E s i (.delete e) σ σ') :
    ∃ sl old, σ.slots[i]? = some sl ∧ Reads E σ sl.h.branch old ∧
      (DeleteSafe (e.truth E.I) (headLayout s sl.h σ.w) → (∀ r ∈ old, e.truth E.I r ≠ none) →
        ∃ new, Reads E σ' sl.h.branch new ∧ new ~ old.filter (fun r => e.truth E.I r != some true)) := by
  obtain ⟨sl, old, k1, k2, k3⟩ := C04_partial hn he h
  refine ⟨sl, old, k1, k2, fun hs hnn => ?_⟩
  obtain ⟨new, nulls, j1, j2, j3⟩ := k3 hs
  refine ⟨new, j1, ?_⟩
  have h0 : old.filter (fun r => e.truth E.I r == none) = [] :=
    List.filter_eq_nil_iff.mpr fun r hr => by simpa using hnn r hr
  rw [h0, List.sublist_nil] at j2
  rw [j2, List.append_nil] at j3
  have : old.filter (fun r => e.truth E.I r == some false) = old.filter (fun r => e.truth E.I r != some true) := by
    refine List.filter_congr fun r hr => ?_
    have := hnn r hr
    rcases h : e.truth E.I r with _ | _ | _ <;> simp_all
  rw [← this]
  exact j3

/-- C04, exactly what a delete does on every layout, for filters that fit the schema and are
null on no row: `leftBy` says which rows stay.  They are all rows on which the filter is not
true if and only if some file has both rows to delete and rows to keep, or manifests
with rows to delete have no others. -/
theorem C04_effect {E : Env} {s : Schema} (hn : s.names.Nodup) {i : Nat} {e : Expr} (he : FilterFits s e)
    {σ σ' : Sys} (h : Done E s i (.delete e) σ σ') :
    ∃ sl old new, σ.slots[i]? = some sl ∧ Reads E σ sl.h.branch old ∧ Reads E σ' sl.h.branch new ∧
      ((∀ r ∈ old, e.truth E.I r ≠ none) →
        new ~ (leftBy (e.truth E.I) (headLayout s sl.h σ.w)).map (·.select s.writeNames) ∧
        (new ~ old.filter (fun r => e.truth E.I r != some true) ↔
          Spared (e.truth E.I) (headLayout s sl.h σ.w))) := by
  obtain ⟨sl, sl', w, h1, w1, p, cur, snap, hl, hr, hr'⟩ := h.landing hn
  refine ⟨sl, _, _, hl.slot, hr, hr', fun hnull => ?_⟩
  have hnull' : ∀ r ∈ snapRows w.fs s cur, e.truth E.I r ≠ none := by
    intro r hm
    have := hnull _ (List.mem_map_of_mem hm)
    rwa [truth_select he] at this
  have heff := hl.succ.delete_effect hn he hnull'
  rw [hl.layout]
  refine ⟨heff.map _, ?_⟩
  obtain ⟨a1, a2⟩ := leftBy_iff (truth := e.truth E.I) (lay := layout w.fs s cur)
    (by rw [layout_flatten]; exact hnull')
  rw [layout_flatten] at a1 a2
  have hfil : ((snapRows w.fs s cur).map (·.select s.writeNames)).filter (fun r => e.truth E.I r != some true) =
      ((snapRows w.fs s cur).filter (fun r => e.truth E.I r != some true)).map (·.select s.writeNames) := by
    rw [List.filter_map]
    congr 1
    refine List.filter_congr fun r _ => ?_
    simp only [Function.comp_apply, truth_select he]
  rw [hfil]
  constructor
  · intro hp
    refine a1 ?_
    have := hp.length_eq
    rw [List.length_map, List.length_map, heff.length_eq] at this
    exact this
  · intro hs
    rw [← a2 hs]
    exact heff.map _

/-! ## Filters with nulls and filters that prune wrongly -/

/-- What a delete that changes the marked files leaves.  If some marked file has a row to
keep, the rows to keep of the marked files and all rows of the others; otherwise only the
rows of the manifests without a marked file. -/
def leftMarked (truth : Row → Option Bool) (lay : List (List (Bool × List Row))) : List Row :=
  if lay.any (fun man => man.any fun file => file.1 && file.2.any (fun r => truth r == some false)) then
    lay.flatten.flatMap (fun file => if file.1 then file.2.filter (fun r => truth r == some false) else file.2)
  else (lay.filter (fun man => !man.any (·.1))).flatten.flatMap (·.2)

/-- The files of a snapshot, those that a delete changes marked. -/
def marked (I : Interp) (e : Expr) (fs : FS) (s : Schema) (mf : Option MExpr) (snap : Snapshot) :
    List (List (Bool × List Row)) :=
  snap.index.map (fun p => (entriesOf fs p).map
    (fun m => (modEntry I e fs mf m, (fileRows fs m.file).map (deref fs.records s))))

theorem marked_layout (I : Interp) (e : Expr) (fs : FS) (s : Schema) (mf : Option MExpr) (snap : Snapshot) :
    (marked I e fs s mf snap).map (·.map (·.2)) = layout fs s snap := by
  simp [marked, layout, Function.comp_def]

theorem survRows_rows {I : Interp} {s : Schema} {e : Expr} {fs : FS} (hplain : ∀ c ∈ e.cols, c ∉ s.recs) (p : Path) :
    (survRows I e fs p).map (deref fs.records s) =
      ((fileRows fs p).map (deref fs.records s)).filter (fun r => e.truth I r == some false) := by
  unfold survRows
  rw [List.filter_map]
  congr 1
  refine List.filter_congr fun r _ => ?_
  simp only [Function.comp_apply, truth_deref hplain]
  rw [Bool.eq_iff_iff, fails_iff, beq_iff_eq]

theorem Success.delete_marked {E : Env} {s : Schema} {h h' h1 : Handle} {wb w w' w1 : World} {p : Patch}
    {cur snap : Snapshot} {e : Expr} (hn : s.names.Nodup)
    (hs : Success E s (.delete e) h wb w h' w' h1 w1 p cur snap) (hplain : ∀ c ∈ e.cols, c ∉ s.recs) :
    ∃ mf, manifestFilter s (some e) = .ok mf ∧
      snapRows w'.fs s snap ~ leftMarked (e.truth E.I) (marked E.I e w.fs s mf cur) := by
  have hb := hs.body
  simp only [Mutation.body] at hb
  obtain ⟨hg, -, snap', mf, hsn, hm, hout⟩ := Post.elim (deleteBody_post hs.fresh hs.handle) hb
  rw [hs.base] at hsn
  cases hsn
  rcases hout.out with ⟨hx, -⟩ | ⟨q, dms, carried, mf', rmf, rp, hx, hd⟩
  · cases hx
  cases hx
  refine ⟨mf, hm, ?_⟩
  rw [hs.rows]
  have hany : ∀ m : ManifestRow, ((fileRows w.fs m.file).map (deref w.fs.records s)).any
      (fun r => e.truth E.I r == some false) = true ↔ survRows E.I e w.fs m.file ≠ [] := by
    intro m
    rw [ne_eq, ← List.map_eq_nil_iff (f := deref w.fs.records s), survRows_rows hplain, List.filter_eq_nil_iff,
      ← List.any_eq_false, Bool.not_eq_false]
  unfold leftMarked
  split
  · rename_i hc
    simp only [List.any_eq_true, Bool.and_eq_true] at hc
    obtain ⟨man, hman, f, hf, hf1, hf2⟩ := hc
    obtain ⟨q, hq, rfl⟩ := List.mem_map.mp hman
    obtain ⟨m, hmm, rfl⟩ := List.mem_map.mp hf
    have hperm := hd.rowsPerm hn hs.curOK.nodup hs.curOK.manifests hg
      (Or.inl ⟨q, hq, m, hmm, hf1, (hany m).mp (List.any_eq_true.mpr hf2)⟩)
    refine (hperm.map _).trans (Perm.of_eq ?_)
    rw [map_deref_mono hg.le.lookLe (fun r hr => by
      obtain ⟨m, hm, hr⟩ := List.mem_flatMap.mp hr
      exact (physRows_ok hs.curOK.manifests r (by
        rw [physRows_entries]
        exact List.mem_flatMap.mpr ⟨m, hm, (afterRows_sub m).subset hr⟩)).2)]
    unfold marked
    rw [← List.flatMap_def, List.flatMap_assoc, List.flatMap_assoc, List.map_flatMap]
    refine flatMap_congr' fun q hq => ?_
    rw [List.map_flatMap, List.flatMap_map]
    refine flatMap_congr' fun m hm => ?_
    simp only [afterRows]
    split
    · rw [survRows_rows hplain]
    · rfl
  · rename_i hc
    have hno : ∀ q ∈ cur.index, ∀ m ∈ entriesOf w.fs q, modEntry E.I e w.fs mf m = true →
        survRows E.I e w.fs m.file = [] := by
      intro q hq m hmm hmod
      refine Classical.byContradiction fun h0 => hc ?_
      simp only [List.any_eq_true, Bool.and_eq_true]
      refine ⟨_, List.mem_map.mpr ⟨q, hq, rfl⟩, _, List.mem_map.mpr ⟨m, hmm, rfl⟩, hmod, ?_⟩
      exact List.any_eq_true.mp ((hany m).mpr h0)
    rw [hd.rowsGone hn hs.curOK.manifests hg hno]
    refine Perm.of_eq ?_
    rw [map_deref_mono hg.le.lookLe fun r hr =>
      (physRows_ok (fun q hq => hs.curOK.manifests q (List.mem_filter.mp hq).1) r hr).2]
    unfold marked physRows
    rw [List.filter_map, ← List.flatMap_def, List.flatMap_assoc, List.map_flatMap]
    have : ((fun man : List (Bool × List Row) => !man.any (·.1)) ∘ fun p => (entriesOf w.fs p).map
        (fun m => (modEntry E.I e w.fs mf m, (fileRows w.fs m.file).map (deref w.fs.records s)))) =
        fun q => !hasMod E.I e w.fs mf q := by
      funext q
      simp only [Function.comp_apply, List.any_map, hasMod]
      rfl
    rw [this]
    refine flatMap_congr' fun q hq => ?_
    rw [List.map_flatMap, List.flatMap_map]

/-- C04, exactly what a delete does on every layout, for every filter on index fields, null or
not: some files of the branch are changed (`leftMarked`).  Each has a row on which the filter is
not false.  If the filter fits the schema, every file with a row on which it is true is
among them. -/
theorem C04_files {E : Env} {s : Schema} (hn : s.names.Nodup) {i : Nat} {e : Expr} (hplain : ∀ c ∈ e.cols, c ∉ s.recs)
    {σ σ' : Sys} (h : Done E s i (.delete e) σ σ') :
    ∃ sl new lay, σ.slots[i]? = some sl ∧ Reads E σ' sl.h.branch new ∧
      lay.map (·.map (·.2)) = headLayout s sl.h σ.w ∧
      new ~ (leftMarked (e.truth E.I) lay).map (·.select s.writeNames) ∧
      (∀ man ∈ lay, ∀ file ∈ man, file.1 = true → ∃ r ∈ file.2, e.truth E.I r ≠ some false) ∧
      (FilterFits s e → ∀ man ∈ lay, ∀ file ∈ man, (∃ r ∈ file.2, e.truth E.I r = some true) → file.1 = true) := by
  obtain ⟨sl, sl', w, h1, w1, p, cur, snap, hl, hr, hr'⟩ := h.landing hn
  obtain ⟨mf, hm, hperm⟩ := hl.succ.delete_marked hn hplain
  refine ⟨sl, _, marked E.I e w.fs s mf cur, hl.slot, hr', ?_, hperm.map _, ?_, ?_⟩
  · rw [hl.layout, marked_layout]
  · intro man hman f hf hf1
    obtain ⟨q, hq, rfl⟩ := List.mem_map.mp hman
    obtain ⟨m, hmm, rfl⟩ := List.mem_map.mp hf
    obtain ⟨y, hy, hty⟩ := not_false_of_mod ((hl.succ.curOK.manifests q hq).entry hmm) hf1
    exact ⟨_, List.mem_map.mpr ⟨y, hy, rfl⟩, by rwa [truth_deref hplain]⟩
  · intro he man hman f hf ⟨r, hr, ht⟩
    obtain ⟨q, hq, rfl⟩ := List.mem_map.mp hman
    obtain ⟨m, hmm, rfl⟩ := List.mem_map.mp hf
    obtain ⟨y, hy, rfl⟩ := List.mem_map.mp hr
    rw [truth_deref hplain] at ht
    exact modEntry_of_true he.prune hm ((hl.succ.curOK.manifests q hq).entry hmm) hy ht

/-- A filter on the key of the demonstration schema. -/
def Demo.idIs (op : String) (i : Int) : Expr := .bin op (.sel "id") (.lit (.int i))

/-- The rows read by all slots. -/
theorem Demo.reads_of {E : Env} {σ : Sys} {b : String} {rows : List Row}
    (h : σ.slots.all (fun sl => sl.h.branch != b || decide (tableRead E sl.h σ.w {} none = .ok rows)) = true) :
    Reads E σ b rows := by
  intro sl hsl hb
  have := List.all_eq_true.mp h sl hsl
  simpa [hb] using this

instance : DecidableEq (List (List (List Row)) × String) := instDecidableEqProd

/-- Two files and a delete that cuts one: all hypotheses hold, and rows remain. -/
example : ∃ σ σ' sl, FilterFits schema (idIs "lt" 2) ∧ Done env schema 0 (.delete (idIs "lt" 2)) σ σ' ∧
    σ.slots[0]? = some sl ∧
    DeleteSafe ((idIs "lt" 2).truth env.I) (headLayout schema sl.h σ.w) ∧
    Reads env σ sl.h.branch [row 1 "a" [1], row 2 "b" [2], row 3 "c" [3]] ∧
    Reads env σ' sl.h.branch [row 3 "c" [3], row 2 "b" [2]] := by
  let σ := after env anyB schema [.call 0 (.mutate (.append [[row 1 "a" [1], row 2 "b" [2]]])),
    .call 0 (.mutate (.append [[row 3 "c" [3]]]))]
  obtain ⟨e, hst⟩ := doing_step (E := env) (s := schema) (σ := σ) (a := .call 0 (.mutate (.delete (idIs "lt" 2))))
    (o := .res (.job .succeeded)) (by decide +kernel)
  obtain ⟨sl, h0, -, h2⟩ := slot_of (σ := σ) (i := 0)
    (f := fun sl => (headLayout schema sl.h σ.w, sl.h.branch)) 
    (x := ([[[row 1 "a" [1], row 2 "b" [2]]], [[row 3 "c" [3]]]], mainBranch)) (by decide +kernel)
  simp only [Prod.mk.injEq] at h2
  refine ⟨σ, _, sl, ?_, .call (after_reach (fun _ _ _ => trivial) _) hst, h0, ?_, ?_, ?_⟩
  · exact FilterFits.of_flat (by decide) (by decide) (by decide) (by decide) (by decide) (by decide)
  · rw [h2.1]
    exact Or.inl ⟨_, List.mem_cons_self, _, List.mem_cons_self,
      ⟨row 1 "a" [1], by simp, by decide⟩, ⟨row 2 "b" [2], by simp, by decide⟩⟩
  · rw [h2.2]
    exact reads_of (by decide +kernel)
  · rw [h2.2]
    exact reads_of (by decide +kernel)

/-- Rows left on two layouts: all rows to keep on that of the example above, and nothing on
that of `C04_violated_loss` below, though four rows do not match. -/
example : leftBy ((idIs "lt" 2).truth env.I) [[[row 1 "a" [1], row 2 "b" [2]]], [[row 3 "c" [3]]]] =
      [row 2 "b" [2], row 3 "c" [3]] ∧
    Spared ((idIs "lt" 2).truth env.I) [[[row 1 "a" [1], row 2 "b" [2]]], [[row 3 "c" [3]]]] ∧
    leftBy ((idIs "gt" 4).truth env.I)
      [[[row 1 "a" [1], row 2 "b" [2], row 3 "c" [3], row 4 "d" [4]], [row 5 "e" [5]]]] = [] ∧
    ¬ Spared ((idIs "gt" 4).truth env.I)
      [[[row 1 "a" [1], row 2 "b" [2], row 3 "c" [3], row 4 "d" [4]], [row 5 "e" [5]]]] := by
  unfold Spared
  decide

/-- Rows before and after a mutation by the only process there is. -/
def Demo.Before (E : Env) (s : Schema) (m : Mutation) (old new : List Row) : Prop :=
  ∃ σ σ', Done E s 0 m σ σ' ∧ Reach E s solo σ ∧ Reads E σ mainBranch old ∧ Reads E σ' mainBranch new ∧
    ∃ sl, σ.slots[0]? = some sl ∧ sl.h.branch = mainBranch

theorem Demo.before_of {E : Env} {s : Schema} (as : List Act) {m : Mutation} {old new : List Row}
    (h1 : (act E (after E soloB s as) (.call 0 (.mutate m))).map (fun x => outOf x.1) = some (.res (.job .succeeded)))
    (h2 : (after E soloB s as).slots.all (fun sl => sl.h.branch != mainBranch ||
      decide (tableRead E sl.h (after E soloB s as).w {} none = .ok old)) = true)
    (h3 : (doing E (after E soloB s as) (.call 0 (.mutate m))).slots.all (fun sl => sl.h.branch != mainBranch ||
      decide (tableRead E sl.h (doing E (after E soloB s as) (.call 0 (.mutate m))).w {} none = .ok new)) = true)
    (h4 : ((after E soloB s as).slots[0]?).map (fun sl => sl.h.branch) = some mainBranch) :
    Before E s m old new := by
  obtain ⟨e, hst⟩ := doing_step (E := E) (s := s) h1
  obtain ⟨sl, h0, -, h2'⟩ := slot_of h4
  have hr : Reach E s solo (after E soloB s as) := after_reach soloB_solo _
  exact ⟨_, _, .call (hr.imp (fun _ _ _ => trivial)) hst, hr, reads_of h2, reads_of h3, sl, h0, h2'⟩

/-- A row with a null text. -/
def Demo.rowNull (i : Int) (b : List Nat) : Row :=
  [("id", .sc (.int i)), ("txt", .null), ("img", .sc (.bytes b))]

/-- The claim of C04 on one delete: rows on which the filter is false or null stay, the
others go. -/
def Deletes (I : Interp) (e : Expr) (old new : List Row) : Prop :=
  new ~ old.filter (fun r => e.truth I r != some true)

/-- C04 is false for rows on which the filter is null: one of them shares a file with a
row to delete and goes with it. -/
theorem C04_violated_null : ∃ old new e, FilterFits schema e ∧
    Before env schema (.delete e) old new ∧ ¬ Deletes env.I e old new := by
  refine ⟨[row 1 "a" [1], rowNull 2 [2], row 3 "c" [3]], [row 3 "c" [3]],
    .bin "equal" (.sel "txt") (.lit (.str "a")), ?_, before_of [.call 0 (.mutate (.append [[row 1 "a" [1], rowNull 2 [2], row 3 "c" [3]]]))] ?_ ?_ ?_ ?_, ?_⟩
  · exact FilterFits.of_flat (by decide) (by decide) (by decide) (by decide) (by decide) (by decide)
  · decide +kernel
  · decide +kernel
  · decide +kernel
  · decide +kernel
  · intro h
    have := h.length_eq
    revert this
    decide

/-- A delete by a filter that is null on row 2, with a file that is changed and one that is
not: row 2 goes with row 1, row 5 stays. -/
example : ∃ σ σ', Done env schema 0 (.delete (.bin "equal" (.sel "txt") (.lit (.str "a")))) σ σ' ∧
    (∀ c ∈ (Expr.bin "equal" (.sel "txt") (.lit (.str "a"))).cols, c ∉ schema.recs) ∧
    Reads env σ' mainBranch [row 5 "e" [5], row 3 "c" [3]] ∧
    leftMarked ((Expr.bin "equal" (.sel "txt") (.lit (.str "a"))).truth env.I)
      [[(true, [row 1 "a" [1], rowNull 2 [2], row 3 "c" [3]])], [(false, [row 5 "e" [5]])]] =
      [row 3 "c" [3], row 5 "e" [5]] := by
  obtain ⟨-, hst⟩ := doing_step (E := env) (s := schema)
    (σ := after env anyB schema [.call 0 (.mutate (.append [[row 1 "a" [1], rowNull 2 [2], row 3 "c" [3]]])),
      .call 0 (.mutate (.append [[row 5 "e" [5]]]))])
    (a := .call 0 (.mutate (.delete (.bin "equal" (.sel "txt") (.lit (.str "a"))))))
    (o := .res (.job .succeeded)) (by decide +kernel)
  exact ⟨_, _, .call (after_reach (fun _ _ _ => trivial) _) hst, by decide, reads_of (by decide +kernel), by decide⟩

/-- C04 is false for manifests with several files: the delete empties one of two files
and reinserts no row, so that no new manifest is written, and the other file, none of
whose rows match, goes with the old manifest. -/
theorem C04_violated_loss : ∃ old new e, FilterFits schema e ∧
    Before env schema (.delete e) old new ∧ (∀ r ∈ old, e.truth env.I r ≠ none) ∧ new = [] ∧ ¬ Deletes env.I e old new := by
  refine ⟨[row 1 "a" [1], row 2 "b" [2], row 3 "c" [3], row 4 "d" [4], row 5 "e" [5]], [], idIs "gt" 4, ?_,
    before_of [.call 0 (.mutate (.append [[row 1 "a" [1], row 2 "b" [2], row 3 "c" [3], row 4 "d" [4]],
        [row 5 "e" [5]]]))] ?_ ?_ ?_ ?_, ?_, rfl, ?_⟩
  · exact FilterFits.of_flat (by decide) (by decide) (by decide) (by decide) (by decide) (by decide)
  · decide +kernel
  · decide +kernel
  · decide +kernel
  · decide +kernel
  · decide
  · intro h
    have := h.length_eq
    revert this
    decide

/-- C04 is false for negated comparisons: a file whose least key is below the bound is
left out of the delete. -/
theorem C04_violated_not : ∃ old new e,
    Before env schema (.delete e) old new ∧ (∀ r ∈ old, e.truth env.I r ≠ none) ∧ ¬ Deletes env.I e old new := by
  refine ⟨[row 1 "a" [1], row 2 "b" [2], row 0 "z" []], [row 1 "a" [1], row 2 "b" [2]],
    .un "not" (idIs "gt" 1), before_of [.call 0 (.mutate (.append [[row 1 "a" [1], row 2 "b" [2]]])),
        .call 0 (.mutate (.append [[row 0 "z" []]]))] ?_ ?_ ?_ ?_, ?_, ?_⟩
  · decide +kernel
  · decide +kernel
  · decide +kernel
  · decide +kernel
  · decide
  · intro h
    have := h.length_eq
    revert this
    decide

end Space
