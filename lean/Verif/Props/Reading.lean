import Verif.ReadSpec
import Verif.Demo

/-!
# C05, C06, C31, C38, C39: reads
-/

set_option autoImplicit false

namespace Space

open Demo

instance : DecidableEq Stats := inferInstanceAs (DecidableEq (List (Nat × Option Scalar × Option Scalar)))
instance : DecidableEq (Stats × Option (List (List Row))) := instDecidableEqProd

/-! ## C31 -/

/-- C31: reading a record column for any list of addresses that exist, in any order,
over any number of files, with repetitions, gives at each position the bytes stored
at the address at that position; and if some address does not exist the read
raises. -/
theorem C31 (fs : FS) (addrs : List (Path × Nat)) :
    ((∀ a ∈ addrs, ∃ rs b, fs.records a.1 = some rs ∧ rs[a.2]? = some b) →
      ∃ out, readRecordColumn fs (addrs.map (fun a => .addr a.1 a.2)) = .ok out ∧
        out.length = addrs.length ∧
        ∀ (i : Nat) (a : Path × Nat), addrs[i]? = some a → ∃ rs b, fs.records a.1 = some rs ∧ rs[a.2]? = some b ∧
          out[i]? = some (.sc (.bytes b))) ∧
    ((¬ ∀ a ∈ addrs, ∃ rs b, fs.records a.1 = some rs ∧ rs[a.2]? = some b) →
      ∃ e, readRecordColumn fs (addrs.map (fun a => .addr a.1 a.2)) = .error e) := by
  constructor
  · intro h
    refine ⟨_, readRecordColumn_eq (fs := fs) ?_, by simp, ?_⟩
    · intro v hv
      obtain ⟨a, ha, rfl⟩ := List.mem_map.mp hv
      obtain ⟨rs, b, h1, h2⟩ := h a ha
      obtain ⟨hlt, -⟩ := List.getElem?_eq_some_iff.mp h2
      exact ⟨a.1, a.2, rs, rfl, h1, hlt⟩
    · intro i a ha
      obtain ⟨rs, b, h1, h2⟩ := h a (List.mem_of_getElem? ha)
      refine ⟨rs, b, h1, h2, ?_⟩
      simp [ha, derefVal, h1, h2, Val.ofRecord]
  · intro h
    cases hr : readRecordColumn fs (addrs.map (fun a => .addr a.1 a.2)) with
    | error e => exact ⟨e, rfl⟩
    | ok out =>
      refine absurd (fun a ha => ?_) h
      obtain ⟨p, i, rs, e, h1, h2⟩ := readRecordColumn_error hr (.addr a.1 a.2)
        (List.mem_map.mpr ⟨a, ha, rfl⟩)
      cases e
      exact ⟨rs, rs[a.2], h1, List.getElem?_eq_getElem h2⟩

/-- Two files, interleaved, with a repetition. -/
example : readRecordColumn
    [(.record "f" 1, .records [[1], [2], [3]]), (.record "f" 2, .records [[4], [5]])]
    [.addr (.record "f" 2) 1, .addr (.record "f" 1) 2, .addr (.record "f" 2) 0,
      .addr (.record "f" 2) 1, .addr (.record "f" 1) 0] =
    .ok [.sc (.bytes [5]), .sc (.bytes [3]), .sc (.bytes [4]), .sc (.bytes [5]), .sc (.bytes [1])] := by
  decide +kernel

/-! ## C05 -/

/-- Plain columns first, then the record fields. -/
def Schema.flat (s : Schema) : Bool := (s.fields.dropWhile s.simple).all s.isRec

theorem Schema.flat_pre {s : Schema} (hf : s.flat = true) (hn : s.names.Nodup) {c : String}
    (hc : c ∈ s.names) (hr : c ∉ s.recs) : s.resolve c = some c := by
  obtain ⟨f, hfm, rfl⟩ := List.mem_map.mp hc
  have hsplit : s.fields = s.fields.takeWhile s.simple ++ s.fields.dropWhile s.simple :=
    (List.takeWhile_append_dropWhile).symm
  have hmem : f ∈ s.fields.takeWhile s.simple := by
    rw [hsplit] at hfm
    rcases List.mem_append.mp hfm with h | h
    · exact h
    · have := List.all_eq_true.mp hf f h
      exact absurd (by simpa [Schema.isRec] using this) hr
  obtain ⟨pre, post, hp⟩ := List.append_of_mem hmem
  refine resolve_simple (pre := pre) (post := post ++ s.fields.dropWhile s.simple) ?_ ?_ hn
  · rw [← List.cons_append, ← List.append_assoc, ← hp]
    exact hsplit
  · intro g hg
    have : g ∈ s.fields.takeWhile s.simple := by rw [hp]; exact List.mem_append_left _ hg
    exact List.all_eq_true.mp List.all_takeWhile g this

theorem Schema.flat_keys {s : Schema} (hf : s.flat = true) (hd : ∀ k ∈ s.pks, k ∉ s.recs) :
    s.keysFirst = true := by
  unfold Schema.keysFirst
  refine List.all_eq_true.mpr fun f h => ?_
  have h1 := List.all_eq_true.mp hf f h
  simp only [Schema.isRec, List.contains_eq_mem, decide_eq_true_eq] at h1
  simp only [List.contains_eq_mem, Bool.not_eq_true', decide_eq_false_iff_not]
  exact fun hk => hd _ hk h1

/-- On a flat schema a filter fits if it mentions plain columns of the schema and is
`pruneSafe`: no `not` in front of a comparison, no `≠` between two key columns or between a
float key and a literal. -/
theorem FilterFits.of_flat {s : Schema} (hf : s.flat = true) (hn : s.names.Nodup)
    (hi : (s.fields.map (·.fid)).Nodup) (hd : ∀ k ∈ s.pks, k ∉ s.recs) {e : Expr}
    (hs : e.pruneSafe s = true) (hc : ∀ c ∈ e.cols, c ∈ s.names ∧ c ∉ s.recs) : FilterFits s e :=
  ⟨⟨Schema.keysLeaf_of_keysFirst (Schema.flat_keys hf hd), hi, hs, fun c h =>
    Schema.flat_pre hf hn (hc c h).1 (hc c h).2⟩, fun c h => (hc c h).1, fun c h => (hc c h).2⟩

/-- C05 for filters without `not` in front of a comparison and without `≠` between two
keys or between a float key and a literal, on schemas whose keys precede nested and record columns: a filtered read returns
exactly the rows of the full read on which the filter is true, in the same order, or
fails with the same error; with selected columns, those rows restricted to them.
Missing: the other filters and schemas, see `C05_violated_not`, `C05_violated_ne`,
`C05_violated_nan`, `C05_violated_nested`, `C05_violated_name`. -/
theorem C05_partial {E : Env} {s : Schema} (hn : s.names.Nodup) {σ : Sys} {sl : Slot}
    (h1 : Reach E s anyStep σ) (hsl : sl ∈ σ.slots) {e : Expr} (he : FilterFits s e) (v : Option Version) :
    (tableRead E sl.h σ.w { filter := some e } v =
      (tableRead E sl.h σ.w {} v).map (fun rows => rows.filter (fun r => e.holds E.I r))) ∧
    ∀ cs : List String, (∀ c ∈ cs, c ∈ s.names) →
      tableRead E sl.h σ.w { filter := some e, fields := some cs } v =
        (tableRead E sl.h σ.w {} v).map (fun rows => (rows.filter (fun r => e.holds E.I r)).map
          (·.select (cs.filter (fun c => !s.recs.contains c) ++ cs.filter (fun c => s.recs.contains c)))) := by
  obtain ⟨md, hok⟩ := reach_ok hn h1
  have hh := (hok.slots sl hsl).1
  have hsel : ∀ snap, ∀ r ∈ snapRows σ.w.fs s snap,
      e.holds E.I (r.select s.writeNames) = e.holds E.I r := by
    intro snap r _
    refine holds_congr fun c hc => select_val ?_
    rw [← outCols_names]
    simp only [outCols, List.mem_append, List.mem_filter]
    have := he.names c hc
    cases hb : s.recs.contains c <;> simp [this]
  have key : ∀ snap, ((snapRows σ.w.fs s snap).map (·.select s.writeNames)).filter
      (fun r => e.holds E.I r) =
      ((snapRows σ.w.fs s snap).filter (fun r => e.holds E.I r)).map (·.select s.writeNames) := by
    intro snap
    rw [List.filter_map]
    congr 1
    exact List.filter_congr fun r hr => hsel snap r hr
  constructor
  · rw [tableRead_filter hok.wok hh he (o := { filter := some e }) rfl (fun c hc => hc) rfl,
      tableRead_full hok.wok hh]
    cases md.target sl.h.branch v with
    | error e => rfl
    | ok snap =>
      simp only [Except.map, key]
      congr 2
      show (fun r : Row => r.select (outCols s s.names)) = _
      rw [outCols_names]
  · intro cs hcs
    rw [tableRead_filter hok.wok hh he (o := { filter := some e, fields := some cs }) rfl hcs rfl,
      tableRead_full hok.wok hh]
    cases md.target sl.h.branch v with
    | error e => rfl
    | ok snap =>
      simp only [Except.map, key, List.map_map, Except.ok.injEq]
      refine List.map_congr_left fun r _ => (select_select fun c hc => ?_).symm
      rw [← outCols_names]
      simp only [outCols, ReadOpts.cols, Option.getD_some, List.mem_append, List.mem_filter] at hc ⊢
      rcases hc with ⟨hc, hb⟩ | ⟨hc, hb⟩
      · exact Or.inl ⟨hcs c hc, hb⟩
      · exact Or.inr ⟨hcs c hc, hb⟩

/-- The hypotheses are met by the demonstration schema; the filter keeps one of three
rows, which are in two files, one of them pruned. -/
example : ∃ (σ : Sys) (sl : Slot) (e : Expr), Reach env schema anyStep σ ∧ sl ∈ σ.slots ∧
    FilterFits schema e ∧
    tableRead env sl.h σ.w {} none = .ok [row 1 "x" [1], row 2 "y" [2], row 7 "z" [3]] ∧
    tableRead env sl.h σ.w { filter := some e } none = .ok [row 2 "y" [2]] := by
  let e : Expr := .bin "and" (.bin "gt" (.sel "id") (.lit (.int 1)))
    (.bin "lt" (.sel "id") (.lit (.int 5)))
  let σ := after env anyB schema [.call 0 (.mutate (.append [[row 1 "x" [1], row 2 "y" [2]]])),
    .call 0 (.mutate (.append [[row 7 "z" [3]]]))]
  obtain ⟨sl, -, h1, h2⟩ := slot_of (σ := σ) (i := 0)
    (f := fun sl => (tableRead env sl.h σ.w {} none, tableRead env sl.h σ.w { filter := some e } none))
    (x := (.ok [row 1 "x" [1], row 2 "y" [2], row 7 "z" [3]], .ok [row 2 "y" [2]])) (by decide +kernel)
  simp only [Prod.mk.injEq] at h2
  exact ⟨σ, sl, e, after_reach (fun _ _ _ => trivial) _, h1,
    FilterFits.of_flat rfl (by decide) (by decide) (by decide) rfl (by decide), h2⟩

/-- A state and a filter for which the filtered read is not the filtered full read. -/
def PruningLoses (E : Env) (s : Schema) (e : Expr) (full filtered : List Row) : Prop :=
  ∃ (σ : Sys) (sl : Slot), Reach E s anyStep σ ∧ sl ∈ σ.slots ∧
    tableRead E sl.h σ.w {} none = .ok full ∧
    tableRead E sl.h σ.w { filter := some e } none = .ok filtered ∧
    filtered ≠ full.filter (fun r => e.holds E.I r)

theorem pruningLoses_of {E : Env} {s : Schema} {e : Expr} {full filtered : List Row} {as : List Act}
    (h : ((after E anyB s as).slots[0]?).map (fun sl =>
      (tableRead E sl.h (after E anyB s as).w {} none,
        tableRead E sl.h (after E anyB s as).w { filter := some e } none)) = some (.ok full, .ok filtered))
    (hne : filtered ≠ full.filter (fun r => e.holds E.I r)) : PruningLoses E s e full filtered := by
  obtain ⟨sl, -, h1, h2⟩ := slot_of h
  simp only [Prod.mk.injEq] at h2
  exact ⟨_, sl, after_reach (fun _ _ _ => trivial) _, h1, h2.1, h2.2, hne⟩

/-- `not (id > 1)` on a file with keys 1 and 2: the condition under which `id > 1` is
false on the whole file is negated to prune for `not` (`falsifiable_filters.py:134-137`),
which prunes every file that has a row with `id > 1`. -/
theorem C05_violated_not : PruningLoses env schema
    (.un "not" (.bin "gt" (.sel "id") (.lit (.int 1)))) [row 1 "x" [1], row 2 "y" [2]] [] :=
  pruningLoses_of (as := [.call 0 (.mutate (.append [[row 1 "x" [1], row 2 "y" [2]]]))])
    (by decide +kernel) (by decide +kernel)

/-- Two integer keys. -/
def twoKeys : Schema := { fields := [⟨"a", 0, .int⟩, ⟨"b", 1, .int⟩], pks := ["a", "b"], recs := [] }

/-- A row of `twoKeys`. -/
def rowAB (a b : Int) : Row := [("a", .sc (.int a)), ("b", .sc (.int b))]

/-- `a != b` on a file whose ranges of `a` and `b` overlap
(`falsifiable_filters.py:231-232`). -/
theorem C05_violated_ne : PruningLoses env twoKeys
    (.bin "not_equal" (.sel "a") (.sel "b")) [rowAB 1 2, rowAB 2 1] [] :=
  pruningLoses_of (as := [.call 0 (.mutate (.append [[rowAB 1 2, rowAB 2 1]]))])
    (by decide +kernel) (by decide +kernel)

/-- A float key. -/
def Demo.floatKey : Schema := { fields := [⟨"x", 0, .float⟩, ⟨"txt", 1, .str⟩], pks := ["x"], recs := [] }

/-- A row of `floatKey`. -/
def Demo.rowX (x : Scalar) (t : String) : Row := [("x", .sc x), ("txt", .sc (.str t))]

/-- `x != 1.0` on a file with the keys 1.0 and NaN: the filter is true of NaN, but Parquet
leaves NaN out of minimum and maximum, so both are 1.0 and the file is pruned
(`falsifiable_filters.py:286-287`). -/
theorem C05_violated_nan : PruningLoses env floatKey
    (.bin "not_equal" (.sel "x") (.lit (.flt 1))) [rowX (.flt 1) "a", rowX .nan "b"] [] :=
  pruningLoses_of (as := [.call 0 (.mutate (.append [[rowX (.flt 1) "a", rowX .nan "b"]]))])
    (by decide +kernel) (by decide +kernel)

/-- Comparisons other than `≠` are safe with NaN: the file with NaN is read, and NaN is not
among the rows. -/
example : ∃ (σ : Sys) (sl : Slot) (e : Expr), Reach env floatKey anyStep σ ∧ sl ∈ σ.slots ∧
    FilterFits floatKey e ∧
    tableRead env sl.h σ.w {} none = .ok [rowX (.flt 3) "a", rowX .nan "b", rowX .nan "c", rowX (.flt 9) "d"] ∧
    tableRead env sl.h σ.w { filter := some e } none = .ok [rowX (.flt 3) "a"] := by
  let e : Expr := .bin "lt" (.sel "x") (.lit (.flt 5))
  let σ := after env anyB floatKey [.call 0 (.mutate (.append [[rowX (.flt 3) "a", rowX .nan "b"]])),
    .call 0 (.mutate (.append [[rowX .nan "c", rowX (.flt 9) "d"]]))]
  obtain ⟨sl, -, h1, h2⟩ := slot_of (σ := σ) (i := 0)
    (f := fun sl => (tableRead env sl.h σ.w {} none, tableRead env sl.h σ.w { filter := some e } none))
    (x := (.ok [rowX (.flt 3) "a", rowX .nan "b", rowX .nan "c", rowX (.flt 9) "d"], .ok [rowX (.flt 3) "a"]))
    (by decide +kernel)
  simp only [Prod.mk.injEq] at h2
  exact ⟨σ, sl, e, after_reach (fun _ _ _ => trivial) _, h1,
    FilterFits.of_flat rfl (by decide) (by decide) (by decide) rfl (by decide), h2⟩

/-- A struct column of two leaves before the key. -/
def nestedFirst : Schema :=
  { fields := [⟨"p", 0, .struct ["x", "y"] 2⟩, ⟨"id", 1, .int⟩], pks := ["id"], recs := [] }

/-- A row of `nestedFirst`. -/
def rowP (x y i : Int) : Row := [("p", .struct [some (.int x), some (.int y)]), ("id", .sc (.int i))]

/-- A key after a struct column: its position among the top-level columns is used as
position among the Parquet leaves (`schema/arrow.py:172-178`, `manifests/index.py:165`),
so the statistics are those of a field of the struct; and looking up the filter's
column raises a KeyError (`falsifiable_filters.py:300-301`). -/
theorem C05_violated_nested : ∃ (σ : Sys) (sl : Slot), Reach env nestedFirst anyStep σ ∧ sl ∈ σ.slots ∧
    tableRead env sl.h σ.w {} none = .ok [rowP 5 6 1] ∧
    tableRead env sl.h σ.w { filter := some (.bin "equal" (.sel "id") (.lit (.int 1))) } none =
      .error (.other "KeyError") := by
  let σ := after env anyB nestedFirst [.call 0 (.mutate (.append [[rowP 5 6 1]]))]
  obtain ⟨sl, -, h1, h2⟩ := slot_of (σ := σ) (i := 0)
    (f := fun sl => (tableRead env sl.h σ.w {} none, tableRead env sl.h σ.w
      { filter := some (.bin "equal" (.sel "id") (.lit (.int 1))) } none))
    (x := (.ok [rowP 5 6 1], .error (.other "KeyError"))) (by decide +kernel)
  simp only [Prod.mk.injEq] at h2
  exact ⟨σ, sl, after_reach (fun _ _ _ => trivial) _, h1, h2⟩

/-- A struct with a field named like the key, another column, and the key.  All have one Parquet
leaf, so the statistics of the key are right. -/
def sameName (ty : FTy) : Schema :=
  { fields := [⟨"p", 0, .struct ["id"] 1⟩, ⟨"v", 1, ty⟩, ⟨"id", 2, .int⟩], pks := ["id"], recs := [] }

/-- A row of `sameName`. -/
def rowV (v : Val) (i : Int) : Row := [("p", .struct [some (.int 0)]), ("v", v), ("id", .sc (.int i))]

/-- The position of a column is looked up among all names, those inside structs too
(`falsifiable_filters.py:300-301`).  If a struct has a field named like the key, a filter on another
column is tested against the statistics of the key: a row on which it is true is not found, and
there is no error.  For a plain column, and for a field of a struct. -/
theorem C05_violated_name : ∃ (ty : FTy) (v : Val) (e : Expr) (σ : Sys) (sl : Slot), e.cols = ["v"] ∧
    e.pruneSafe (sameName ty) = true ∧ Reach env (sameName ty) anyStep σ ∧ sl ∈ σ.slots ∧
    tableRead env sl.h σ.w {} none = .ok [rowV v 1] ∧ e.holds env.I (rowV v 1) = true ∧
    tableRead env sl.h σ.w { filter := some e } none = .ok [] := by
  let e : Expr := .bin "equal" (.sel "v") (.lit (.int 5))
  let σ := after env anyB (sameName .int) [.call 0 (.mutate (.append [[rowV (.sc (.int 5)) 1]]))]
  obtain ⟨sl, -, h1, h2⟩ := slot_of (σ := σ) (i := 0)
    (f := fun sl => (tableRead env sl.h σ.w {} none, tableRead env sl.h σ.w { filter := some e } none))
    (x := (.ok [rowV (.sc (.int 5)) 1], .ok [])) (by decide +kernel)
  simp only [Prod.mk.injEq] at h2
  exact ⟨.int, .sc (.int 5), e, σ, sl, rfl, by decide, after_reach (fun _ _ _ => trivial) _, h1, h2.1, by decide, h2.2⟩

/-- The same with a field of a struct. -/
example : ∃ (σ : Sys) (sl : Slot), Reach env (sameName (.struct ["y"] 1)) anyStep σ ∧ sl ∈ σ.slots ∧
    tableRead env sl.h σ.w {} none = .ok [rowV (.struct [some (.int 5)]) 1] ∧
    (Expr.bin "equal" (.sub "v" 0) (.lit (.int 5))).holds env.I (rowV (.struct [some (.int 5)]) 1) = true ∧
    tableRead env sl.h σ.w { filter := some (.bin "equal" (.sub "v" 0) (.lit (.int 5))) } none = .ok [] := by
  let e : Expr := .bin "equal" (.sub "v" 0) (.lit (.int 5))
  let σ := after env anyB (sameName (.struct ["y"] 1)) [.call 0 (.mutate (.append [[rowV (.struct [some (.int 5)]) 1]]))]
  obtain ⟨sl, -, h1, h2⟩ := slot_of (σ := σ) (i := 0)
    (f := fun sl => (tableRead env sl.h σ.w {} none, tableRead env sl.h σ.w { filter := some e } none))
    (x := (.ok [rowV (.struct [some (.int 5)]) 1], .ok [])) (by decide +kernel)
  simp only [Prod.mk.injEq] at h2
  exact ⟨σ, sl, after_reach (fun _ _ _ => trivial) _, h1, h2.1, by decide, h2.2⟩

/-- A key, and a struct after it. -/
def keyStruct : Schema :=
  { fields := [⟨"id", 0, .int⟩, ⟨"p", 1, .struct ["x", "y"] 2⟩], pks := ["id"], recs := [] }

/-- A filter on a field of a struct and on the key, as `C05_partial` wants it: the key prunes, and
the right rows are read. -/
example : ∃ (σ : Sys) (sl : Slot) (e : Expr), Reach env keyStruct anyStep σ ∧ sl ∈ σ.slots ∧
    FilterFits keyStruct e ∧ buildManifestFilter keyStruct e ≠ .ok none ∧
    tableRead env sl.h σ.w { filter := some e } none =
      .ok [[("id", .sc (.int 2)), ("p", .struct [some (.int 5), none])]] := by
  let r (i x : Int) : Row := [("id", .sc (.int i)), ("p", .struct [some (.int x), none])]
  let e : Expr := .bin "and" (.bin "equal" (.sub "p" 0) (.lit (.int 5))) (.bin "gt" (.sel "id") (.lit (.int 1)))
  let σ := after env anyB keyStruct [.call 0 (.mutate (.append [[r 1 5]])), .call 0 (.mutate (.append [[r 2 5, r 3 7]]))]
  obtain ⟨sl, -, h1, h2⟩ := slot_of (σ := σ) (i := 0)
    (f := fun sl => tableRead env sl.h σ.w { filter := some e } none) (x := .ok [r 2 5]) (by decide +kernel)
  refine ⟨σ, sl, e, after_reach (fun _ _ _ => trivial) _, h1, ⟨⟨by decide, by decide, by decide, ?_⟩, by decide, by decide⟩,
    by decide, h2⟩
  unfold Schema.Aligned
  decide

/-! ## C06 -/

/-- C06 for schemas whose keys are preceded by columns of one Parquet leaf only: for
each index file in a manifest of any stored snapshot and each primary key, every value
in the file other than NaN lies between the recorded minimum and maximum, which are not NaN.
Missing: keys after nested columns, see `C06_violated`; NaN, see `C06_violated_nan`. -/
theorem C06_partial {E : Env} {s : Schema} (hn : s.names.Nodup) (hi : (s.fields.map (·.fid)).Nodup)
    (hk : s.keysLeaf = true) {σ : Sys} (h1 : Reach E s anyStep σ) {md : Metadata}
    (hmd : σ.w.stored = some md) {n : Nat} {snap : Snapshot} (hs : md.snaps.get? n = some snap)
    {p : Path} (hp : p ∈ snap.index) {rows : List ManifestRow} (hr : σ.w.fs.imanifest p = some rows)
    {m : ManifestRow} (hm : m ∈ rows) {groups : List (List Row)}
    (hg : σ.w.fs.parquet m.file = some groups) {r : Row} (hrm : r ∈ groups.flatten)
    {f : Field} (hf : f ∈ s.fields) (hkey : f.name ∈ s.pks) {x : Scalar} (hx : r.val f.name = .sc x)
    (hnan : x ≠ .nan) :
    ∃ mn mx, m.stats.get? f.fid = some (some mn, some mx) ∧ mn ≤ x ∧ x ≤ mx ∧ mn ≠ .nan ∧ mx ≠ .nan := by
  obtain ⟨md', hok⟩ := reach_ok hn h1
  have : md' = md := by rw [hok.wok.storedEq] at hmd; exact Option.some.inj hmd
  subst this
  have hsn := hok.wok.ok.snaps n snap hs
  rw [hok.wok.schema] at hsn
  obtain ⟨rows', a1, -, a3⟩ := hsn.manifests p hp
  rw [hr] at a1
  cases a1
  obtain ⟨g, g1, -, g3, g4⟩ := a3 m hm
  rw [hg] at g1
  cases g1
  have hb := fileStats_bounds hk hi g3 hrm (g4 r hrm).1 f.name hkey x hx f.fid
  rw [if_neg hnan] at hb
  refine hb ?_
  unfold Schema.fidOf
  have : s.fields.find? (fun g => g.name = f.name) = some f := by
    obtain ⟨pre, post, hpp⟩ := List.append_of_mem hf
    rw [hpp, List.find?_append]
    have hnone : pre.find? (fun g => decide (g.name = f.name)) = none := by
      refine List.find?_eq_none.mpr fun g hg => ?_
      simp only [decide_eq_true_eq]
      intro e
      unfold Schema.names at hn
      rw [hpp, List.map_append, List.nodup_append] at hn
      exact hn.2.2 g.name (List.mem_map.mpr ⟨g, hg, rfl⟩) f.name (by simp) e
    rw [hnone]
    simp
  rw [this]
  rfl

/-- A state that meets the hypotheses: two rows in one file, statistics 3 and 5. -/
example : ∃ (σ : Sys) (md : Metadata) (snap : Snapshot) (p : Path) (m : ManifestRow),
    Reach env schema anyStep σ ∧ σ.w.stored = some md ∧ md.snaps.get? 1 = some snap ∧
    p ∈ snap.index ∧ σ.w.fs.imanifest p = some [m] ∧ m.stats = [(0, some (.int 3), some (.int 5))] := by
  let σ := after env anyB schema [.call 0 (.mutate (.append [[row 5 "x" [1], row 3 "y" [2]]]))]
  obtain ⟨md, h1, h2⟩ := stored_of_map (w := σ.w)
    (f := fun md => (md.snaps.get? 1).map fun sn => sn.index.map fun p =>
      (σ.w.fs.imanifest p).map fun ms => ms.map (·.stats))
    (x := some [some [[(0, some (.int 3), some (.int 5))]]]) (by decide +kernel)
  cases hs : md.snaps.get? 1 with
  | none => rw [hs] at h2; cases h2
  | some snap =>
    rw [hs] at h2
    simp only [Option.map_some, Option.some.injEq] at h2
    obtain ⟨p, ps, hi⟩ : ∃ p ps, snap.index = p :: ps := by
      cases hx : snap.index with
      | nil => rw [hx] at h2; cases h2
      | cons p ps => exact ⟨p, ps, rfl⟩
    rw [hi] at h2
    simp only [List.map_cons, List.cons.injEq] at h2
    cases hm : σ.w.fs.imanifest p with
    | none => rw [hm] at h2; cases h2.1
    | some ms =>
      rw [hm] at h2
      simp only [Option.map_some, Option.some.injEq] at h2
      match ms, hm, h2.1 with
      | [m], hm, h3 =>
        simp only [List.map_cons, List.map_nil, List.cons.injEq, and_true] at h3
        exact ⟨σ, md, snap, p, m, after_reach (fun _ _ _ => trivial) _, h1, hs,
          by rw [hi]; exact List.mem_cons_self .., hm, h3⟩
      | [], _, h3 => cases h3
      | _ :: _ :: _, _, h3 => simp at h3

/-- A key after a struct of two fields gets the statistics of the second field of the
struct: the recorded range is 6 to 6, the stored key is 1. -/
theorem C06_violated : ∃ (σ : Sys) (md : Metadata),
    Reach env nestedFirst anyStep σ ∧ σ.w.stored = some md ∧
    (md.snaps.get? 1).map (fun sn => sn.index.map fun p => (σ.w.fs.imanifest p).map fun ms =>
      ms.map fun m => (m.stats, σ.w.fs.parquet m.file)) =
      some [some [([(1, some (.int 6), some (.int 6))], some [[rowP 5 6 1]])]] := by
  let σ := after env anyB nestedFirst [.call 0 (.mutate (.append [[rowP 5 6 1]]))]
  obtain ⟨md, h1, h2⟩ := stored_of_map (w := σ.w)
    (f := fun md => (md.snaps.get? 1).map (fun sn => sn.index.map fun p => (σ.w.fs.imanifest p).map fun ms =>
      ms.map fun m => (m.stats, σ.w.fs.parquet m.file)))
    (x := some [some [([(1, some (.int 6), some (.int 6))], some [[rowP 5 6 1]])]]) (by decide +kernel)
  exact ⟨σ, md, after_reach (fun _ _ _ => trivial) _, h1, h2⟩

/-- NaN lies between no minimum and maximum: the recorded range is 1.0 to 1.0, and NaN is a
stored key. -/
theorem C06_violated_nan : ∃ (σ : Sys) (md : Metadata),
    Reach env floatKey anyStep σ ∧ σ.w.stored = some md ∧
    (md.snaps.get? 1).map (fun sn => sn.index.map fun p => (σ.w.fs.imanifest p).map fun ms =>
      ms.map fun m => (m.stats, σ.w.fs.parquet m.file)) =
      some [some [([(0, some (.flt 1), some (.flt 1))], some [[rowX (.flt 1) "a", rowX .nan "b"]])]] := by
  let σ := after env anyB floatKey [.call 0 (.mutate (.append [[rowX (.flt 1) "a", rowX .nan "b"]]))]
  obtain ⟨md, h1, h2⟩ := stored_of_map (w := σ.w)
    (f := fun md => (md.snaps.get? 1).map (fun sn => sn.index.map fun p => (σ.w.fs.imanifest p).map fun ms =>
      ms.map fun m => (m.stats, σ.w.fs.parquet m.file)))
    (x := some [some [([(0, some (.flt 1), some (.flt 1))], some [[rowX (.flt 1) "a", rowX .nan "b"]])]]) (by decide +kernel)
  exact ⟨σ, md, after_reach (fun _ _ _ => trivial) _, h1, h2⟩

/-! ## C38 -/

/-- `LocalRunner.read` as the list of batches it yields (`core/runners.py:207-227`). -/
def tableBatches (E : Env) (h : Handle) (w : World) (o : ReadOpts) (v : Option Version) :
    Except Err (List (List Row)) :=
  match reload (h, w) with
  | (.error e, _) => .error e
  | (.ok _, (h', w')) => readHandle E w'.fs h' o v

theorem tableBatches_target {E : Env} {s : Schema} {w : World} {md : Metadata} {h : Handle}
    (hw : WOK s w md) (hh : HandleOK s w h) (o : ReadOpts) (v : Option Version) :
    tableBatches E h w o v =
      match md.target h.branch v with
      | .error e => .error e
      | .ok snap => readSnap E w.fs s o snap := by
  obtain ⟨b, h', e1, e2, e3, -⟩ := reload_eq hw hh
  unfold tableBatches
  rw [e1]
  simp only [readHandle_target, e2, e3, hw.schema]
  rfl

theorem readFile_bad {E : Env} {fs : FS} {s : Schema} {o : ReadOpts} {f : DataFile}
    (h : ¬ ∀ c ∈ o.cols s, c ∈ s.names) : readFile E fs s o f = .error (.other "ArrowInvalid") := by
  unfold readFile
  rw [if_neg (by simpa using h)]

theorem readFiles_bad {E : Env} {fs : FS} {s : Schema} {o : ReadOpts} {files : List DataFile}
    (h : ¬ ∀ c ∈ o.cols s, c ∈ s.names) : readFiles E fs s o files =
      if files = [] then .ok [] else .error (.other "ArrowInvalid") := by
  cases files with
  | nil => rfl
  | cons f fs => simp [readFiles, readFile_bad h]

theorem readFiles_ref {E : Env} {fs : FS} {s : Schema} {o : ReadOpts} {n : Nat} (hr : o.refRead = true) :
    ∀ (files : List DataFile), readFiles E fs s { o with batch := n } files = readFiles E fs s o files
  | [] => rfl
  | f :: files => by
    have h1 : readFile E fs s { o with batch := n } f = readFile E fs s o f := by
      unfold readFile
      simp only [hr, ReadOpts.cols, if_true]
    simp only [readFiles, h1, readFiles_ref hr files]

/-- C38 for reads that resolve record fields: with any batch size (and any filter,
columns and version) a read yields batches of at most that size, none of them empty;
put together they are the rows any other batch size gives (for every kind of read),
or the read fails the same way.
Missing: batches of reads with `reference_read`, see `C38_violated`. -/
theorem C38_partial {E : Env} {s : Schema} (hn : s.names.Nodup) {σ : Sys} {sl : Slot}
    (h1 : Reach E s anyStep σ) (hsl : sl ∈ σ.slots) (o : ReadOpts) (n : Nat) (v : Option Version) :
    tableRead E sl.h σ.w { o with batch := n } v = tableRead E sl.h σ.w o v ∧
    (tableBatches E sl.h σ.w o v).map List.flatten = tableRead E sl.h σ.w o v ∧
    (o.refRead = false → 0 < o.batch → ∀ bs, tableBatches E sl.h σ.w o v = .ok bs →
      ∀ b ∈ bs, b ≠ [] ∧ b.length ≤ o.batch) := by
  obtain ⟨md, hok⟩ := reach_ok hn h1
  have hh := (hok.slots sl hsl).1
  rw [tableRead_target hok.wok hh, tableRead_target hok.wok hh, tableBatches_target hok.wok hh]
  cases ht : md.target sl.h.branch v with
  | error e => exact ⟨rfl, rfl, fun _ _ bs h => by cases h⟩
  | ok snap =>
    have hsn := (target_ok hok.wok ht).1
    simp only
    have key : (readSnap E σ.w.fs s { o with batch := n } snap).map rowsOf =
        (readSnap E σ.w.fs s o snap).map rowsOf ∧
        (o.refRead = false → 0 < o.batch → ∀ bs, readSnap E σ.w.fs s o snap = .ok bs →
          ∀ b ∈ bs, b ≠ [] ∧ b.length ≤ o.batch) := by
      cases hm : manifestFilter s o.filter with
      | error e =>
        simp only [readSnap, hm]
        exact ⟨trivial, fun _ _ bs h => by cases h⟩
      | ok mf =>
        by_cases hc : ∀ c ∈ o.cols s, c ∈ s.names
        · rcases Bool.eq_false_or_eq_true o.refRead with hr | hr
          rotate_left
          ·
            obtain ⟨b1, x1, x2, x3⟩ := readSnap_rows (E := E) (o := o) hsn hm hc hr
            obtain ⟨b2, y1, y2, -⟩ := readSnap_rows (E := E) (o := { o with batch := n }) hsn hm hc hr
            refine ⟨?_, fun _ hb bs h => ?_⟩
            · rw [y1, x1]
              simp only [Except.map, rowsOf_flatten, x2, y2]
              rfl
            · rw [x1] at h
              cases h
              exact x3 hb
          · refine ⟨?_, fun h => by rw [hr] at h; cases h⟩
            simp only [readSnap, hm]
            cases collectFiles σ.w.fs mf snap.index 1 with
            | error e => rfl
            | ok fset => exact congrArg (Except.map rowsOf) (readFiles_ref hr fset.files)
        · simp only [readSnap, hm]
          cases collectFiles σ.w.fs mf snap.index 1 with
          | error e => exact ⟨rfl, fun _ _ bs h => by cases h⟩
          | ok fset =>
            simp only
            have e2 := readFiles_bad (E := E) (fs := σ.w.fs) (o := { o with batch := n })
              (files := fset.files) (s := s) hc
            rw [readFiles_bad hc, e2]
            refine ⟨rfl, fun _ _ bs h => ?_⟩
            split at h
            · cases h; simp
            · cases h
    refine ⟨key.1, ?_, key.2⟩
    cases readSnap E σ.w.fs s o snap with
    | error e => rfl
    | ok bs => simp [Except.map, rowsOf_flatten]

/-- Three rows read in batches of two. -/
example : ∃ (σ : Sys) (sl : Slot), Reach env schema anyStep σ ∧ sl ∈ σ.slots ∧
    tableBatches env sl.h σ.w { batch := 2 } none =
      .ok [[row 1 "x" [1], row 2 "y" [2]], [row 7 "z" [3]]] := by
  let σ := after env anyB schema [.call 0 (.mutate (.append [[row 1 "x" [1], row 2 "y" [2], row 7 "z" [3]]]))]
  obtain ⟨sl, -, h1, h2⟩ := slot_of (σ := σ) (i := 0)
    (f := fun sl => tableBatches env sl.h σ.w { batch := 2 } none)
    (x := .ok [[row 1 "x" [1], row 2 "y" [2]], [row 7 "z" [3]]]) (by decide +kernel)
  exact ⟨σ, sl, after_reach (fun _ _ _ => trivial) _, h1, h2⟩

/-- A reference read with batches of one row, filtered on a column that is no key. -/
def refOpts : ReadOpts :=
  { batch := 1, refRead := true, filter := some (.bin "equal" (.sel "txt") (.lit (.str "y"))) }

/-- A read with `reference_read` ignores the batch size and yields whole files, also
empty ones (`read.py:112-114`). -/
theorem C38_violated : ∃ (σ : Sys) (sl : Slot) (bs : List (List Row)), Reach env schema anyStep σ ∧
    sl ∈ σ.slots ∧
    tableBatches env sl.h σ.w refOpts none = .ok bs ∧
    bs.map List.length = [0, 2] := by
  let σ := after env anyB schema [.call 0 (.mutate (.append [[row 1 "x" [1]]])),
    .call 0 (.mutate (.append [[row 2 "y" [2], row 7 "y" [3]]]))]
  obtain ⟨sl, -, h1, h2⟩ := slot_of (σ := σ) (i := 0)
    (f := fun sl => ((tableBatches env sl.h σ.w refOpts none).toOption.map
        fun bs => bs.map List.length))
    (x := some [0, 2]) (by decide +kernel)
  cases hb : tableBatches env sl.h σ.w refOpts none with
  | error e => simp only [hb] at h2; cases h2
  | ok bs =>
    simp only [hb] at h2
    exact ⟨σ, sl, bs, after_reach (fun _ _ _ => trivial) _, h1, hb, Option.some.inj h2⟩

/-! ## C39 -/

/-- C39: reading selected columns gives the rows of the read of all columns (with the
same filter, whatever it is, version and batch size) restricted to these columns,
index columns before record columns; or the same error. -/
theorem C39 {E : Env} {s : Schema} (hn : s.names.Nodup) {σ : Sys} {sl : Slot}
    (h1 : Reach E s anyStep σ) (hsl : sl ∈ σ.slots) (filter : Option Expr) (batch : Nat)
    {cs : List String} (hcs : ∀ c ∈ cs, c ∈ s.names) (v : Option Version) :
    tableRead E sl.h σ.w { filter := filter, batch := batch, fields := some cs } v =
      (tableRead E sl.h σ.w { filter := filter, batch := batch } v).map (fun rows => rows.map
        (·.select (cs.filter (fun c => !s.recs.contains c) ++ cs.filter (fun c => s.recs.contains c)))) := by
  obtain ⟨md, hok⟩ := reach_ok hn h1
  have hh := (hok.slots sl hsl).1
  rw [tableRead_target hok.wok hh, tableRead_target hok.wok hh]
  cases ht : md.target sl.h.branch v with
  | error e => rfl
  | ok snap =>
    have hsn := (target_ok hok.wok ht).1
    simp only
    cases hm : manifestFilter s filter with
    | error e => simp [readSnap, hm, Except.map]
    | ok mf =>
      obtain ⟨b1, x1, x2, -⟩ := readSnap_rows (E := E)
        (o := { filter := filter, batch := batch, fields := some cs }) hsn hm hcs rfl
      obtain ⟨b2, y1, y2, -⟩ := readSnap_rows (E := E)
        (o := { filter := filter, batch := batch }) hsn hm (fun c hc => hc) rfl
      simp only [x1, y1, Except.map, rowsOf_flatten, x2, y2, List.map_map, Except.ok.injEq]
      refine List.map_congr_left fun r _ => ?_
      simp only [outRow, Function.comp, ReadOpts.cols, Option.getD_some, Option.getD_none]
      refine (select_select fun c hc => ?_).symm
      simp only [outCols, List.mem_append, List.mem_filter] at hc ⊢
      rcases hc with ⟨hc, hb⟩ | ⟨hc, hb⟩
      · exact Or.inl ⟨hcs c hc, hb⟩
      · exact Or.inr ⟨hcs c hc, hb⟩

/-- Two columns, filtered by a third one. -/
def someCols : ReadOpts :=
  { fields := some ["img", "txt"], filter := some (.bin "gt" (.sel "id") (.lit (.int 1))) }

/-- A record column and an index column of a filtered read. -/
example : ∃ (σ : Sys) (sl : Slot), Reach env schema anyStep σ ∧ sl ∈ σ.slots ∧
    tableRead env sl.h σ.w someCols none =
      .ok [[("txt", .sc (.str "y")), ("img", .sc (.bytes [2]))]] := by
  let σ := after env anyB schema [.call 0 (.mutate (.append [[row 1 "x" [1], row 2 "y" [2]]]))]
  obtain ⟨sl, -, h1, h2⟩ := slot_of (σ := σ) (i := 0)
    (f := fun sl => tableRead env sl.h σ.w someCols none)
    (x := .ok [[("txt", .sc (.str "y")), ("img", .sc (.bytes [2]))]]) (by decide +kernel)
  exact ⟨σ, sl, after_reach (fun _ _ _ => trivial) _, h1, h2⟩

end Space
