import Verif.Views
import Verif.RayLemmas
import Verif.ReadSpec

/-!
# What views return
-/

set_option autoImplicit false

namespace Space

open List

/-- Functions that work row by row: `g k r` are the rows function `k` makes of row `r`. -/
def RowWise (U : UdfEnv) (g : Nat → Row → List Row) : Prop := ∀ k rows, U.map k rows = rows.flatMap (g k)

/-- Columns in the order in which an input delivers them: a dataset gives record fields
last. -/
def View.inputCols (s : Schema) (i : View) (fields : List String) : List String :=
  match i with
  | .dataset _ => fields.filter (fun c => !s.recs.contains c) ++ fields.filter (fun c => s.recs.contains c)
  | _ => fields

/-- The rows of a view on the rows of its source. -/
def View.rowsOn (s : Schema) (g : Nat → Row → List Row) (keep : Nat → Row → Bool) : View → List Row → List Row
  | .dataset _, rows => rows
  | .map u i fields, rows => ((i.rowsOn s g keep rows).map (·.select (i.inputCols s fields))).flatMap (g u.fn)
  | .filter u i fields, rows => ((i.rowsOn s g keep rows).map (·.select (i.inputCols s fields))).filter (keep u.fn)
  | .joined .., _ => []

/-- The columns rows of a view have. -/
def View.cols (s : Schema) : View → List String
  | .dataset _ => s.names
  | .map u _ _ => u.out.map AField.name
  | .filter _ _ fields => fields
  | .joined out _ _ => out.map AField.name

/-- Every transform asks for columns its input has, every function gives the columns it
declares, and there is no join. -/
def View.Fits (s : Schema) (g : Nat → Row → List Row) : View → Prop
  | .dataset _ => True
  | .map u i fields => i.Fits s g ∧ (∀ c ∈ fields, c ∈ i.cols s) ∧
      ∀ r, ∀ r' ∈ g u.fn r, ∀ c ∈ u.out.map AField.name, c ∈ r'.cols
  | .filter _ i fields => i.Fits s g ∧ ∀ c ∈ fields, c ∈ i.cols s
  | .joined .. => False

theorem View.rowsOn_subset (s : Schema) (g : Nat → Row → List Row) (keep : Nat → Row → Bool) :
    ∀ (v : View) (rows rows' : List Row), (∀ r ∈ rows, r ∈ rows') →
      ∀ r ∈ v.rowsOn s g keep rows, r ∈ v.rowsOn s g keep rows'
  | .dataset _, _, _, h => h
  | .map u i fields, rows, rows', h => by
    intro r hr
    simp only [View.rowsOn, List.mem_flatMap, List.mem_map] at hr ⊢
    obtain ⟨x, ⟨y, hy, rfl⟩, hr⟩ := hr
    exact ⟨_, ⟨y, i.rowsOn_subset s g keep rows rows' h y hy, rfl⟩, hr⟩
  | .filter u i fields, rows, rows', h => by
    intro r hr
    simp only [View.rowsOn, List.mem_filter, List.mem_map] at hr ⊢
    obtain ⟨⟨y, hy, rfl⟩, hr⟩ := hr
    exact ⟨⟨y, i.rowsOn_subset s g keep rows rows' h y hy, rfl⟩, hr⟩
  | .joined .., _, _, _ => fun _ h => by cases h

/-- A view works row by row. -/
theorem View.rowsOn_flatMap (s : Schema) (g : Nat → Row → List Row) (keep : Nat → Row → Bool) :
    ∀ (v : View) (rows : List Row), v.rowsOn s g keep rows = rows.flatMap (fun r => v.rowsOn s g keep [r])
  | .dataset _, rows => by simp [View.rowsOn]
  | .map u i fields, rows => by
    simp only [View.rowsOn]
    rw [i.rowsOn_flatMap s g keep rows, List.map_flatMap, List.flatMap_assoc]
  | .filter u i fields, rows => by
    simp only [View.rowsOn]
    rw [i.rowsOn_flatMap s g keep rows, List.map_flatMap, List.filter_flatMap]
  | .joined .., rows => by simp [View.rowsOn]

theorem View.rowsOn_perm (s : Schema) (g : Nat → Row → List Row) (keep : Nat → Row → Bool) (v : View)
    {a b : List Row} (h : a ~ b) : v.rowsOn s g keep a ~ v.rowsOn s g keep b := by
  rw [v.rowsOn_flatMap, v.rowsOn_flatMap s g keep b]
  exact h.flatMap_right _

theorem select_cols (r : Row) (cs : List String) : (r.select cs).cols = cs := by
  simp only [Row.select, Row.cols, List.map_map]
  exact (List.map_congr_left (fun _ _ => rfl)).trans (List.map_id cs)

theorem mem_inputCols {s : Schema} {i : View} {fields : List String} {c : String} :
    c ∈ i.inputCols s fields ↔ c ∈ fields := by
  unfold View.inputCols
  split
  · simp only [List.mem_append, List.mem_filter]
    cases s.recs.contains c <;> simp
  · exact Iff.rfl

/-- Rows of a view have its columns. -/
theorem View.rowsOn_cols {s : Schema} {g : Nat → Row → List Row} {keep : Nat → Row → Bool} :
    ∀ {v : View} {rows : List Row}, v.Fits s g → (∀ r ∈ rows, ∀ c ∈ s.names, c ∈ r.cols) →
      ∀ r ∈ v.rowsOn s g keep rows, ∀ c ∈ v.cols s, c ∈ r.cols
  | .dataset _, rows, _, h => h
  | .map u i fields, rows, hv, h => by
    intro r hr
    simp only [View.rowsOn, List.mem_flatMap, List.mem_map] at hr
    obtain ⟨x, -, hr⟩ := hr
    exact hv.2.2 x r hr
  | .filter u i fields, rows, hv, h => by
    intro r hr c hc
    simp only [View.rowsOn, List.mem_filter, List.mem_map] at hr
    obtain ⟨⟨y, -, rfl⟩, -⟩ := hr
    rw [select_cols]
    exact mem_inputCols.mpr hc
  | .joined .., _, hv, _ => hv.elim

theorem selectColumns_ok {fields : List String} : ∀ {bs : List (List Row)},
    (∀ r ∈ bs.flatten, ∀ c ∈ fields, c ∈ r.cols) →
    selectColumns fields bs = .ok (bs.map (fun b => b.map (·.select fields)))
  | [], _ => rfl
  | b :: bs, h => by
    simp only [selectColumns]
    rw [if_pos, selectColumns_ok (fun r hr => h r (by rw [List.flatten_cons]; exact List.mem_append_right _ hr))]
    · rfl
    · simp only [List.all_eq_true, List.contains_eq_mem, decide_eq_true_eq]
      exact fun r hr c hc => h r (by rw [List.flatten_cons]; exact List.mem_append_left _ hr) c hc

/-- What the storage gives for a column selection: the rows, restricted. -/
def Serves (E : Env) (R : RayEnv) (fs : FS) (h : Handle) (ray : RayOpts) (id : Option Nat) (s : Schema) (o : ReadOpts)
    (rows : List Row) : Prop :=
  ∀ at_ (fields : Option (List String)), (∀ c ∈ fields.getD s.names, c ∈ s.names) →
    ∃ bs, storageBlocks E R fs h ray at_ { o with fields := fields } id = .ok bs ∧
      bs.flatten ~ rows.map (·.select (outCols s (fields.getD s.names)))

section
variable {E : Env} {R : RayEnv} {U : UdfEnv} {fs : FS} {h : Handle} {ray : RayOpts} {id : Option Nat} {s : Schema}
  {o : ReadOpts} {g : Nat → Row → List Row} {rows : List Row}

theorem inputBlocks_rows (hs : Serves E R fs h ray id s o rows)
    {i : View} (hi : i.Fits s g) {fields : List String} (hf : ∀ c ∈ fields, c ∈ i.cols s) (at_ : List Nat)
    (ih : ∃ bs, viewBlocks E R U fs h ray id i at_ { o with fields := none } = .ok bs ∧
      bs.flatten ~ i.rowsOn s g U.keep (rows.map (·.select s.writeNames))) :
    ∃ bs, inputBlocks i (fun o => viewBlocks E R U fs h ray id i at_ o) fields o = .ok bs ∧
      bs.flatten ~ (i.rowsOn s g U.keep (rows.map (·.select s.writeNames))).map (·.select (i.inputCols s fields)) := by
  have other : (∀ d, i ≠ .dataset d) →
      ∃ bs, (match viewBlocks E R U fs h ray id i at_ { o with fields := none } with
        | .error e => (.error e : Except Err (List (List Row)))
        | .ok bs => selectColumns fields bs) = .ok bs ∧
      bs.flatten ~ (i.rowsOn s g U.keep (rows.map (·.select s.writeNames))).map (·.select (i.inputCols s fields)) := by
    intro hd
    obtain ⟨bs, h1, h2⟩ := ih
    rw [h1]
    simp only
    have hcols : ∀ r ∈ bs.flatten, ∀ c ∈ fields, c ∈ r.cols := by
      intro r hr c hc
      refine View.rowsOn_cols hi ?_ r (h2.mem_iff.mp hr) c (hf c hc)
      intro r hr c hc
      obtain ⟨x, -, rfl⟩ := List.mem_map.mp hr
      rw [select_cols, ← outCols_names]
      simp only [outCols, List.mem_append, List.mem_filter]
      cases s.recs.contains c <;> simp [hc]
    rw [selectColumns_ok hcols]
    refine ⟨_, rfl, ?_⟩
    have e : i.inputCols s fields = fields := by
      cases i with
      | dataset d => exact absurd rfl (hd d)
      | _ => rfl
    rw [e, ← List.map_flatten]
    exact h2.map _
  cases i with
  | dataset d =>
    obtain ⟨bs, h1, h2⟩ := hs at_ (some fields) hf
    refine ⟨bs, h1, h2.trans ?_⟩
    simp only [View.rowsOn, View.inputCols, List.map_map]
    refine List.Perm.of_eq (List.map_congr_left fun r _ => ?_)
    simp only [Function.comp, outCols, Option.getD_some]
    rw [select_select]
    intro c hc
    have hc : c ∈ fields := by
      simp only [List.mem_append, List.mem_filter] at hc
      rcases hc with hc | hc <;> exact hc.1
    rw [← outCols_names]
    have := hf c hc
    simp only [View.cols] at this
    simp only [outCols, List.mem_append, List.mem_filter]
    cases s.recs.contains c <;> simp [this]
  | map u i f => exact other (by simp)
  | filter u i f => exact other (by simp)
  | joined a b c => exact other (by simp)

theorem flatten_map_rowWise (g : Row → List Row) (bs : List (List Row)) :
    (bs.map (fun b => b.flatMap g)).flatten = bs.flatten.flatMap g := by
  induction bs with
  | nil => rfl
  | cons b bs ih => simp [ih]

theorem flatten_map_filter (p : Row → Bool) (bs : List (List Row)) :
    (bs.map (fun b => b.filter p)).flatten = bs.flatten.filter p := by
  rw [List.filter_flatten]

/-- What `_ray_dataset` of a view returns. -/
theorem viewBlocks_rows (hg : RowWise U g) (hs : Serves E R fs h ray id s o rows) : ∀ {v : View}, v.Fits s g →
    ∀ at_ : List Nat, ∃ bs, viewBlocks E R U fs h ray id v at_ { o with fields := none } = .ok bs ∧
      bs.flatten ~ v.rowsOn s g U.keep (rows.map (·.select s.writeNames))
  | .dataset d, _, at_ => by
    obtain ⟨bs, h1, h2⟩ := hs at_ none (fun c hc => hc)
    refine ⟨bs, h1, ?_⟩
    rw [← outCols_names]
    exact h2
  | .map u i fields, hv, at_ => by
    obtain ⟨bs, h1, h2⟩ := inputBlocks_rows (U := U) hs hv.1 hv.2.1 (0 :: at_) (viewBlocks_rows hg hs hv.1 (0 :: at_))
    have h1' : inputBlocks i (fun o => viewBlocks E R U fs h ray id i (0 :: at_) o) fields
        { o with fields := none } = .ok bs := by
      cases i <;> exact h1
    refine ⟨(R.deliver (1 :: at_) bs).map (U.map u.fn), ?_, ?_⟩
    · simp only [viewBlocks, h1']
      rfl
    · have e : U.map u.fn = fun b => b.flatMap (g u.fn) := by
        funext b
        exact hg _ _
      rw [e, flatten_map_rowWise]
      exact ((R.deliver_perm _ bs).trans h2).flatMap_right _
  | .filter u i fields, hv, at_ => by
    obtain ⟨bs, h1, h2⟩ := inputBlocks_rows (U := U) hs hv.1 hv.2 (0 :: at_) (viewBlocks_rows hg hs hv.1 (0 :: at_))
    have h1' : inputBlocks i (fun o => viewBlocks E R U fs h ray id i (0 :: at_) o) fields
        { o with fields := none } = .ok bs := by
      cases i <;> exact h1
    refine ⟨(R.deliver (1 :: at_) bs).map (fun b => b.filter (U.keep u.fn)), ?_, ?_⟩
    · simp only [viewBlocks, h1']
      rfl
    · rw [flatten_map_filter]
      exact ((R.deliver_perm _ bs).trans h2).filter _
  | .joined .., hv, _ => hv.elim

/-- If the storage cannot be read, no view of it can. -/
theorem viewBlocks_error {x : Err}
    (hs : ∀ at_ (fields : Option (List String)), storageBlocks E R fs h ray at_ { o with fields := fields } id = .error x) :
    ∀ {v : View}, v.Fits s g → ∀ at_ : List Nat,
      viewBlocks E R U fs h ray id v at_ { o with fields := none } = .error x
  | .dataset d, _, at_ => hs at_ none
  | .map u i fields, hv, at_ => by
    have h1 : inputBlocks i (fun o => viewBlocks E R U fs h ray id i (0 :: at_) o) fields
        { o with fields := none } = .error x := by
      have ih := viewBlocks_error hs hv.1 (0 :: at_)
      cases i with
      | dataset d => exact hs _ _
      | map u i f => simp only [inputBlocks, ih]
      | filter u i f => simp only [inputBlocks, ih]
      | joined a b c => exact hv.1.elim
    simp only [viewBlocks, h1]
    rfl
  | .filter u i fields, hv, at_ => by
    have h1 : inputBlocks i (fun o => viewBlocks E R U fs h ray id i (0 :: at_) o) fields
        { o with fields := none } = .error x := by
      have ih := viewBlocks_error hs hv.1 (0 :: at_)
      cases i with
      | dataset d => exact hs _ _
      | map u i f => simp only [inputBlocks, ih]
      | filter u i f => simp only [inputBlocks, ih]
      | joined a b c => exact hv.1.elim
    simp only [viewBlocks, h1]
    rfl
  | .joined .., hv, _ => hv.elim

end

/-- Rows on which an optional filter is true. -/
def holding (I : Interp) (f : Option Expr) (rows : List Row) : List Row :=
  match f with
  | none => rows
  | some e => rows.filter (fun r => e.holds I r)

/-- Empty results can be repartitioned, or need not be. -/
def Smooth (R : RayEnv) (ray : RayOpts) : Prop := ray.rowRange = true ∨ R.repartition0 = none

/-- The storage serves the rows of a snapshot. -/
theorem raySnap_serves {E : Env} {R : RayEnv} {fs : FS} {s : Schema} {snap : Snapshot} {ray : RayOpts}
    (hR : Smooth R ray) (hok : SnapOK fs s snap) {f : Option Expr} (hf : ∀ e, f = some e → FilterFits s e)
    (batch : Nat) (at_ : List Nat) (fields : Option (List String)) (hc : ∀ c ∈ fields.getD s.names, c ∈ s.names) :
    ∃ bs, raySnap E R fs s ray at_ { filter := f, fields := fields, batch := batch } snap = .ok bs ∧
      bs.flatten ~ (holding E.I f (snapRows fs s snap)).map (·.select (outCols s (fields.getD s.names))) := by
  have hm : ∃ mf, manifestFilter s f = .ok mf ∧ PruneOK s f := by
    cases f with
    | none => exact ⟨none, rfl, trivial⟩
    | some e =>
      obtain ⟨mf, h⟩ := (hf e rfl).filter
      exact ⟨mf, h, (hf e rfl).prune⟩
  obtain ⟨mf, hm, hp⟩ := hm
  obtain ⟨bs, h1, h2, -⟩ := readSnap_rows (E := E) (o := { filter := f, fields := fields, batch := batch }) hok hm hc rfl
  have key := raySnap_rows (E := E) (R := R) (o := { filter := f, fields := fields, batch := batch }) hok ray at_ batch
  have e2 : bs.flatten = (holding E.I f (snapRows fs s snap)).map (·.select (outCols s (fields.getD s.names))) := by
    rw [h2]
    simp only
    rw [keptRowsOf_safe hok.manifests hp hm, select_map_deref]
    cases f with
    | none => rfl
    | some e =>
      simp only [filterRows, holding]
      rw [filter_deref (hf e rfl).plain]
      rfl
  rw [h1] at key
  simp only at key
  rcases key with ⟨cs, h3, h4⟩ | ⟨h3, h4, e, h5, h6⟩
  · exact ⟨cs, h3, h4.trans (.of_eq e2)⟩
  · rcases hR with hR | hR
    · rw [hR] at h4; cases h4
    · rw [hR] at h5; cases h5

/-- What reading a view returns. -/
theorem viewRead_rows {E : Env} {R : RayEnv} {U : UdfEnv} {ray : RayOpts} {s : Schema} {w : World} {md : Metadata}
    {h : Handle} {g : Nat → Row → List Row} (hw : WOK s w md) (hh : HandleOK s w h) (hR : Smooth R ray)
    (hg : RowWise U g) {v : View} (hv : v.Fits s g) {f : Option Expr} (hf : ∀ e, f = some e → FilterFits s e)
    (batch : Nat) (ver : Option Version) :
    match md.target h.branch ver with
    | .error e => viewRead E R U ray v h w { filter := f, batch := batch } ver = .error e
    | .ok snap => ∃ rows, viewRead E R U ray v h w { filter := f, batch := batch } ver = .ok rows ∧
        rows ~ v.rowsOn s g U.keep ((holding E.I f (snapRows w.fs s snap)).map (·.select s.writeNames)) := by
  obtain ⟨b, h', e1, e2, e3, -⟩ := reload_eq hw hh
  unfold viewRead
  rw [e1]
  simp only
  have key := fun at_ fields => storageBlocks_target E R w.fs h' ray at_ { filter := f, fields := fields, batch := batch } ver
  simp only [e2, e3, hw.schema] at key ⊢
  have fin : ∀ id, (∀ at_ fields, storageBlocks E R w.fs h' ray at_ { filter := f, fields := fields, batch := batch } id =
        (match md.target h.branch ver with
        | .error e => .error e
        | .ok snap => raySnap E R w.fs s ray at_ { filter := f, fields := fields, batch := batch } snap)) →
      match md.target h.branch ver with
      | .error e => (match viewBlocks E R U w.fs h' ray id v [] { filter := f, batch := batch } with
          | .error e => (.error e : Except Err (List Row))
          | .ok bs => .ok (iterBatches bs).flatten) = .error e
      | .ok snap => ∃ rows, (match viewBlocks E R U w.fs h' ray id v [] { filter := f, batch := batch } with
          | .error e => (.error e : Except Err (List Row))
          | .ok bs => .ok (iterBatches bs).flatten) = .ok rows ∧
          rows ~ v.rowsOn s g U.keep ((holding E.I f (snapRows w.fs s snap)).map (·.select s.writeNames)) := by
    intro id hid
    cases ht : md.target h.branch ver with
    | error e =>
      simp only [ht] at hid ⊢
      have := viewBlocks_error (U := U) (o := { filter := f, batch := batch }) hid hv []
      simp only at this
      rw [this]
    | ok snap =>
      simp only [ht] at hid ⊢
      have hs : Serves E R w.fs h' ray id s { filter := f, batch := batch } (holding E.I f (snapRows w.fs s snap)) := by
        intro at_ fields hc
        simp only
        rw [hid at_ fields]
        exact raySnap_serves hR (target_ok hw ht).1 hf batch at_ fields hc
      obtain ⟨bs, h1, h2⟩ := viewBlocks_rows hg hs hv []
      simp only at h1
      rw [h1]
      refine ⟨_, rfl, ?_⟩
      rw [iterBatches_flatten]
      exact h2
  cases ver with
  | none => exact fin none key
  | some v =>
    cases hv : md.versionId v with
    | error e =>
      simp only [hv, Except.map] at key ⊢
      simp only [Metadata.target, hv]
    | ok n =>
      simp only [hv, Except.map] at key ⊢
      exact fin (some n) key

/-- The view does not change on which rows the filter is true: every row made of a row `r`
of the dataset satisfies it just if `r` does. -/
def Unmoved (I : Interp) (s : Schema) (g : Nat → Row → List Row) (keep : Nat → Row → Bool) (v : View) (e : Expr) : Prop :=
  ∀ r, ∀ r' ∈ v.rowsOn s g keep [r], e.holds I r' = e.holds I r

theorem rowsOn_filter {I : Interp} {s : Schema} {g : Nat → Row → List Row} {keep : Nat → Row → Bool} {v : View} {e : Expr}
    (he : Unmoved I s g keep v e) (rows : List Row) :
    v.rowsOn s g keep (rows.filter (fun r => e.holds I r)) =
      (v.rowsOn s g keep rows).filter (fun r => e.holds I r) := by
  rw [v.rowsOn_flatMap, v.rowsOn_flatMap s g keep rows]
  induction rows with
  | nil => rfl
  | cons r rows ih =>
    rw [List.flatMap_cons, List.filter_append, ← ih]
    cases hr : e.holds I r with
    | false =>
      rw [List.filter_cons_of_neg (by simp [hr])]
      have e : (v.rowsOn s g keep [r]).filter (fun r => e.holds I r) = [] :=
        List.filter_eq_nil_iff.mpr (fun r' h' => by rw [he r r' h', hr]; simp)
      rw [e]
      rfl
    | true =>
      rw [List.filter_cons_of_pos hr, List.flatMap_cons]
      have e : (v.rowsOn s g keep [r]).filter (fun r => e.holds I r) = v.rowsOn s g keep [r] :=
        List.filter_eq_self.mpr (fun r' h' => by rw [he r r' h', hr])
      rw [e]

theorem holding_select {I : Interp} {s : Schema} {e : Expr} (he : ∀ c ∈ e.cols, c ∈ s.names) (rows : List Row) :
    (rows.filter (fun r => e.holds I r)).map (·.select s.writeNames) =
      (rows.map (·.select s.writeNames)).filter (fun r => e.holds I r) := by
  rw [List.filter_map]
  congr 1
  refine List.filter_congr fun r _ => (holds_congr fun c hc => select_val ?_).symm
  rw [← outCols_names]
  simp only [outCols, List.mem_append, List.mem_filter]
  have := he c hc
  cases hb : s.recs.contains c <;> simp [this]

end Space
