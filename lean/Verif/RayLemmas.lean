import Verif.Ray
import Verif.ReadSpec
import Verif.Diffs

/-!
# Slices of files, shards of change logs, and what Ray reads
-/

set_option autoImplicit false

namespace Space

open List

/-! ## Slices -/

theorem flatMap_slices {α : Type} (b n : Nat) (l : List α) : ∀ k,
    (List.range k).flatMap (fun i => (l.drop (i * b)).take (min ((i + 1) * b) n - i * b)) =
      l.take (min (k * b) n)
  | 0 => by simp
  | k + 1 => by
    rw [List.range_succ, List.flatMap_append, flatMap_slices b n l k]
    simp only [List.flatMap_cons, List.flatMap_nil, List.append_nil]
    by_cases h : k * b ≤ n
    · have h2 : k * b ≤ (k + 1) * b := Nat.mul_le_mul_right b (Nat.le_succ k)
      rw [Nat.min_eq_left h, ← List.take_add]
      congr 1
      omega
    · have h2 : k * b ≤ (k + 1) * b := Nat.mul_le_mul_right b (Nat.le_succ k)
      rw [Nat.min_eq_right (by omega), Nat.min_eq_right (by omega)]
      have : n - k * b = 0 := by omega
      simp [this]

theorem ceilDiv_mul (n : Nat) {b : Nat} (h : 0 < b) : n ≤ ceilDiv n b * b := by
  unfold ceilDiv
  have h1 := Nat.div_add_mod (n + b - 1) b
  have h2 := Nat.mod_lt (n + b - 1) h
  rw [Nat.mul_comm] at h1
  omega

/-- The slices of a list cover it. -/
theorem slices_cover {α : Type} {b n k : Nat} {l : List α} (hk : n ≤ k * b) (hl : l.length ≤ n) :
    (List.range k).flatMap (fun i => (l.drop (i * b)).take (min ((i + 1) * b) n - i * b)) = l := by
  rw [flatMap_slices, Nat.min_eq_right hk, List.take_of_length_le hl]

theorem filter_map_flatMap {α β : Type} (p : α → Bool) (f : α → β) : ∀ l : List α,
    (l.filter p).map f = l.flatMap (fun x => if p x then [f x] else [])
  | [] => rfl
  | x :: l => by
    rw [List.flatMap_cons, ← filter_map_flatMap p f l, List.filter_cons]
    split <;> rfl

theorem zipIdx_slice {α : Type} : ∀ (l : List α) (k a b : Nat),
    (l.zipIdx k).filter (fun x => decide (a ≤ x.2) && decide (x.2 < b)) =
      ((l.zipIdx k).drop (a - k)).take (b - max a k)
  | [], k, a, b => by simp
  | x :: l, k, a, b => by
    have ih := zipIdx_slice l (k + 1) a b
    simp only [List.zipIdx_cons, List.filter_cons]
    by_cases h1 : a ≤ k
    · have e1 : a - k = 0 := by omega
      have e2 : a - (k + 1) = 0 := by omega
      have e3 : max a k = k := by omega
      have e4 : max a (k + 1) = k + 1 := by omega
      rw [e2, e4] at ih
      rw [e1, e3]
      by_cases h2 : k < b
      · have e5 : b - k = (b - (k + 1)) + 1 := by omega
        simp only [h1, h2, decide_true, Bool.and_self, if_true, List.drop_zero] at ih ⊢
        rw [ih, e5, List.take_succ_cons]
      · have e5 : b - k = 0 := by omega
        have e6 : b - (k + 1) = 0 := by omega
        simp only [h1, h2, decide_true, decide_false, Bool.and_false, Bool.false_eq_true, if_false] at ih ⊢
        rw [ih, e5, e6]
        simp
    · have e1 : a - k = (a - (k + 1)) + 1 := by omega
      have e3 : max a k = max a (k + 1) := by omega
      simp only [h1, decide_false, Bool.false_and, Bool.false_eq_true, if_false]
      rw [ih, e1, e3, List.drop_succ_cons]

/-! ## Reading a file, by value or by reference -/

/-- What a read makes of a stored row. -/
def ReadOpts.out (o : ReadOpts) (fs : FS) (s : Schema) (r : Row) : Row :=
  if o.refRead then r.select (o.cols s) else outRow fs.records s (o.cols s) r

theorem readFile_out {E : Env} {fs : FS} {s : Schema} {o : ReadOpts} {f : DataFile}
    {rows : List Row} (hp : (fs.parquet f.path).isSome)
    (hv : visibleRows E fs o.filter f = .ok rows) (hr : ∀ r ∈ rows, RowOK fs.records s r)
    (hc : ∀ c ∈ o.cols s, c ∈ s.names) :
    ∃ bs, readFile E fs s o f = .ok bs ∧ bs.flatten = rows.map (o.out fs s) := by
  rcases Bool.eq_false_or_eq_true o.refRead with hrr | hrr
  · obtain ⟨g, hg⟩ := Option.isSome_iff_exists.mp hp
    have hfr : fileRows fs f.path = g.flatten := by simp [fileRows, hg]
    unfold visibleRows at hv
    rw [hfr] at hv
    unfold readFile
    rw [if_pos (by simpa using hc), readTable_eq _ _ hg]
    simp only [selectRows_map, hv, Except.map, hrr, if_true]
    refine ⟨_, rfl, ?_⟩
    simp only [List.flatten_cons, List.flatten_nil, List.append_nil]
    refine List.map_congr_left fun r _ => ?_
    simp [ReadOpts.out, hrr]
  · obtain ⟨bs, h1, h2, -⟩ := readFile_eq hp hv hr hc hrr
    refine ⟨bs, h1, ?_⟩
    rw [h2]
    refine List.map_congr_left fun r _ => ?_
    simp [ReadOpts.out, hrr]

theorem readFiles_append {E : Env} {fs : FS} {s : Schema} {o : ReadOpts} : ∀ {xs ys : List DataFile}
    {a b : List (List Row)}, readFiles E fs s o xs = .ok a → readFiles E fs s o ys = .ok b →
    readFiles E fs s o (xs ++ ys) = .ok (a ++ b)
  | [], ys, a, b, h1, h2 => by
    cases h1
    exact h2
  | x :: xs, ys, a, b, h1, h2 => by
    simp only [readFiles] at h1
    cases hx : readFile E fs s o x with
    | error e => rw [hx] at h1; cases h1
    | ok t =>
      rw [hx] at h1
      simp only at h1
      cases hr : readFiles E fs s o xs with
      | error e => rw [hr] at h1; cases h1
      | ok u =>
        rw [hr] at h1
        cases h1
        simp [readFiles, hx, readFiles_append hr h2]

theorem readFiles_out {E : Env} {fs : FS} {s : Schema} {o : ReadOpts}
    (hc : ∀ c ∈ o.cols s, c ∈ s.names) :
    ∀ (files : List DataFile) (rows : DataFile → List Row),
    (∀ f ∈ files, (fs.parquet f.path).isSome) →
    (∀ f ∈ files, visibleRows E fs o.filter f = .ok (rows f)) →
    (∀ f ∈ files, ∀ r ∈ rows f, RowOK fs.records s r) →
    ∃ bs, readFiles E fs s o files = .ok bs ∧ bs.flatten = (files.flatMap rows).map (o.out fs s)
  | [], rows, _, _, _ => ⟨[], rfl, rfl⟩
  | f :: files, rows, hp, hv, hr => by
    obtain ⟨b1, h1, h2⟩ := readFile_out (hp f (List.mem_cons_self ..))
      (hv f (List.mem_cons_self ..)) (hr f (List.mem_cons_self ..)) hc
    obtain ⟨b2, g1, g2⟩ := readFiles_out hc files rows
      (fun f' h => hp f' (List.mem_cons_of_mem _ h)) (fun f' h => hv f' (List.mem_cons_of_mem _ h))
      (fun f' h => hr f' (List.mem_cons_of_mem _ h))
    exact ⟨b1 ++ b2, by simp [readFiles, h1, g1], by simp [h2, g2, List.flatMap_cons]⟩

/-! ## Read tasks -/

/-- A file whose statistics count its rows, read whole. -/
structure WholeFile (E : Env) (fs : FS) (s : Schema) (filter : Option Expr) (f : DataFile) (rows : List Row) : Prop where
  exists_ : (fs.parquet f.path).isSome
  visible : visibleRows E fs filter f = .ok rows
  good : ∀ r ∈ rows, RowOK fs.records s r
  noSlice : f.slice = none
  /-- a file read by bitmap is not filtered -/
  bitmap : ∀ bm, f.bitmap = some bm → bm.allRows = true ∨ filter = none
  count : f.stats.rows = ((fileRows fs f.path).length : Int)

theorem filterRows_length {I : Interp} {filter : Option Expr} {rows : List Row} :
    (filterRows I filter rows).length ≤ rows.length := by
  unfold filterRows
  split
  · exact Nat.le_refl _
  · exact List.length_filter_le _ _

section
variable {E : Env} {fs : FS} {s : Schema} {filter : Option Expr} {f : DataFile} {rows : List Row}

theorem visible_slice (hw : WholeFile E fs s filter f rows) {batch : Nat} (hb : 0 < batch) :
    ∃ part : Nat → List Row, (∀ i, visibleRows E fs filter
        { f with slice := some (i * batch, min ((i + 1) * batch) f.stats.rows.toNat) } = .ok (part i)) ∧
      (List.range (ceilDiv f.stats.rows.toNat batch)).flatMap part = rows := by
  have hn : f.stats.rows.toNat = (fileRows fs f.path).length := by rw [hw.count]; rfl
  have hv := hw.visible
  unfold visibleRows selectRows at hv
  rw [hw.noSlice] at hv
  have hlen : (filterRows E.I filter (fileRows fs f.path)).length ≤ f.stats.rows.toNat := by
    rw [hn]; exact filterRows_length
  have plain : rows = filterRows E.I filter (fileRows fs f.path) →
      (List.range (ceilDiv f.stats.rows.toNat batch)).flatMap (fun i =>
        sliceRows (filterRows E.I filter (fileRows fs f.path)) (i * batch)
          (min ((i + 1) * batch) f.stats.rows.toNat)) = rows := by
    intro h
    rw [h]
    exact slices_cover (ceilDiv_mul _ hb) hlen
  cases hbm : f.bitmap with
  | none =>
    rw [hbm] at hv
    simp only [Except.ok.injEq] at hv
    exact ⟨_, fun i => by simp only [visibleRows, selectRows, hbm], plain hv.symm⟩
  | some bm =>
    rw [hbm] at hv
    simp only at hv
    cases ha : bm.allRows with
    | true =>
      rw [ha] at hv
      simp only [if_true, Except.ok.injEq] at hv
      exact ⟨_, fun i => by simp only [visibleRows, selectRows, hbm, ha, if_true], plain hv.symm⟩
    | false =>
      rw [ha] at hv
      simp only [Bool.false_eq_true, if_false] at hv
      have hfl : filter = none := by
        rcases hw.bitmap bm hbm with h | h
        · rw [ha] at h; cases h
        · exact h
      subst hfl
      rw [maskRows_eq] at hv
      split at hv
      · rename_i hall
        simp only [maskSel, filterRows, Except.ok.injEq] at hv hall
        let part : Nat → List Row := fun i =>
          (((((fileRows fs f.path).zipIdx.drop (i * batch)).take
            (min ((i + 1) * batch) f.stats.rows.toNat - i * batch))).filter
              (fun x => bm.bits.contains x.2)).map (·.1)
        refine ⟨part, fun i => ?_, ?_⟩
        · simp only [visibleRows, selectRows, hbm, ha, Bool.false_eq_true, if_false, filterRows]
          rw [maskRows_eq, if_pos]
          · congr 1
            have hz := zipIdx_slice (fileRows fs f.path) 0 (i * batch)
              (min ((i + 1) * batch) f.stats.rows.toNat)
            simp only [Nat.sub_zero, Nat.max_zero] at hz
            show _ = List.map _ (List.filter _ _)
            rw [← hz, List.filter_filter]
            congr 1
            apply List.filter_congr
            intro x _
            simp only [maskSel, List.contains_eq_mem, List.mem_filter, Bool.and_eq_true, decide_eq_true_eq]
            rw [Bool.eq_iff_iff]
            simp only [Bool.and_eq_true, decide_eq_true_eq]
          · simp only [maskSel, List.all_eq_true, List.mem_filter] at hall ⊢
            exact fun j hj => hall j hj.1
        · rw [← hv]
          have hcov := slices_cover (b := batch) (n := f.stats.rows.toNat)
            (l := (fileRows fs f.path).zipIdx) (ceilDiv_mul _ hb) (by simp [hn])
          have hpart : part = fun i => ((fun i => (((fileRows fs f.path).zipIdx.drop (i * batch)).take
            (min ((i + 1) * batch) f.stats.rows.toNat - i * batch))) i).flatMap
              (fun x => if bm.bits.contains x.2 then [x.1] else []) := by
            funext i
            show List.map _ (List.filter _ _) = _
            exact filter_map_flatMap _ _ _
          rw [hpart, ← List.flatMap_assoc, hcov]
          exact (filter_map_flatMap _ _ _).symm
      · cases hv

/-- The tasks of a file read its rows, each once. -/
theorem fileTasks_ok (hw : WholeFile E fs s filter f rows) (rowRange : Bool) (batch : Nat) :
    ∃ part : DataFile → List Row, (∀ t ∈ fileTasks rowRange batch f, (fs.parquet t.path).isSome ∧
        visibleRows E fs filter t = .ok (part t) ∧ ∀ r ∈ part t, RowOK fs.records s r) ∧
      (fileTasks rowRange batch f).flatMap part = rows := by
  have one : ∃ part : DataFile → List Row, (∀ t ∈ [f], (fs.parquet t.path).isSome ∧
        visibleRows E fs filter t = .ok (part t) ∧ ∀ r ∈ part t, RowOK fs.records s r) ∧
      [f].flatMap part = rows := by
    refine ⟨fun _ => rows, ?_, by simp⟩
    intro t ht
    simp only [List.mem_singleton] at ht
    subst ht
    exact ⟨hw.exists_, hw.visible, hw.good⟩
  unfold fileTasks
  split
  · exact one
  · split
    · rename_i hb
      simp only [Bool.and_eq_true, decide_eq_true_eq] at hb
      obtain ⟨part, h1, h2⟩ := visible_slice hw (batch := batch) (by omega)
      let val : DataFile → List Row := fun t =>
        match visibleRows E fs filter t with
        | .ok r => r
        | .error _ => []
      have hval : ∀ i, val { f with slice := some (i * batch, min ((i + 1) * batch) f.stats.rows.toNat) } =
          part i := by
        intro i
        simp only [val, h1 i]
      refine ⟨val, ?_, ?_⟩
      · intro t ht
        obtain ⟨i, hi, rfl⟩ := List.mem_map.mp ht
        refine ⟨hw.exists_, by rw [hval, h1], ?_⟩
        rw [hval]
        intro r hr
        refine hw.good r ?_
        rw [← h2]
        exact List.mem_flatMap.mpr ⟨i, hi, hr⟩
      · rw [List.flatMap_map, ← h2]
        exact flatMap_congr' fun i _ => hval i
    · exact one

end

/-- All tasks of a list of files, read in order. -/
theorem tasks_read {E : Env} {fs : FS} {s : Schema} {o : ReadOpts} (hc : ∀ c ∈ o.cols s, c ∈ s.names)
    (rowRange : Bool) : ∀ (files : List DataFile) (rows : DataFile → List Row),
    (∀ f ∈ files, WholeFile E fs s o.filter f (rows f)) →
    ∃ bs, readFiles E fs s o (files.flatMap (fileTasks rowRange o.batch)) = .ok bs ∧
      bs.flatten = (files.flatMap rows).map (o.out fs s)
  | [], rows, _ => ⟨[], rfl, rfl⟩
  | f :: files, rows, h => by
    obtain ⟨part, h1, h2⟩ := fileTasks_ok (h f (List.mem_cons_self ..)) rowRange o.batch
    obtain ⟨a, h3, h4⟩ := readFiles_out (E := E) (fs := fs) hc (fileTasks rowRange o.batch f) part
      (fun t ht => (h1 t ht).1) (fun t ht => (h1 t ht).2.1) (fun t ht => (h1 t ht).2.2)
    obtain ⟨b, h5, h6⟩ := tasks_read hc rowRange files rows (fun g hg => h g (List.mem_cons_of_mem _ hg))
    refine ⟨a ++ b, by rw [List.flatMap_cons]; exact readFiles_append h3 h5, ?_⟩
    rw [List.flatten_append, h4, h6, h2, List.flatMap_cons, List.map_append]

/-- Unknown columns: a read of at least one file raises. -/
theorem readFiles_unknown {E : Env} {fs : FS} {s : Schema} {o : ReadOpts}
    (hc : ¬ ∀ c ∈ o.cols s, c ∈ s.names) {files : List DataFile} (hf : files ≠ []) :
    readFiles E fs s o files = .error (.other "ArrowInvalid") := by
  cases files with
  | nil => exact absurd rfl hf
  | cons f files =>
    simp only [readFiles]
    have : readFile E fs s o f = .error (.other "ArrowInvalid") := by
      unfold readFile
      rw [if_neg]
      simpa using hc
    rw [this]

theorem fileTasks_ne (rowRange : Bool) (batch : Nat) {f : DataFile} (h : 0 ≤ f.stats.rows) :
    fileTasks rowRange batch f ≠ [] := by
  unfold fileTasks
  split
  · simp
  · split
    · rename_i h0 hb
      simp only [Bool.and_eq_true, decide_eq_true_eq] at hb
      have h1 : 0 < f.stats.rows.toNat := by omega
      have h2 := ceilDiv_mul f.stats.rows.toNat (b := batch) (by omega)
      intro he
      simp only [List.map_eq_nil_iff, List.range_eq_nil] at he
      rw [he] at h2
      omega
    · simp

/-! ## Ray reads -/

theorem iterBatches_flatten (bs : List (List Row)) : (iterBatches bs).flatten = bs.flatten :=
  flatten_filter_nonempty bs

/-- Reading one snapshot with Ray. -/
def raySnap (E : Env) (R : RayEnv) (fs : FS) (s : Schema) (ray : RayOpts) (at_ : List Nat) (o : ReadOpts)
    (snap : Snapshot) : Except Err (List (List Row)) :=
  match manifestFilter s o.filter with
  | .error e => .error e
  | .ok mf =>
    match collectFiles fs mf snap.index 1 with
    | .error e => .error e
    | .ok fset =>
      match (RayDataset.mk fset.files o).blocks E R fs s ray at_ with
      | .error e => .error e
      | .ok bs =>
        if !ray.rowRange && decide (o.batch ≠ 0) &&
            decide (rayCount ((RayDataset.mk fset.files o).counts ray) bs.flatten.length = 0) then
          match R.repartition0 with
          | some e => .error e
          | none => .ok bs
        else .ok bs

theorem storageBlocks_target (E : Env) (R : RayEnv) (fs : FS) (h : Handle) (ray : RayOpts) (at_ : List Nat)
    (o : ReadOpts) (v : Option Version) :
    (match (match v with
      | none => .ok none
      | some v => (h.md.versionId v).map some : Except Err (Option Nat)) with
    | .error e => (.error e : Except Err (List (List Row)))
    | .ok id => storageBlocks E R fs h ray at_ o id) =
      match h.md.target h.branch v with
      | .error e => .error e
      | .ok snap => raySnap E R fs h.md.schema ray at_ o snap := by
  unfold storageBlocks Metadata.target dataFiles Handle.snapshot raySnap
  cases v with
  | none =>
    simp only
    cases h.md.currentId h.branch with
    | error e => rfl
    | ok n =>
      simp only
      cases h.md.snapshot n with
      | error e => rfl
      | ok snap =>
        simp only
        cases manifestFilter h.md.schema o.filter <;> rfl
  | some v =>
    simp only
    cases h.md.versionId v with
    | error e => rfl
    | ok n =>
      simp only [Except.map]
      cases h.md.snapshot n with
      | error e => rfl
      | ok snap =>
        simp only
        cases manifestFilter h.md.schema o.filter <;> rfl

/-- A Ray read addresses the stored metadata. -/
theorem rayRead_target {E : Env} {R : RayEnv} {ray : RayOpts} {s : Schema} {w : World} {md : Metadata} {h : Handle}
    (hw : WOK s w md) (hh : HandleOK s w h) (o : ReadOpts) (v : Option Version) :
    rayRead E R ray h w o v =
      match md.target h.branch v with
      | .error e => .error e
      | .ok snap => (raySnap E R w.fs s ray [] o snap).map (fun bs => (iterBatches bs).flatten) := by
  obtain ⟨b, h', e1, e2, e3, -⟩ := reload_eq hw hh
  unfold rayRead
  rw [e1]
  simp only
  have key := storageBlocks_target E R w.fs h' ray [] o v
  simp only [e2, e3, hw.schema] at key ⊢
  have fin : ∀ id, storageBlocks E R w.fs h' ray [] o id =
        (match md.target h.branch v with
        | .error e => .error e
        | .ok snap => raySnap E R w.fs s ray [] o snap) →
      (match storageBlocks E R w.fs h' ray [] o id with
      | .error e => (.error e : Except Err (List Row))
      | .ok bs => .ok (iterBatches bs).flatten) =
      (match md.target h.branch v with
      | .error e => .error e
      | .ok snap => (raySnap E R w.fs s ray [] o snap).map (fun bs => (iterBatches bs).flatten)) := by
    intro id hid
    rw [hid]
    cases md.target h.branch v with
    | error e => rfl
    | ok snap =>
      simp only
      cases raySnap E R w.fs s ray [] o snap <;> rfl
  cases v with
  | none => exact fin none key
  | some v =>
    cases hv : md.versionId v with
    | error e =>
      simp only [hv, Except.map] at key ⊢
      simp only [Metadata.target, hv]
    | ok n =>
      simp only [hv, Except.map] at key ⊢
      exact fin (some n) key

/-- The files of a snapshot are whole files. -/
theorem snap_files {E : Env} {fs : FS} {s : Schema} {o : ReadOpts} {snap : Snapshot}
    (hok : SnapOK fs s snap) {mf : Option MExpr} :
    ∃ fset, collectFiles fs mf snap.index 1 = .ok fset ∧
      ∀ f ∈ fset.files, WholeFile E fs s o.filter f (filterRows E.I o.filter (fileRows fs f.path)) := by
  refine ⟨_, collectFiles_eq snap.index 1 fun p hp => by
    obtain ⟨rows, h, -⟩ := hok.manifests p hp
    simp [h], ?_⟩
  intro f hf
  obtain ⟨p, hp, m, hm', n, rfl, -, -⟩ := packFiles_mem hf
  have hm := (hok.manifests p (List.mem_filter.mp hp).1).entry (List.mem_filter.mp hm').1
  obtain ⟨g, h1, h2, -⟩ := id hm
  refine ⟨?_, ?_, ?_, rfl, ?_, ?_⟩
  · simp [toDataFile, h1]
  · simp [visibleRows, selectRows, toDataFile]
  · intro r hr
    exact fileRows_mem hm r (filterRows_subset r hr)
  · intro bm hb
    cases hb
  · simp only [fileRows, toDataFile, h1, Option.getD_some]
    rw [← h2]
    rfl

/-- Nothing to count: no file, or no row is found. -/
theorem rayCount_zero {ray : RayOpts} {d : RayDataset} (hf : ∀ f ∈ d.files, 0 ≤ f.stats.rows) {n : Nat}
    (h : rayCount (d.counts ray) n = 0) : d.files = [] ∨ n = 0 := by
  unfold rayCount at h
  split at h
  · rename_i hall
    refine .inl ?_
    cases hfs : d.files with
    | nil => rfl
    | cons f fs =>
      exfalso
      have h0 := hf f (by rw [hfs]; simp)
      unfold RayDataset.counts at h hall
      rw [hfs] at h hall
      simp only [List.flatMap_cons, List.all_append, Bool.and_eq_true, List.map_append, List.sum_append] at h hall
      have hz : ((fileCounts ray.rowRange d.opts.batch f).map (·.getD 0)).sum = 0 := by omega
      have ha := hall.1
      clear h hall
      unfold fileCounts at hz ha
      split at ha
      · simp at ha
      · rename_i hne
        have hpos : 0 < f.stats.rows.toNat := by omega
        rw [if_neg hne] at hz
        generalize f.marked = marked at hz ha
        split at ha
        · rename_i hb
          rw [if_pos hb] at hz
          simp only [Bool.and_eq_true, decide_eq_true_eq] at hb
          have hc := ceilDiv_mul f.stats.rows.toNat (b := d.opts.batch) (by omega)
          cases hk : ceilDiv f.stats.rows.toNat d.opts.batch with
          | zero => rw [hk] at hc; omega
          | succ k =>
            rw [hk, List.range_succ_eq_map] at hz ha
            cases marked with
            | true => simp at ha
            | false =>
              simp at hz
              omega
        · rename_i hb
          rw [if_neg hb] at hz
          cases marked with
          | true => simp at ha
          | false => simp at hz; omega
  · exact .inr h

/-- A Ray read of a well-formed snapshot compared with the local read. -/
theorem raySnap_rows {E : Env} {R : RayEnv} {fs : FS} {s : Schema} {o : ReadOpts} {snap : Snapshot}
    (hok : SnapOK fs s snap) (ray : RayOpts) (at_ : List Nat) (batch : Nat) :
    match readSnap E fs s o snap with
    | .error e => raySnap E R fs s ray at_ { o with batch := batch } snap = .error e
    | .ok bs => (∃ cs, raySnap E R fs s ray at_ { o with batch := batch } snap = .ok cs ∧
        cs.flatten.Perm bs.flatten) ∨
      (bs.flatten = [] ∧ ray.rowRange = false ∧ ∃ e, R.repartition0 = some e ∧
        raySnap E R fs s ray at_ { o with batch := batch } snap = .error e) := by
  unfold readSnap raySnap
  cases hm : manifestFilter s o.filter with
  | error e => rfl
  | ok mf =>
    simp only
    obtain ⟨fset, h1, h2⟩ := snap_files (E := E) (o := o) hok (mf := mf)
    rw [h1]
    simp only [RayDataset.blocks, RayDataset.tasks]
    by_cases hc : ∀ c ∈ o.cols s, c ∈ s.names
    · obtain ⟨bs, h3, h4⟩ := readFiles_out (E := E) (fs := fs) (o := o) hc fset.files
        (fun f => filterRows E.I o.filter (fileRows fs f.path)) (fun f hf => (h2 f hf).exists_)
        (fun f hf => (h2 f hf).visible) (fun f hf => (h2 f hf).good)
      obtain ⟨cs, h5, h6⟩ := tasks_read (E := E) (fs := fs) (o := { o with batch := batch }) hc ray.rowRange fset.files
        (fun f => filterRows E.I o.filter (fileRows fs f.path)) h2
      have hp : (R.deliver at_ cs).flatten.Perm bs.flatten := by
        refine (R.deliver_perm at_ cs).trans ?_
        rw [h4, h6]
        exact List.Perm.refl _
      rw [h3]
      simp only [h5, Except.map]
      split
      · rename_i hcond
        simp only [Bool.and_eq_true, Bool.not_eq_true', decide_eq_true_eq] at hcond
        cases hR : R.repartition0 with
        | none => exact Or.inl ⟨_, rfl, hp⟩
        | some e =>
          refine Or.inr ⟨?_, hcond.1.1, e, rfl, rfl⟩
          rcases rayCount_zero (by
            intro f hf
            rw [(h2 f hf).count]
            exact Int.natCast_nonneg _) hcond.2 with hz | hz
          · simp only at hz
            rw [h4, hz]
            rfl
          · rw [List.length_eq_zero_iff.mp hz] at hp
            exact hp.symm.eq_nil
      · exact Or.inl ⟨_, rfl, hp⟩
    · by_cases hf : fset.files = []
      · rw [hf]
        simp only [readFiles, List.flatMap_nil, Except.map]
        have hp : (R.deliver at_ []).flatten = [] := (R.deliver_perm at_ []).eq_nil
        split
        · rename_i hcond
          simp only [Bool.and_eq_true, Bool.not_eq_true'] at hcond
          cases hR : R.repartition0 with
          | none => exact Or.inl ⟨_, rfl, by rw [hp]; exact List.Perm.refl _⟩
          | some e => exact Or.inr ⟨rfl, hcond.1.1, e, rfl, rfl⟩
        · exact Or.inl ⟨_, rfl, by rw [hp]; exact List.Perm.refl _⟩
      · rw [readFiles_unknown hc hf]
        simp only
        rw [readFiles_unknown (o := { o with batch := batch }) hc]
        · rfl
        · intro he
          rw [List.flatMap_eq_nil_iff] at he
          obtain ⟨f, hfm⟩ := List.exists_mem_of_ne_nil _ hf
          exact fileTasks_ne _ _ (by rw [(h2 f hfm).count]; exact Int.natCast_nonneg _) (he f hfm)

/-! ## Ray diffs -/

theorem addShards_flatten {n : Nat} {added : List RowBitmap} {shards : List (List RowBitmap)}
    (h : addShards n added = .ok shards) : shards.flatten = added ∧ shards.length = n := by
  unfold addShards at h
  split at h
  · cases h
  · rename_i hn
    simp only [Except.ok.injEq] at h
    subst h
    refine ⟨?_, by simp⟩
    rw [← List.flatMap_def]
    refine slices_cover ?_ (Nat.le_refl _)
    rw [Nat.mul_comm]
    exact ceilDiv_mul _ (by omega)

theorem addShards_ok {n : Nat} (hn : 0 < n) (added : List RowBitmap) : ∃ shards, addShards n added = .ok shards := by
  unfold addShards
  rw [if_neg (by omega)]
  exact ⟨_, rfl⟩

theorem bitmap_whole {E : Env} {fs : FS} {s : Schema} {b : RowBitmap} (h : BitmapOK fs s b) :
    WholeFile E fs s none (bitmapFile b) (bitRows fs b) := by
  obtain ⟨g, h1, h2, -⟩ := id h
  refine ⟨by simp [bitmapFile, h1], visible_bitmap h, bitRows_ok h, rfl, fun _ _ => Or.inr rfl, ?_⟩
  simp only [bitmapFile, fileRows, h1, Option.getD_some]
  rw [h2]

section
variable {E : Env} {R : RayEnv} {fs : FS} {s : Schema} {ray : RayOpts}

theorem bitmap_blocks {o : ReadOpts} (hc : ∀ c ∈ o.cols s, c ∈ s.names) (hrr : o.refRead = false)
    (hfl : o.filter = none) {bs : List RowBitmap} (h : ∀ b ∈ bs, BitmapOK fs s b) (at_ : List Nat) :
    ∃ ts, (RayDataset.mk (bs.map bitmapFile) o).blocks E R fs s ray at_ = .ok ts ∧
      ts.flatten.Perm ((bs.flatMap (bitRows fs)).map (outRow fs.records s (o.cols s))) := by
  have key : ∀ bs : List RowBitmap, (∀ b ∈ bs, BitmapOK fs s b) → ∃ ts,
      readFiles E fs s o ((bs.map bitmapFile).flatMap (fileTasks ray.rowRange o.batch)) = .ok ts ∧
      ts.flatten = (bs.flatMap (bitRows fs)).map (outRow fs.records s (o.cols s)) := by
    intro bs
    induction bs with
    | nil => intro _; exact ⟨[], rfl, rfl⟩
    | cons b bs ih =>
      intro h
      obtain ⟨ts, h1, h2⟩ := ih (fun x hx => h x (mem_cons_of_mem _ hx))
      obtain ⟨us, h3, h4⟩ := tasks_read (E := E) (fs := fs) hc ray.rowRange [bitmapFile b] (fun _ => bitRows fs b)
        (fun f hf => by
          simp only [List.mem_singleton] at hf
          rw [hf, hfl]
          exact bitmap_whole (h b (by simp)))
      refine ⟨us ++ ts, ?_, ?_⟩
      · rw [List.map_cons, List.flatMap_cons]
        refine readFiles_append ?_ h1
        simpa using h3
      · have e : o.out fs s = outRow fs.records s (o.cols s) := by
          funext r
          simp [ReadOpts.out, hrr]
        rw [List.flatten_append, h4, h2, e]
        simp
  obtain ⟨ts, h1, h2⟩ := key bs h
  refine ⟨R.deliver at_ ts, ?_, ?_⟩
  · simp only [RayDataset.blocks, RayDataset.tasks, h1, Except.map]
  · rw [← h2]
    exact R.deliver_perm at_ ts

theorem dataset_blocks {o : ReadOpts} (hc : ∀ c ∈ o.cols s, c ∈ s.names) (hrr : o.refRead = false)
    (hfl : o.filter = none) (at_ : List Nat) : ∀ (shards : List (List RowBitmap)) (k : Nat),
    (∀ b ∈ shards.flatten, BitmapOK fs s b) →
    ∃ ts, datasetBlocks E R fs s ray at_ k (shards.map (fun b => ⟨b.map bitmapFile, o⟩)) = .ok ts ∧
      ts.flatten.Perm ((shards.flatten.flatMap (bitRows fs)).map (outRow fs.records s (o.cols s)))
  | [], k, _ => ⟨[], rfl, List.Perm.refl _⟩
  | b :: shards, k, h => by
    obtain ⟨t1, h1, h2⟩ := bitmap_blocks (E := E) (R := R) (ray := ray) hc hrr hfl (bs := b)
      (fun x hx => h x (by simp [hx])) (k :: at_)
    obtain ⟨t2, h3, h4⟩ := dataset_blocks hc hrr hfl at_ shards (k + 1) (fun x hx => h x (by
      rw [List.flatten_cons]; exact List.mem_append_right _ hx))
    refine ⟨iterBatches t1 ++ t2, ?_, ?_⟩
    · simp only [List.map_cons, datasetBlocks, h1, h3]
    · rw [List.flatten_append, iterBatches_flatten, List.flatten_cons, List.flatMap_append, List.map_append]
      exact h2.append h4

theorem flattenChanges_append : ∀ {xs ys : List RayChange} {k : Nat} {a b : List ChangeData},
    flattenChanges E R fs s ray k xs = .ok a → flattenChanges E R fs s ray (k + xs.length) ys = .ok b →
    flattenChanges E R fs s ray k (xs ++ ys) = .ok (a ++ b)
  | [], ys, k, a, b, h1, h2 => by
    cases h1
    simpa using h2
  | x :: xs, ys, k, a, b, h1, h2 => by
    simp only [flattenChanges] at h1
    cases hx : datasetBlocks E R fs s ray [k] 0 x.data with
    | error e => rw [hx] at h1; cases h1
    | ok t =>
      rw [hx] at h1
      simp only at h1
      cases hr : flattenChanges E R fs s ray (k + 1) xs with
      | error e => rw [hr] at h1; cases h1
      | ok u =>
        rw [hr] at h1
        cases h1
        have h2' : flattenChanges E R fs s ray (k + 1 + xs.length) ys = .ok b := by
          rw [← h2]
          congr 1
          simp only [List.length_cons]
          omega
        simp only [List.cons_append, flattenChanges, hx, flattenChanges_append hr h2', List.append_assoc]

/-- The files of the datasets of a kind of change. -/
def filesOf (t : ChangeType) (cs : List RayChange) : List DataFile :=
  (cs.filter (fun c => decide (c.type = t))).flatMap (fun c => c.data.flatMap (·.files))

/-- The datasets of the changes of one commit, and their rows. -/
theorem rayChanges_eq {md : Metadata} {n : Nat} {snap : Snapshot} {cl : ChangeLog} (batch : Nat)
    (hp : 0 < ray.parallelism) (hpk : ∀ c ∈ md.schema.pks, c ∈ md.schema.names) (hs : md.snaps.get? n = some snap)
    (hl : logOf fs snap = some cl) (hok : LogOK fs md.schema cl) :
    ∃ c, rayChanges fs md ray batch n = .ok c ∧
      (∀ x ∈ c, x.id = n ∧ (x.type = .add → x.data.length = ray.parallelism) ∧ (x.type = .delete → x.data.length = 1)) ∧
      filesOf .delete c = cl.deleted.map bitmapFile ∧ filesOf .add c = cl.added.map bitmapFile ∧
      ∀ k, ∃ ds as : List (List Row), flattenChanges E R fs md.schema ray k c =
          .ok (ds.map (ChangeData.mk n .delete) ++ as.map (ChangeData.mk n .add)) ∧
        ds.flatten.Perm ((cl.deleted.flatMap (bitRows fs)).map (outRow fs.records md.schema md.schema.pks)) ∧
        as.flatten.Perm ((loggedRows fs md.schema cl.added).map (·.select md.schema.writeNames)) := by
  unfold logOf at hl
  have hdels : ∀ k, ∃ ds : List (List Row), flattenChanges E R fs md.schema ray k
      (if cl.deleted = [] then [] else [⟨n, .delete, [⟨cl.deleted.map bitmapFile,
        { fields := some md.schema.pks, batch := batch }⟩]⟩]) = .ok (ds.map (ChangeData.mk n .delete)) ∧
      ds.flatten.Perm ((cl.deleted.flatMap (bitRows fs)).map (outRow fs.records md.schema md.schema.pks)) := by
    intro k
    split
    · rename_i he
      refine ⟨[], rfl, ?_⟩
      rw [he]
      exact List.Perm.refl _
    · obtain ⟨ts, h1, h2⟩ := dataset_blocks (E := E) (R := R) (ray := ray) (s := md.schema)
        (o := { fields := some md.schema.pks, batch := batch }) hpk rfl rfl [k] [cl.deleted] 0
        (fun b hb => hok b (Or.inl (by simpa using hb)))
      refine ⟨ts, ?_, ?_⟩
      · simp only [List.map_cons, List.map_nil] at h1
        simp only [flattenChanges, h1, List.append_nil]
      · have := h2
        simp only [List.flatten_cons, List.flatten_nil, List.append_nil] at this
        exact this
  by_cases ha : cl.added = []
  · refine ⟨if cl.deleted = [] then [] else [⟨n, .delete, [⟨cl.deleted.map bitmapFile,
        { fields := some md.schema.pks, batch := batch }⟩]⟩], ?_, ?_, ?_, ?_, ?_⟩
    · simp only [rayChanges, hs, hl, if_pos ha]
    · intro x hx
      split at hx
      · cases hx
      · simp only [List.mem_singleton] at hx
        subst hx
        simp
    · split
      · rename_i he
        simp [filesOf, he]
      · simp [filesOf]
    · rw [ha]
      split
      · simp [filesOf]
      · simp [filesOf]
    · intro k
      obtain ⟨ds, h1, h2⟩ := hdels k
      refine ⟨ds, [], ?_, h2, ?_⟩
      · rw [h1]; simp
      · rw [ha]; exact List.Perm.refl _
  · obtain ⟨shards, h1⟩ := addShards_ok hp cl.added
    obtain ⟨h2, h2l⟩ := addShards_flatten h1
    refine ⟨(if cl.deleted = [] then [] else [⟨n, .delete, [⟨cl.deleted.map bitmapFile,
        { fields := some md.schema.pks, batch := batch }⟩]⟩]) ++
        [⟨n, .add, shards.map (fun b => ⟨b.map bitmapFile, { batch := batch }⟩)⟩], ?_, ?_, ?_, ?_, ?_⟩
    · simp only [rayChanges, hs, hl, if_neg ha, h1]
    · intro x hx
      rcases List.mem_append.mp hx with hx | hx
      · split at hx
        · cases hx
        · simp only [List.mem_singleton] at hx
          subst hx
          simp
      · simp only [List.mem_singleton] at hx
        subst hx
        simp [h2l]
    · split
      · rename_i he
        simp [filesOf, he]
      · simp [filesOf]
    · have e : (shards.map (fun b => (⟨b.map bitmapFile, { batch := batch }⟩ : RayDataset))).flatMap (·.files) =
          cl.added.map bitmapFile := by
        rw [← h2, List.flatMap_map, List.map_flatten, List.flatMap_def]
      split
      · simpa [filesOf] using e
      · simpa [filesOf] using e
    · intro k
      obtain ⟨ds, h3, h4⟩ := hdels k
      obtain ⟨as, h5, h6⟩ := dataset_blocks (E := E) (R := R) (ray := ray) (s := md.schema)
        (o := { batch := batch }) (fun c hc => hc) rfl rfl [k + (if cl.deleted = [] then ([] : List RayChange) else [⟨n, .delete,
          [⟨cl.deleted.map bitmapFile, { fields := some md.schema.pks, batch := batch }⟩]⟩]).length] shards 0
        (fun b hb => hok b (Or.inr (by rw [← h2]; exact hb)))
      refine ⟨ds, as, ?_, h4, ?_⟩
      · refine flattenChanges_append h3 ?_
        simp only [flattenChanges, h5, List.append_nil]
      · rw [h2] at h6
        rw [loggedRows, List.map_map, ← outCols_names]
        exact h6

theorem rayChanges_none {md : Metadata} {n : Nat} {snap : Snapshot} (batch : Nat)
    (hs : md.snaps.get? n = some snap) (hl : logOf fs snap = none) :
    rayChanges fs md ray batch n = .error (.other "FileNotFoundError") := by
  unfold logOf at hl
  simp only [rayChanges, hs, hl]

end

/-- A Ray diff addresses the stored metadata. -/
theorem rayDiff_target {E : Env} {R : RayEnv} {ray : RayOpts} {s : Schema} {w : World} {md : Metadata} {h : Handle}
    (hw : WOK s w md) (hh : HandleOK s w h) (batch : Nat) (a b : Version) :
    rayDiff E R ray h w batch a b =
      match md.versionId a with
      | .error e => .error e
      | .ok ia =>
        match md.versionId b with
        | .error e => .error e
        | .ok ib =>
          match orderedIds md ia ib with
          | .error e => .error e
          | .ok ids =>
            match rayChangeIds w.fs md ray batch ids with
            | .error e => .error e
            | .ok cs => flattenChanges E R w.fs md.schema ray 0 cs := by
  obtain ⟨b', h', e1, e2, e3, -⟩ := reload_eq hw hh
  unfold rayDiff
  rw [e1]
  simp only [diffRay, e2]
  cases md.versionId a with
  | error e => rfl
  | ok ia =>
    simp only
    cases md.versionId b with
    | error e => rfl
    | ok ib =>
      simp only
      cases orderedIds md ia ib <;> rfl

end Space
