import Verif.ReadLemmas

/-! # Reading index files and file sets -/

namespace Space

/-! ## Rows and columns -/

theorem deref_val (L : Look) (s : Schema) (r : Row) (c : String) :
    (deref L s r).val c = if s.recs.contains c then derefVal L (r.val c) else r.val c := by
  unfold Row.val deref
  induction r with
  | nil => simp [AMap.get?, derefVal]
  | cons e r ih =>
    obtain ⟨k, v⟩ := e
    simp only [List.map_cons, AMap.get?]
    by_cases h : k = c
    · subst h
      simp only [ite_true, Option.getD_some]
    · simp only [h, ite_false]
      exact ih

theorem select_val {r : Row} {cs : List String} {c : String} (h : c ∈ cs) :
    (r.select cs).val c = r.val c := by
  unfold Row.select
  show (AMap.get? (cs.map fun c => (c, r.val c)) c).getD .null = r.val c
  induction cs with
  | nil => simp at h
  | cons d cs ih =>
    simp only [List.map_cons, AMap.get?]
    by_cases hd : d = c
    · simp [hd]
    · rcases List.mem_cons.mp h with rfl | h
      · exact absurd rfl hd
      · simp only [hd, ite_false]; exact ih h

theorem select_val_not_mem {r : Row} {cs : List String} {c : String} (h : c ∉ cs) :
    (r.select cs).val c = .null := by
  unfold Row.select
  show (AMap.get? (cs.map fun c => (c, r.val c)) c).getD .null = .null
  induction cs with
  | nil => rfl
  | cons d cs ih =>
    simp only [List.mem_cons, not_or] at h
    simp only [List.map_cons, AMap.get?]
    rw [if_neg (fun hh => h.1 hh.symm)]
    exact ih h.2

theorem select_select {r : Row} {cs ds : List String} (h : ∀ c ∈ ds, c ∈ cs) :
    (r.select cs).select ds = r.select ds := by
  unfold Row.select
  apply List.map_congr_left
  intro c hc
  have := select_val (r := r) (h c hc)
  unfold Row.select at this
  rw [this]

theorem select_congr {r r' : Row} {cs : List String} (h : ∀ c ∈ cs, r.val c = r'.val c) :
    r.select cs = r'.select cs := by
  unfold Row.select
  exact List.map_congr_left fun c hc => by rw [h c hc]

theorem mem_val {r : Row} {c : String} (h : c ∈ r.cols) : (c, r.val c) ∈ r := by
  induction r with
  | nil => simp [Row.cols] at h
  | cons e r ih =>
    obtain ⟨k, v⟩ := e
    by_cases hk : k = c
    · simp [Row.val, AMap.get?, hk]
    · have h' : c ∈ Row.cols r := by
        simp only [Row.cols, List.map_cons, List.mem_cons] at h
        rcases h with h | h
        · exact absurd h.symm hk
        · exact h
      have := ih h'
      simp only [Row.val, AMap.get?, hk, ite_false] at this ⊢
      exact List.mem_cons_of_mem _ this

theorem conforms_cols {s : Schema} {r : Row} (h : s.conforms r = true) : r.cols = s.names := by
  simp only [Schema.conforms, Bool.and_eq_true, beq_iff_eq] at h
  exact h.1

/-- A row with distinct columns is its own selection. -/
theorem select_self {r : Row} (h : r.cols.Nodup) : r.select r.cols = r := by
  induction r with
  | nil => rfl
  | cons e r ih =>
    obtain ⟨k, v⟩ := e
    simp only [Row.cols, List.map_cons, List.nodup_cons] at h
    have ih := ih h.2
    simp only [Row.select, Row.cols, List.map_cons, List.cons.injEq]
    refine ⟨by simp [Row.val, AMap.get?], ?_⟩
    refine Eq.trans ?_ ih
    unfold Row.select
    apply List.map_congr_left
    intro c hc
    have hne : ¬ k = c := by rintro rfl; exact h.1 hc
    simp [Row.val, AMap.get?, hne]

theorem deref_cols (L : Look) (s : Schema) (r : Row) : (deref L s r).cols = r.cols := by
  simp [deref, Row.cols]

/-- Record columns of a stored row resolve. -/
theorem RowOK.addrVal {L : Look} {s : Schema} {r : Row} (h : RowOK L s r) {c : String}
    (hc : c ∈ s.recs) (hn : c ∈ s.names) : AddrVal L (r.val c) :=
  h.2 c hc _ (mem_val (by rw [conforms_cols h.1]; exact hn))

/-! ## Batches -/

theorem cutAux_flatten (n : Nat) : ∀ (k : Nat) (rows : List Row), rows.length ≤ k →
    (cutAux n k rows).flatten = rows
  | 0, rows, h => by
    have : rows = [] := List.length_eq_zero_iff.mp (by omega)
    simp [this, cutAux]
  | k + 1, rows, h => by
    unfold cutAux
    split
    · rename_i h0; simp [h0]
    · rename_i h0
      split
      · simp
      · rename_i hn
        simp only [List.flatten_cons]
        rw [cutAux_flatten n k (rows.drop n) (by simp; omega), List.take_append_drop]

theorem cut_flatten (n : Nat) (rows : List Row) : (cut n rows).flatten = rows :=
  cutAux_flatten n _ rows (Nat.le_refl _)

theorem cutAux_bounds {n : Nat} (hn : 0 < n) : ∀ (k : Nat) (rows : List Row),
    ∀ b ∈ cutAux n k rows, b ≠ [] ∧ b.length ≤ n
  | 0, rows, b, h => by simp [cutAux] at h
  | k + 1, rows, b, h => by
    unfold cutAux at h
    split at h
    · simp at h
    · rename_i h0
      rw [if_neg (by omega)] at h
      rcases List.mem_cons.mp h with rfl | h
      · refine ⟨?_, by simp; omega⟩
        intro hc
        have := congrArg List.length hc
        simp only [List.length_take, List.length_nil] at this
        have h1 : rows.length ≠ 0 := fun hz => h0 (List.length_eq_zero_iff.mp hz)
        omega
      · exact cutAux_bounds hn k _ b h

theorem cut_bounds {n : Nat} (hn : 0 < n) (rows : List Row) :
    ∀ b ∈ cut n rows, b ≠ [] ∧ b.length ≤ n := cutAux_bounds hn _ rows

theorem toBatches_flatten (E : Env) (n : Nat) (rows : List Row) :
    (toBatches E n rows).flatten = rows := by
  unfold toBatches
  have : ∀ cs : List (List Row), (cs.flatMap (cut n)).flatten = cs.flatten := by
    intro cs
    induction cs with
    | nil => rfl
    | cons c cs ih => simp [List.flatMap_cons, ih, cut_flatten]
  rw [this, E.chunks_flatten]

theorem toBatches_bounds (E : Env) {n : Nat} (hn : 0 < n) (rows : List Row) :
    ∀ b ∈ toBatches E n rows, b ≠ [] ∧ b.length ≤ n := by
  intro b hb
  simp only [toBatches, List.mem_flatMap] at hb
  obtain ⟨c, -, hb⟩ := hb
  exact cut_bounds hn c b hb

/-! ## One batch -/

/-- Column order of a read: index columns, then record columns (`read.py:137-152`). -/
def outCols (s : Schema) (cols : List String) : List String :=
  cols.filter (fun c => !s.recs.contains c) ++ cols.filter (fun c => s.recs.contains c)

/-- The row a read yields for a stored row. -/
def outRow (L : Look) (s : Schema) (cols : List String) (r : Row) : Row :=
  (deref L s r).select (outCols s cols)

theorem appendColumn_map {n : String} {rows : List Row} (f : Row → Row) (g : Row → Val) :
    appendColumn n (rows.map f) (rows.map g) = rows.map (fun r => f r ++ [(n, g r)]) := by
  rw [appendColumn_eq]
  induction rows with
  | nil => rfl
  | cons r rows ih => simp [ih]

theorem addRecordCols_eq {fs : FS} {batch : List Row} : ∀ (cs : List String) (f : Row → Row),
    (∀ c ∈ cs, ∀ r ∈ batch, AddrVal fs.records (r.val c)) →
    addRecordCols fs batch cs (batch.map f) =
      .ok (batch.map (fun r => f r ++ cs.map (fun c => (c, derefVal fs.records (r.val c)))))
  | [], f, _ => by simp [addRecordCols]
  | c :: cs, f, h => by
    simp only [addRecordCols]
    rw [readRecordColumn_eq (by
      intro v hv
      obtain ⟨r, hr, rfl⟩ := List.mem_map.mp hv
      exact h c (List.mem_cons_self ..) r hr)]
    simp only [List.map_map]
    rw [appendColumn_map, addRecordCols_eq cs _ fun d hd => h d (List.mem_cons_of_mem _ hd)]
    simp

theorem readBatch_eq {fs : FS} {s : Schema} {cols : List String} {rows : List Row}
    (hc : ∀ c ∈ cols, c ∈ s.names) (h : ∀ r ∈ rows, RowOK fs.records s r) :
    readBatch fs s cols (rows.map (·.select cols)) = .ok (rows.map (outRow fs.records s cols)) := by
  unfold readBatch
  rw [addRecordCols_eq]
  · rw [List.map_map]
    congr 1
    apply List.map_congr_left
    intro r hr
    simp only [Function.comp_apply, outRow, outCols, select_append]
    congr 1
    · rw [select_select (fun c hc => (List.mem_filter.mp hc).1)]
      apply select_congr
      intro c hc
      have : s.recs.contains c = false := by simpa using (List.mem_filter.mp hc).2
      rw [deref_val, this]
      simp
    · unfold Row.select
      apply List.map_congr_left
      intro c hc
      have h2 := List.mem_filter.mp hc
      rw [deref_val, h2.2]
      simp only [ite_true]
      have := select_val (r := r) h2.1
      unfold Row.select at this
      rw [this]
  · intro c hcc r hr
    obtain ⟨r', hr', rfl⟩ := List.mem_map.mp hr
    have h2 := List.mem_filter.mp hcc
    rw [select_val h2.1]
    exact (h r' hr').addrVal (by simpa using h2.2) (hc c h2.1)

theorem readBatches_eq {fs : FS} {s : Schema} {cols : List String}
    (hc : ∀ c ∈ cols, c ∈ s.names) : ∀ (bs : List (List Row)),
    (∀ b ∈ bs, ∀ r ∈ b, RowOK fs.records s r) →
    readBatches fs s cols (bs.map (fun b => b.map (·.select cols))) =
      .ok (bs.map (fun b => b.map (outRow fs.records s cols)))
  | [], _ => rfl
  | b :: bs, h => by
    simp only [List.map_cons, readBatches]
    rw [readBatch_eq hc (h b (List.mem_cons_self ..)),
      readBatches_eq hc bs fun b' hb => h b' (List.mem_cons_of_mem _ hb)]

/-! ## One file -/

theorem sliceRows_map (f : Row → Row) (rows : List Row) (a b : Nat) :
    sliceRows (rows.map f) a b = (sliceRows rows a b).map f := by
  simp [sliceRows, List.map_drop, List.map_take]

/-- Row ids of a bitmap that a slice keeps. -/
def maskSel (bits : List Nat) : Option (Nat × Nat) → List Nat
  | none => bits
  | some (a, b) => bits.filter (fun i => decide (a ≤ i) && decide (i < b))

theorem maskRows_eq (rows : List Row) (bits : List Nat) (sl : Option (Nat × Nat)) :
    maskRows rows bits sl = if (maskSel bits sl).all (fun i => decide (i < rows.length)) then
      .ok ((rows.zipIdx.filter (fun x => (maskSel bits sl).contains x.2)).map (·.1))
    else .error (.other "IndexError") := by
  unfold maskRows maskSel
  cases sl <;> rfl

theorem maskRows_map (f : Row → Row) (rows : List Row) (bits : List Nat) (sl : Option (Nat × Nat)) :
    maskRows (rows.map f) bits sl = (maskRows rows bits sl).map (·.map f) := by
  rw [maskRows_eq, maskRows_eq]
  simp only [List.length_map]
  split
  · simp only [Except.map, List.map_map]
    rw [List.zipIdx_map, List.filter_map, List.map_map]
    rfl
  · rfl

theorem selectRows_map (g : Row → Row) (f : DataFile) (rows : List Row) :
    selectRows f (rows.map g) = (selectRows f rows).map (·.map g) := by
  unfold selectRows
  cases f.bitmap with
  | none => cases f.slice <;> simp [Except.map, sliceRows_map]
  | some bm =>
    simp only
    split
    · cases f.slice <;> simp [Except.map, sliceRows_map]
    · exact maskRows_map _ _ _ _

theorem selectRows_subset {f : DataFile} {rows out : List Row} (h : selectRows f rows = .ok out) :
    ∀ r ∈ out, r ∈ rows := by
  have hs : ∀ a b, ∀ r ∈ sliceRows rows a b, r ∈ rows := fun a b r hr =>
    List.drop_subset _ _ (List.take_subset _ _ hr)
  have hm : ∀ bits sl, maskRows rows bits sl = .ok out → ∀ r ∈ out, r ∈ rows := by
    intro bits sl hm r hr
    rw [maskRows_eq] at hm
    split at hm
    · cases hm
      obtain ⟨x, hx, rfl⟩ := List.mem_map.mp hr
      obtain ⟨hx, -⟩ := List.mem_filter.mp hx
      exact List.fst_mem_of_mem_zipIdx hx
    · cases hm
  unfold selectRows at h
  split at h
  · split at h
    · split at h
      · cases h; exact hs _ _
      · cases h; exact fun r hr => hr
    · exact hm _ _ h
  · split at h
    · cases h; exact hs _ _
    · cases h; exact fun r hr => hr

/-- Rows of a table on which a filter is true. -/
def filterRows (I : Interp) (filter : Option Expr) (rows : List Row) : List Row :=
  match filter with
  | none => rows
  | some e => rows.filter (fun r => e.holds I r)

theorem filterRows_subset {I : Interp} {filter : Option Expr} {rows : List Row} :
    ∀ r ∈ filterRows I filter rows, r ∈ rows := by
  intro r hr
  unfold filterRows at hr
  split at hr
  · exact hr
  · exact (List.mem_filter.mp hr).1

theorem readTable_eq {E : Env} {fs : FS} {p : Path} {g : List (List Row)} (cols : List String)
    (filter : Option Expr) (h : fs.parquet p = some g) :
    readTable E fs p cols filter = .ok ((filterRows E.I filter g.flatten).map (·.select cols)) := by
  simp only [readTable, h, filterRows]
  cases filter <;> rfl

/-- The part of a file a read sees. -/
def visibleRows (E : Env) (fs : FS) (filter : Option Expr) (f : DataFile) : Except Err (List Row) :=
  selectRows f (filterRows E.I filter (fileRows fs f.path))

/-- Reading one file. -/
theorem readFile_eq {E : Env} {fs : FS} {s : Schema} {o : ReadOpts} {f : DataFile}
    {rows : List Row} (hp : (fs.parquet f.path).isSome)
    (hv : visibleRows E fs o.filter f = .ok rows) (hr : ∀ r ∈ rows, RowOK fs.records s r)
    (hc : ∀ c ∈ o.cols s, c ∈ s.names) (hrr : o.refRead = false) :
    ∃ bs, readFile E fs s o f = .ok bs ∧
      bs.flatten = rows.map (outRow fs.records s (o.cols s)) ∧
      (f.slice = none → 0 < o.batch → ∀ b ∈ bs, b ≠ [] ∧ b.length ≤ o.batch) := by
  obtain ⟨g, hg⟩ := Option.isSome_iff_exists.mp hp
  have hfr : fileRows fs f.path = g.flatten := by simp [fileRows, hg]
  unfold visibleRows at hv
  rw [hfr] at hv
  unfold readFile
  rw [if_pos (by simpa using hc), readTable_eq _ _ hg]
  simp only [selectRows_map, hv, Except.map, hrr, Bool.false_eq_true, ite_false]
  by_cases hs : f.slice.isSome
  · rw [if_pos hs]
    refine ⟨[rows.map (outRow fs.records s (o.cols s))], ?_, by simp, ?_⟩
    · have := readBatches_eq (fs := fs) (s := s) hc [rows] (by simpa using hr)
      simpa using this
    · intro h; simp [h] at hs
  · rw [if_neg hs]
    -- batches of selected rows are selections of batches
    have hsplit : ∀ (bs : List (List Row)) (rs : List Row),
        bs.flatten = rs.map (·.select (o.cols s)) →
        ∃ cs : List (List Row), bs = cs.map (fun b => b.map (·.select (o.cols s))) ∧
          cs.flatten = rs := by
      intro bs
      induction bs with
      | nil =>
        intro rs h
        refine ⟨[], rfl, ?_⟩
        simp only [List.flatten_nil] at h
        exact (List.map_eq_nil_iff.mp h.symm).symm ▸ rfl
      | cons b bs ih =>
        intro rs h
        simp only [List.flatten_cons] at h
        obtain ⟨r1, r2, h0, h1, h2⟩ := List.append_eq_map_iff.mp h
        obtain ⟨cs, hcs, hcf⟩ := ih r2 h2.symm
        exact ⟨r1 :: cs, by simp [h1, hcs], by simp [hcf, h0]⟩
    obtain ⟨cs, hcs, hcf⟩ := hsplit _ _ (toBatches_flatten E o.batch (rows.map (·.select (o.cols s))))
    rw [hcs]
    refine ⟨_, readBatches_eq hc cs ?_, ?_, ?_⟩
    · intro b hb r hrb
      exact hr r (by rw [← hcf]; exact List.mem_flatten.mpr ⟨b, hb, hrb⟩)
    · rw [← hcf, List.map_flatten]
    · intro _ hn b hb
      obtain ⟨c, hc', rfl⟩ := List.mem_map.mp hb
      have hb2 := toBatches_bounds E hn (rows.map (·.select (o.cols s)))
        (c.map (·.select (o.cols s))) (by rw [hcs]; exact List.mem_map.mpr ⟨c, hc', rfl⟩)
      refine ⟨fun h => hb2.1 ?_, by simpa using hb2.2⟩
      have : c = [] := List.map_eq_nil_iff.mp h
      simp [this]

/-- Reading a list of files. -/
theorem readFiles_eq {E : Env} {fs : FS} {s : Schema} {o : ReadOpts}
    (hc : ∀ c ∈ o.cols s, c ∈ s.names) (hrr : o.refRead = false) :
    ∀ (files : List DataFile) (rows : DataFile → List Row),
    (∀ f ∈ files, (fs.parquet f.path).isSome) →
    (∀ f ∈ files, visibleRows E fs o.filter f = .ok (rows f)) →
    (∀ f ∈ files, ∀ r ∈ rows f, RowOK fs.records s r) →
    ∃ bs, readFiles E fs s o files = .ok bs ∧
      bs.flatten = (files.flatMap rows).map (outRow fs.records s (o.cols s)) ∧
      ((∀ f ∈ files, f.slice = none) → 0 < o.batch → ∀ b ∈ bs, b ≠ [] ∧ b.length ≤ o.batch)
  | [], rows, _, _, _ => ⟨[], rfl, rfl, by simp⟩
  | f :: files, rows, hp, hv, hr => by
    obtain ⟨b1, h1, h2, h3⟩ := readFile_eq (hp f (List.mem_cons_self ..))
      (hv f (List.mem_cons_self ..)) (hr f (List.mem_cons_self ..)) hc hrr
    obtain ⟨b2, g1, g2, g3⟩ := readFiles_eq hc hrr files rows
      (fun f' h => hp f' (List.mem_cons_of_mem _ h)) (fun f' h => hv f' (List.mem_cons_of_mem _ h))
      (fun f' h => hr f' (List.mem_cons_of_mem _ h))
    refine ⟨b1 ++ b2, by simp [readFiles, h1, g1], by simp [h2, g2, List.flatMap_cons], ?_⟩
    intro hs hn b hb
    rcases List.mem_append.mp hb with hb | hb
    · exact h3 (hs f (List.mem_cons_self ..)) hn b hb
    · exact g3 (fun f' h => hs f' (List.mem_cons_of_mem _ h)) hn b hb

/-! ## File sets -/

/-- Entries of a manifest kept by the manifest filter. -/
def keptEntries (fs : FS) (mf : Option MExpr) (p : Path) : List ManifestRow :=
  (entriesOf fs p).filter (fun m => MExpr.keeps mf m.stats)

/-- The data file of a manifest entry. -/
def toDataFile (mid : Nat) (m : ManifestRow) : DataFile :=
  { path := m.file, stats := m.sstats, mid := mid }

/-- Files of numbered manifests. -/
def packFiles (fs : FS) (mf : Option MExpr) : List Path → Nat → FileSet
  | [], _ => {}
  | p :: ps, mid =>
    { files := (keptEntries fs mf p).map (toDataFile mid) ++ (packFiles fs mf ps (mid + 1)).files,
      manifests := (mid, p) :: (packFiles fs mf ps (mid + 1)).manifests }

theorem readIndexManifest_eq {fs : FS} {p : Path} {mid : Nat} {mf : Option MExpr}
    (h : (fs.imanifest p).isSome) :
    readIndexManifest fs p mid mf = .ok ((keptEntries fs mf p).map (toDataFile mid)) := by
  obtain ⟨rows, hr⟩ := Option.isSome_iff_exists.mp h
  simp only [readIndexManifest, hr, keptEntries, entriesOf, Option.getD_some]
  rfl

theorem collectFiles_eq {fs : FS} {mf : Option MExpr} : ∀ (ps : List Path) (mid : Nat),
    (∀ p ∈ ps, (fs.imanifest p).isSome) →
    collectFiles fs mf ps mid =
      .ok (packFiles fs mf (ps.filter (fun p => decide (keptEntries fs mf p ≠ []))) mid)
  | [], mid, _ => rfl
  | p :: ps, mid, h => by
    have ih := fun mid => collectFiles_eq (mf := mf) ps mid
      (fun q hq => h q (List.mem_cons_of_mem _ hq))
    simp only [collectFiles, readIndexManifest_eq (h p (List.mem_cons_self ..))]
    by_cases hk : keptEntries fs mf p = []
    · simp [hk, ih mid]
    · simp only [List.filter_cons, hk, ne_eq, not_false_eq_true, decide_true, ite_true, packFiles]
      cases hl : (keptEntries fs mf p).map (toDataFile mid) with
      | nil => exact absurd (List.map_eq_nil_iff.mp hl) hk
      | cons a as => simp [ih (mid + 1), packFiles]

theorem packFiles_flatMap {fs : FS} {mf : Option MExpr} {α : Type} (g : DataFile → List α)
    (g' : ManifestRow → List α) (hg : ∀ mid m, g (toDataFile mid m) = g' m) :
    ∀ (ps : List Path) (mid : Nat), (packFiles fs mf ps mid).files.flatMap g =
      ps.flatMap (fun p => (keptEntries fs mf p).flatMap g')
  | [], _ => rfl
  | p :: ps, mid => by
    simp only [packFiles, List.flatMap_append, List.flatMap_cons,
      packFiles_flatMap g g' hg ps (mid + 1), List.flatMap_map]
    congr 1
    rw [List.flatMap_def, List.flatMap_def]
    congr 1
    exact List.map_congr_left fun m _ => hg mid m

theorem flatMap_filter_nil {α β : Type} (f : α → List β) (p : α → Bool)
    (h : ∀ a, p a = false → f a = []) : ∀ l : List α, (l.filter p).flatMap f = l.flatMap f
  | [] => rfl
  | a :: l => by
    simp only [List.filter_cons]
    split
    · simp [List.flatMap_cons, flatMap_filter_nil f p h l]
    · rename_i hp
      rw [flatMap_filter_nil f p h l, List.flatMap_cons, h a (by simpa using hp)]
      simp

theorem packFiles_mem {fs : FS} {mf : Option MExpr} : ∀ {ps : List Path} {mid : Nat} {f : DataFile},
    f ∈ (packFiles fs mf ps mid).files → ∃ p ∈ ps, ∃ m ∈ keptEntries fs mf p, ∃ n,
      f = toDataFile n m ∧ mid ≤ n ∧ (packFiles fs mf ps mid).manifests.get? n = some p
  | [], _, _, h => by simp [packFiles] at h
  | p :: ps, mid, f, h => by
    simp only [packFiles, List.mem_append, List.mem_map] at h
    rcases h with ⟨m, hm, rfl⟩ | h
    · exact ⟨p, List.mem_cons_self .., m, hm, mid, rfl, Nat.le_refl _, by
        simp [packFiles, AMap.get?]⟩
    · obtain ⟨q, hq, m, hm, n, h1, h2, h3⟩ := packFiles_mem h
      refine ⟨q, List.mem_cons_of_mem _ hq, m, hm, n, h1, by omega, ?_⟩
      simp only [packFiles, AMap.get?]
      rw [if_neg (by omega)]
      exact h3

end Space
