import Verif.Lazy

/-!
# What a read with options returns
-/

namespace Space

/-- Rows a filtered read finds in the files that pruning left. -/
def keptRowsOf (I : Interp) (fs : FS) (filter : Option Expr) (mf : Option MExpr) (ps : List Path) :
    List Row :=
  ps.flatMap (fun p => (keptEntries fs mf p).flatMap (fun m => filterRows I filter (fileRows fs m.file)))

theorem keptRowsOf_subset {I : Interp} {fs : FS} {filter : Option Expr} {mf : Option MExpr}
    {ps : List Path} : ∀ r ∈ keptRowsOf I fs filter mf ps, r ∈ physRows fs ps := by
  intro r hr
  obtain ⟨p, hp, hr⟩ := List.mem_flatMap.mp hr
  obtain ⟨m, hm, hr⟩ := List.mem_flatMap.mp hr
  exact List.mem_flatMap.mpr ⟨p, hp, List.mem_flatMap.mpr ⟨m, (List.mem_filter.mp hm).1,
    filterRows_subset r hr⟩⟩

/-- A read of a well-formed snapshot with known columns, whatever the filter. -/
theorem readSnap_rows {E : Env} {fs : FS} {s : Schema} {o : ReadOpts} {snap : Snapshot}
    (hok : SnapOK fs s snap) {mf : Option MExpr} (hm : manifestFilter s o.filter = .ok mf)
    (hc : ∀ c ∈ o.cols s, c ∈ s.names) (hrr : o.refRead = false) :
    ∃ bs, readSnap E fs s o snap = .ok bs ∧
      bs.flatten = (keptRowsOf E.I fs o.filter mf snap.index).map (outRow fs.records s (o.cols s)) ∧
      (0 < o.batch → ∀ b ∈ bs, b ≠ [] ∧ b.length ≤ o.batch) := by
  unfold readSnap
  rw [hm]
  simp only
  rw [collectFiles_eq snap.index 1 fun p hp => by
    obtain ⟨rows, h, -⟩ := hok.manifests p hp
    simp [h]]
  simp only
  have hfile : ∀ f ∈ (packFiles fs mf
      (snap.index.filter (fun p => decide (keptEntries fs mf p ≠ []))) 1).files,
      ∃ m, EntryOK fs fs.records s m ∧ f.path = m.file ∧ f.bitmap = none ∧ f.slice = none := by
    intro f hf
    obtain ⟨p, hp, m, hm', n, rfl, -, -⟩ := packFiles_mem hf
    exact ⟨m, (hok.manifests p (List.mem_filter.mp hp).1).entry (List.mem_filter.mp hm').1, rfl, rfl, rfl⟩
  obtain ⟨bs, h1, h2, h3⟩ := readFiles_eq (E := E) (fs := fs) hc hrr
    (packFiles fs mf (snap.index.filter (fun p => decide (keptEntries fs mf p ≠ []))) 1).files
    (fun f => filterRows E.I o.filter (fileRows fs f.path))
    (fun f hf => by
      obtain ⟨m, ⟨g, hg, _⟩, hp, _⟩ := hfile f hf
      simp [hp, hg])
    (fun f hf => by
      obtain ⟨m, _, _, hb, hsl⟩ := hfile f hf
      simp [visibleRows, selectRows, hb, hsl])
    (fun f hf r hr => by
      obtain ⟨m, hm', hp, _⟩ := hfile f hf
      rw [hp] at hr
      exact fileRows_mem hm' r (filterRows_subset r hr))
  refine ⟨bs, h1, ?_, fun hb => h3 (fun f hf => (hfile f hf).choose_spec.2.2.2) hb⟩
  rw [h2, packFiles_flatMap _ (fun m => filterRows E.I o.filter (fileRows fs m.file)) (fun _ _ => rfl)]
  rw [flatMap_filter_nil _ _ (by
    intro p hp
    have : keptEntries fs mf p = [] := by simpa using hp
    rw [this]; rfl)]
  rfl

/-- Pruning by a sound filter loses nothing. -/
theorem keptRowsOf_safe {I : Interp} {fs : FS} {s : Schema} {filter : Option Expr} {mf : Option MExpr}
    {ps : List Path} (hps : ∀ p ∈ ps, ManifestOK fs s p) (hf : PruneOK s filter)
    (hm : manifestFilter s filter = .ok mf) :
    keptRowsOf I fs filter mf ps = filterRows I filter (physRows fs ps) := by
  rw [← keptRows hps (mf := mf) (I := I) fun p hp m hmm => hf.keeps hm ((hps p hp).entry hmm)]
  rw [flatMap_filter_nil _ _ (by
    intro p hp
    have : keptEntries fs mf p = [] := by simpa using hp
    rw [this]; rfl)]
  rfl

/-- Rows depend on a filter through its columns. -/
theorem eval_congr {I : Interp} {r r' : Row} : ∀ (e : Expr), (∀ c ∈ e.cols, r.val c = r'.val c) →
    e.eval I r = e.eval I r'
  | .sel c, h => h c (by simp [Expr.cols])
  | .sub c k, h => congrArg (I.sub k) (h c (by simp [Expr.cols]))
  | .lit _, _ => rfl
  | .un fn a, h => by simp only [Expr.eval, eval_congr a h]
  | .bin fn a b, h => by
    simp only [Expr.eval, eval_congr a fun c hc => h c (by simp [Expr.cols, hc]),
      eval_congr b fun c hc => h c (by simp [Expr.cols, hc])]
  | .opq k cs, h => by
    simp only [Expr.eval]
    exact congrArg (I.opq k) (List.map_congr_left fun c hc => h c hc)

theorem holds_congr {I : Interp} {e : Expr} {r r' : Row} (h : ∀ c ∈ e.cols, r.val c = r'.val c) :
    e.holds I r = e.holds I r' := by
  simp only [Expr.holds, Expr.truth, eval_congr e h]

/-- Names of an expression can be looked up: building the manifest filter succeeds. -/
theorem fidOf_isSome {s : Schema} {c : String} (h : c ∈ s.names) : ∃ f, s.fidOf c = some f := by
  unfold Schema.fidOf
  obtain ⟨f, hf, rfl⟩ := List.mem_map.mp h
  cases hx : s.fields.find? (fun g => g.name = f.name) with
  | some g => exact ⟨g.fid, rfl⟩
  | none =>
    have := List.find?_eq_none.mp hx f hf
    simp at this

theorem ffMinMax_total {s : Schema} {c : String} (h : c ∈ s.names) (hal : s.resolve c = some c) :
    ∃ x, ffMinMax s c = .ok x := by
  obtain ⟨f, hf⟩ := fidOf_isSome h
  exact ⟨(f, s.pks.contains c), by simp [ffMinMax, hal, hf]⟩

theorem ffInternal_noKey {s : Schema} : ∀ (e : Expr), (∀ c ∈ e.cols, c ∈ s.names) → s.Aligned e →
    ffInternal s e ≠ .error .keyError
  | .sel c, _, _ => by simp [ffInternal]
  | .sub c k, _, _ => by simp [ffInternal]
  | .lit v, _, _ => by simp [ffInternal]
  | .opq k cs, _, _ => by simp [ffInternal]
  | .un fn a, hc, hal => by
    have ih := ffInternal_noKey a hc hal
    simp only [ffInternal]
    split
    · cases h : ffInternal s a with
      | error x => cases x <;> simp_all
      | ok m => cases m <;> simp
    · simp
  | .bin fn a b, hc, hal => by
    have iha := ffInternal_noKey a (fun c h => hc c (by simp [Expr.cols, h])) fun c h => hal c (by simp [Expr.cols, h])
    have ihb := ffInternal_noKey b (fun c h => hc c (by simp [Expr.cols, h])) fun c h => hal c (by simp [Expr.cols, h])
    have field : ∀ c ∈ (Expr.bin fn a b).cols, ∃ x, ffMinMax s c = .ok x := fun c h =>
      ffMinMax_total (hc c h) (hal c h)
    simp only [ffInternal]
    split
    · cases h : ffInternal s a with
      | error x => cases x <;> simp_all
      | ok l =>
        simp only
        cases h' : ffInternal s b with
        | error x => cases x <;> simp_all
        | ok r =>
          simp only
          split
          · cases l <;> cases r <;> simp
          · split
            · cases l <;> cases r <;> simp
            · simp
    · split
      · rename_i l r hl hr
        obtain ⟨⟨f1, b1⟩, e1⟩ := field l (by simp [Expr.cols, mem_cols hl])
        obtain ⟨⟨f2, b2⟩, e2⟩ := field r (by simp [Expr.cols, mem_cols hr])
        simp only [ffFields, e1, e2]
        split
        · simp
        · cases Cmp.ofName fn with
          | none => simp
          | some op => cases op <;> simp
      · unfold ffLiterals
        cases Cmp.ofName fn with
        | none => simp
        | some op => cases op <;> simp
      · rename_i c v hcol _ _
        obtain ⟨⟨f1, b1⟩, e1⟩ := field c (by simp [Expr.cols, mem_cols hcol])
        simp only [ffFieldLiteral, e1]
        split
        · simp
        · split <;> simp
      · rename_i c v _ hcol _
        obtain ⟨⟨f1, b1⟩, e1⟩ := field c (by simp [Expr.cols, mem_cols hcol])
        simp only [ffFieldLiteral, e1]
        split
        · simp
        · split <;> simp
      · simp

theorem manifestFilter_total {s : Schema} {e : Expr} (hc : ∀ c ∈ e.cols, c ∈ s.names)
    (hal : s.Aligned e) : ∃ mf, manifestFilter s (some e) = .ok mf := by
  have h := ffInternal_noKey e hc hal
  simp only [manifestFilter, buildManifestFilter]
  rw [if_pos (by simpa using hc)]
  cases hf : ffInternal s e with
  | error x =>
    cases x with
    | unsupported => exact ⟨_, rfl⟩
    | keyError => exact absurd hf h
  | ok m => cases m <;> exact ⟨_, rfl⟩

theorem select_map_deref {L : Look} {s : Schema} {cols : List String} (rows : List Row) :
    rows.map (outRow L s cols) = (rows.map (deref L s)).map (·.select (outCols s cols)) := by
  rw [List.map_map]
  rfl

/-- Filtering stored rows and logical rows is the same if no record column is
mentioned. -/
theorem filter_deref {I : Interp} {L : Look} {s : Schema} {e : Expr}
    (h : ∀ c ∈ e.cols, c ∉ s.recs) (rows : List Row) :
    (rows.filter (fun r => e.holds I r)).map (deref L s) =
      (rows.map (deref L s)).filter (fun r => e.holds I r) := by
  rw [List.filter_map]
  congr 1
  apply List.filter_congr
  intro r _
  simp only [Function.comp]
  refine holds_congr fun c hc => ?_
  rw [deref_val]
  simp [h c hc]

/-- A filter that can be used on a schema without losing rows: its columns are plain
columns of the schema, looked up under their own names; `not` and `≠` between two
keys do not occur (`Expr.pruneSafe`); keys precede nested columns. -/
structure FilterFits (s : Schema) (e : Expr) : Prop where
  prune : PruneOK s (some e)
  names : ∀ c ∈ e.cols, c ∈ s.names
  plain : ∀ c ∈ e.cols, c ∉ s.recs

theorem FilterFits.filter {s : Schema} {e : Expr} (h : FilterFits s e) :
    ∃ mf, manifestFilter s (some e) = .ok mf := manifestFilter_total h.names h.prune.2.2.2

theorem rowsOf_flatten (bs : List (List Row)) : rowsOf bs = bs.flatten := flatten_filter_nonempty bs

/-- A filtered read returns the logical rows on which the filter is true. -/
theorem tableRead_filter {E : Env} {s : Schema} {w : World} {md : Metadata} {h : Handle}
    (hw : WOK s w md) (hh : HandleOK s w h) {e : Expr} (he : FilterFits s e) {o : ReadOpts}
    (ho : o.filter = some e) (hc : ∀ c ∈ o.cols s, c ∈ s.names) (hrr : o.refRead = false)
    (v : Option Version) :
    tableRead E h w o v =
      match md.target h.branch v with
      | .error e => .error e
      | .ok snap => .ok (((snapRows w.fs s snap).filter (fun r => e.holds E.I r)).map
          (·.select (outCols s (o.cols s)))) := by
  rw [tableRead_target hw hh]
  cases ht : md.target h.branch v with
  | error e => rfl
  | ok snap =>
    obtain ⟨mf, hmf⟩ := he.filter
    obtain ⟨bs, h1, h2, -⟩ := readSnap_rows (E := E) (o := o) (target_ok hw ht).1 (ho ▸ hmf) hc hrr
    simp only [h1, Except.map, rowsOf_flatten, h2]
    rw [ho, keptRowsOf_safe (target_ok hw ht).1.manifests he.prune hmf, select_map_deref]
    simp only [filterRows]
    rw [filter_deref he.plain]
    rfl

end Space
