import Verif.DeleteSem
import Verif.StatsLemmas
import Verif.StorageLemmas

/-! # What the data mutations compute -/

namespace Space

open List

/-! ## Patches from written files -/

theorem Finished.patchOK {E : Env} {s : Schema} {w0 w' : World} {rows : List Row}
    {carried mf : List ManifestRow} {rmf : List RecManifestRow} {p : Patch}
    (h : Finished E s w0 w' rows carried mf rmf (some p))
    (hc : ∀ m ∈ carried, EntryOK w'.fs w'.fs.records s m) : PatchOK w'.fs s p := by
  obtain ⟨u, -, hu, him⟩ := h.idx p rfl
  refine ⟨?_, ?_, ?_⟩
  · intro q hq
    rw [hu, List.mem_singleton] at hq
    subst hq
    refine ⟨_, him, ?_, ?_⟩
    · intro hn
      have h0 : sumRows mf ≠ 0 := fun h0 => by
        have := h.none_iff.mpr h0
        cases this
      rw [(List.append_eq_nil_iff.mp hn).2] at h0
      exact h0 rfl
    · intro m hm
      rcases List.mem_append.mp hm with hm | hm
      · exact hc m hm
      · exact h.ents m hm
  · intro q hq
    rcases h.recs p rfl with ⟨-, h0⟩ | ⟨v, -, hv, hr⟩
    · rw [h0] at hq; simp at hq
    · rw [hv, List.mem_singleton] at hq
      subst hq
      refine ⟨rmf, hr, fun m hm => ?_⟩
      obtain ⟨f, -, u, rs, -, -, h1, h2, -⟩ := h.recEnts m hm
      exact ⟨rs, h1, h2⟩
  · intro cl hcl
    rw [h.log p rfl] at hcl
    cases hcl
    rintro b (hb | hb)
    · cases hb
    · obtain ⟨m, hm, rfl⟩ := List.mem_map.mp hb
      obtain ⟨g, h1, h2, -, h3⟩ := h.ents m hm
      exact ⟨g, h1, h2, by simp [wholeFile], h3⟩

/-- Rows of the manifests a finished append adds. -/
theorem Finished.addRows {E : Env} {s : Schema} {w0 w' : World} {rows : List Row}
    {mf : List ManifestRow} {rmf : List RecManifestRow} {p : Option Patch}
    (h : Finished E s w0 w' rows [] mf rmf p) :
    (p = none ∧ rows = []) ∨ ∃ q, p = some q ∧ physRows w'.fs q.addIdx = rows ∧ rows ≠ [] := by
  have hs := sumRows_zero h.ents
  rw [h.rowsEq] at hs
  cases p with
  | none =>
    left
    refine ⟨rfl, ?_⟩
    have := h.none_iff.mp rfl
    exact List.length_eq_zero_iff.mp (by omega)
  | some q =>
    right
    obtain ⟨u, -, hu, him⟩ := h.idx q rfl
    refine ⟨q, rfl, ?_, ?_⟩
    · rw [hu, ← h.rowsEq]
      simp [physRows, entriesOf, him]
    · intro h0
      have : sumRows mf = 0 := by rw [hs, h0]; rfl
      have := h.none_iff.mpr this
      cases this

/-! ## Delete -/

/-- The patch of a delete on a snapshot. -/
structure DeleteOut (E : Env) (s : Schema) (e : Expr) (w w' : World) (index : List Path)
    (mf : Option MExpr) (p : Option Patch) : Prop where
  out : (p = none ∧ ∀ q ∈ index, hasMod E.I e w.fs mf q = false) ∨
    ∃ q dms carried mf' rmf rp, p = some q ∧
      Deleted E s e w w' (visited w.fs mf index) dms carried mf' rmf rp q
  ran : p = none ∨ deleteFiles E s (visited w.fs mf index) e w = (.ok p, w')

theorem deleteSet_post {E : Env} {s : Schema} {e : Expr} {w : World} {index : List Path}
    {mf : Option MExpr} (hf : w.Fresh) (hok : ∀ q ∈ index, ManifestOK w.fs s q) :
    Post (deleteFiles E s (visited w.fs mf index) e w)
      (fun p w' => Grows w w' ∧ w'.Fresh ∧ DeleteOut E s e w w' index mf p)
      (fun w' => Grows w w') := by
  refine (deleteFiles_post hf ?_ ?_).run.imp ?_ (fun _ h => h)
  · intro f hfm
    obtain ⟨q, hq, m, hm, n, rfl, -, -⟩ := packFiles_mem hfm
    exact ((hok q (List.mem_filter.mp hq).1).entry (List.mem_filter.mp hm).1).fileOK n
  · intro n q hq
    exact hok q (List.mem_filter.mp (packFiles_manifest_mem hq)).1
  · rintro p w' ⟨⟨h1, h2, h3⟩, h0⟩
    refine ⟨h1, h2, ⟨?_, Or.inr h0⟩⟩
    rcases h3 with ⟨rfl, h3⟩ | ⟨q, dms, carried, mf', rmf, rp, h3, h4⟩
    · left
      refine ⟨rfl, fun q hq => ?_⟩
      cases hh : hasMod E.I e w.fs mf q with
      | false => rfl
      | true =>
        simp only [hasMod, List.any_eq_true] at hh
        obtain ⟨m, hm, hmod⟩ := hh
        obtain ⟨n, h5, -⟩ := mods_visited hq hm hmod
        have := h3 _ (List.mem_filter.mp h5).1
        rw [(List.mem_filter.mp h5).2] at this
        cases this
    · exact Or.inr ⟨q, dms, carried, mf', rmf, rp, h3, h4⟩

theorem snapshot_none {h : Handle} {snap : Snapshot} (hs : h.snapshot none = .ok snap) :
    ∃ n, h.md.currentId h.branch = .ok n ∧ h.md.snaps.get? n = some snap := by
  unfold Handle.snapshot at hs
  simp only at hs
  split at hs
  · cases hs
  · rename_i n hn
    unfold Metadata.snapshot at hs
    split at hs
    · rename_i h1; cases hs; exact ⟨n, hn, h1⟩
    · cases hs

theorem snapshot_manifests {s : Schema} {w : World} {h : Handle} (hh : HandleOK s w h)
    {snap : Snapshot} (hs : h.snapshot none = .ok snap) : SnapOK w.fs s snap := by
  obtain ⟨n, -, h2⟩ := snapshot_none hs
  rw [← hh.schema]
  exact hh.ok.snaps n snap h2

theorem dataFiles_ok {s : Schema} {w : World} {h : Handle} (hh : HandleOK s w h)
    {filter : Option Expr} {fset : FileSet} (hd : dataFiles w.fs h filter none = .ok fset) :
    ∃ snap mf, h.snapshot none = .ok snap ∧ manifestFilter s filter = .ok mf ∧
      fset = visited w.fs mf snap.index := by
  cases hs : h.snapshot none with
  | error e => simp [dataFiles, hs] at hd
  | ok snap =>
    cases hm : manifestFilter s filter with
    | error e => simp [dataFiles, hs, hh.schema, hm] at hd
    | ok mf =>
      have := dataFiles_eq (fs := w.fs) (filter := filter) hs (by rw [hh.schema]; exact hm)
        (by rw [hh.schema]; exact (snapshot_manifests hh hs).manifests)
      rw [this] at hd
      exact ⟨snap, mf, rfl, rfl, (Except.ok.inj hd).symm⟩

theorem deleteBody_post {E : Env} {s : Schema} {e : Expr} {w : World} {h : Handle} (hf : w.Fresh)
    (hh : HandleOK s w h) :
    Post (deleteBody E h e w)
      (fun p w' => Grows w w' ∧ w'.Fresh ∧ ∃ snap mf, h.snapshot none = .ok snap ∧
        manifestFilter s (some e) = .ok mf ∧ DeleteOut E s e w w' snap.index mf p)
      (fun w' => Grows w w') := by
  unfold deleteBody
  refine Post.bind (Q := fun a b => w = a ∧ w = b) (Post.get ⟨rfl, rfl⟩) ?_
  rintro a b ⟨rfl, hb⟩
  subst hb
  refine Post.bind (Q := fun a b => dataFiles w.fs h (some e) none = .ok a ∧ w = b)
    (Post.lift (fun a ha => ⟨ha, rfl⟩) (Grows.refl w)) ?_
  rintro fset b ⟨hd, hb⟩
  subst hb
  obtain ⟨snap, mf, h1, h2, rfl⟩ := dataFiles_ok hh hd
  rw [hh.schema]
  refine (deleteSet_post hf (snapshot_manifests hh h1).manifests).imp ?_ (fun _ h => h)
  rintro p w' ⟨a1, a2, a3⟩
  exact ⟨a1, a2, snap, mf, h1, h2, a3⟩

/-! ## Insert and upsert -/

theorem writeFinish_post {E : Env} {s : Schema} {w : World} (hf : w.Fresh) (data : List Row) :
    Post ((do
        let op ← AppendOp.write E s { addrInput := false } data
        op.finish E s : WM (Option Patch)) w)
      (fun p w' => Grows w w' ∧ w'.Fresh ∧ ∃ P mf rmf, Finished E s w w' P [] mf rmf p ∧
        P.map (deref w'.fs.records s) = data.map (·.select s.writeNames) ∧
        appendBody E s [data] w = (.ok p, w'))
      (fun w' => Grows w w') := by
  have := (appendBody_post (E := E) (s := s) hf [data]).run
  have he : appendBody E s [data] w = ((do
        let op ← AppendOp.write E s { addrInput := false } data
        op.finish E s : WM (Option Patch)) w) := by
    simp only [appendBody, AppendOp.writeAll, Bind.bind, M.andThen]
    cases hw : AppendOp.write E s { addrInput := false } data w with
    | mk r w1 => cases r <;> rfl
  rw [← he]
  refine this.imp ?_ (fun _ h => h)
  rintro p w' ⟨⟨h1, h2, P, mf, rmf, h3, h4⟩, h5⟩
  exact ⟨h1, h2, P, mf, rmf, h3, by simpa using h4, h5⟩

/-- The patch of an insert or upsert. -/
structure InsertOut (E : Env) (s : Schema) (mode : InsertMode) (data : List Row) (w w' : World)
    (snap : Snapshot) (p : Option Patch) (e : Expr) (mf : Option MExpr) : Prop where
  key : primaryKeyFilter s.pks data = .ok (some e)
  filter : manifestFilter s (some e) = .ok mf
  out : ∃ w1 dp ap P mf' rmf, Grows w w1 ∧ w1.Fresh ∧ Grows w1 w' ∧
    p = mergePatches [dp, ap] ∧ Finished E s w1 w' P [] mf' rmf ap ∧
    P.map (deref w'.fs.records s) = data.map (·.select s.writeNames) ∧
    (mode = .insert → dp = none ∧ w1 = w ∧
      (visited w.fs mf snap.index).files.flatMap
        (fun f => filterRows E.I (some e) (fileRows w.fs f.path)) = []) ∧
    (mode = .upsert → DeleteOut E s e w w1 snap.index mf dp) ∧
    appendBody E s [data] w1 = (.ok ap, w')

theorem filterMatched_false {E : Env} {fs : FS} {s : Schema} {files : List DataFile} {e : Expr}
    (hf : ∀ f ∈ files, ∃ m n, EntryOK fs fs.records s m ∧ f = toDataFile n m)
    (hm : filterMatched E fs s files e = .ok false) :
    files.flatMap (fun f => filterRows E.I (some e) (fileRows fs f.path)) = [] := by
  unfold filterMatched at hm
  cases files with
  | nil => rfl
  | cons f0 fl =>
  have hc : ∀ c ∈ s.pks, c ∈ s.names := by
    cases hr : readFiles E fs s { filter := some e, fields := some s.pks } (f0 :: fl) with
    | error er => rw [hr] at hm; cases hm
    | ok bs =>
      simp only [readFiles] at hr
      split at hr
      · cases hr
      · rename_i ts hts
        unfold readFile at hts
        split at hts
        · rename_i hall
          simpa [ReadOpts.cols] using hall
        · cases hts
  obtain ⟨bs, h1, h2, -⟩ := readFiles_eq (E := E) (fs := fs) (s := s)
    (o := { filter := some e, fields := some s.pks }) (by simpa [ReadOpts.cols] using hc) rfl
    (f0 :: fl) (fun f => filterRows E.I (some e) (fileRows fs f.path))
    (fun f hfm => by
      obtain ⟨m, n, ⟨g, hg, _⟩, rfl⟩ := hf f hfm
      simp [toDataFile, hg])
    (fun f hfm => by
      obtain ⟨m, n, -, rfl⟩ := hf f hfm
      rfl)
    (fun f hfm r hr => by
      obtain ⟨m, n, hm', rfl⟩ := hf f hfm
      exact fileRows_mem hm' r (filterRows_subset r hr))
  rw [h1] at hm
  simp only [Except.ok.injEq, List.any_eq_false] at hm
  have hnil : bs.flatten = [] := by
    rw [List.flatten_eq_nil_iff]
    intro b hb
    have := hm b hb
    cases b with
    | nil => rfl
    | cons a l => simp at this
  rw [hnil] at h2
  exact List.map_eq_nil_iff.mp h2.symm

theorem insertBody_post {E : Env} {s : Schema} {w : World} {h : Handle} (hf : w.Fresh)
    (hh : HandleOK s w h) (mode : InsertMode) (data : List Row) :
    Post (insertBody E h mode data w)
      (fun p w' => Grows w w' ∧ w'.Fresh ∧ ((data = [] ∧ p = none) ∨
        data ≠ [] ∧ ∃ snap e mf, h.snapshot none = .ok snap ∧
          InsertOut E s mode data w w' snap p e mf))
      (fun w' => Grows w w') := by
  unfold insertBody
  split
  · rename_i hd
    exact Post.pure ⟨Grows.refl w, hf, Or.inl ⟨hd, rfl⟩⟩
  rename_i hd
  rw [hh.schema]
  refine Post.bind (Q := fun a b => primaryKeyFilter s.pks data = .ok a ∧ w = b)
    (Post.lift (fun a ha => ⟨ha, rfl⟩) (Grows.refl w)) ?_
  rintro fe b ⟨hk, hb⟩
  subst hb
  cases fe with
  | none => exact Post.raise (Grows.refl w)
  | some e =>
  refine Post.bind (Q := fun a b => w = a ∧ w = b) (Post.get ⟨rfl, rfl⟩) ?_
  rintro a b ⟨rfl, hb⟩
  subst hb
  refine Post.bind (Q := fun a b => dataFiles w.fs h (some e) none = .ok a ∧ w = b)
    (Post.lift (fun a ha => ⟨ha, rfl⟩) (Grows.refl w)) ?_
  rintro fset b ⟨hdf, hb⟩
  subst hb
  obtain ⟨snap, mf, h1, h2, rfl⟩ := dataFiles_ok hh hdf
  have hman := (snapshot_manifests hh h1).manifests
  have hfiles : ∀ f ∈ (visited w.fs mf snap.index).files,
      ∃ m n, EntryOK w.fs w.fs.records s m ∧ f = toDataFile n m := by
    intro f hfm
    obtain ⟨q, hq, m, hm, n, rfl, -, -⟩ := packFiles_mem hfm
    exact ⟨m, n, (hman q (List.mem_filter.mp hq).1).entry (List.mem_filter.mp hm).1, rfl⟩
  -- the delete part
  refine Post.bind (Q := fun dp w1 => Grows w w1 ∧ w1.Fresh ∧
    (mode = .insert → dp = none ∧ w1 = w ∧
      (visited w.fs mf snap.index).files.flatMap
        (fun f => filterRows E.I (some e) (fileRows w.fs f.path)) = []) ∧
    (mode = .upsert → DeleteOut E s e w w1 snap.index mf dp)) ?_ ?_
  · split
    · rename_i h0
      refine Post.pure ⟨Grows.refl w, hf, fun _ => ⟨rfl, rfl, by rw [h0]; rfl⟩, fun _ => ⟨Or.inl ⟨rfl, ?_⟩, Or.inl rfl⟩⟩
      intro q hq
      cases hm : hasMod E.I e w.fs mf q with
      | false => rfl
      | true =>
        simp only [hasMod, List.any_eq_true] at hm
        obtain ⟨m, hm, hmod⟩ := hm
        obtain ⟨n, h5, -⟩ := mods_visited hq hm hmod
        have := (List.mem_filter.mp h5).1
        rw [h0] at this
        simp at this
    · cases mode with
      | insert =>
        refine Post.bind (Q := fun a b => filterMatched E w.fs s
          (visited w.fs mf snap.index).files e = .ok a ∧ w = b)
          (Post.lift (fun a ha => ⟨ha, rfl⟩) (Grows.refl w)) ?_
        rintro m b ⟨hm, hb⟩
        subst hb
        cases m with
        | true => exact Post.raise (Grows.refl w)
        | false =>
          exact Post.pure ⟨Grows.refl w, hf, fun _ => ⟨rfl, rfl, filterMatched_false hfiles hm⟩,
            fun h => by cases h⟩
      | upsert =>
        refine (deleteSet_post hf hman).imp ?_ (fun _ h => h)
        rintro p w' ⟨a1, a2, a3⟩
        exact ⟨a1, a2, fun h => (by cases h), fun _ => a3⟩
  rintro dp w1 ⟨g1, f1, hi, hu⟩
  have hwf := writeFinish_post (E := E) (s := s) f1 data
  have hre : ((do
        let op ← AppendOp.write E s { addrInput := false } data
        let ap ← op.finish E s
        pure (mergePatches [dp, ap]) : WM (Option Patch)) w1) =
      (((do
        let op ← AppendOp.write E s { addrInput := false } data
        op.finish E s : WM (Option Patch)) >>= fun ap => pure (mergePatches [dp, ap])) w1) := by
    simp only [Bind.bind, M.andThen]
    cases hw : AppendOp.write E s { addrInput := false } data w1 with
    | mk r w2 => cases r <;> rfl
  rw [hre]
  refine Post.bind (hwf.imp (fun _ _ h => h) (fun _ h => g1.trans h)) ?_
  rintro ap w2 ⟨g2, f2, P, mf', rmf, h3, h4, h5⟩
  exact Post.pure ⟨g1.trans g2, f2, Or.inr ⟨hd, snap, e, mf, h1,
    ⟨hk, h2, w1, dp, ap, P, mf', rmf, g1, f1, g2, rfl, h3, h4, hi, hu, h5⟩⟩⟩

/-! ## Loading files -/

theorem loadParquetRows_ok {E : Env} {s : Schema} {fs : FS} : ∀ {files : List Path}
    {rows : List ManifestRow}, loadParquetRows E s fs files = .ok rows →
    (∀ p ∈ files, ∀ g, fs.parquet p = some g → ∀ r ∈ g.flatten, RowOK fs.records s r) →
    (∀ m ∈ rows, EntryOK fs fs.records s m) ∧ rows.map (·.file) = files
  | [], rows, h, _ => by simp only [loadParquetRows, Except.ok.injEq] at h; subst h; simp
  | p :: ps, rows, h, hok => by
    simp only [loadParquetRows] at h
    split at h
    · cases h
    · rename_i g hg
      split at h
      · cases h
      · rename_i m hm
        split at h
        · cases h
        · rename_i ms hms
          cases h
          obtain ⟨h1, h2⟩ := loadParquetRows_ok hms
            fun q hq => hok q (List.mem_cons_of_mem _ hq)
          unfold manifestRow at hm
          split at hm
          · cases hm
          · rename_i st hst
            cases hm
            refine ⟨?_, by simp [h2]⟩
            intro m hm
            rcases List.mem_cons.mp hm with rfl | hm
            · exact ⟨g, hg, rfl, hst, hok p (List.mem_cons_self ..) g hg⟩
            · exact h1 m hm

/-- Outcome of `append_parquet`. -/
structure LoadedParquet (s : Schema) (w w' : World) (files : List Path) (p : Option Patch) : Prop where
  recs : s.recs = []
  out : ∃ q rows, p = some q ∧ rows.map (·.file) = files ∧
    (∀ m ∈ rows, EntryOK w'.fs w'.fs.records s m) ∧ q.addRec = [] ∧ q.delIdx = [] ∧ q.log = none ∧
    q.stats = { rows := sumRows rows, icb := sumIcb rows, iub := sumIub rows } ∧
    ((rows = [] ∧ q.addIdx = []) ∨
      (rows ≠ [] ∧ q.addIdx = [.indexManifest w.next] ∧
        w'.fs.imanifest (.indexManifest w.next) = some rows))

theorem sstats_fold (rows : List ManifestRow) : ∀ (a : SStats),
    rows.foldl (fun acc m => acc.addIndex m.sstats) a =
      { rows := a.rows + sumRows rows, icb := a.icb + sumIcb rows,
        iub := a.iub + sumIub rows, rub := a.rub } := by
  induction rows with
  | nil => intro a; simp [sumRows, sumIcb, sumIub]
  | cons m l ih =>
    intro a
    rw [List.foldl_cons, ih]
    simp only [SStats.addIndex, ManifestRow.sstats, sumRows, sumIcb, sumIub,
      List.map_cons, List.sum_cons, SStats.mk.injEq, and_true]
    omega

theorem appendParquetBody_post {E : Env} {s : Schema} {w : World} (hf : w.Fresh) (files : List Path)
    (hok : ∀ p ∈ files, ∀ g, w.fs.parquet p = some g → ∀ r ∈ g.flatten, s.conforms r = true) :
    Post (appendParquetBody E s files w)
      (fun p w' => Grows w w' ∧ w'.Fresh ∧ LoadedParquet s w w' files p)
      (fun w' => Grows w w') := by
  unfold appendParquetBody
  split
  · exact Post.raise (Grows.refl w)
  rename_i hr
  have hr : s.recs = [] := by simpa using hr
  refine Post.bind (Q := fun a b => w = a ∧ w = b) (Post.get ⟨rfl, rfl⟩) ?_
  rintro a b ⟨rfl, hb⟩
  subst hb
  refine Post.bind (Q := fun a b => loadParquetRows E s w.fs files = .ok a ∧ w = b)
    (Post.lift (fun a ha => ⟨ha, rfl⟩) (Grows.refl w)) ?_
  rintro rows b ⟨hl, hb⟩
  subst hb
  obtain ⟨h1, h2⟩ := loadParquetRows_ok hl fun p hp g hg r hrm =>
    ⟨hok p hp g hg r hrm, by intro c hc; rw [hr] at hc; simp at hc⟩
  by_cases h0 : rows = []
  · subst h0
    refine Post.bind (Q := fun im w' => im = none ∧ w = w') ⟨rfl, rfl⟩ ?_
    rintro im w' ⟨rfl, hw⟩
    subst hw
    exact Post.pure ⟨Grows.refl w, hf, hr, ⟨_, [], rfl, h2, h1, rfl, rfl, rfl, rfl, Or.inl ⟨rfl, rfl⟩⟩⟩
  refine Post.bind (finishIndexManifest_post [] rows hf) ?_
  rintro im w' ⟨g, -, hcase⟩
  refine Post.pure ⟨g, g.fresh hf, hr, ⟨_, rows, rfl, h2,
    fun m hm => (h1 m hm).mono g.le g.le.lookLe, rfl, rfl, rfl, ?_, ?_⟩⟩
  · simp only [sstats_fold]
    simp
  · rcases hcase with ⟨hn, rfl⟩ | ⟨rfl, him⟩
    · exact absurd (by simpa using hn) h0
    · exact Or.inr ⟨h0, rfl, by simpa using him⟩

/-- Rows `append_array_record` makes of the matched files. -/
def recordIndexRows (fs : FS) (s : Schema) (field : String) (fn : List Nat → Row)
    (files : List Path) : List Row :=
  files.flatMap (fun p => indexRows s field fn p ((fs.records p).getD []))

/-- The bytes of the records of a record file. -/
def recordBytes (fs : FS) (p : Path) : Nat := (((fs.records p).getD []).map List.length).sum

theorem indexRows_addr {L : Look} {s : Schema} {f : Field} (hrf : s.recFields = [f])
    {fn : List Nat → Row} {p : Path} {rs : List (List Nat)} (hl : L p = some rs) :
    ∀ r ∈ indexRows s f.name fn p rs, AddrOK L s (r.select s.writeNames) := by
  intro r hr c hc v hv
  simp only [Row.select, List.mem_map, Prod.mk.injEq] at hv
  obtain ⟨c', hc', rfl, rfl⟩ := hv
  -- the only record column is the field
  have hcf : c' = f.name := by
    simp only [Schema.writeNames, Schema.idxNames, Schema.recNames, hrf, List.mem_append,
      List.map_cons, List.map_nil, List.mem_singleton] at hc'
    rcases hc' with hc' | hc'
    · simp only [Schema.idxFields, List.mem_map, List.mem_filter, Schema.isRec] at hc'
      obtain ⟨g, ⟨-, hg⟩, rfl⟩ := hc'
      simp [hc] at hg
    · exact hc'
  subst hcf
  simp only [indexRows, appendColumn, addressColumn] at hr
  obtain ⟨i, hi, rfl⟩ := List.mem_iff_getElem.mp hr
  simp only [List.length_zipWith, List.length_map, List.length_range, Nat.min_self] at hi
  refine ⟨p, i, rs, ?_, hl, hi⟩
  simp only [List.getElem_zipWith, List.getElem_map, List.getElem_range, Nat.zero_add]
  unfold Row.val
  have : ∀ (l : Row), f.name ∉ l.cols →
      AMap.get? (l ++ [(f.name, Val.addr p i)]) f.name = some (Val.addr p i) := by
    intro l
    induction l with
    | nil => intro _; simp [AMap.get?]
    | cons a l ih =>
      intro hn
      simp only [Row.cols, List.map_cons, List.mem_cons, not_or] at hn
      rw [List.cons_append]
      obtain ⟨k, v⟩ := a
      rw [AMap.get?_cons, if_neg (Ne.symm hn.1)]
      exact ih hn.2
  rw [this]
  · rfl
  · simp [Row.cols, Row.select]

theorem loadRecordFiles_post {E : Env} {s : Schema} {f : Field} {fn : List Nat → Row} {w0 : World}
    (hrf : s.recFields = [f]) : ∀ (files : List Path) {w : World} {op : AppendOp} (n : Nat),
    OpOK E s w0 w op → op.addrInput = true →
    Post (loadRecordFiles E s f.name fn files op n w)
      (fun x w' => OpOK E s w0 w' x.1 ∧ OpStep w w' op x.1 ∧
        (∀ p ∈ files, (w'.fs.records p).isSome) ∧
        x.2 = n + (files.map (recordBytes w'.fs)).sum ∧
        x.1.rows w'.fs = op.rows w.fs ++
          (recordIndexRows w'.fs s f.name fn files).map (·.select s.writeNames))
      (fun w' => Grows w0 w')
  | [], w, op, n, h, ha => by
    unfold loadRecordFiles
    exact Post.pure ⟨h, OpStep.refl _ _, by simp, by simp, by simp [recordIndexRows]⟩
  | p :: ps, w, op, n, h, ha => by
    unfold loadRecordFiles
    refine Post.bind (Q := fun a b => w = a ∧ w = b) (Post.get ⟨rfl, rfl⟩) ?_
    rintro a b ⟨rfl, hb⟩
    subst hb
    cases hp : w.fs.records p with
    | none => exact Post.raise h.grows
    | some rs =>
      have hlook : op.look w.fs p = some rs := by
        refine overlay_of_records hp ?_
        intro f rw hr
        obtain ⟨_, _, _, _, h', _⟩ := h.rws f rw hr
        exact h'
      refine Post.bind (write_post h (data := indexRows s f.name fn p rs)
        (fun _ => indexRows_addr hrf hlook)) ?_
      rintro op1 w1 ⟨h1, h2, P, h3, h4, -⟩
      refine (loadRecordFiles_post hrf ps _ h1 (h2.addr.trans ha)).imp ?_ (fun _ h => h)
      rintro x w2 ⟨a1, a2, a3, a5, a4⟩
      have hp2 : w2.fs.records p = some rs := a2.grows.le.records (h2.grows.le.records hp)
      refine ⟨a1, h2.trans a2, ?_, by rw [a5]; simp [recordBytes, hp2, Nat.add_assoc], ?_⟩
      · intro q hq
        rcases List.mem_cons.mp hq with rfl | hq
        · simp [hp2]
        · exact a3 q hq
      · rw [a4, h3, h4 ha]
        simp [recordIndexRows, hp2]

/-- Outcome of `append_array_record`. -/
structure LoadedRecords (E : Env) (s : Schema) (fn : List Nat → Row) (w w' : World)
    (files : List Path) (p : Option Patch) : Prop where
  out : ∃ f mf rmf p0 bytes, s.recFields = [f] ∧ (∀ q ∈ files, (w'.fs.records q).isSome) ∧
    Finished E s w w' ((recordIndexRows w'.fs s f.name fn files).map (·.select s.writeNames))
      [] mf rmf p0 ∧ bytes = (files.map (recordBytes w'.fs)).sum ∧
    p = p0.map (fun p => { p with stats := { p.stats with rub := p.stats.rub + bytes } })

theorem appendArrayRecordBody_post {E : Env} {s : Schema} {w : World} (hf : w.Fresh)
    (fn : List Nat → Row) (files : List Path) :
    Post (appendArrayRecordBody E s fn files w)
      (fun p w' => Grows w w' ∧ w'.Fresh ∧ LoadedRecords E s fn w w' files p)
      (fun w' => Grows w w') := by
  unfold appendArrayRecordBody
  rcases hrf : s.recFields with _ | ⟨f, _ | ⟨g, l⟩⟩
  · exact Post.raise (Grows.refl w)
  · refine Post.bind (loadRecordFiles_post hrf files 0 (OpOK.init true hf) rfl) ?_
    rintro ⟨op, bytes⟩ w1 ⟨h1, h2, h3, h5, h4⟩
    refine Post.bind (finish_post h1) ?_
    rintro p0 w2 ⟨a1, a2, a3, a4, mf, rmf, a5⟩
    refine Post.pure ⟨a1, a3, ⟨f, mf, rmf, p0, bytes, hrf, ?_, ?_, ?_, rfl⟩⟩
    · intro q hq
      obtain ⟨rs, hrs⟩ := Option.isSome_iff_exists.mp (h3 q hq)
      simp [a2.le.records hrs]
    · have hc : op.carried = [] := h2.carried
      rw [hc, h4] at a5
      have : recordIndexRows w2.fs s f.name fn files = recordIndexRows w1.fs s f.name fn files := by
        unfold recordIndexRows
        refine flatMap_congr' fun q hq => ?_
        obtain ⟨rs, hrs⟩ := Option.isSome_iff_exists.mp (h3 q hq)
        rw [a2.le.records hrs, hrs]
      rw [this]
      exact a5
    · simp only [Nat.zero_add] at h5
      rw [h5]
      congr 1
      refine List.map_congr_left fun q hq => ?_
      obtain ⟨rs, hrs⟩ := Option.isSome_iff_exists.mp (h3 q hq)
      simp [recordBytes, a2.le.records hrs, hrs]
  · exact Post.raise (Grows.refl w)

/-! ## All mutations -/

/-- External Parquet files given to `append_parquet` fit the schema (the code does
not check this). -/
def Mutation.Admissible (s : Schema) (fs : FS) : Mutation → Prop
  | .appendParquet files => ∀ p ∈ files, ∀ g, fs.parquet p = some g →
      ∀ r ∈ g.flatten, s.conforms r = true
  | _ => True

/-- A patch adds manifests that did not exist, each once, and drops manifests of
the snapshot. -/
structure PatchNew (w : World) (index : List Path) (p : Patch) : Prop where
  idx : ∀ q ∈ p.addIdx, w.fs.imanifest q = none
  recs : ∀ q ∈ p.addRec, w.fs.rmanifest q = none
  idxNodup : p.addIdx.Nodup
  recsNodup : p.addRec.Nodup
  del : ∀ q ∈ p.delIdx, q ∈ index

theorem imanifest_fresh {w : World} (hf : w.Fresh) {u : Nat} (hu : w.next ≤ u) :
    w.fs.imanifest (.indexManifest u) = none := by
  unfold FS.imanifest
  rw [hf _ u rfl hu]

theorem rmanifest_fresh {w : World} (hf : w.Fresh) {u : Nat} (hu : w.next ≤ u) :
    w.fs.rmanifest (.recordManifest u) = none := by
  unfold FS.rmanifest
  rw [hf _ u rfl hu]

theorem Finished.patchNew {E : Env} {s : Schema} {w0 w' : World} {rows : List Row}
    {carried mf : List ManifestRow} {rmf : List RecManifestRow} {p : Patch} (hf : w0.Fresh)
    (h : Finished E s w0 w' rows carried mf rmf (some p)) (index : List Path) :
    PatchNew w0 index p := by
  obtain ⟨u, hu, h1, -⟩ := h.idx p rfl
  refine ⟨?_, ?_, by rw [h1]; simp, ?_, by rw [h.del p rfl]; simp⟩
  · intro q hq
    rw [h1, List.mem_singleton] at hq
    subst hq
    exact imanifest_fresh hf hu
  · intro q hq
    rcases h.recs p rfl with ⟨-, h0⟩ | ⟨v, hv, h2, -⟩
    · rw [h0] at hq; simp at hq
    · rw [h2, List.mem_singleton] at hq
      subst hq
      exact rmanifest_fresh hf hv
  · rcases h.recs p rfl with ⟨-, h0⟩ | ⟨v, hv, h2, -⟩
    · rw [h0]; simp
    · rw [h2]; simp

theorem DeleteOut.facts {E : Env} {s : Schema} {e : Expr} {w w' : World} {index : List Path}
    {mf : Option MExpr} {p : Patch} (hf : w.Fresh) (hn : s.names.Nodup)
    (hok : ∀ q ∈ index, ManifestOK w.fs s q) (hg : Grows w w')
    (h : DeleteOut E s e w w' index mf (some p)) : PatchOK w'.fs s p ∧ PatchNew w index p ∧
      p.addRec = [] := by
  rcases h.out with ⟨h0, -⟩ | ⟨q, dms, carried, mf', rmf, rp, h0, hd⟩
  · cases h0
  · cases h0
    refine ⟨hd.patchOK hn hok hg, ⟨?_, by rw [hd.addRec]; simp, ?_, by rw [hd.addRec]; simp, ?_⟩,
      hd.addRec⟩
    · intro q hq
      rw [hd.addIdx] at hq
      cases rp with
      | none => simp at hq
      | some r =>
        obtain ⟨u, hu, h1, -⟩ := hd.fin.idx r rfl
        simp only [Option.map_some, Option.getD_some, h1, List.mem_singleton] at hq
        subst hq
        exact imanifest_fresh hf hu
    · rw [hd.addIdx]
      cases rp with
      | none => simp
      | some r =>
        obtain ⟨u, hu, h1, -⟩ := hd.fin.idx r rfl
        simp [h1]
    · intro q hq
      rw [hd.delIdx] at hq
      exact ((hd.mem_dms q).mp hq).1

theorem merge_two (a b : Option Patch) : mergePatches [a, b] =
    match a, b with
    | none, none => none
    | some a, none => some { a with stats := ({} : SStats).addIndex a.stats |>.addRecord a.stats }
    | none, some b => some { b with stats := ({} : SStats).addIndex b.stats |>.addRecord b.stats }
    | some a, some b => some
        { addIdx := a.addIdx ++ b.addIdx
          addRec := a.addRec ++ b.addRec
          delIdx := a.delIdx ++ b.delIdx
          log := mergeLogs a.log b.log
          stats := ((({} : SStats).addIndex a.stats |>.addRecord a.stats).addIndex b.stats).addRecord
            b.stats } := by
  cases a <;> cases b <;> simp [mergePatches, mergeLoop, mergeLogs]

theorem addStats_zero (a : SStats) : (({} : SStats).addIndex a).addRecord a = a := by
  cases a; simp [SStats.addIndex, SStats.addRecord]

theorem mergeLogs_ok {fs : FS} {s : Schema} {a b : Option ChangeLog}
    (ha : ∀ cl, a = some cl → LogOK fs s cl) (hb : ∀ cl, b = some cl → LogOK fs s cl) :
    ∀ cl, mergeLogs a b = some cl → LogOK fs s cl := by
  intro cl h
  cases a with
  | none => exact hb cl h
  | some x =>
    cases b with
    | none => exact ha cl h
    | some y =>
      simp only [mergeLogs, Option.some.injEq] at h
      subst h
      rintro z (hz | hz) <;> rcases List.mem_append.mp hz with hz | hz
      · exact ha x rfl z (Or.inl hz)
      · exact hb y rfl z (Or.inl hz)
      · exact ha x rfl z (Or.inr hz)
      · exact hb y rfl z (Or.inr hz)

end Space
