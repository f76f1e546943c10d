import Verif.Sys

/-!
# What a read depends on

A read that succeeded gives the same result after files have been added, and
depends on the stored metadata only through the snapshot it addresses.
-/

namespace Space

/-- The snapshot a version argument addresses on a branch. -/
def Metadata.target (md : Metadata) (branch : String) : Option Version → Except Err Snapshot
  | none =>
    match md.currentId branch with
    | .error e => .error e
    | .ok n => md.snapshot n
  | some v =>
    match md.versionId v with
    | .error e => .error e
    | .ok n => md.snapshot n

/-- Reading one snapshot. -/
def readSnap (E : Env) (fs : FS) (s : Schema) (o : ReadOpts) (snap : Snapshot) :
    Except Err (List (List Row)) :=
  match manifestFilter s o.filter with
  | .error e => .error e
  | .ok mf =>
    match collectFiles fs mf snap.index 1 with
    | .error e => .error e
    | .ok fset => readFiles E fs s o fset.files

/-- The rows of a list of batches, empty batches dropped (`core/runners.py:71-77`). -/
def rowsOf (bs : List (List Row)) : List Row := (bs.filter (fun b => !b.isEmpty)).flatten

theorem readHandle_target (E : Env) (fs : FS) (h : Handle) (o : ReadOpts) (v : Option Version) :
    readHandle E fs h o v =
      match h.md.target h.branch v with
      | .error e => .error e
      | .ok snap => readSnap E fs h.md.schema o snap := by
  unfold readHandle Metadata.target dataFiles Handle.snapshot readSnap
  cases v with
  | none =>
    simp only
    cases h.md.currentId h.branch with
    | error e => rfl
    | ok n =>
      simp only
      cases h.md.snapshot n with
      | error e => rfl
      | ok snap =>
        simp only
        cases manifestFilter h.md.schema o.filter <;> rfl
  | some v =>
    simp only
    cases h.md.versionId v with
    | error e => rfl
    | ok n =>
      simp only [Except.map]
      cases h.md.snapshot n with
      | error e => rfl
      | ok snap =>
        simp only
        cases manifestFilter h.md.schema o.filter <;> rfl

/-- A read addresses the stored metadata. -/
theorem tableRead_target {E : Env} {s : Schema} {w : World} {md : Metadata} {h : Handle}
    (hw : WOK s w md) (hh : HandleOK s w h) (o : ReadOpts) (v : Option Version) :
    tableRead E h w o v =
      match md.target h.branch v with
      | .error e => .error e
      | .ok snap => (readSnap E w.fs s o snap).map rowsOf := by
  obtain ⟨b, h', e1, e2, e3, -⟩ := reload_eq hw hh
  unfold tableRead
  rw [e1]
  simp only [readAll, readHandle_target, e2, e3, hw.schema]
  cases md.target h.branch v <;> rfl

theorem tableRead_ok {E : Env} {s : Schema} {w : World} {md : Metadata} {h : Handle}
    (hw : WOK s w md) (hh : HandleOK s w h) {o : ReadOpts} {v : Option Version} {rows : List Row}
    (hr : tableRead E h w o v = .ok rows) :
    ∃ snap bs, md.target h.branch v = .ok snap ∧ readSnap E w.fs s o snap = .ok bs ∧
      rows = rowsOf bs := by
  rw [tableRead_target hw hh] at hr
  cases ht : md.target h.branch v with
  | error e => rw [ht] at hr; cases hr
  | ok snap =>
    rw [ht] at hr
    simp only at hr
    cases hs : readSnap E w.fs s o snap with
    | error e => rw [hs] at hr; cases hr
    | ok bs => rw [hs] at hr; cases hr; exact ⟨snap, bs, rfl, hs, rfl⟩

/-! ## Files are only added -/

variable {fs fs' : FS}

theorem readRecordFile_mono (hf : FSLe fs fs') {p : Path} {is : List Nat} {out : List (List Nat)}
    (h : readRecordFile fs p is = .ok out) : readRecordFile fs' p is = .ok out := by
  unfold readRecordFile at h ⊢
  cases hr : fs.records p with
  | none => rw [hr] at h; cases h
  | some rs => rw [hr] at h; rw [hf.records hr]; exact h

theorem scatter_mono (hf : FSLe fs fs') : ∀ {m : AMap Path (List (Nat × Nat))}
    {out out' : List (Option (List Nat))}, scatter fs m out = .ok out' → scatter fs' m out = .ok out'
  | [], _, _, h => h
  | (p, xs) :: m, out, out', h => by
    simp only [scatter] at h ⊢
    cases hr : readRecordFile fs p (xs.map (·.1)) with
    | error e => rw [hr] at h; cases h
    | ok vs => rw [hr] at h; rw [readRecordFile_mono hf hr]; exact scatter_mono hf h

theorem readRecordColumn_mono (hf : FSLe fs fs') {vs out : List Val}
    (h : readRecordColumn fs vs = .ok out) : readRecordColumn fs' vs = .ok out := by
  unfold readRecordColumn at h ⊢
  cases hg : groupAddrs vs 0 [] with
  | error e => rw [hg] at h; cases h
  | ok m =>
    rw [hg] at h
    simp only at h ⊢
    cases hs : scatter fs m (List.replicate vs.length none) with
    | error e => rw [hs] at h; cases h
    | ok o => rw [hs] at h; rw [scatter_mono hf hs]; exact h

theorem addRecordCols_mono (hf : FSLe fs fs') {batch : List Row} : ∀ {cs : List String}
    {rows out : List Row}, addRecordCols fs batch cs rows = .ok out →
    addRecordCols fs' batch cs rows = .ok out
  | [], _, _, h => h
  | c :: cs, rows, out, h => by
    simp only [addRecordCols] at h ⊢
    cases hr : readRecordColumn fs (batch.map (·.val c)) with
    | error e => rw [hr] at h; cases h
    | ok col => rw [hr] at h; rw [readRecordColumn_mono hf hr]; exact addRecordCols_mono hf h

theorem readBatches_mono (hf : FSLe fs fs') {s : Schema} {cols : List String} :
    ∀ {bs out : List (List Row)}, readBatches fs s cols bs = .ok out →
    readBatches fs' s cols bs = .ok out
  | [], _, h => h
  | b :: bs, out, h => by
    simp only [readBatches] at h ⊢
    cases hr : readBatch fs s cols b with
    | error e => rw [hr] at h; cases h
    | ok t =>
      rw [hr] at h
      have : readBatch fs' s cols b = .ok t := addRecordCols_mono hf hr
      rw [this]
      simp only at h ⊢
      cases hs : readBatches fs s cols bs with
      | error e => rw [hs] at h; cases h
      | ok ts => rw [hs] at h; rw [readBatches_mono hf hs]; exact h

theorem readTable_mono (hf : FSLe fs fs') {E : Env} {p : Path} {cols : List String}
    {filter : Option Expr} {rows : List Row} (h : readTable E fs p cols filter = .ok rows) :
    readTable E fs' p cols filter = .ok rows := by
  unfold readTable at h ⊢
  cases hr : fs.parquet p with
  | none => rw [hr] at h; cases h
  | some rs => rw [hr] at h; rw [hf.parquet hr]; exact h

theorem readFile_mono (hf : FSLe fs fs') {E : Env} {s : Schema} {o : ReadOpts} {f : DataFile}
    {bs : List (List Row)} (h : readFile E fs s o f = .ok bs) : readFile E fs' s o f = .ok bs := by
  unfold readFile at h ⊢
  split at h
  · rename_i hc
    rw [if_pos hc]
    cases hr : readTable E fs f.path (o.cols s) o.filter with
    | error e => rw [hr] at h; cases h
    | ok rows =>
      rw [hr] at h
      rw [readTable_mono hf hr]
      simp only at h ⊢
      cases hs : selectRows f rows with
      | error e => rw [hs] at h; cases h
      | ok sel =>
        rw [hs] at h
        simp only at h ⊢
        split at h
        · rename_i h1; rw [if_pos h1]; exact h
        · rename_i h1
          rw [if_neg h1]
          split at h
          · rename_i h2; rw [if_pos h2]; exact readBatches_mono hf h
          · rename_i h2; rw [if_neg h2]; exact readBatches_mono hf h
  · cases h

/-- Reading a list of files gives the same result once files have been added. -/
theorem readFiles_mono (hf : FSLe fs fs') {E : Env} {s : Schema} {o : ReadOpts} :
    ∀ {files : List DataFile} {bs : List (List Row)}, readFiles E fs s o files = .ok bs →
    readFiles E fs' s o files = .ok bs
  | [], _, h => h
  | f :: files, bs, h => by
    simp only [readFiles] at h ⊢
    cases hr : readFile E fs s o f with
    | error e => rw [hr] at h; cases h
    | ok ts =>
      rw [hr] at h
      rw [readFile_mono hf hr]
      simp only at h ⊢
      cases hs : readFiles E fs s o files with
      | error e => rw [hs] at h; cases h
      | ok us => rw [hs] at h; rw [readFiles_mono hf hs]; exact h

theorem readIndexManifest_mono (hf : FSLe fs fs') {p : Path} {mid : Nat} {mf : Option MExpr}
    {out : List DataFile} (h : readIndexManifest fs p mid mf = .ok out) :
    readIndexManifest fs' p mid mf = .ok out := by
  unfold readIndexManifest at h ⊢
  cases hr : fs.imanifest p with
  | none => rw [hr] at h; cases h
  | some rs => rw [hr] at h; rw [hf.imanifest hr]; exact h

theorem collectFiles_mono (hf : FSLe fs fs') {mf : Option MExpr} : ∀ {ps : List Path} {mid : Nat}
    {out : FileSet}, collectFiles fs mf ps mid = .ok out → collectFiles fs' mf ps mid = .ok out
  | [], _, _, h => h
  | p :: ps, mid, out, h => by
    simp only [collectFiles] at h ⊢
    cases hr : readIndexManifest fs p mid mf with
    | error e => rw [hr] at h; cases h
    | ok files =>
      rw [hr] at h
      rw [readIndexManifest_mono hf hr]
      cases files with
      | nil => exact collectFiles_mono hf h
      | cons f files =>
        simp only at h ⊢
        cases hs : collectFiles fs mf ps (mid + 1) with
        | error e => rw [hs] at h; cases h
        | ok us => rw [hs] at h; rw [collectFiles_mono hf hs]; exact h

theorem readSnap_mono (hf : FSLe fs fs') {E : Env} {s : Schema} {o : ReadOpts} {snap : Snapshot}
    {bs : List (List Row)} (h : readSnap E fs s o snap = .ok bs) : readSnap E fs' s o snap = .ok bs := by
  unfold readSnap at h ⊢
  cases hm : manifestFilter s o.filter with
  | error e => rw [hm] at h; cases h
  | ok mf =>
    rw [hm] at h
    simp only at h ⊢
    cases hc : collectFiles fs mf snap.index 1 with
    | error e => rw [hc] at h; cases h
    | ok fset => rw [hc] at h; rw [collectFiles_mono hf hc]; exact readFiles_mono hf h

/-- Two reads of the same snapshot, the second with more files present. -/
theorem tableRead_same {E : Env} {s : Schema} {w w' : World} {md md' : Metadata} {h h' : Handle}
    (hw : WOK s w md) (hh : HandleOK s w h) (hw' : WOK s w' md') (hh' : HandleOK s w' h')
    (hf : FSLe w.fs w'.fs) {o : ReadOpts} {v v' : Option Version} {rows : List Row}
    (ht : ∀ snap, md.target h.branch v = .ok snap → md'.target h'.branch v' = .ok snap)
    (hr : tableRead E h w o v = .ok rows) : tableRead E h' w' o v' = .ok rows := by
  obtain ⟨snap, bs, h1, h2, rfl⟩ := tableRead_ok hw hh hr
  rw [tableRead_target hw' hh', ht snap h1]
  simp only
  rw [readSnap_mono hf h2]
  rfl

/-! ## Complete reads -/

/-- The columns of a read without `fields`, in order: index columns, then record
columns. -/
theorem outCols_names (s : Schema) : outCols s s.names = s.writeNames := by
  unfold outCols Schema.names Schema.writeNames Schema.idxNames Schema.recNames Schema.idxFields
    Schema.recFields Schema.isRec
  rw [List.filter_map, List.filter_map]
  rfl

/-- Reading a well-formed snapshot without filter. -/
theorem readSnap_full {E : Env} {fs : FS} {s : Schema} {snap : Snapshot} (hok : SnapOK fs s snap) :
    (readSnap E fs s {} snap).map rowsOf = .ok ((snapRows fs s snap).map (·.select s.writeNames)) := by
  let md : Metadata := { schema := s, current := 0, snaps := [(0, snap)], refs := [] }
  let h : Handle := { md := md, mdFile := .entryPoint, full := false, branch := mainBranch, maxId := 0 }
  have hread := readAll_eq (E := E) (fs := fs) (h := h) (o := {}) (v := none) (id := none)
    (snap := snap) rfl rfl hok.manifests (by trivial) (mf := none) rfl
    (by intro c hc; exact hc) rfl
  have e : readAll E fs h {} none = (readSnap E fs s {} snap).map rowsOf := by
    unfold readAll
    rw [readHandle_target]
    rfl
  rw [← e, hread]
  simp only [Except.ok.injEq, filterRows, snapRows, List.map_map]
  apply List.map_congr_left
  intro r _
  simp only [outRow, Function.comp]
  have : (({} : ReadOpts).cols h.md.schema) = s.names := rfl
  rw [this]
  show (deref fs.records s r).select (outCols s s.names) = _
  rw [outCols_names]

/-- A complete read returns the rows of the snapshot it addresses. -/
theorem tableRead_full {E : Env} {s : Schema} {w : World} {md : Metadata} {h : Handle}
    (hw : WOK s w md) (hh : HandleOK s w h) (v : Option Version) :
    tableRead E h w {} v =
      match md.target h.branch v with
      | .error e => .error e
      | .ok snap => .ok ((snapRows w.fs s snap).map (·.select s.writeNames)) := by
  rw [tableRead_target hw hh]
  cases ht : md.target h.branch v with
  | error e => rfl
  | ok snap =>
    simp only
    apply readSnap_full
    have key : ∀ n, md.snapshot n = .ok snap → SnapOK w.fs s snap := by
      intro n hn
      unfold Metadata.snapshot at hn
      cases hg : md.snaps.get? n with
      | none => rw [hg] at hn; cases hn
      | some sn =>
        rw [hg] at hn
        cases hn
        exact hw.schema ▸ hw.ok.snaps n snap hg
    unfold Metadata.target at ht
    cases v with
    | none =>
      simp only at ht
      cases hc : md.currentId h.branch with
      | error e => rw [hc] at ht; cases ht
      | ok n => rw [hc] at ht; exact key n ht
    | some v =>
      simp only at ht
      cases hc : md.versionId v with
      | error e => rw [hc] at ht; cases ht
      | ok n => rw [hc] at ht; exact key n ht

end Space
