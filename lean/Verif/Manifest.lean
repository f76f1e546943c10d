import Verif.Storage

/-!
# `manifests/index.py` and `Storage.data_files`
-/

namespace Space

/-! ## Column statistics -/

namespace Schema

/-- `field_id_to_column_id_dict` (`schema/arrow.py:172-178`): position of the
field among the top-level columns. -/
def columnIdOf (s : Schema) (fid : Nat) : Option Nat := s.fields.findIdx? (fun f => f.fid = fid)

/-- Statistics fields: the primary keys in schema order (`manifests/index.py:56-63`). -/
def statsFields (s : Schema) : List Field := s.fields.filter (fun f => s.pks.contains f.name)

end Schema

/-- Parquet leaf values of a cell: an address has two leaves, a nested value as
many as its type. -/
def leavesOf (s : Schema) (f : Field) (v : Val) : List (Option Scalar) :=
  if s.isRec f then
    match v with
    | .addr p i => [some (.str p.render), some (.int i)]
    | _ => [none, none]
  else
    match f.ty, v with
    | .struct _ n, .struct ls => (ls ++ List.replicate n none).take n
    | .struct _ n, _ => List.replicate n none
    | _, .sc x => [some x]
    | _, _ => [none]

/-- Parquet leaf columns of a row, in schema order. -/
def rowLeaves (s : Schema) (r : Row) : List (Option Scalar) :=
  s.fields.flatMap (fun f => leavesOf s f (r.val f.name))

/-- Minimum and maximum of the values that are neither null nor NaN. -/
def minMaxOf : List (Option Scalar) → Option Scalar × Option Scalar
  | [] => (none, none)
  | none :: vs => minMaxOf vs
  | some x :: vs =>
    if x = .nan then minMaxOf vs
    else match minMaxOf vs with
    | (some mn, some mx) => (some (if x ≤ mn then x else mn), some (if mx ≤ x then x else mx))
    | _ => (some x, some x)

/-- Parquet statistics of leaf column `c` of a row group (library behaviour:
min/max over the values that are neither null nor NaN, `None` if there is none; assumption: row groups
carry statistics). -/
def groupStats (s : Schema) (g : List Row) (c : Nat) : Option Scalar × Option Scalar :=
  minMaxOf (g.map (fun r => ((rowLeaves s r)[c]?).join))

/-- `_FieldStats.merge` (`manifests/index.py:82-88`); comparing `None` with a
value raises a TypeError. -/
def mergeStats (acc st : Option Scalar × Option Scalar) :
    Except Err (Option Scalar × Option Scalar) :=
  match acc, st with
  | (none, none), st => .ok st
  | (some mn, some mx), (some mn', some mx') =>
    .ok (some (if mn' < mn then mn' else mn), some (if mx < mx' then mx' else mx))
  | _, _ => .error (.other "TypeError")

/-- Merged statistics of one column over row groups (`manifests/index.py:162-171`). -/
def mergeGroups : List (Option Scalar × Option Scalar) → Option Scalar × Option Scalar →
    Except Err (Option Scalar × Option Scalar)
  | [], acc => .ok acc
  | st :: sts, acc =>
    match mergeStats acc st with
    | .error e => .error e
    | .ok acc => mergeGroups sts acc

/-- Statistics of all key fields of a file. -/
def fileStats (s : Schema) (groups : List (List Row)) : List Field → Except Err Stats
  | [] => .ok []
  | f :: fs =>
    match s.columnIdOf f.fid with
    | none => .error (.other "KeyError")
    | some c =>
      match mergeGroups (groups.map (fun g => groupStats s g c)) (none, none) with
      | .error e => .error e
      | .ok st =>
        match fileStats s groups fs with
        | .error e => .error e
        | .ok rest => .ok ((f.fid, st) :: rest)

/-- Sum of the sizes of the key columns over the row groups
(`manifests/index.py:159-168`). -/
def fileBytes (E : Env) (s : Schema) (groups : List (List Row)) : Nat × Nat :=
  let cols := s.statsFields.filterMap (fun f => s.columnIdOf f.fid)
  let sizes := groups.flatMap (fun g => cols.map (fun c => E.colSize g c))
  ((sizes.map (·.1)).sum, (sizes.map (·.2)).sum)

/-- `IndexManifestWriter.write` (`manifests/index.py:145-179`): the manifest row
of a file. -/
def manifestRow (E : Env) (s : Schema) (path : Path) (groups : List (List Row)) :
    Except Err ManifestRow :=
  match fileStats s groups s.statsFields with
  | .error e => .error e
  | .ok st =>
    .ok { file := path, numRows := groups.flatten.length, icb := (fileBytes E s groups).1,
          iub := (fileBytes E s groups).2, stats := st }

/-- The statistics `write` returns (`manifests/index.py:176-179`). -/
def ManifestRow.sstats (m : ManifestRow) : SStats :=
  { rows := m.numRows, icb := m.icb, iub := m.iub }

/-- `IndexManifestWriter.finish` (`manifests/index.py:185-211`): carried-over rows
first, then the writer's own rows. -/
def finishIndexManifest (carried own : List ManifestRow) : WM (Option Path) := do
  let rows := carried ++ own
  if rows = [] then pure none
  else
    let u ← fresh
    putFile (.indexManifest u) (.imanifest rows)
    pure (some (.indexManifest u))

/-- `RecordManifestWriter.finish` (`manifests/record.py:62-77`). -/
def finishRecordManifest (rows : List RecManifestRow) : WM (Option Path) := do
  if rows = [] then pure none
  else
    let u ← fresh
    putFile (.recordManifest u) (.rmanifest rows)
    pure (some (.recordManifest u))

/-! ## Reading manifests -/

/-- A manifest row is kept by the manifest filter (`manifests/index.py:236-237`;
without a filter all rows are kept). -/
def MExpr.keeps (m : Option MExpr) (st : Stats) : Bool :=
  match m with
  | none => true
  | some m => m.eval st == some true

/-- `read_index_manifests` (`manifests/index.py:223-254`). -/
def readIndexManifest (fs : FS) (p : Path) (mid : Nat) (mf : Option MExpr) :
    Except Err (List DataFile) :=
  match fs.imanifest p with
  | none => .error (.other "FileNotFoundError")
  | some rows =>
    .ok ((rows.filter (fun m => MExpr.keeps mf m.stats)).map
      (fun m => { path := m.file, stats := m.sstats, mid := mid }))

/-- The loop of `data_files` (`storage.py:392-401`): ids count only manifests that
yield a file. -/
def collectFiles (fs : FS) (mf : Option MExpr) : List Path → Nat → Except Err FileSet
  | [], _ => .ok {}
  | p :: ps, mid =>
    match readIndexManifest fs p mid mf with
    | .error e => .error e
    | .ok [] => collectFiles fs mf ps mid
    | .ok files =>
      match collectFiles fs mf ps (mid + 1) with
      | .error e => .error e
      | .ok rest => .ok { files := files ++ rest.files, manifests := (mid, p) :: rest.manifests }

/-- The filter of manifests for a filter of rows (`storage.py:385-390`).  Binding
a filter that names an unknown column raises in Arrow (`falsifiable_filters.py:85`). -/
def manifestFilter (s : Schema) : Option Expr → Except Err (Option MExpr)
  | none => .ok none
  | some e =>
    if e.cols.all (fun c => s.names.contains c) then
      match buildManifestFilter s e with
      | .ok m => .ok m
      | .error _ => .error (.other "KeyError")
    else .error (.other "ArrowInvalid")

/-- `Storage.data_files` (`storage.py:369-403`). -/
def dataFiles (fs : FS) (h : Handle) (filter : Option Expr) (id : Option Nat) :
    Except Err FileSet :=
  match h.snapshot id with
  | .error e => .error e
  | .ok snap =>
    match manifestFilter h.md.schema filter with
    | .error e => .error e
    | .ok mf => collectFiles fs mf snap.index 1

/-- `Dataset.index_files` (`datasets.py:99-104`).  It does not reload.  Names are left as they are
stored; `full_path` is the subject of `Verif/Paths.lean`. -/
def indexFiles (h : Handle) (w : World) (v : Option Version) : Except Err (List Path) :=
  match v with
  | none => (dataFiles w.fs h none none).map fun fset => fset.files.map (·.path)
  | some v =>
    match h.md.versionId v with
    | .error e => .error e
    | .ok n => (dataFiles w.fs h none (some n)).map fun fset => fset.files.map (·.path)

end Space
