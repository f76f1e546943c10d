import Verif.ChangeData

/-!
# `core/loaders/parquet.py` and `core/loaders/array_record.py`
-/

namespace Space

/-- The loop of `LocalParquetLoadOp.write` (`parquet.py:57-60`): manifest rows of
the files matched by the pattern. -/
def loadParquetRows (E : Env) (s : Schema) (fs : FS) : List Path → Except Err (List ManifestRow)
  | [] => .ok []
  | p :: ps =>
    match fs.parquet p with
    | none => .error (.other "ArrowInvalid")
    | some groups =>
      match manifestRow E s p groups with
      | .error e => .error e
      | .ok m =>
        match loadParquetRows E s fs ps with
        | .error e => .error e
        | .ok ms => .ok (m :: ms)

/-- `LocalParquetLoadOp` (`parquet.py:30-74`); `files` is the result of
`glob.glob(pattern)`. -/
def appendParquetBody (E : Env) (s : Schema) (files : List Path) : WM (Option Patch) := do
  if s.recs ≠ [] then M.raise (.other "AssertionError")
  else do
    let w ← M.get
    let rows ← M.lift (loadParquetRows E s w.fs files)
    let im ← finishIndexManifest [] rows
    pure (some { addIdx := im.toList,
                 stats := rows.foldl (fun acc m => acc.addIndex m.sstats) {} })

/-- `_build_index_for_array_record` (`array_record.py:90-109`): one row per record
with the index fields computed by `index_fn` and the record's address.
`Table.from_pylist(..., schema)` takes the schema's columns of each dict. -/
def indexRows (s : Schema) (field : String) (indexFn : List Nat → Row) (p : Path)
    (rs : List (List Nat)) : List Row :=
  appendColumn field
    (rs.map (fun r => (indexFn r).select (s.names.filter (fun c => c ≠ field))))
    (addressColumn p 0 rs.length)

/-- The loop of `LocalArrayRecordLoadOp.write` (`array_record.py:78-82`). -/
def loadRecordFiles (E : Env) (s : Schema) (field : String) (indexFn : List Nat → Row) :
    List Path → AppendOp → Nat → WM (AppendOp × Nat)
  | [], op, n => pure (op, n)
  | p :: ps, op, n => do
    let w ← M.get
    match w.fs.records p with
    | none => M.raise (.other "FileNotFoundError")
    | some rs => do
      let op ← op.write E s (indexRows s field indexFn p rs)
      loadRecordFiles E s field indexFn ps op (n + (rs.map List.length).sum)

/-- `LocalArrayRecordLoadOp` (`array_record.py:36-109`). -/
def appendArrayRecordBody (E : Env) (s : Schema) (indexFn : List Nat → Row)
    (files : List Path) : WM (Option Patch) := do
  match s.recFields with
  | [f] => do
    let (op, bytes) ← loadRecordFiles E s f.name indexFn files { addrInput := true } 0
    let p ← op.finish E s
    pure (p.map (fun p => { p with stats := { p.stats with rub := p.stats.rub + bytes } }))
  | _ => M.raise (.other "AssertionError")

end Space
