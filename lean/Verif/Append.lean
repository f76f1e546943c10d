import Verif.Manifest

/-!
# `core/ops/append.py`: LocalAppendOp
-/

namespace Space

namespace Schema

/-- Index fields in schema order (`classify_fields`, `schema/arrow.py:181-209`). -/
def idxFields (s : Schema) : List Field := s.fields.filter (fun f => !s.isRec f)
/-- Record fields in schema order (`classify_fields`, `schema/arrow.py:181-209`). -/
def recFields (s : Schema) : List Field := s.fields.filter (fun f => s.isRec f)
/-- Names of the index fields. -/
def idxNames (s : Schema) : List String := s.idxFields.map (·.name)
/-- Names of the record fields. -/
def recNames (s : Schema) : List String := s.recFields.map (·.name)

end Schema

/-- A value fits a column type; null fits every type. -/
def FTy.accepts : FTy → Val → Bool
  | _, .null => true
  | .bool, .sc (.bool _) => true
  | .int, .sc (.int _) => true
  | .str, .sc (.str _) => true
  | .bytes, .sc (.bytes _) => true
  | .float, .sc (.flt _) => true
  | .float, .sc .nan => true
  | .struct _ n, .struct ls => ls.length == n
  | _, _ => false

/-- A cell fits a physical column; record columns hold addresses
(`schema/arrow.py:227-241`).  A null address never reaches this check. -/
def Schema.accepts (s : Schema) (f : Field) (v : Val) : Bool :=
  if s.isRec f then (match v with | .addr .. => true | _ => false) else f.ty.accepts v

/-- The schema check of `ParquetWriter.write_table`: column names in order and
types of the physical schema. -/
def Schema.conforms (s : Schema) (r : Row) : Bool :=
  r.cols == s.names && s.fields.all (fun f => s.accepts f (r.val f.name))

/-- `_IndexWriterInfo` (`append.py:51-55`) with the row groups written so far. -/
structure IdxWriter where
  path : Path
  groups : List (List Row) := []
deriving DecidableEq, Repr

/-- `_RecordWriterInfo` (`append.py:58-66`) with the records written so far. -/
structure RecWriter where
  path : Path
  buf : List (List Nat) := []
  nextRow : Nat := 0
  rows : Nat := 0
  bytes : Nat := 0
deriving DecidableEq, Repr

/-- `LocalAppendOp` (`append.py:78-116`).  `mf` are the rows of the index manifest
writer, `carried` the tables given to `append_index_manifest`, `rmf` the rows of
the record manifest writer, `stats` and `added` the parts of `_patch` filled
before `finish`. -/
structure AppendOp where
  addrInput : Bool
  iw : Option IdxWriter := none
  rws : AMap String RecWriter := []
  cache : Option (List Row) := none
  fileBytes : Nat := 0
  mf : List ManifestRow := []
  carried : List ManifestRow := []
  rmf : List RecManifestRow := []
  stats : SStats := {}
  added : List RowBitmap := []
deriving DecidableEq, Repr

/-- A record value as bytes (`append.py:270-272`); ArrayRecord rejects `None` and
values that are not bytes. -/
def Val.toBytes : Val → Except Err (List Nat)
  | .sc (.bytes b) => .ok b
  | _ => .error (.other "TypeError")

/-- All values of a column as bytes. -/
def colBytes : List Val → Except Err (List (List Nat))
  | [] => .ok []
  | v :: vs =>
    match v.toBytes, colBytes vs with
    | .ok b, .ok bs => .ok (b :: bs)
    | .error e, _ => .error e
    | _, .error e => .error e

/-- `address_column` (`ops/utils.py:45-53`). -/
def addressColumn (p : Path) (start n : Nat) : List Val :=
  (List.range n).map (fun i => .addr p (start + i))

/-- `Table.append_column`. -/
def appendColumn (name : String) (rows : List Row) (col : List Val) : List Row :=
  List.zipWith (fun r v => r ++ [(name, v)]) rows col

namespace AppendOp

/-- `_maybe_create_index_writer` (`append.py:218-224`). -/
def maybeCreate (op : AppendOp) : WM AppendOp :=
  match op.iw with
  | some _ => pure op
  | none => do
    let u ← fresh
    pure { op with iw := some { path := .index u } }

/-- `ParquetWriter.write_table` on the current index writer. -/
def writeTable (E : Env) (s : Schema) (op : AppendOp) (rows : List Row) : WM AppendOp :=
  match op.iw with
  | none => M.raise (.other "AssertionError")
  | some iw =>
    if rows.all s.conforms then
      pure { op with iw := some { iw with groups := iw.groups ++ E.rgSplit rows } }
    else M.raise (.other "ValueError")

/-- `_finish_index_writer` (`append.py:226-244`). -/
def finishIndex (E : Env) (s : Schema) (op : AppendOp) : WM AppendOp :=
  match op.iw with
  | none => pure op
  | some iw => do
    putFile iw.path (.parquet iw.groups)
    let m ← M.lift (manifestRow E s iw.path iw.groups)
    pure { op with
      iw := none, fileBytes := 0, mf := op.mf ++ [m], stats := op.stats.addIndex m.sstats,
      added := op.added ++ [{ file := iw.path, allRows := true, numRows := m.numRows, bits := [] }] }

/-- `_finish_record_writer` (`append.py:287-298`). -/
def finishRecord (f : Field) (rw : RecWriter) (op : AppendOp) : WM AppendOp := do
  putFile rw.path (.records rw.buf)
  pure { op with
    rmf := op.rmf ++ [{ file := rw.path, fid := f.fid, numRows := rw.rows, bytes := rw.bytes }],
    stats := op.stats.addRecord { rub := rw.bytes },
    rws := op.rws.erase f.name }

/-- The open record writer of a field, or a new one (`append.py:257-264`). -/
def recWriter (f : Field) (op : AppendOp) : WM RecWriter :=
  match op.rws.get? f.name with
  | some rw => pure rw
  | none => do
    let u ← fresh
    pure { path := .record f.name u }

/-- `_write_record_column` (`append.py:246-285`). -/
def writeRecordCol (E : Env) (f : Field) (col : List Val) (op : AppendOp) :
    WM (AppendOp × List Val) := do
  let rw ← op.recWriter f
  let bs ← M.lift (colBytes col)
  let addrs := addressColumn rw.path rw.nextRow col.length
  let rw' : RecWriter :=
    { rw with buf := rw.buf ++ bs, nextRow := rw.nextRow + col.length,
              rows := rw.rows + col.length, bytes := rw.bytes + E.columnBytes col }
  let op := { op with rws := op.rws.set f.name rw' }
  if rw'.bytes > E.recMax then do
    let op ← op.finishRecord f rw'
    pure (op, addrs)
  else pure (op, addrs)

/-- Write all record columns and append their addresses to the index data
(`append.py:188-195`). -/
def writeRecords (E : Env) (data : List Row) :
    List Field → AppendOp → List Row → WM (AppendOp × List Row)
  | [], op, rows => pure (op, rows)
  | f :: fs, op, rows => do
    let (op, addrs) ← op.writeRecordCol E f (data.map (·.val f.name))
    writeRecords E data fs op (appendColumn f.name rows addrs)

/-- The tail of `_write_arrow` (`append.py:197-216`): cache, row group and file
thresholds. -/
def cacheRows (E : Env) (s : Schema) (op : AppendOp) (rows : List Row) : WM AppendOp :=
  let fileBytes := op.fileBytes + E.tableBytes rows
  let cache := match op.cache with
    | none => rows
    | some c => c ++ rows
  if E.tableBytes cache > E.rgMax then do
    let op ← { op with fileBytes := fileBytes, cache := some cache }.writeTable E s cache
    let op := { op with cache := none }
    if fileBytes > E.fileMax then op.finishIndex E s else pure op
  else pure { op with fileBytes := fileBytes, cache := some cache }

/-- `_write_arrow` (`append.py:164-216`).  Selecting a missing column raises a
KeyError.  The record columns of all fields are written before their addresses
are appended; appending each at once gives the same table. -/
def write (E : Env) (s : Schema) (op : AppendOp) (data : List Row) : WM AppendOp :=
  if data = [] then pure op
  else do
    let op ← op.maybeCreate
    if data.all (fun r => (s.idxNames ++ s.recNames).all (fun c => r.cols.contains c)) then
      let idx := data.map (·.select s.idxNames)
      if op.addrInput then
        op.cacheRows E s (data.map (·.select (s.idxNames ++ s.recNames)))
      else do
        let (op, rows) ← writeRecords E data s.recFields op idx
        op.cacheRows E s rows
    else M.raise (.other "KeyError")

/-- Write several tables. -/
def writeAll (E : Env) (s : Schema) : AppendOp → List (List Row) → WM AppendOp
  | op, [] => pure op
  | op, d :: ds => do
    let op ← op.write E s d
    writeAll E s op ds

/-- Close the open record writers in schema order (`append.py:131-133`). -/
def finishRecords : List Field → AppendOp → WM AppendOp
  | [], op => pure op
  | f :: fs, op =>
    match op.rws.get? f.name with
    | none => finishRecords fs op
    | some rw => do
      let op ← op.finishRecord f rw
      finishRecords fs op

/-- Flush the cached rows (`append.py:136-139`). -/
def flush (E : Env) (s : Schema) (op : AppendOp) : WM AppendOp :=
  match op.cache with
  | none => pure op
  | some c => do
    let op ← op.maybeCreate
    op.writeTable E s c

/-- `finish` (`append.py:124-158`): the patch, or none if no row was written. -/
def finish (E : Env) (s : Schema) (op : AppendOp) : WM (Option Patch) := do
  let op ← finishRecords s.recFields op
  let op ← op.flush E s
  let op ← op.finishIndex E s
  let im ← finishIndexManifest op.carried op.mf
  let rm ← finishRecordManifest op.rmf
  if op.stats.rows = 0 then pure none
  else
    pure (some {
      addIdx := im.toList, addRec := rm.toList, stats := op.stats,
      log := if op.added = [] then none else some { added := op.added } })

end AppendOp

/-- The body of `append` and `append_from` (`core/runners.py:239-259`), the tables
of all sources in order. -/
def appendBody (E : Env) (s : Schema) (tables : List (List Row)) : WM (Option Patch) := do
  let op ← AppendOp.writeAll E s { addrInput := false } tables
  op.finish E s

end Space
