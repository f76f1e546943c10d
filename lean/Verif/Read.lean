import Verif.Append

/-!
# `core/ops/read.py`: FileSetReadOp
-/

namespace Space

/-! ## Record fields -/

/-- `Table.group_by(file).aggregate([row ids, keys])` (`read.py:181-189`): the
positions of one file in order, files in order of first occurrence. -/
def groupAdd (m : AMap Path (List (Nat × Nat))) (p : Path) (x : Nat × Nat) :
    AMap Path (List (Nat × Nat)) :=
  m.set p ((m.get? p).getD [] ++ [x])

/-- Group the addresses of a column; keys count from `k`.  A null address makes
`full_path(None)` raise (`read.py:196`). -/
def groupAddrs : List Val → Nat → AMap Path (List (Nat × Nat)) →
    Except Err (AMap Path (List (Nat × Nat)))
  | [], _, m => .ok m
  | .addr p i :: vs, k, m => groupAddrs vs (k + 1) (groupAdd m p (i, k))
  | _ :: _, _, _ => .error (.other "TypeError")

/-- Records of a file at the given positions; out of range raises in ArrayRecord. -/
def pick (rs : List (List Nat)) : List Nat → Except Err (List (List Nat))
  | [] => .ok []
  | i :: is =>
    match rs[i]? with
    | none => .error (.other "IndexError")
    | some r =>
      match pick rs is with
      | .error e => .error e
      | .ok out => .ok (r :: out)

/-- `read_record_file` (`fs/array_record.py:22-38`). -/
def readRecordFile (fs : FS) (p : Path) (is : List Nat) : Except Err (List (List Nat)) :=
  match fs.records p with
  | none => .error (.other "FileNotFoundError")
  | some rs => pick rs is

/-- `sorted_values[key] = value` for the values of one file (`read.py:200-203`). -/
def scatterOne : List (List Nat) → List Nat → List (Option (List Nat)) → List (Option (List Nat))
  | v :: vs, k :: ks, out => scatterOne vs ks (out.set k (some v))
  | _, _, out => out

/-- Read each file and scatter its values (`read.py:191-203`). -/
def scatter (fs : FS) : AMap Path (List (Nat × Nat)) → List (Option (List Nat)) →
    Except Err (List (Option (List Nat)))
  | [], out => .ok out
  | (p, xs) :: m, out =>
    match readRecordFile fs p (xs.map (·.1)) with
    | .error e => .error e
    | .ok vs => scatter fs m (scatterOne vs (xs.map (·.2)) out)

/-- `pa.array(sorted_values, pa.binary())`. -/
def Val.ofRecord : Option (List Nat) → Val
  | some b => .sc (.bytes b)
  | none => .null

/-- `read_record_column` (`read.py:155-205`). -/
def readRecordColumn (fs : FS) (addrs : List Val) : Except Err (List Val) :=
  match groupAddrs addrs 0 [] with
  | .error e => .error e
  | .ok m =>
    match scatter fs m (List.replicate addrs.length none) with
    | .error e => .error e
    | .ok out => .ok (out.map Val.ofRecord)

/-! ## Index files -/

/-- `ReadOptions` (`core/options.py:26-57`); `batch` is the size after
`batch_size or 16`, so never zero when set by the code. -/
structure ReadOpts where
  filter : Option Expr := none
  fields : Option (List String) := none
  refRead : Bool := false
  batch : Nat := 16
deriving DecidableEq, Repr

/-- `Table.slice(start, length)` (`read.py:109-110`). -/
def sliceRows (rows : List Row) (a b : Nat) : List Row := (rows.drop a).take (b - a)

/-- `Table.filter(_bitmap_mask(...))` (`read.py:105-107`, `:208-217`). -/
def maskRows (rows : List Row) (bits : List Nat) (slice : Option (Nat × Nat)) :
    Except Err (List Row) :=
  let sel := match slice with
    | none => bits
    | some (a, b) => bits.filter (fun i => decide (a ≤ i) && decide (i < b))
  if sel.all (fun i => decide (i < rows.length)) then
    .ok ((rows.zipIdx.filter (fun x => sel.contains x.2)).map (·.1))
  else .error (.other "IndexError")

/-- The loop of `cut`, `fuel` steps. -/
def cutAux (n : Nat) : Nat → List Row → List (List Row)
  | 0, _ => []
  | k + 1, rows =>
    if rows = [] then []
    else if n = 0 then [rows]
    else rows.take n :: cutAux n k (rows.drop n)

/-- `Table.to_batches(max_chunksize=n)` on one chunk: no batch is empty. -/
def cut (n : Nat) (rows : List Row) : List (List Row) := cutAux n rows.length rows

/-- `Table.to_batches(max_chunksize=n)`: batches do not cross chunks. -/
def toBatches (E : Env) (n : Nat) (rows : List Row) : List (List Row) :=
  (E.chunks rows).flatMap (cut n)

/-- Add record columns one after the other (`read.py:143-149`). -/
def addRecordCols (fs : FS) (batch : List Row) : List String → List Row → Except Err (List Row)
  | [], out => .ok out
  | c :: cs, out =>
    match readRecordColumn fs (batch.map (·.val c)) with
    | .error e => .error e
    | .ok col => addRecordCols fs batch cs (appendColumn c out col)

/-- `_read_index_and_record` (`read.py:137-152`): index columns first. -/
def readBatch (fs : FS) (s : Schema) (cols : List String) (batch : List Row) :
    Except Err (List Row) :=
  addRecordCols fs batch (cols.filter (fun c => s.recs.contains c))
    (batch.map (·.select (cols.filter (fun c => !s.recs.contains c))))

/-- Apply to all batches, stopping at the first exception. -/
def readBatches (fs : FS) (s : Schema) (cols : List String) :
    List (List Row) → Except Err (List (List Row))
  | [] => .ok []
  | b :: bs =>
    match readBatch fs s cols b with
    | .error e => .error e
    | .ok t =>
      match readBatches fs s cols bs with
      | .error e => .error e
      | .ok ts => .ok (t :: ts)

/-- `pq.read_table(file, columns, filters)` (`read.py:99-102`): rows on which the
filter is true, restricted to the columns. -/
def readTable (E : Env) (fs : FS) (p : Path) (cols : List String) (filter : Option Expr) :
    Except Err (List Row) :=
  match fs.parquet p with
  | none => .error (.other "FileNotFoundError")
  | some groups =>
    let rows := match filter with
      | none => groups.flatten
      | some e => groups.flatten.filter (fun r => e.holds E.I r)
    .ok (rows.map (·.select cols))

/-- Row bitmap or row slice of a file (`read.py:104-110`). -/
def selectRows (f : DataFile) (rows : List Row) : Except Err (List Row) :=
  match f.bitmap with
  | some bm =>
    if bm.allRows then
      match f.slice with
      | some (a, b) => .ok (sliceRows rows a b)
      | none => .ok rows
    else maskRows rows bm.bits f.slice
  | none =>
    match f.slice with
    | some (a, b) => .ok (sliceRows rows a b)
    | none => .ok rows

/-- Columns a read selects (`read.py:77-80`). -/
def ReadOpts.cols (o : ReadOpts) (s : Schema) : List String := o.fields.getD s.names

/-- One iteration of `__iter__` (`read.py:93-135`).  Unknown columns raise. -/
def readFile (E : Env) (fs : FS) (s : Schema) (o : ReadOpts) (f : DataFile) :
    Except Err (List (List Row)) :=
  if (o.cols s).all (fun c => s.names.contains c) then
    match readTable E fs f.path (o.cols s) o.filter with
    | .error e => .error e
    | .ok rows =>
      match selectRows f rows with
      | .error e => .error e
      | .ok rows =>
        if o.refRead then .ok [rows]
        else if f.slice.isSome then readBatches fs s (o.cols s) [rows]
        else readBatches fs s (o.cols s) (toBatches E o.batch rows)
  else .error (.other "ArrowInvalid")

/-- `FileSetReadOp.__iter__` (`read.py:93-135`): all batches. -/
def readFiles (E : Env) (fs : FS) (s : Schema) (o : ReadOpts) :
    List DataFile → Except Err (List (List Row))
  | [] => .ok []
  | f :: files =>
    match readFile E fs s o f with
    | .error e => .error e
    | .ok ts =>
      match readFiles E fs s o files with
      | .error e => .error e
      | .ok us => .ok (ts ++ us)

/-- `LocalRunner.read` without the reload (`core/runners.py:217-227`). -/
def readHandle (E : Env) (fs : FS) (h : Handle) (o : ReadOpts) (v : Option Version) :
    Except Err (List (List Row)) :=
  match (match v with
    | none => .ok none
    | some v => (h.md.versionId v).map some : Except Err (Option Nat)) with
  | .error e => .error e
  | .ok id =>
    match dataFiles fs h o.filter id with
    | .error e => .error e
    | .ok fset => readFiles E fs h.md.schema o fset.files

/-- `read_all` (`core/runners.py:58-77`) as a list of rows; `None` is the empty
list (the empty batches are dropped, `:71-72`). -/
def readAll (E : Env) (fs : FS) (h : Handle) (o : ReadOpts) (v : Option Version) :
    Except Err (List Row) :=
  (readHandle E fs h o v).map (fun bs => (bs.filter (fun b => !b.isEmpty)).flatten)

end Space
