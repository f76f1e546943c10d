import Verif.Read

/-!
# `core/random_access.py`

The two data sources for reading single records by position.
-/

namespace Space

/-! ## ArrayRecord file instructions -/

/-- `shard_utils.FileInstruction` (TFDS, external): `take` records of a file after skipping
`skip`; `total` is `examples_in_shard`. -/
structure FileInstr where
  file : Path
  skip : Nat
  take : Nat
  total : Nat
deriving DecidableEq, Repr

/-- `_file_instruction` (`random_access.py:282-287`). -/
def fileInstruction (p : Path) (start stop total : Nat) : FileInstr :=
  ⟨p, start, stop - start + 1, total⟩

/-- The loop over the sorted row ids of one file (`random_access.py:269-277`). -/
def runsFrom (p : Path) (total : Nat) : Nat → List Nat → List FileInstr
  | _, [] => []
  | start, [i] => [fileInstruction p start i total]
  | start, i :: j :: is =>
    if j > i + 1 then fileInstruction p start i total :: runsFrom p total j (j :: is)
    else runsFrom p total start (j :: is)

/-- Body of the loop over files (`random_access.py:257-277`). -/
def fileRuns (p : Path) (rows : List Nat) : List FileInstr :=
  match rows.mergeSort (· ≤ ·) with
  | [] => []
  | i :: is => runsFrom p ((i :: is).getLastD 0 + 1) i (i :: is)

/-- `build_file_instructions` (`random_access.py:244-279`), from the groups that
`group_by(...).aggregate([(row id, "list")])` returns. -/
def buildFileInstructions (groups : List (Path × List Nat)) : List FileInstr :=
  groups.flatMap (fun g => fileRuns g.1 g.2)

/-- `group_by(file).aggregate([(row id, "list")])` with groups in order of first
occurrence.  Arrow promises no order of groups or of the values of a group. -/
def groupRows : List (Path × Nat) → AMap Path (List Nat) → AMap Path (List Nat)
  | [], m => m
  | (p, i) :: as, m => groupRows as (m.set p ((m.get? p).getD [] ++ [i]))

/-- The records an ArrayRecord data source exposes, as (file, row id), in index order:
those of the first instruction, then those of the second, and so on
(`array_record.python.array_record_data_source`, external). -/
def exposed (is : List FileInstr) : List (Path × Nat) :=
  is.flatMap (fun i => (List.range' i.skip i.take).map (fun r => (i.file, r)))

/-- `ArrayRecordDataSource.__getitem__` (`random_access.py:53-58`) without a
serializer. -/
def arrayGet (fs : FS) (is : List FileInstr) (k : Nat) : Except Err (List Nat) :=
  match (exposed is)[k]? with
  | none => .error (.other "IndexError")
  | some (p, r) =>
    match fs.records p with
    | none => .error (.other "FileNotFoundError")
    | some rs =>
      match rs[r]? with
      | none => .error (.other "IndexError")
      | some b => .ok b

/-! ## Addresses kept in an Arrow table -/

/-- A table of addresses: for each feature field its column. -/
abbrev AddrTable := AMap String (List (Path × Nat))

/-- Loop of `ArrowDataSource.__getitem__` over the feature fields
(`random_access.py:99-107`). -/
def arrowGet (fs : FS) : AddrTable → Nat → Except Err (AMap String (List Nat))
  | [], _ => .ok []
  | (f, col) :: t, k =>
    match col[k]? with
    | none => .error (.other "IndexError")
    | some a =>
      match readRecordFile fs a.1 [a.2] with
      | .error e => .error e
      | .ok [b] =>
        match arrowGet fs t k with
        | .error e => .error e
        | .ok m => .ok ((f, b) :: m)
      | .ok _ => .error (.other "AssertionError")

/-- `column.take(indexes)`; an index out of range raises. -/
def takeAddrs (col : List (Path × Nat)) : List Nat → Except Err (List (Path × Nat))
  | [] => .ok []
  | k :: ks =>
    match col[k]? with
    | none => .error (.other "IndexError")
    | some a =>
      match takeAddrs col ks with
      | .error e => .error e
      | .ok as => .ok (a :: as)

/-- Loop of `ArrowDataSource.__getitems__` over the feature fields
(`random_access.py:119-133`). -/
def arrowGetMany (fs : FS) : AddrTable → List Nat → Except Err (AMap String (List Val))
  | [], _ => .ok []
  | (f, col) :: t, ks =>
    match takeAddrs col ks with
    | .error e => .error e
    | .ok as =>
      match readRecordColumn fs (as.map (fun a => .addr a.1 a.2)) with
      | .error e => .error e
      | .ok vs =>
        match arrowGetMany fs t ks with
        | .error e => .error e
        | .ok m => .ok ((f, vs) :: m)

end Space
