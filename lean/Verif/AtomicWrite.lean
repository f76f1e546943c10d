import Verif.World

/-!
# `fs/arrow.py` on a POSIX file system

Everywhere else putting a metadata file in place is one step (`World.put`).  Here
`write_proto` and `read_proto` are taken apart into the calls they make on the file system, and any number
of processes make these calls in any order.  A process that makes no more steps has crashed.

Simplifications: bytes are numbers; a file is written and read in pieces of any size; a name refers to a file
(`inode`) that open streams keep using after the name was moved, as on a local disk.
-/

namespace Space.Disk

abbrev Name := List Char

/-- Names of files and contents of files. -/
structure Disk where
  names : Name → Option Nat
  data : Nat → List Nat
  next : Nat

/-- What a name shows. -/
def Disk.content (d : Disk) (p : Name) : Option (List Nat) := (d.names p).map d.data

/-- `f"{file_path}.{random_id()}.tmp"` (`fs/arrow.py:52`). -/
def tmpName (path id : Name) : Name := path ++ '.' :: id ++ ['.', 't', 'm', 'p']

/-- Write `bs` at an offset. -/
def writeAt (c : List Nat) (off : Nat) (bs : List Nat) : List Nat :=
  c.take off ++ List.replicate (off - c.length) 0 ++ bs ++ c.drop (off + bs.length)

/-- How far a writer got. -/
inductive WStage where
  | start
  | checked
  | writing (ino off : Nat)
  | closed
  | done
  | raised
deriving DecidableEq

/-- A call of `write_proto` (`fs/arrow.py:42-57`): `text` is `proto_to_text(msg)`, `id` what `random_id` gives. -/
structure Writer where
  path : Name
  text : List Nat
  failIfExists : Bool
  id : Name
  stage : WStage := .start
deriving DecidableEq

/-- The temporary file of a writer. -/
def Writer.tmp (w : Writer) : Name := tmpName w.path w.id

/-- The next call of a writer on the file system; `n + 1` bytes at most are written at once. -/
def Writer.step (w : Writer) (n : Nat) (d : Disk) : Option (Writer × Disk) :=
  match w.stage with
  | .start => -- `get_file_info`, `:46-50`
    if w.failIfExists = true ∧ (d.names w.path).isSome = true then some ({ w with stage := .raised }, d)
    else some ({ w with stage := .checked }, d)
  | .checked => -- `open_output_stream`, `:54`
    match d.names w.tmp with
    | some ino =>
      some ({ w with stage := .writing ino 0 }, { d with data := fun i => if i = ino then [] else d.data i })
    | none =>
      some ({ w with stage := .writing d.next 0 },
        { names := fun q => if q = w.tmp then some d.next else d.names q,
          data := fun i => if i = d.next then [] else d.data i, next := d.next + 1 })
  | .writing ino off => -- `f.write`, and the end of `with`, `:54-55`
    if w.text.length ≤ off then some ({ w with stage := .closed }, d)
    else
      let bs := (w.text.drop off).take (n + 1)
      some ({ w with stage := .writing ino (off + bs.length) },
        { d with data := fun i => if i = ino then writeAt (d.data ino) off bs else d.data i })
  | .closed => -- `move`, `:57`
    match d.names w.tmp with
    | none => some ({ w with stage := .raised }, d)
    | some ino =>
      some ({ w with stage := .done },
        { d with names := fun q => if q = w.path then some ino else if q = w.tmp then none else d.names q })
  | .done => none
  | .raised => none

/-- How far a reader got. -/
inductive RStage where
  | start
  | reading (ino : Nat) (got : List Nat)
  | done (bytes : List Nat)
  | raised
deriving DecidableEq

/-- A call of `read_proto` (`fs/arrow.py:59-62`) up to parsing. -/
structure Reader where
  path : Name
  stage : RStage := .start
deriving DecidableEq

/-- The next call of a reader on the file system; `n + 1` bytes at most are read at once. -/
def Reader.step (r : Reader) (n : Nat) (d : Disk) : Option Reader :=
  match r.stage with
  | .start => -- `open_input_file`, `:60`
    match d.names r.path with
    | none => some { r with stage := .raised }
    | some ino => some { r with stage := .reading ino [] }
  | .reading ino got => -- `f.readall`, `:61`
    let bs := ((d.data ino).drop got.length).take (n + 1)
    if bs = [] then some { r with stage := .done got } else some { r with stage := .reading ino (got ++ bs) }
  | .done _ => none
  | .raised => none

/-- Processes. -/
inductive Proc where
  | writer (w : Writer)
  | reader (r : Reader)
deriving DecidableEq

def Proc.step (p : Proc) (n : Nat) (d : Disk) : Option (Proc × Disk) :=
  match p with
  | .writer w => (w.step n d).map fun x => (.writer x.1, x.2)
  | .reader r => (r.step n d).map fun x => (.reader x, d)

/-- A disk and the processes that use it. -/
structure State where
  disk : Disk
  procs : List Proc

/-- Process `i` makes its next call. -/
def State.step (σ : State) (i n : Nat) : Option State :=
  match σ.procs[i]? with
  | none => none
  | some p => (p.step n σ.disk).map fun x => ⟨x.2, σ.procs.set i x.1⟩

/-- Executions from `σ0`, with all states met, the last one first. -/
inductive Exec (σ0 : State) : List State → State → Prop where
  | start : Exec σ0 [σ0] σ0
  | step {tr σ σ' i n} : Exec σ0 tr σ → σ.step i n = some σ' → Exec σ0 (σ' :: tr) σ'

/-- Execute the given calls. -/
def run : State → List (Nat × Nat) → Option State
  | σ, [] => some σ
  | σ, (i, n) :: es => match σ.step i n with
    | none => none
    | some σ' => run σ' es

end Space.Disk
