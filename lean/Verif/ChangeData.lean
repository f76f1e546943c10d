import Verif.Insert

/-!
# `core/ops/change_data.py`
-/

namespace Space

/-- The loop of `ordered_snapshot_ids` (`change_data.py:70-77`), at most `fuel`
steps; running out of fuel stands for not terminating. -/
def walkBack (md : Metadata) (start : Nat) : Nat → Snapshot → List Nat → Except Err (List Nat)
  | 0, _, _ => .error (.other "nontermination")
  | fuel + 1, snap, acc =>
    if snap.id ≥ start then
      match snap.parent with
      | none => .ok (snap.id :: acc)
      | some p =>
        match md.snapshot p with
        | .error e => .error e
        | .ok s => walkBack md start fuel s (snap.id :: acc)
    else .ok acc

/-- `ordered_snapshot_ids` (`change_data.py:59-84`). -/
def orderedIds (md : Metadata) (start end_ : Nat) : Except Err (List Nat) :=
  if start ≥ end_ then .error .userInput
  else
    match md.snapshot end_ with
    | .error e => .error e
    | .ok s =>
      match walkBack md start (end_ + 2) s [] with
      | .error e => .error e
      | .ok [] => .error (.other "IndexError")
      | .ok (i :: ids) => if start ≠ i then .error .userInput else .ok ids

/-- `ChangeType` (`change_data.py:35-41`). -/
inductive ChangeType where
  | add | delete
deriving DecidableEq, Repr

/-- `ChangeData` (`change_data.py:46-56`). -/
structure ChangeData where
  id : Nat
  type : ChangeType
  data : List Row
deriving DecidableEq, Repr

/-- `_bitmap_to_index_file` (`change_data.py:149-156`). -/
def bitmapFile (b : RowBitmap) : DataFile :=
  { path := b.file, stats := { rows := b.numRows }, bitmap := if b.allRows then none else some b }

/-- `LocalChangeDataReadOp.__init__` and `__iter__` (`change_data.py:102-146`). -/
def readChanges (E : Env) (fs : FS) (md : Metadata) (batch : Nat) (id : Nat) :
    Except Err (List ChangeData) :=
  match md.snaps.get? id with
  | none => .error .versionNotFound
  | some snap =>
    match (snap.log.bind fs.log) with
    | none => .error (.other "FileNotFoundError")
    | some cl =>
      match readFiles E fs md.schema { fields := some md.schema.pks, batch := batch }
          (cl.deleted.map bitmapFile) with
      | .error e => .error e
      | .ok ds =>
        match readFiles E fs md.schema { batch := batch } (cl.added.map bitmapFile) with
        | .error e => .error e
        | .ok as =>
          .ok (ds.map (fun t => { id := id, type := .delete, data := t }) ++
               as.map (fun t => { id := id, type := .add, data := t }))

/-- `read_change_data` over a list of snapshots (`change_data.py:94-96`). -/
def readChangeIds (E : Env) (fs : FS) (md : Metadata) (batch : Nat) :
    List Nat → Except Err (List ChangeData)
  | [] => .ok []
  | i :: is =>
    match readChanges E fs md batch i with
    | .error e => .error e
    | .ok c =>
      match readChangeIds E fs md batch is with
      | .error e => .error e
      | .ok cs => .ok (c ++ cs)

/-- `LocalRunner.diff` without the reload (`core/runners.py:229-237`). -/
def diffHandle (E : Env) (fs : FS) (h : Handle) (batch : Nat) (a b : Version) :
    Except Err (List ChangeData) :=
  match h.md.versionId a with
  | .error e => .error e
  | .ok ia =>
    match h.md.versionId b with
    | .error e => .error e
    | .ok ib =>
      match orderedIds h.md ia ib with
      | .error e => .error e
      | .ok ids => readChangeIds E fs h.md batch ids

end Space
