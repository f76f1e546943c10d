import Verif.World

/-!
# `core/storage.py`: the Storage object and transactions
-/

namespace Space

/-! ## The in-memory storage object -/

/-- `_MAIN_BRANCH` (`storage.py:54`). -/
def mainBranch : String := "main"

/-- A `Storage` object (`storage.py:66-90`): its copy of the metadata, the path
it believes to be the current metadata file, its branch and largest id.
`full` records whether `_metadata_file` holds a full path (after `create` and
after own writes, `storage.py:194`, `:285`, `:313`, `:367`) or the short path of
the entry point (after `load` and `reload`, `:203`, `:215`). -/
structure Handle where
  md : Metadata
  mdFile : Path
  full : Bool
  branch : String
  maxId : Nat
deriving DecidableEq, Repr

/-- Largest snapshot id of main and the references (`storage.py:88-90`). -/
def Metadata.maxRefId (md : Metadata) : Nat :=
  (md.refs.map (·.2.id)).foldr max md.current

/-- `Storage.__init__` (`storage.py:66-90`). -/
def Handle.init (md : Metadata) (mdFile : Path) (full : Bool) (branch : String) : Handle :=
  { md := md, mdFile := mdFile, full := full, branch := branch, maxId := md.maxRefId }

/-- Statements of methods of a Storage object. -/
abbrev HM (α : Type) := M (Handle × World) α

/-- A file-only statement inside a method. -/
def liftW {α : Type} (m : WM α) : HM α := fun (h, w) =>
  match m w with
  | (r, w') => (r, (h, w'))

/-- The object itself. -/
def self : HM Handle := fun (h, w) => (.ok h, (h, w))
/-- The files. -/
def world : HM World := fun (h, w) => (.ok w, (h, w))
/-- Assign the fields of the object. -/
def setSelf (h : Handle) : HM Unit := fun (_, w) => (.ok (), (h, w))

/-! ## Reading metadata -/

/-- `_read_entry_point` and `_read_metadata` (`storage.py:599-608`). -/
def readStored (w : World) : Except Err (Path × Metadata) :=
  match w.fs.entry with
  | none => .error (.other "FileNotFoundError")
  | some p =>
    match w.fs.mdata p with
    | none => .error (.other "FileNotFoundError")
    | some md => .ok (p, md)

/-- `Storage.load` (`storage.py:199-204`). A missing entry point is turned into
StorageNotFound by the catalog (`Verif/Catalog.lean`). -/
def load (w : World) : Except Err Handle :=
  match readStored w with
  | .error e => .error e
  | .ok (p, md) => .ok (Handle.init md p false mainBranch)

/-- `Storage.reload` (`storage.py:206-218`). The stored short path can equal the
object's path only when the latter is short too (simplification: the location is
not the empty string). -/
def reload : HM Bool := fun (h, w) =>
  match w.fs.entry with
  | none => (.error (.other "FileNotFoundError"), (h, w))
  | some p =>
    if h.full = false ∧ p = h.mdFile then (.ok false, (h, w))
    else
      match w.fs.mdata p with
      | none => (.error (.other "FileNotFoundError"), (h, w))
      | some md => (.ok true, (Handle.init md p false h.branch, w))

/-- `lookup_reference` (`storage.py:231-236`). -/
def Metadata.lookupRef (md : Metadata) (name : String) : Except Err Ref :=
  match md.refs.get? name with
  | some r => .ok r
  | none => .error .versionNotFound

/-- A version argument: a snapshot id, or the name of a tag or branch. -/
inductive Version where
  | id (n : Nat)
  | name (s : String)
deriving DecidableEq, Repr

/-- `version_to_snapshot_id` (`storage.py:224-229`). -/
def Metadata.versionId (md : Metadata) : Version → Except Err Nat
  | .id n => .ok n
  | .name s => (md.lookupRef s).map (·.id)

/-- `current_snapshot_id` (`storage.py:122-127`). -/
def Metadata.currentId (md : Metadata) (branch : String) : Except Err Nat :=
  if branch = mainBranch then .ok md.current else (md.lookupRef branch).map (·.id)

/-- `snapshot` with an id (`storage.py:143-146`). -/
def Metadata.snapshot (md : Metadata) (id : Nat) : Except Err Snapshot :=
  match md.snaps.get? id with
  | some s => .ok s
  | none => .error .versionNotFound

/-- `snapshot` with an optional id (`storage.py:133-146`). -/
def Handle.snapshot (h : Handle) (id : Option Nat) : Except Err Snapshot :=
  match id with
  | some n => h.md.snapshot n
  | none =>
    match h.md.currentId h.branch with
    | .error e => .error e
    | .ok n => h.md.snapshot n

/-! ## Writing metadata -/

/-- `_write_metadata` (`storage.py:499-510`) without the exists check. -/
def writeMetadata (p : Path) (md : Metadata) : WM Unit := do
  putFile p (.mdata md)
  putFile .entryPoint (.entry p)

/-- `create` from validated schema up to the check for an existing entry point
(`storage.py:173-196`, `:482-493`, `fs/arrow.py:46-50`).  The metadata file is
written before the check. -/
def createHead (s : Schema) : WM (Path × Metadata) := do
  let u ← fresh
  let md : Metadata :=
    { schema := s, current := 0, snaps := [(0, { id := 0 })], refs := [] }
  putFile (.metadata u) (.mdata md)
  let w ← M.get
  match AMap.get? w.fs .entryPoint with
  | some _ => M.raise .storageExists
  | none => pure (Path.metadata u, md)

/-- `create` after the check (`fs/arrow.py:52-57`, `storage.py:196`). -/
def createTail (x : Path × Metadata) : WM Handle := do
  putFile .entryPoint (.entry x.1)
  pure (Handle.init x.2 x.1 true mainBranch)

/-- `create` (`storage.py:160-196`) of a validated schema. -/
def create (s : Schema) : WM Handle := do
  let x ← createHead s
  createTail x

/-- The tail of `_add_reference`, `_remove_reference` and `commit`: write the new
metadata and make it the object's own (`storage.py:282-285`). -/
def install (md : Metadata) : HM Unit := do
  let u ← liftW fresh
  liftW (writeMetadata (.metadata u) md)
  let h ← self
  setSelf { h with md := md, mdFile := .metadata u, full := true }

/-- `_add_reference` (`storage.py:255-285`). -/
def addReference (name : String) (kind : RefKind) (id : Option Nat) : HM Unit := do
  let h ← self
  let n := id.getD h.md.current
  if (h.md.snaps.get? n).isNone then M.raise .versionNotFound
  else if name = "" then M.raise .userInput
  else if name = mainBranch then M.raise .userInput
  else if (h.md.refs.get? name).isSome then M.raise .versionExists
  else install { h.md with refs := h.md.refs.set name { id := n, kind := kind } }

/-- `add_tag` (`storage.py:238-240`). -/
def addTag (name : String) (id : Option Nat) : HM Unit := addReference name .tag id

/-- `add_branch` (`storage.py:242-244`). -/
def addBranch (name : String) : HM Unit := addReference name .branch none

/-- `_remove_reference` (`storage.py:298-313`). -/
def removeReference (name : String) (kind : RefKind) : HM Unit := do
  let h ← self
  match h.md.refs.get? name with
  | none => M.raise .versionNotFound
  | some r =>
    if r.kind ≠ kind then M.raise .versionNotFound
    else install { h.md with refs := h.md.refs.erase name }

/-- `remove_tag` (`storage.py:287-289`). -/
def removeTag (name : String) : HM Unit := removeReference name .tag

/-- `remove_branch` (`storage.py:291-296`). -/
def removeBranch (name : String) : HM Unit := do
  let h ← self
  if name = h.branch then M.raise .userInput
  else removeReference name .branch

/-- `set_current_branch` (`storage.py:246-253`). -/
def setCurrentBranch (name : String) : HM Unit := do
  let h ← self
  if name ≠ mainBranch then
    let r ← M.lift (h.md.lookupRef name)
    if r.kind ≠ .branch then M.raise .userInput
    else setSelf { h with branch := name }
  else setSelf { h with branch := name }

/-! ## Commit -/

/-- The deletion loop of `_patch_manifests` (`storage.py:515-520`), from the last
manifest to the first; returns the kept manifests and the deletions left. -/
def dropManifests : List Path → List Path → List Path × List Path
  | [], del => ([], del)
  | m :: ms, del =>
    let (kept, left) := dropManifests ms del
    if m ∈ left then (kept, left.filter (· ≠ m)) else (m :: kept, left)

/-- `_patch_manifests` with `_check_duplicated` (`storage.py:513-542`). -/
def patchManifests (index recs : List Path) (p : Patch) : Except Err (List Path × List Path) :=
  let (kept, left) := dropManifests index p.delIdx
  if left ≠ [] then .error .runtime
  else
    let idx := kept ++ p.addIdx
    let rc := recs ++ p.addRec
    if idx.Nodup ∧ rc.Nodup then .ok (idx, rc) else .error .runtime

/-- Move the branch to a new snapshot id (`storage.py:328-339`); returns the new
metadata without the snapshot, and the parent snapshot. -/
def Metadata.advance (md : Metadata) (branch : String) (n : Nat) :
    Except Err (Metadata × Snapshot) :=
  if branch ≠ mainBranch then
    match md.lookupRef branch with
    | .error e => .error e
    | .ok r =>
      if r.kind ≠ .branch then .error .userInput
      else match md.snapshot r.id with
        | .error e => .error e
        | .ok s => .ok ({ md with refs := md.refs.set branch { r with id := n } }, s)
  else
    match md.snapshot md.current with
    | .error e => .error e
    | .ok s => .ok ({ md with current := n }, s)

/-- `Storage.commit` (`storage.py:315-367`). -/
def commit (p : Patch) (branch : String) : HM Unit := do
  let h ← self
  let n := h.maxId + 1
  setSelf { h with maxId := n }
  let (md, cur) ← M.lift (h.md.advance branch n)
  let u ← liftW fresh
  let (idx, rc) ← M.lift (patchManifests cur.index cur.recs p)
  let log ← (match p.log with
    | none => (pure none : HM (Option Path))
    | some cl => liftW (do
        let v ← fresh
        putFile (.changeLog v) (.log cl)
        pure (some (Path.changeLog v))))
  let snap : Snapshot :=
    { id := n, index := idx, recs := rc,
      stats := (cur.stats.addIndex p.stats).addRecord p.stats,
      log := log, parent := some cur.id }
  let md' := { md with snaps := md.snaps.set n snap }
  liftW (writeMetadata (.metadata u) md')
  let h' ← self
  setSelf { h' with md := md', mdFile := .metadata u, full := true }

/-! ## Transactions -/

/-- `JobResult.State` (`core/jobs.py`). -/
inductive Job where
  | succeeded | failed | skipped
deriving DecidableEq, Repr

/-- A `Transaction` after `__enter__` (`storage.py:545-554`, `:587-593`). -/
structure Txn where
  start : Nat
  branch : String
deriving DecidableEq, Repr

/-- `storage.transaction()` and `__enter__` (`storage.py:548-553`, `:587-593`). -/
def Txn.enter : HM Txn := do
  let h ← self
  let _ ← reload
  let h' ← self
  let n ← M.lift (h'.md.currentId h.branch)
  pure { start := n, branch := h.branch }

/-- The check half of `Transaction.commit` (`storage.py:558-569`): true if the
branch is still at the starting snapshot. -/
def Txn.check (t : Txn) : HM Bool := do
  let _ ← reload
  let h ← self
  let n ← M.lift (h.md.currentId t.branch)
  pure (decide (t.start = n))

/-- `Transaction.commit` (`storage.py:556-577`). -/
def Txn.commit (t : Txn) (p : Option Patch) : HM Job := do
  let ok ← t.check
  if !ok then pure .failed
  else match p with
    | none => pure .skipped
    | some p => do
      Space.commit p t.branch
      pure .succeeded

end Space
