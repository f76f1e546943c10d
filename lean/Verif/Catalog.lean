import Verif.Plans
import Verif.Storage

/-!
# `catalogs/directory.py`
-/

set_option autoImplicit false

namespace Space

open Paths (Str str join metadataDir entryPointPath place rooted)

/-- What the metadata of a storage keeps from its creation (`core/storage.py:173-189`): the
schema, in the form stored and in the flat form the rest of the model works with, and the
logical plan of a materialized view (`none` for type `DATASET`).  Every later metadata file is a
changed copy of the one before it (`core/storage.py:231`, `:275`), with these parts as they
were. -/
structure Made where
  stored : StoredSchema
  flat : Schema
  plan : Option LogicalPlan
deriving DecidableEq, Repr

/-- A directory with files of a storage: the files, and what the metadata keeps if the storage
has been created. -/
structure Store where
  w : World := {}
  made : Option Made := none

/-- The file tree, without links.  Files of different storages are different: a storage at the
place `l` writes below `l/data` and `l/metadata` only, to names no location ends with.  `others`
are files and directories (`true`) nothing in the storage code writes. -/
structure Disk where
  stores : AMap (List Str) Store := []
  pickles : Pickles := []
  others : List (List Str × Bool) := []

/-- A directory. -/
def Disk.isDir (d : Disk) (p : List Str) : Bool :=
  d.stores.any (fun x => p.isPrefixOf x.1) ||
    d.others.any (fun x => p.isPrefixOf x.1 && (x.2 || p != x.1))

/-- The entry point file of a storage. -/
def Disk.isEntry (d : Disk) (p : List Str) : Bool :=
  d.stores.any (fun x => p == x.1 ++ [str "metadata", str "entrypoint.txtpb"] &&
    (AMap.get? x.2.w.fs .entryPoint).isSome)

/-- `os.listdir`. -/
def Disk.listDir (d : Disk) (p : List Str) : Except Err (List Str) :=
  if d.isDir p then
    .ok (((d.stores.map Prod.fst ++ d.others.map Prod.fst).filterMap fun q =>
      if p.isPrefixOf q then (q.drop p.length).head? else none).eraseDups)
  else .error (.other "FileNotFoundError")

/-- `Storage.create` at a location (`core/storage.py:149-197`).  `mkdir` is the outcome of
making the directories (`core/storage.py:484-486`). -/
def Disk.createStore (C : Codec) (mkdir : Option Err) (cwd location : Str) (fs : AFields)
    (pks recs : List String) (plan : Option LogicalPlan) (d : Disk) : Except Err Handle × Disk :=
  match createSchema C fs pks recs with
  | .error e => (.error e, d)
  | .ok m =>
    match logicalSchema C m with
    | .error e => (.error e, d)
    | .ok l =>
      match mkdir with
      | some e => (.error e, d)
      | none =>
        let p := place (rooted cwd) location
        let st := (d.stores.get? p).getD {}
        match create (flatSchema l pks recs) st.w with
        | (.ok h, w) =>
          (.ok h, { d with stores := d.stores.set p ⟨w, some ⟨m, flatSchema l pks recs, plan⟩⟩ })
        | (.error e, w) => (.error e, { d with stores := d.stores.set p ⟨w, st.made⟩ })

/-- `Storage.load` (`core/storage.py:198-204`). -/
def Disk.loadStore (cwd location : Str) (d : Disk) : Except Err (Handle × Made) :=
  match d.stores.get? (place (rooted cwd) location) with
  | none => .error (.other "FileNotFoundError")
  | some st =>
    match load st.w with
    | .error e => .error e
    | .ok h =>
      match st.made with
      | none => .error .runtime
      | some m => .ok (h, m)

/-- `Dataset.load` (`core/datasets.py:57-60`) and the properties views use
(`core/datasets.py:62-73`, `core/storage.py:77-79`). -/
def Disk.loadDataset (C : Codec) (cwd : Str) (d : Disk) (location : Str) : Except Err Source :=
  match d.loadStore cwd location with
  | .error e => .error e
  | .ok (_, m) =>
    match logicalSchema C m.stored with
    | .error e => .error e
    | .ok l => .ok ⟨location, l, m.stored.pks, m.stored.recs⟩

/-- `Dataset` and `MaterializedView` objects. -/
inductive Opened where
  | dataset (location : Str) (h : Handle)
  | view (location : Str) (h : Handle) (v : View)

/-- `DirCatalog` (`directory.py:38-39`): its directory, and the working directory of the
process. -/
structure DirCatalog where
  cwd : Str
  base : Str

namespace DirCatalog

/-- `_dataset_location` (`directory.py:77-78`). -/
def location (k : DirCatalog) (name : Str) : Str := join k.base name

/-- `create_dataset` (`directory.py:41-45`). -/
def createDataset (C : Codec) (mkdir : Option Err) (k : DirCatalog) (name : Str) (fs : AFields)
    (pks recs : List String) (d : Disk) : Except Err Opened × Disk :=
  match d.createStore C mkdir k.cwd (k.location name) fs pks recs none with
  | (.ok h, d) => (.ok (.dataset (k.location name) h), d)
  | (.error e, d) => (.error e, d)

/-- `materialize` (`directory.py:47-48`, `core/views.py:113-123`, `:291-307`).  The directory of
the pickles is made before anything is written. -/
def materialize (C : Codec) (mkdir : Option Err) (rnd : Nat → Str) (k : DirCatalog) (name : Str)
    (v : View) (d : Disk) : Except Err Opened × Disk :=
  match mkdir with
  | some e => (.error e, d)
  | none =>
    match v.materialize rnd k.cwd (k.location name) d.pickles with
    | .error e => (.error e, d)
    | .ok (lp, files) =>
      match { d with pickles := files }.createStore C none k.cwd (k.location name) (.ofList v.schema)
          v.pks v.recs (some lp) with
      | (.ok h, d) => (.ok (.view (k.location name) h v), d)
      | (.error e, d) => (.error e, d)

/-- `dataset` (`directory.py:53-65`, `core/views.py:315-323`). -/
def dataset (C : Codec) (k : DirCatalog) (name : Str) (d : Disk) : Except Err Opened :=
  match d.loadStore k.cwd (k.location name) with
  | .error e => .error (if e = .other "FileNotFoundError" then .storageNotFound else e)
  | .ok (h, m) =>
    match m.plan with
    | none => .ok (.dataset (k.location name) h)
    | some lp =>
      match loadView (d.loadDataset C k.cwd) k.cwd (k.location name) lp d.pickles with
      | .error e => .error e
      | .ok v => .ok (.view (k.location name) h v)

/-- `datasets` (`directory.py:67-75`): names and locations. -/
def datasets (k : DirCatalog) (d : Disk) : Except Err (List (Str × Str)) :=
  match d.listDir (place (rooted k.cwd) k.base) with
  | .error e => .error e
  | .ok names =>
    .ok ((names.filter fun n =>
        d.isDir (place (rooted k.cwd) (k.location n)) &&
          d.isEntry (place (rooted k.cwd) (entryPointPath (k.location n)))).map
      fun n => (n, k.location n))

end DirCatalog

end Space
