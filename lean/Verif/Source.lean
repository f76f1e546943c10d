import Verif.RandomAccess
import Verif.Serializers
import Verif.Runner

/-!
# `core/random_access.py`: `RandomAccessDataSource`

Opening a data source on the record fields of a storage, and reading from it.  Indexes are
natural numbers (negative ones are not modelled).  Record bytes and deserialised values are
both values `Val`.
-/

set_option autoImplicit false

namespace Space

/-- A storage that a feature field is read from (`random_access.py:150-171`): its location,
an open table on it, and the serializers of its logical schema (`storage.py:129-131`).  A
storage given as a string is loaded first (`:167-169`). -/
structure Feature where
  location : String
  h : Handle
  w : World
  sers : AMap String (FieldSer Val)

/-- A table of addresses after `flatten()` (`random_access.py:198`): the number of rows and the
columns with file and row id of a field. -/
structure Addresses where
  rows : Nat
  cols : AddrTable
deriving DecidableEq

/-- What a source returns for an index: a value, or a dictionary by feature field. -/
inductive Item (α : Type) where
  | one (a : α)
  | dict (m : AMap String α)
deriving DecidableEq, Repr

/-- `_maybe_remove_dict` (`random_access.py:137-141`). -/
def Item.ofDict {α : Type} : AMap String α → Item α
  | [(_, a)] => .one a
  | m => .dict m

/-- `ArrayRecordDataSource` (`random_access.py:37-73`) or `ArrowDataSource` (`:76-141`).  A
feature field of the latter comes with the location of its storage. -/
inductive RSource where
  | array (location : String) (instrs : List FileInstr) (ser : Option (FieldSer Val))
  | arrow (addrs : Addresses) (feats : List (String × String)) (sers : Option (AMap String (FieldSer Val)))

/-! ## Opening -/

/-- The serializers of the feature fields (`random_access.py:173-181`). -/
def serializersFor : AMap String Feature → Except Err (AMap String (FieldSer Val))
  | [] => .ok []
  | (f, ft) :: feats =>
    match ft.sers.get? f with
    | none => .error .userInput
    | some s =>
      match serializersFor feats with
      | .error e => .error e
      | .ok m => .ok ((f, s) :: m)

/-- The dictionary `storages` (`random_access.py:165-171`). -/
def storagesOf (feats : AMap String Feature) : AMap String Feature :=
  feats.foldl (fun m x => m.set x.2.location x.2) []

/-- `addresses.flatten()` for one record field; other values than addresses do not occur. -/
def addrColumn (f : String) : List Row → Except Err (List (Path × Nat))
  | [] => .ok []
  | r :: rs =>
    match r.val f with
    | .addr p i =>
      match addrColumn f rs with
      | .error e => .error e
      | .ok as => .ok ((p, i) :: as)
    | _ => .error (.other "KeyError")

/-- `addresses.flatten()` (`random_access.py:198`): only record fields have columns for file and
row id. -/
def addrColumns (recs : List String) (rows : List Row) : List String → Except Err AddrTable
  | [] => .ok []
  | f :: fields =>
    if recs.contains f then
      match addrColumn f rows with
      | .error e => .error e
      | .ok col =>
        match addrColumns recs rows fields with
        | .error e => .error e
        | .ok t => .ok ((f, col) :: t)
    else addrColumns recs rows fields

/-- `_read_addresses` (`random_access.py:230-241`). -/
def readAddresses (E : Env) (ft : Feature) (fields : List String) : Except Err Addresses :=
  match tableRead E ft.h ft.w { fields := some fields, refRead := true } none with
  | .error e => .error e
  | .ok [] => .error .userInput
  | .ok rows =>
    match addrColumns ft.h.md.schema.recs rows fields with
    | .error e => .error e
    | .ok cols => .ok ⟨rows.length, cols⟩

/-- The addresses of a source (`random_access.py:183-196`). -/
def sourceAddresses (E : Env) (feats : AMap String Feature) : Option Addresses → Except Err Addresses
  | some a => .ok a
  | none =>
    match storagesOf feats with
    | [(_, ft)] => readAddresses E ft feats.keys
    | _ => .error .userInput

/-- `RandomAccessDataSource.__init__` (`random_access.py:147-216`); `group` is Arrow's
`group_by(file).aggregate([(row id, "list")])`. -/
def openSource (E : Env) (group : List (Path × Nat) → List (Path × List Nat)) (feats : AMap String Feature)
    (addresses : Option Addresses) (deser useArray : Bool) : Except Err RSource :=
  match (if deser then serializersFor feats else .ok []) with
  | .error e => .error e
  | .ok sers =>
    match sourceAddresses E feats addresses with
    | .error e => .error e
    | .ok a =>
      match useArray, feats with
      | true, [(f, ft)] =>
        match a.cols.get? f with
        | none => .error (.other "KeyError")
        | some col => .ok (.array ft.location (buildFileInstructions (group col)) (sers.get? f))
      | _, _ => .ok (.arrow a (feats.map (fun x => (x.1, x.2.location))) (if deser then some sers else none))

/-! ## Reading -/

/-- `__len__` (`random_access.py:46-47`, `:88-89`, `:218-219`). -/
def RSource.len : RSource → Nat
  | .array _ is _ => (exposed is).length
  | .arrow a _ _ => a.rows

/-- `_maybe_deserialize` (`random_access.py:69-73`). -/
def maybeDeser (ser : Option (FieldSer Val)) (v : Val) : Except Err Val :=
  match ser with
  | none => .ok v
  | some s => s.de v

/-- Loop over the feature fields of `ArrowDataSource.__getitem__` (`random_access.py:99-107`);
`disk` gives the files of the storage at a location. -/
def featuresGet (disk : String → FS) (cols : AddrTable) (k : Nat) : List (String × String) →
    Except Err (AMap String Val)
  | [] => .ok []
  | (f, loc) :: feats =>
    match cols.get? f with
    | none => .error (.other "KeyError")
    | some col =>
      match arrowGet (disk loc) [(f, col)] k with
      | .error e => .error e
      | .ok m =>
        match featuresGet disk cols k feats with
        | .error e => .error e
        | .ok m' => .ok (m.map (fun x => (x.1, .sc (.bytes x.2))) ++ m')

/-- The dictionary comprehension of `ArrowDataSource.__getitem__` (`random_access.py:112-117`). -/
def deserEach (S : AMap String (FieldSer Val)) : AMap String Val → Except Err (AMap String Val)
  | [] => .ok []
  | (f, v) :: m =>
    match S.get? f with
    | none => .error (.other "AttributeError")
    | some s =>
      match s.de v with
      | .error e => .error e
      | .ok x =>
        match deserEach S m with
        | .error e => .error e
        | .ok m' => .ok ((f, x) :: m')

/-- `__getitem__` with one index (`random_access.py:53-58`, `:95-117`, `:224-225`). -/
def RSource.get (disk : String → FS) : RSource → Nat → Except Err (Item Val)
  | .array loc is ser, k =>
    match arrayGet (disk loc) is k with
    | .error e => .error e
    | .ok b => (maybeDeser ser (.sc (.bytes b))).map .one
  | .arrow a feats sers, k =>
    match featuresGet disk a.cols k feats with
    | .error e => .error e
    | .ok m =>
      match sers with
      | none => .ok (.ofDict m)
      | some S => (deserEach S m).map .ofDict

/-- Loop over the feature fields of `ArrowDataSource.__getitems__` (`random_access.py:119-132`). -/
def featuresGetMany (disk : String → FS) (cols : AddrTable) (ks : List Nat) : List (String × String) →
    Except Err (AMap String (List Val))
  | [] => .ok []
  | (f, loc) :: feats =>
    match cols.get? f with
    | none => .error (.other "KeyError")
    | some col =>
      match arrowGetMany (disk loc) [(f, col)] ks with
      | .error e => .error e
      | .ok m =>
        match featuresGetMany disk cols ks feats with
        | .error e => .error e
        | .ok m' => .ok (m ++ m')

/-- The records of a list of indexes (`array_record_data_source.__getitems__`, external), each
through `_maybe_deserialize` (`random_access.py:60-67`). -/
def arrayGetMany (fs : FS) (is : List FileInstr) (ser : Option (FieldSer Val)) : List Nat → Except Err (List Val)
  | [] => .ok []
  | k :: ks =>
    match arrayGet fs is k with
    | .error e => .error e
    | .ok b =>
      match maybeDeser ser (.sc (.bytes b)) with
      | .error e => .error e
      | .ok v =>
        match arrayGetMany fs is ser ks with
        | .error e => .error e
        | .ok vs => .ok (v :: vs)

/-- `__getitems__` (`random_access.py:60-67`, `:119-135`, `:227-228`). -/
def RSource.getMany (disk : String → FS) : RSource → List Nat → Except Err (Item (List Val))
  | .array loc is ser, ks => (arrayGetMany (disk loc) is ser ks).map .one
  | .arrow a feats sers, ks =>
    match featuresGetMany disk a.cols ks feats with
    | .error e => .error e
    | .ok m =>
      match sers with
      | none => .ok (.ofDict m)
      | some S => (dictDeserialize S m).map .ofDict

/-- The loop of `__iter__` (`random_access.py:49-51`, `:91-93`). -/
def RSource.items (disk : String → FS) (src : RSource) : List Nat → Except Err (List (Item Val))
  | [] => .ok []
  | k :: ks =>
    match src.get disk k with
    | .error e => .error e
    | .ok v =>
      match src.items disk ks with
      | .error e => .error e
      | .ok vs => .ok (v :: vs)

/-- `list(source)`. -/
def RSource.toList (disk : String → FS) (src : RSource) : Except Err (List (Item Val)) :=
  src.items disk (List.range src.len)

end Space
