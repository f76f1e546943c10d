import Verif.World

/-!
# Nested schemas and their stored form

Models `core/schema/{arrow,substrait,field_ids,utils}.py` over nested Arrow types.
The rest of the model works with the flat `Schema` of `Verif/Filter.lean`;
`flatSchema` below links the two.
-/

namespace Space

/-! ## Arrow side -/

mutual
/-- Arrow types.  `tf` is `TfFeatures` (`schema/types/tf_features.py:29-45`) with its
features, `file` is `File` (`schema/types/files.py:27-46`) with its directory, and
`other` stands for every type the code has no case for (fixed size lists, maps,
dates, large lists, ...), by name. -/
inductive ATy where
  | bool | i32 | i64 | f32 | f64 | str | bin
  | list (item : AField)
  | struct (fs : AFields)
  | tf (features : String)
  | file (dir : String)
  | other (name : String)

/-- An Arrow field: name, nullability, the value under the key `PARQUET:field_id` of its
metadata (`schema/arrow.py:33`), and type.  Simplification: other metadata entries are
not modelled. -/
inductive AField where
  | mk (name : String) (nullable : Bool) (fid : Option Nat) (ty : ATy)

/-- A list of Arrow fields: an Arrow schema, or the fields of a struct type. -/
inductive AFields where
  | nil
  | cons (f : AField) (fs : AFields)
end

deriving instance DecidableEq, Repr for ATy, AField, AFields

namespace AField
/-- `field.name`. -/
def name : AField → String | mk n _ _ _ => n
/-- `field.nullable`. -/
def nullable : AField → Bool | mk _ b _ _ => b
/-- `field_id` (`schema/arrow.py:41-46`), `none` for `NULL_FIELD_ID`. -/
def fid : AField → Option Nat | mk _ _ i _ => i
/-- `field.type`. -/
def ty : AField → ATy | mk _ _ _ t => t
end AField

/-- `list(schema)`. -/
def AFields.toList : AFields → List AField
  | .nil => []
  | .cons f fs => f :: fs.toList

/-- `pa.schema(fields)`. -/
def AFields.ofList : List AField → AFields
  | [] => .nil
  | f :: fs => .cons f (ofList fs)

/-- `schema.names`. -/
def AFields.names (fs : AFields) : List String := fs.toList.map AField.name

/-! ## `field_ids.py` -/

mutual
/-- `FieldIdManager._assign_field_id` (`schema/field_ids.py:50-71`): the new field and the
next free id.  `pa.field` without a `nullable` argument makes list and struct fields
nullable (lines 57-61, 67). -/
def assignField : AField → Nat → AField × Nat
  | .mk name nl _ t, n =>
    match t with
    | .list item =>
      let r := assignField item (n + 1)
      (.mk name true (some n) (.list r.1), r.2)
    | .struct fs =>
      let r := assignFields fs (n + 1)
      (.mk name true (some n) (.struct r.1), r.2)
    | t => (.mk name nl (some n) t, n + 1)

/-- `FieldIdManager._assign_field_ids` (`schema/field_ids.py:47-48`). -/
def assignFields : AFields → Nat → AFields × Nat
  | .nil, n => (.nil, n)
  | .cons f fs, n =>
    let r := assignField f n
    let q := assignFields fs r.2
    (.cons r.1 q.1, q.2)
end

/-- `FieldIdManager().assign_field_ids(schema)` (`schema/field_ids.py:36-45`). -/
def assignIds (fs : AFields) : AFields := (assignFields fs 0).1

/-! ## `substrait.py` -/

/-- The serialised form of the two extension types: `__arrow_ext_serialize__` and
`__arrow_ext_deserialize__` (`schema/types/tf_features.py:47-60`,
`schema/types/files.py:48-60`).  JSON and TFDS are external. -/
structure Codec where
  tfSer : String → String
  tfDe : String → Except Err String
  fileSer : String → String
  fileDe : String → Except Err String

mutual
/-- Substrait `Type`, one constructor per `kind` the code writes, each with its
`type_variation_reference`.  `unset` stands for every other kind. -/
inductive SType where
  | bool (v : Nat) | i32 (v : Nat) | i64 (v : Nat) | fp32 (v : Nat) | fp64 (v : Nat)
  | string (v : Nat) | binary (v : Nat)
  | list (v : Nat) (t : SType)
  | struct (v : Nat) (ts : STypes)
  | user (v : Nat) (name ser : String)
  | unset (v : Nat)

/-- `repeated Type`. -/
inductive STypes where
  | nil
  | cons (t : SType) (ts : STypes)
end

deriving instance DecidableEq, Repr for SType, STypes

/-- Substrait `NamedStruct`. -/
structure Named where
  names : List String
  types : STypes
deriving DecidableEq, Repr

/-- `TfFeatures.EXTENSION_NAME` (`schema/types/tf_features.py:32`). -/
def tfName : String := "space.tf_features"
/-- `File.EXTENSION_NAME` (`schema/types/files.py:34`). -/
def fileName : String := "space.file"

/-- `_set_field_id` (`schema/substrait.py:103-104`): `type_variation_reference` is an
unsigned field, so writing `NULL_FIELD_ID = -1` raises `ValueError`. -/
def needId : Option Nat → Except Err Nat
  | some n => .ok n
  | none => .error (.other "ValueError")

mutual
/-- `_substrait_field` (`schema/substrait.py:45-100`): the names it appends and the type.
A list item does not append its own name (line 48). -/
def subField (C : Codec) : AField → Bool → Except Err (List String × SType)
  | .mk name _ id t, item => do
    let own := if item then [] else [name]
    match t with
    | .i64 => return (own, .i64 (← needId id))
    | .i32 => return (own, .i32 (← needId id))
    | .str => return (own, .string (← needId id))
    | .bin => return (own, .binary (← needId id))
    | .bool => return (own, .bool (← needId id))
    | .f64 => return (own, .fp64 (← needId id))
    | .f32 => return (own, .fp32 (← needId id))
    | .list f =>
      let v ← needId id
      let r ← subField C f true
      return (own ++ r.1, .list v r.2)
    | .struct fs =>
      let v ← needId id
      let r ← subFields C fs
      return (own ++ r.1, .struct v r.2)
    | .tf x => return (own, .user (← needId id) tfName (C.tfSer x))
    | .file d => return (own, .user (← needId id) fileName (C.fileSer d))
    | .other _ => throw (.other "TypeError")

/-- `_substrait_fields` (`schema/substrait.py:39-41`). -/
def subFields (C : Codec) : AFields → Except Err (List String × STypes)
  | .nil => return ([], .nil)
  | .cons f fs => do
    let r ← subField C f false
    let q ← subFields C fs
    return (r.1 ++ q.1, .cons r.2 q.2)
end

/-- `substrait_fields` (`schema/substrait.py:27-36`). -/
def substraitFields (C : Codec) (fs : AFields) : Except Err Named := do
  let r ← subFields C fs
  return ⟨r.1, r.2⟩

/-! ## `arrow.py` -/

/-- `_NamesVisitor.next` (`schema/arrow.py:49-58`): the next name and the names left. -/
def nextName : List String → Except Err (String × List String)
  | n :: ns => .ok (n, ns)
  | [] => .error (.other "IndexError")

/-- `_substrait_field_id` (`schema/arrow.py:102-104`). -/
def SType.variation : SType → Nat
  | bool v | i32 v | i64 v | fp32 v | fp64 v | string v | binary v | list v _ | struct v _
  | user v _ _ | unset v => v

/-- `_user_defined_arrow_type` (`schema/arrow.py:142-159`). -/
def userType (C : Codec) (physical : Bool) (name ser : String) : Except Err ATy :=
  if name = tfName then (C.tfDe ser).map .tf
  else if name = fileName then
    if physical then .ok .str else (C.fileDe ser).map .file
  else .error (.other "TypeError")

mutual
/-- `_arrow_type` (`schema/arrow.py:107-139`): the type and the names left.
`pa.list_(type)` names its item field `item` and makes it nullable. -/
def arrowType (C : Codec) (physical : Bool) : SType → List String → Except Err (ATy × List String)
  | .bool _, ns => .ok (.bool, ns)
  | .i32 _, ns => .ok (.i32, ns)
  | .i64 _, ns => .ok (.i64, ns)
  | .fp32 _, ns => .ok (.f32, ns)
  | .fp64 _, ns => .ok (.f64, ns)
  | .string _, ns => .ok (.str, ns)
  | .binary _, ns => .ok (.bin, ns)
  | .list _ t, ns => do
    let r ← arrowType C physical t ns
    return (.list (.mk "item" true none r.1), r.2)
  | .struct _ ts, ns => do
    let r ← arrowSubs C physical ts ns
    return (.struct r.1, r.2)
  | .user _ name ser, ns => do
    return (← userType C physical name ser, ns)
  | .unset _, _ => throw (.other "TypeError")

/-- The loop over struct fields (`schema/arrow.py:131-135`). -/
def arrowSubs (C : Codec) (physical : Bool) : STypes → List String → Except Err (AFields × List String)
  | .nil, ns => .ok (.nil, ns)
  | .cons t ts, ns => do
    let n ← nextName ns
    let r ← arrowType C physical t n.2
    let q ← arrowSubs C physical ts r.2
    return (.cons (.mk n.1 true none r.1) q.1, q.2)
end

/-- `pa.struct(record_address_types())` (`schema/arrow.py:212-215`). -/
def addressTy : ATy :=
  .struct (.cons (.mk "_FILE" true none .str) (.cons (.mk "_ROW_ID" true none .i32) .nil))

/-- `_arrow_fields` (`schema/arrow.py:80-99`). -/
def arrowFields (C : Codec) (recs : List String) (physical : Bool) :
    STypes → List String → Except Err (List AField × List String)
  | .nil, ns => .ok ([], ns)
  | .cons t ts, ns => do
    let n ← nextName ns
    let r ← if physical = true ∧ n.1 ∈ recs then .ok (addressTy, n.2)
      else arrowType C physical t n.2
    let q ← arrowFields C recs physical ts r.2
    return (.mk n.1 true (some t.variation) r.1 :: q.1, q.2)

/-- `arrow_schema` (`schema/arrow.py:61-77`). -/
def arrowSchema (C : Codec) (d : Named) (recs : List String) (physical : Bool) :
    Except Err (List AField) := do
  return (← arrowFields C recs physical d.types d.names).1

/-- `logical_to_physical_schema` (`schema/arrow.py:227-241`). -/
def logicalToPhysical (fs : List AField) (recs : List String) : List AField :=
  fs.map fun f => if f.name ∈ recs then .mk f.name true f.fid addressTy else f

/-- `field_name_to_id_dict` (`schema/arrow.py:162-164`). -/
def nameToId (fs : List AField) : AMap String (Option Nat) :=
  fs.foldl (fun m f => m.set f.name f.fid) []

/-- `field_id_to_name_dict` (`schema/arrow.py:167-169`). -/
def idToName (fs : List AField) : AMap (Option Nat) String :=
  fs.foldl (fun m f => m.set f.fid f.name) []

/-- The loop of `field_id_to_column_id_dict` from column `k` on. -/
def idToColumnGo (d : AMap String (Option Nat)) : List String → Nat → AMap (Option Nat) Nat →
    Except Err (AMap (Option Nat) Nat)
  | [], _, m => .ok m
  | n :: ns, k, m =>
    match d.get? n with
    | none => .error (.other "KeyError")
    | some i => idToColumnGo d ns (k + 1) (m.set i k)

/-- `field_id_to_column_id_dict` (`schema/arrow.py:172-178`). -/
def idToColumn (fs : List AField) : Except Err (AMap (Option Nat) Nat) :=
  idToColumnGo (nameToId fs) (fs.map AField.name) 0 []

/-- `classify_fields` (`schema/arrow.py:181-209`): names and ids of index and record
fields. -/
def classifyFields (fs : List AField) (recs : List String) (selected : Option (List String)) :
    List (String × Option Nat) × List (String × Option Nat) :=
  fs.foldl (fun acc f =>
    if selected.any (fun l => !l.contains f.name) then acc
    else if recs.contains f.name then (acc.1, acc.2 ++ [(f.name, f.fid)])
    else (acc.1 ++ [(f.name, f.fid)], acc.2)) ([], [])

/-! ## `utils.py` -/

/-- `schema.field(name)`: pyarrow looks the name up with `get_field_index`, which finds
nothing when the name is absent or occurs more than once, and then raises `KeyError`. -/
def fieldNamed (fs : List AField) (name : String) : Except Err AField :=
  match fs.filter (fun f => f.name = name) with
  | [f] => .ok f
  | _ => .error (.other "KeyError")

/-- The type test of lines 77-80 of `schema/utils.py`. -/
def ATy.badKey : ATy → Bool
  | .list _ | .struct _ | .tf _ => true
  | _ => false

/-- The type test of lines 92-93 of `schema/utils.py`. -/
def ATy.okRecord : ATy → Bool
  | .bin | .tf _ => true
  | _ => false

/-- Loop over the primary keys (`schema/utils.py:73-80`). -/
def validateKeys (fs : List AField) : List String → Except Err Unit
  | [] => .ok ()
  | k :: ks => do
    if k ∉ fs.map AField.name then throw .userInput
    let f ← fieldNamed fs k
    if f.ty.badKey then throw .userInput
    validateKeys fs ks

/-- Loop over the record fields (`schema/utils.py:83-94`). -/
def validateRecords (fs : List AField) (pks : List String) : List String → Except Err Unit
  | [] => .ok ()
  | r :: rs => do
    if r ∉ fs.map AField.name then throw .userInput
    if r ∈ pks then throw .userInput
    let f ← fieldNamed fs r
    if ¬ f.ty.okRecord then throw .userInput
    validateRecords fs pks rs

/-- `validate_logical_schema` (`schema/utils.py:65-94`). -/
def validateSchema (fs : List AField) (pks recs : List String) : Except Err Unit := do
  if pks = [] then throw .userInput
  validateKeys fs pks
  validateRecords fs pks recs

/-- The stored form of a schema: message `Schema` of `metadata.proto`. -/
structure StoredSchema where
  fields : Named
  pks : List String
  recs : List String
deriving DecidableEq, Repr

/-- The schema part of `Storage.create` (`core/storage.py:168-181`). -/
def createSchema (C : Codec) (fs : AFields) (pks recs : List String) : Except Err StoredSchema := do
  validateSchema fs.toList pks recs
  return ⟨← substraitFields C (assignIds fs), pks, recs⟩

/-- The logical schema of an opened storage (`core/storage.py:77-79`). -/
def logicalSchema (C : Codec) (m : StoredSchema) : Except Err (List AField) :=
  arrowSchema C m.fields m.recs false

/-- The physical schema used by writers and readers (`core/ops/append.py:93-95`,
`core/ops/read.py:73-75`). -/
def physicalSchema (C : Codec) (m : StoredSchema) : Except Err (List AField) :=
  arrowSchema C m.fields m.recs true

/-! ## The flat schema the rest of the model works with -/

mutual
/-- Names of the fields nested in a type, depth first; list items have no name in the
stored form (`schema/substrait.py:48`). -/
def ATy.innerNames : ATy → List String
  | .list (.mk _ _ _ t) => t.innerNames
  | .struct fs => fs.innerNames
  | _ => []
/-- The names of fields and of what is nested in them. -/
def AFields.innerNames : AFields → List String
  | .nil => []
  | .cons (.mk n _ _ t) fs => n :: t.innerNames ++ fs.innerNames
end

mutual
/-- Number of Parquet columns of a type: one for each leaf. -/
def ATy.leaves : ATy → Nat
  | .list (.mk _ _ _ t) => t.leaves
  | .struct fs => fs.leaves
  | _ => 1
/-- Number of Parquet columns of fields. -/
def AFields.leaves : AFields → Nat
  | .nil => 0
  | .cons (.mk _ _ _ t) fs => t.leaves + fs.leaves
end

/-- The column type the storage code distinguishes. -/
def ATy.flat (t : ATy) : FTy :=
  match t with
  | .bool => .bool
  | .i32 | .i64 => .int
  | .f32 | .f64 => .float
  | .str | .file _ => .str
  | .bin | .tf _ | .other _ => .bytes
  | .list _ | .struct _ => .struct t.innerNames t.leaves

/-- The flat schema of a storage with logical schema `L`. -/
def flatSchema (L : List AField) (pks recs : List String) : Schema :=
  { fields := L.map (fun f => ⟨f.name, f.fid.getD 0, f.ty.flat⟩), pks := pks, recs := recs }

end Space
