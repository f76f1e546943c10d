import Verif.Schema

/-!
# What it means for a schema to be unchanged

Small vocabulary for the statements of C28–C30, independent of the code's helpers.
-/

namespace Space

mutual
/-- Ids of a field and everything nested in it, depth first, a field before what it
contains. -/
def AField.ids : AField → List (Option Nat)
  | .mk _ _ i t => i :: t.ids
/-- Ids of the fields nested in a type, depth first. -/
def ATy.ids : ATy → List (Option Nat)
  | .list f => f.ids
  | .struct fs => fs.ids
  | _ => []
/-- Ids of a list of fields, depth first. -/
def AFields.ids : AFields → List (Option Nat)
  | .nil => []
  | .cons f fs => f.ids ++ fs.ids
end

mutual
/-- Ids written in a stored type, depth first. -/
def SType.ids : SType → List Nat
  | .list v t => v :: t.ids
  | .struct v ts => v :: ts.ids
  | t => [t.variation]
/-- Ids written in stored types, depth first. -/
def STypes.ids : STypes → List Nat
  | .nil => []
  | .cons t ts => t.ids ++ ts.ids
end

mutual
/-- The field without its ids. -/
def AField.noIds : AField → AField
  | .mk n b _ t => .mk n b none t.noIds
/-- The type without the ids of nested fields. -/
def ATy.noIds : ATy → ATy
  | .list f => .list f.noIds
  | .struct fs => .struct fs.noIds
  | t => t
/-- The fields without their ids. -/
def AFields.noIds : AFields → AFields
  | .nil => .nil
  | .cons f fs => .cons f.noIds fs.noIds
end

mutual
/-- The field with every `not null` forgotten. -/
def AField.anyNull : AField → AField
  | .mk n _ i t => .mk n true i t.anyNull
/-- The type with every `not null` of nested fields forgotten. -/
def ATy.anyNull : ATy → ATy
  | .list f => .list f.anyNull
  | .struct fs => .struct fs.anyNull
  | t => t
/-- The fields with every `not null` forgotten. -/
def AFields.anyNull : AFields → AFields
  | .nil => .nil
  | .cons f fs => .cons f.anyNull fs.anyNull
end

mutual
/-- No list or struct field is declared `not null`. -/
def AField.openNested : AField → Prop
  | .mk _ b _ t => t.openAt b
/-- `openNested` for a field of this type and nullability. -/
def ATy.openAt : ATy → Bool → Prop
  | .list f, b => b = true ∧ f.openNested
  | .struct fs, b => b = true ∧ fs.openNested
  | _, _ => True
/-- `openNested` for every field. -/
def AFields.openNested : AFields → Prop
  | .nil => True
  | .cons f fs => f.openNested ∧ fs.openNested
end

mutual
/-- The type with list items called `item`: Arrow does not compare the names of list
items.  Struct field names stay. -/
def ATy.itemNames : ATy → ATy
  | .list (.mk _ b i t) => .list (.mk "item" b i t.itemNames)
  | .struct fs => .struct fs.itemNames
  | t => t
/-- `itemNames` inside every field. -/
def AFields.itemNames : AFields → AFields
  | .nil => .nil
  | .cons (.mk n b i t) fs => .cons (.mk n b i t.itemNames) fs.itemNames
end

mutual
/-- The type with file columns stored as strings, at every level. -/
def ATy.stored : ATy → ATy
  | .list (.mk n b i t) => .list (.mk n b i t.stored)
  | .struct fs => .struct fs.stored
  | .file _ => .str
  | t => t
/-- `stored` inside every field. -/
def AFields.stored : AFields → AFields
  | .nil => .nil
  | .cons (.mk n b i t) fs => .cons (.mk n b i t.stored) fs.stored
end

mutual
/-- Every type inside has a stored form: none is outside the supported types. -/
def ATy.supported : ATy → Prop
  | .list (.mk _ _ _ t) => t.supported
  | .struct fs => fs.supported
  | .other _ => False
  | _ => True
/-- `supported` for every field. -/
def AFields.supported : AFields → Prop
  | .nil => True
  | .cons (.mk _ _ _ t) fs => t.supported ∧ fs.supported
end

/-- What Arrow compares when it compares two types, apart from `not null`: ids (metadata)
and names of list items are not looked at. -/
def ATy.likeness (t : ATy) : ATy := t.noIds.anyNull.itemNames

/-- `f` is the one field called `name`. -/
def OnlyField (fs : List AField) (name : String) (f : AField) : Prop :=
  ∃ l₁ l₂, fs = l₁ ++ f :: l₂ ∧ f.name = name ∧ ∀ g ∈ l₁ ++ l₂, g.name ≠ name

/-- Types a primary key may not have. -/
def NestedTy (t : ATy) : Prop :=
  (∃ f, t = .list f) ∨ (∃ fs, t = .struct fs) ∨ ∃ x, t = .tf x

/-- Types a record field may have. -/
def RecordTy (t : ATy) : Prop := t = .bin ∨ ∃ x, t = .tf x

/-- The schemas `create` may accept. -/
structure Acceptable (fs : List AField) (pks recs : List String) : Prop where
  some : pks ≠ []
  keys : ∀ k ∈ pks, ∃ f, OnlyField fs k f ∧ ¬ NestedTy f.ty
  records : ∀ r ∈ recs, r ∉ pks ∧ ∃ f, OnlyField fs r f ∧ RecordTy f.ty

/-- Reading back an extension type gives what was written. -/
structure Codec.Faithful (C : Codec) : Prop where
  tf : ∀ x, C.tfDe (C.tfSer x) = .ok x
  file : ∀ d, C.fileDe (C.fileSer d) = .ok d

end Space
