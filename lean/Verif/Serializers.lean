import Verif.Schema

/-!
# `core/serializers/base.py`: DictSerializer
-/

namespace Space

/-- `FieldSerializer` (`serializers/base.py:29-50`).  Values and bytes are both elements of
`V`; a serializer may raise. -/
structure FieldSer (V : Type) where
  ser : V → Except Err V
  de : V → Except Err V

/-- `[f(v) for v in values]` (`serializers/base.py:100-103`). -/
def mapCol {V : Type} (f : V → Except Err V) : List V → Except Err (List V)
  | [] => .ok []
  | v :: vs =>
    match f v with
    | .error e => .error e
    | .ok b =>
      match mapCol f vs with
      | .error e => .error e
      | .ok bs => .ok (b :: bs)

/-- The loop of `_process_dict` (`serializers/base.py:95-108`) with the result so far. -/
def processDict {V : Type} (S : AMap String (FieldSer V)) (serialize : Bool) :
    AMap String (List V) → AMap String (List V) → Except Err (AMap String (List V))
  | [], out => .ok out
  | (f, col) :: t, out =>
    match S.get? f with
    | none => processDict S serialize t (out.set f col)
    | some s =>
      match mapCol (if serialize then s.ser else s.de) col with
      | .error e => .error e
      | .ok col' => processDict S serialize t (out.set f col')

/-- `DictSerializer.serialize` (`serializers/base.py:79-85`). -/
def dictSerialize {V : Type} (S : AMap String (FieldSer V)) (t : AMap String (List V)) :=
  processDict S true t []

/-- `DictSerializer.deserialize` (`serializers/base.py:87-93`). -/
def dictDeserialize {V : Type} (S : AMap String (FieldSer V)) (t : AMap String (List V)) :=
  processDict S false t []

/-- `DictSerializer.create` (`serializers/base.py:62-70`): `TfFeatures` is the one column
type that is a `FieldSerializer`; `tf x` is the serializer of features `x`. -/
def serializersOf {V : Type} (tf : String → FieldSer V) : List AField → AMap String (FieldSer V) →
    AMap String (FieldSer V)
  | [], m => m
  | .mk n _ _ t :: fs, m =>
    match t with
    | .tf x => serializersOf tf fs (m.set n (tf x))
    | _ => serializersOf tf fs m

end Space
