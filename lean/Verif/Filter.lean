import Verif.Base

/-!
# Schemas, filter expressions and manifest pruning

Models `core/manifests/falsifiable_filters.py` and the meaning Arrow gives to
filter expressions.
-/

namespace Space

/-! ## Storage schemas (flattened to what the storage code looks at) -/

/-- Column type.  `struct names leaves` is a list or struct column with `leaves`
Parquet leaf columns; `names` are the names of its nested fields in depth-first
order.  Simplification of the nested Arrow types modelled in
`Verif/Schema.lean`. -/
inductive FTy where
  | bool | int | str | bytes | float
  | struct (names : List String) (leaves : Nat)
deriving DecidableEq, Repr

/-- `schema/utils.py:27-31` `Field`, with its type. -/
structure Field where
  name : String
  fid : Nat
  ty : FTy
deriving DecidableEq, Repr

/-- `metadata.proto` `Schema`: fields, primary keys, record fields. -/
structure Schema where
  fields : List Field
  pks : List String
  recs : List String
deriving DecidableEq, Repr

namespace Schema

/-- `schema.names`. -/
def names (s : Schema) : List String := s.fields.map (·.name)

/-- Record fields are stored physically as addresses
(`schema/arrow.py:227-241`). -/
def isRec (s : Schema) (f : Field) : Bool := s.recs.contains f.name

/-- Nested names of the physical column (`schema/arrow.py:212-215`, `:235-237`). -/
def nested (s : Schema) (f : Field) : List String :=
  if s.isRec f then ["_FILE", "_ROW_ID"]
  else match f.ty with
    | .struct ns _ => ns
    | _ => []

/-- Number of Parquet leaf columns of the physical column. -/
def leafCount (s : Schema) (f : Field) : Nat :=
  if s.isRec f then 2
  else match f.ty with
    | .struct _ n => n
    | _ => 1

/-- `ExtendedExpression.base_schema.names` of the physical schema: depth-first
names including nested ones (library behaviour of `ps.serialize_expressions`,
used at `falsifiable_filters.py:85`). -/
def baseNames (s : Schema) : List String := s.fields.flatMap (fun f => f.name :: s.nested f)

/-- `field_name_to_id_dict` (`schema/arrow.py:162-164`).  A later field with the
same name would win in Python; names are assumed distinct where it matters. -/
def fidOf (s : Schema) (c : String) : Option Nat :=
  (s.fields.find? (fun f => f.name = c)).map (·.fid)

/-- The name `_min_max` looks up for a selection of top-level column `c`
(`falsifiable_filters.py:300-301`): the top-level position of `c` is used as an
index into the depth-first name list. -/
def resolve (s : Schema) (c : String) : Option String :=
  if c ∈ s.names then s.baseNames[s.names.idxOf c]? else none

end Schema

/-! ## Filter expressions and their meaning -/

/-- A filter as it appears after conversion to Substrait
(`falsifiable_filters.py:78-90`).  `sub c k` refers to a field inside the struct column
`c`.  `opq` is every expression that is neither a column, nor a literal, nor a one- or
two-argument function (casts, n-ary functions); it sees only the columns it names.
Simplification: filters that Arrow cannot convert (`isin`) raise before anything is
read, and so does a filter that is a cast and mentions no function (`:133`); they are
left out. -/
inductive Expr where
  | sel (c : String)
  | sub (c : String) (k : Nat)
  | lit (v : Scalar)
  | un (fn : String) (a : Expr)
  | bin (fn : String) (a b : Expr)
  | opq (k : Nat) (cs : List String)
deriving DecidableEq, Repr

/-- Arrow compute functions the code knows nothing about. -/
structure Interp where
  un : String → Val → Val
  bin : String → Val → Val → Val
  opq : Nat → List Val → Val
  sub : Nat → Val → Val := fun _ _ => .null

/-- A cell used as a truth value; null and non-boolean cells are unknown. -/
def Val.asBool : Val → Option Bool
  | .sc (.bool b) => some b
  | _ => none

/-- A truth value as a cell. -/
def Val.ofBool : Option Bool → Val
  | some b => .sc (.bool b)
  | none => .null

/-- Kleene logic (`and_kleene`, `or_kleene`, `invert` in Arrow). -/
def kAnd : Option Bool → Option Bool → Option Bool
  | some false, _ => some false
  | _, some false => some false
  | some true, some true => some true
  | _, _ => none

@[inherit_doc kAnd] def kOr : Option Bool → Option Bool → Option Bool
  | some true, _ => some true
  | _, some true => some true
  | some false, some false => some false
  | _, _ => none

@[inherit_doc kAnd] def kNot : Option Bool → Option Bool
  | some b => some !b
  | none => none

/-- Comparison functions by their Substrait name (`falsifiable_filters.py:221-232`). -/
inductive Cmp where
  | gt | gte | lt | lte | equal | not_equal
deriving DecidableEq, Repr

/-- Name lookup of the comparison functions. -/
def Cmp.ofName : String → Option Cmp
  | "gt" => some .gt
  | "gte" => some .gte
  | "lt" => some .lt
  | "lte" => some .lte
  | "equal" => some .equal
  | "not_equal" => some .not_equal
  | _ => none

/-- Comparison of two numbers, strings, … -/
def Cmp.test : Cmp → Scalar → Scalar → Bool
  | .gt, a, b => decide (b < a)
  | .gte, a, b => decide (b ≤ a)
  | .lt, a, b => decide (a < b)
  | .lte, a, b => decide (a ≤ b)
  | .equal, a, b => decide (a = b)
  | .not_equal, a, b => decide (a ≠ b)

/-- Comparison of two non-null values, as Arrow does it: with NaN on a side every
comparison is false except `≠`, which is true (IEEE 754). -/
def Cmp.holds (op : Cmp) (a b : Scalar) : Bool :=
  if a = .nan ∨ b = .nan then decide (op = .not_equal) else op.test a b

/-- Comparison of optional values: null if either side is null. -/
def Cmp.eval (op : Cmp) : Option Scalar → Option Scalar → Option Bool
  | some a, some b => some (op.holds a b)
  | _, _ => none

/-- A cell as a comparable value. Addresses and structs do not compare. -/
def Val.scalar? : Val → Option Scalar
  | .sc s => some s
  | _ => none

/-- Arrow's evaluation of an expression on a row. -/
def Expr.eval (I : Interp) (r : Row) : Expr → Val
  | .sel c => r.val c
  | .sub c k => I.sub k (r.val c)
  | .lit v => .sc v
  | .un fn a =>
    if fn = "not" then Val.ofBool (kNot (a.eval I r).asBool) else I.un fn (a.eval I r)
  | .bin fn a b =>
    if fn = "and" then Val.ofBool (kAnd (a.eval I r).asBool (b.eval I r).asBool)
    else if fn = "or" then Val.ofBool (kOr (a.eval I r).asBool (b.eval I r).asBool)
    else match Cmp.ofName fn with
      | some op => Val.ofBool (op.eval (a.eval I r).scalar? (b.eval I r).scalar?)
      | none => I.bin fn (a.eval I r) (b.eval I r)
  | .opq k cs => I.opq k (cs.map r.val)

/-- Truth value of a filter on a row. -/
def Expr.truth (I : Interp) (e : Expr) (r : Row) : Option Bool := (e.eval I r).asBool

/-- The filter is true on the row: the rows `read_table(filters=e)` keeps. -/
def Expr.holds (I : Interp) (e : Expr) (r : Row) : Bool := e.truth I r == some true

/-- Columns an expression mentions. -/
def Expr.cols : Expr → List String
  | .sel c => [c]
  | .sub c _ => [c]
  | .lit _ => []
  | .un _ a => a.cols
  | .bin _ a b => a.cols ++ b.cols
  | .opq _ cs => cs

/-! ## Manifest filters -/

/-- Column statistics of one manifest row: field id ↦ (min, max). -/
abbrev Stats := AMap Nat (Option Scalar × Option Scalar)

/-- Operand of a condition over manifest statistics. -/
inductive MTerm where
  /-- `_STATS_f<id>._MIN` (`falsifiable_filters.py:192-193`) -/
  | mn (fid : Nat)
  /-- `_STATS_f<id>._MAX` (`falsifiable_filters.py:196-197`) -/
  | mx (fid : Nat)
  | val (v : Scalar)
deriving DecidableEq, Repr

/-- Conditions over manifest statistics, as built by the code. -/
inductive MExpr where
  | cmp (op : Cmp) (a b : MTerm)
  | lit (v : Scalar)
  | not (a : MExpr)
  | and (a b : MExpr)
  | or (a b : MExpr)
deriving DecidableEq, Repr

/-- Value of an operand on a manifest row. -/
def MTerm.eval (st : Stats) : MTerm → Option Scalar
  | .mn f => (st.get? f).bind (·.1)
  | .mx f => (st.get? f).bind (·.2)
  | .val v => some v

/-- Arrow's evaluation of a manifest condition on a manifest row. -/
def MExpr.eval (st : Stats) : MExpr → Option Bool
  | .cmp op a b => op.eval (a.eval st) (b.eval st)
  | .lit v => (Val.sc v).asBool
  | .not a => kNot (a.eval st)
  | .and a b => kAnd (a.eval st) (b.eval st)
  | .or a b => kOr (a.eval st) (b.eval st)

/-- Failures while building: `_ExpressionException` is caught
(`falsifiable_filters.py:71-75`), a `KeyError` of a name lookup is not. -/
inductive FFErr where
  | unsupported
  | keyError
deriving DecidableEq, Repr

/-- `_min_max` (`falsifiable_filters.py:298-308`): field id and whether the field
is a primary key. -/
def ffMinMax (s : Schema) (c : String) : Except FFErr (Nat × Bool) :=
  match s.resolve c with
  | none => .error .keyError
  | some n =>
    match s.fidOf n with
    | none => .error .keyError
    | some f => .ok (f, s.pks.contains n)

/-- `_falsifiable_condition_fields` (`falsifiable_filters.py:212-234`). -/
def ffFields (s : Schema) (fn : String) (l r : String) : Except FFErr (Option MExpr) :=
  match ffMinMax s l with
  | .error e => .error e
  | .ok (lf, lpk) =>
    match ffMinMax s r with
    | .error e => .error e
    | .ok (rf, rpk) =>
      if !(lpk && rpk) then .ok none
      else match Cmp.ofName fn with
        | some .gt => .ok (some (.cmp .lte (.mx lf) (.mn rf)))
        | some .gte => .ok (some (.cmp .lt (.mx lf) (.mn rf)))
        | some .lt => .ok (some (.cmp .gte (.mn lf) (.mx rf)))
        | some .lte => .ok (some (.cmp .gt (.mn lf) (.mx rf)))
        | some .equal => .ok (some (.or (.cmp .lt (.mx lf) (.mn rf)) (.cmp .lt (.mx rf) (.mn lf))))
        | some .not_equal =>
          .ok (some (.and (.cmp .gte (.mx lf) (.mn rf)) (.cmp .gte (.mx rf) (.mn lf))))
        | none => .error .unsupported

/-- `_falsifiable_condition_literals` (`falsifiable_filters.py:237-254`). -/
def ffLiterals (fn : String) (l r : Scalar) : Except FFErr (Option MExpr) :=
  match Cmp.ofName fn with
  | some .gt => .ok (some (.cmp .lte (.val l) (.val r)))
  | some .gte => .ok (some (.cmp .lt (.val l) (.val r)))
  | some .lt => .ok (some (.cmp .gte (.val l) (.val r)))
  | some .lte => .ok (some (.cmp .gt (.val l) (.val r)))
  | some .equal => .ok (some (.cmp .not_equal (.val l) (.val r)))
  | some .not_equal => .ok (some (.cmp .equal (.val l) (.val r)))
  | none => .error .unsupported

/-- Swapping the operands of a comparison (`falsifiable_filters.py:266-274`). -/
def ffReverse : String → String
  | "gt" => "lt"
  | "gte" => "lte"
  | "lt" => "gt"
  | "lte" => "gte"
  | fn => fn

/-- `_falsifiable_condition_field_literal` (`falsifiable_filters.py:257-289`). -/
def ffFieldLiteral (s : Schema) (fn : String) (c : String) (v : Scalar) (rev : Bool) :
    Except FFErr (Option MExpr) :=
  match ffMinMax s c with
  | .error e => .error e
  | .ok (f, pk) =>
    if !pk then .ok none
    else match Cmp.ofName (if rev then ffReverse fn else fn) with
      | some .gt => .ok (some (.cmp .lte (.mx f) (.val v)))
      | some .gte => .ok (some (.cmp .lt (.mx f) (.val v)))
      | some .lt => .ok (some (.cmp .gte (.mn f) (.val v)))
      | some .lte => .ok (some (.cmp .gt (.mn f) (.val v)))
      | some .equal => .ok (some (.or (.cmp .gt (.mn f) (.val v)) (.cmp .lt (.mx f) (.val v))))
      | some .not_equal =>
        .ok (some (.and (.cmp .equal (.mn f) (.val v)) (.cmp .equal (.mx f) (.val v))))
      | none => .error .unsupported

/-- `_has_scalar_function` (`falsifiable_filters.py:200-201`).  `opq` counts as
one; if it is not, the code raises the same caught exception a line later. -/
def Expr.isFn : Expr → Bool
  | .un .. | .bin .. | .opq .. => true
  | _ => false

/-- The top-level column of a selection: `_min_max` looks at the first step of a
reference into a struct only (`falsifiable_filters.py:300`). -/
def Expr.column : Expr → Option String
  | .sel c => some c
  | .sub c _ => some c
  | _ => none

/-- The value of a literal. -/
def Expr.literal : Expr → Option Scalar
  | .lit v => some v
  | _ => none

/-- `_falsifiable_filter_internal` (`falsifiable_filters.py:113-189`).
Simplification: literals are non-null (a null literal makes `_value` raise). -/
def ffInternal (s : Schema) : Expr → Except FFErr (Option MExpr)
  | .lit v => .ok (some (.not (.lit v)))
  | .sel _ => .error .unsupported
  | .sub .. => .error .unsupported
  | .opq .. => .error .unsupported
  | .un fn a =>
    if fn = "not" then
      match ffInternal s a with
      | .error e => .error e
      | .ok none => .ok none
      | .ok (some f) => .ok (some (.not f))
    else .error .unsupported
  | .bin fn a b =>
    if a.isFn || b.isFn then
      match ffInternal s a with
      | .error e => .error e
      | .ok l =>
        match ffInternal s b with
        | .error e => .error e
        | .ok r =>
          if fn = "and" then
            match l, r with
            | none, r => .ok r
            | l, none => .ok l
            | some l, some r => .ok (some (.or l r))
          else if fn = "or" then
            match l, r with
            | some l, some r => .ok (some (.and l r))
            | _, _ => .ok none
          else .error .unsupported
    else
      match a.column, b.column, a.literal, b.literal with
      | some l, some r, _, _ => ffFields s fn l r
      | none, none, some l, some r => ffLiterals fn l r
      | some c, none, _, some v => ffFieldLiteral s fn c v false
      | none, some c, some v, _ => ffFieldLiteral s fn c v true
      | _, _, _, _ => .error .unsupported

/-- `build_manifest_filter` (`falsifiable_filters.py:39-75`): `ok none` means no
pruning; an error is an exception that escapes to the caller. -/
def buildManifestFilter (s : Schema) (e : Expr) : Except FFErr (Option MExpr) :=
  match ffInternal s e with
  | .error .unsupported => .ok none
  | .error .keyError => .error .keyError
  | .ok none => .ok none
  | .ok (some f) => .ok (some (.not f))

end Space
