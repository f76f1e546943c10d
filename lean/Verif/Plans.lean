import Verif.Schema
import Verif.Paths

/-!
# Views and their logical plans: `core/views.py`, `core/transform/plans.py`,
`core/transform/udfs.py`
-/

set_option autoImplicit false

namespace Space

open Paths (Str str join metadataDir relpath place rooted)

/-! ## Views -/

/-- `UserDefinedFn` (`transform/plans.py:38-51`); `fn` stands for the Python function. -/
structure Udf where
  fn : Nat
  out : List AField
  recs : List String
  batch : Option Nat := none
deriving DecidableEq, Repr

/-- What a view uses of a `Dataset` object (`core/datasets.py:32-73`): its location, its
logical schema, primary keys and record fields. -/
structure Source where
  loc : Str
  schema : List AField
  pks : List String
  recs : List String
deriving DecidableEq, Repr

/-- `View` objects: `Dataset`, `MapTransform` and `FilterTransform`
(`transform/udfs.py:48-56`).  Of `JoinTransform` (`transform/join.py:38-50`) only what its
users see is kept: a join has no logical plan. -/
inductive View where
  | dataset (d : Source)
  | map (u : Udf) (input : View) (fields : List String)
  | filter (u : Udf) (input : View) (fields : List String)
  | joined (out : List AField) (pks recs : List String)
deriving DecidableEq, Repr

namespace View

/-- `schema` (`datasets.py:63-65`, `udfs.py:126-127`, `:163-164`, `join.py:61-62`). -/
def schema : View → List AField
  | dataset d => d.schema
  | map u _ _ => u.out
  | filter _ i _ => i.schema
  | joined out _ _ => out

/-- `primary_keys` (`datasets.py:68-69`, `udfs.py:59-60`, `join.py:53-54`). -/
def pks : View → List String
  | dataset d => d.pks
  | map _ i _ => i.pks
  | filter _ i _ => i.pks
  | joined _ ks _ => ks

/-- `record_fields` (`datasets.py:72-73`, `udfs.py:130-131`, `:167-168`, `join.py:100-106`). -/
def recs : View → List String
  | dataset d => d.recs
  | map u _ _ => u.recs
  | filter _ i _ => i.recs
  | joined _ _ rs => rs

/-- `_default_or_validate_input_fields` (`views.py:226-244`). -/
def inputFields (v : View) : Option (List String) → Except Err (List String)
  | none => .ok (v.schema.map AField.name)
  | some l =>
    if v.pks.all (fun k => l.contains k) then
      if l.all (fun n => (v.schema.map AField.name).contains n) then .ok l
      else .error .userInput
    else .error .userInput

/-- `map_batches` (`views.py:126-159`). -/
def mapBatches (v : View) (fn : Nat) (out : AFields) (fields : Option (List String))
    (recs : Option (List String)) (batch : Option Nat) : Except Err View := do
  let out := (assignIds out).toList
  let fields ← v.inputFields fields
  validateSchema out v.pks (recs.getD [])
  return .map ⟨fn, out, recs.getD [], batch⟩ v fields

/-- `filter` (`views.py:161-181`). -/
def filterBy (v : View) (fn : Nat) (fields : Option (List String)) : Except Err View := do
  let fields ← v.inputFields fields
  return .filter ⟨fn, v.schema, v.recs, none⟩ v fields

end View

/-! ## Substrait plans -/

/-- `ScalarFunction`: function anchor and argument field ids (`udfs.py:140-141`). -/
structure FnCall where
  ref : Nat
  args : List (Option Nat)
deriving DecidableEq, Repr

/-- `Rel`, the kinds the code writes and reads. -/
inductive Rel where
  | read (names : List Str)
  | project (input : Rel) (exprs : List FnCall)
  | filter (input : Rel) (cond : FnCall)
  | other
deriving DecidableEq, Repr

/-- `SimpleExtensionURI`. -/
structure ExtUri where
  anchor : Nat
  uri : String
deriving DecidableEq, Repr

/-- `SimpleExtensionDeclaration.ExtensionFunction`. -/
structure ExtFn where
  uriRef : Nat
  anchor : Nat
  name : Str
deriving DecidableEq, Repr

/-- `Plan`. -/
structure Plan where
  uris : List ExtUri := []
  exts : List ExtFn := []
  relations : List Rel := []
deriving DecidableEq, Repr

/-- `LogicalPlan` of `metadata.proto`: the plan and the paths of the pickled functions. -/
structure LogicalPlan where
  plan : Plan
  udfs : AMap Str Str := []
deriving DecidableEq, Repr

/-- `SIMPLE_UDF_URI` (`plans.py:34`). -/
def simpleUdfUri : String := "urn:space:substrait_simple_extension_function"

/-- `LogicalPlanBuilder` (`plans.py:69-77`); `drawn` counts the random ids used. -/
structure Builder where
  plan : Plan := {}
  udfs : AMap Str Udf := []
  nextUri : Nat := 1
  nextFn : Nat := 1
  drawn : Nat := 0
deriving DecidableEq, Repr

/-- The loop of `new_udf_name` (`plans.py:108-118`): `rnd` are the random ids. -/
def tryName (rnd : Nat → Str) (udfs : AMap Str Udf) : Nat → Nat → Except Err (Str × Nat)
  | 0, _ => .error .runtime
  | n + 1, k =>
    let name := str "udf_" ++ rnd k
    if (udfs.get? name).isNone then .ok (name, k + 1) else tryName rnd udfs n (k + 1)

/-- `_add_udf` (`udfs.py:66-89`). -/
def Builder.addUdf (rnd : Nat → Str) (b : Builder) (u : Udf) : Except Err (Nat × Builder) := do
  let (name, k) ← tryName rnd b.udfs 10 b.drawn
  return (b.nextFn,
    { plan := { b.plan with uris := b.plan.uris ++ [⟨b.nextUri, simpleUdfUri⟩],
                            exts := b.plan.exts ++ [⟨b.nextUri, b.nextFn, name⟩] },
      udfs := b.udfs.set name u, nextUri := b.nextUri + 1, nextFn := b.nextFn + 1, drawn := k })

/-- Look up all names; a missing one raises `KeyError`. -/
def lookAll {α β : Type} [DecidableEq α] (d : AMap α β) : List α → Except Err (List β)
  | [] => .ok []
  | a :: as =>
    match d.get? a with
    | none => .error (.other "KeyError")
    | some b =>
      match lookAll d as with
      | .error e => .error e
      | .ok bs => .ok (b :: bs)

/-- `_arguments` (`udfs.py:91-100`). -/
def arguments (input : View) (fields : List String) : Except Err (List (Option Nat)) :=
  if fields = [] then .error .runtime else lookAll (nameToId input.schema) fields

/-- `to_relation` (`datasets.py:114-121`, `udfs.py:133-142`, `:170-178`, `join.py:128-129`). -/
def View.toRelation (rnd : Nat → Str) : View → Builder → Except Err (Rel × Builder)
  | dataset d, b => .ok (.read [d.loc], b)
  | map u i fields, b => do
    let (r, b) ← i.toRelation rnd b
    let (anchor, b) ← b.addUdf rnd u
    let args ← arguments i fields
    return (.project r [⟨anchor, args⟩], b)
  | filter u i fields, b => do
    let (r, b) ← i.toRelation rnd b
    let (anchor, b) ← b.addUdf rnd u
    let args ← arguments i fields
    return (.filter r ⟨anchor, args⟩, b)
  | joined .., _ => .error (.other "NotImplementedError")

/-- Pickled functions by the place of their files.  Simplification: pickling a function
object and loading it gives an equal object. -/
abbrev Pickles := AMap (List Str) Udf

/-- The directory of the pickles (`views.py:297`). -/
def udfDir (location : Str) : Str := join (metadataDir location) (str "udfs")

/-- `full_path` of a pickle (`views.py:301`). -/
def pickleFile (location name : Str) : Str := join (udfDir location) (name ++ str ".pkl")

/-- The loop of `MaterializedView.create` (`views.py:300-303`). -/
def dumpUdfs (cwd location : Str) : List (Str × Udf) → Pickles → AMap Str Str → Pickles × AMap Str Str
  | [], files, paths => (files, paths)
  | (name, u) :: us, files, paths =>
    let full := pickleFile location name
    dumpUdfs cwd location us (files.set (place (rooted cwd) full) u)
      (paths.set name (relpath cwd full location))

/-- `materialize` up to the creation of the storage (`views.py:113-123`, `:294-303`): the
logical plan given to `Storage.create`, and the pickles. -/
def View.materialize (rnd : Nat → Str) (cwd location : Str) (v : View) (files : Pickles) :
    Except Err (LogicalPlan × Pickles) := do
  let (r, b) ← v.toRelation rnd {}
  let (files, paths) := dumpUdfs cwd location b.udfs files []
  return (⟨{ b.plan with relations := b.plan.relations ++ [r] }, paths⟩, files)

/-! ## Loading -/

/-- `_CompactPlan` (`udfs.py:192-200`). -/
structure CompactPlan where
  fns : AMap Nat ExtFn
  uris : AMap Nat ExtUri
deriving DecidableEq, Repr

/-- `from_plan` (`udfs.py:203-213`). -/
def Plan.compact (p : Plan) : CompactPlan :=
  ⟨p.exts.foldl (fun m e => m.set e.anchor e) [], p.uris.foldl (fun m u => m.set u.anchor u) []⟩

/-- The first part of `_load_udf` (`udfs.py:225-236`): the function object. -/
def loadUdf (cwd location : Str) (lp : LogicalPlan) (files : Pickles) (p : CompactPlan) (c : FnCall) :
    Except Err Udf :=
  match p.fns.get? c.ref with
  | none => .error (.other "KeyError")
  | some ext =>
    match p.uris.get? ext.uriRef with
    | none => .error (.other "KeyError")
    | some uri =>
      if uri.uri ≠ simpleUdfUri then .error (.other "LogicalPlanError")
      else
        match lp.udfs.get? ext.name with
        | none => .error (.other "KeyError")
        | some path =>
          match files.get? (place (rooted cwd) (join location path)) with
          | none => .error (.other "FileNotFoundError")
          | some u => .ok u

/-- `_load_view` and the `from_relation` methods (`udfs.py:145-149`, `:181-185`, `:238-246`, `:256-266`);
`load` is `Dataset.load`. -/
def loadRel (load : Str → Except Err Source) (cwd location : Str) (lp : LogicalPlan) (files : Pickles)
    (p : CompactPlan) : Rel → Except Err View
  | .read names =>
    match names with
    | [] => .error (.other "IndexError")
    | n :: _ =>
      match load n with
      | .error e => .error e
      | .ok d => .ok (.dataset d)
  | .project input exprs =>
    match exprs with
    | [] => .error (.other "IndexError")
    | c :: _ => do
      let u ← loadUdf cwd location lp files p c
      let v ← loadRel load cwd location lp files p input
      let fields ← lookAll (idToName v.schema) c.args
      return .map u v fields
  | .filter input c => do
    let u ← loadUdf cwd location lp files p c
    let v ← loadRel load cwd location lp files p input
    let fields ← lookAll (idToName v.schema) c.args
    return .filter u v fields
  | .other => .error (.other "LogicalPlanError")

/-- `load_view` (`udfs.py:249-253`), called by `load_materialized_view` (`views.py:315-323`). -/
def loadView (load : Str → Except Err Source) (cwd location : Str) (lp : LogicalPlan) (files : Pickles) :
    Except Err View :=
  match lp.plan.relations with
  | [] => .error (.other "IndexError")
  | r :: _ => loadRel load cwd location lp files lp.plan.compact r

end Space
