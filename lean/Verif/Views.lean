import Verif.Ray
import Verif.Plans

/-!
# Reading views: `core/transform/udfs.py`, `core/transform/utils.py`, `ray/runners.py`
-/

set_option autoImplicit false

namespace Space

/-- What the Python functions of transforms compute: `map` on a batch of rows
(`Dataset.map_batches`), `keep` on one row (`Dataset.filter`).  Simplification: they do not
raise. -/
structure UdfEnv where
  map : Nat → List Row → List Row
  keep : Nat → Row → Bool

/-- `Dataset.select_columns` on the blocks of a Ray dataset; a missing column raises. -/
def selectColumns (fields : List String) : List (List Row) → Except Err (List (List Row))
  | [] => .ok []
  | b :: bs =>
    if b.all (fun r => fields.all (fun c => r.cols.contains c)) then
      match selectColumns fields bs with
      | .error e => .error e
      | .ok cs => .ok (b.map (·.select fields) :: cs)
    else .error (.other "KeyError")

/-- `transform_utils.ray_dataset` (`core/transform/utils.py:27-42`) with the fields a
transform asks for: they are pushed down into a dataset, and selected from the result of
another view.  `read` is `_ray_dataset` of the input. -/
def inputBlocks (input : View) (read : ReadOpts → Except Err (List (List Row))) (fields : List String)
    (o : ReadOpts) : Except Err (List (List Row)) :=
  match input with
  | .dataset _ => read { o with fields := some fields }
  | _ =>
    match read { o with fields := none } with
    | .error e => .error e
    | .ok bs => selectColumns fields bs

/-- `_ray_dataset` (`core/datasets.py:127-130`, `transform/udfs.py:106-115`, `:151-155`,
`:187-188`) of a view with one source, the storage of handle `h`.  The functions get batches
that Ray cuts in any way from the blocks.  Joins are in `Verif/Join.lean`. -/
def viewBlocks (E : Env) (R : RayEnv) (U : UdfEnv) (fs : FS) (h : Handle) (ray : RayOpts) (id : Option Nat) :
    View → List Nat → ReadOpts → Except Err (List (List Row))
  | .dataset _, at_, o => storageBlocks E R fs h ray at_ o id
  | .map u i fields, at_, o =>
    if o.fields.isSome then .error .userInput
    else
      match inputBlocks i (fun o => viewBlocks E R U fs h ray id i (0 :: at_) o) fields o with
      | .error e => .error e
      | .ok bs => .ok ((R.deliver (1 :: at_) bs).map (U.map u.fn))
  | .filter u i fields, at_, o =>
    if o.fields.isSome then .error .userInput
    else
      match inputBlocks i (fun o => viewBlocks E R U fs h ray id i (0 :: at_) o) fields o with
      | .error e => .error e
      | .ok bs => .ok ((R.deliver (1 :: at_) bs).map (fun b => b.filter (U.keep u.fn)))
  | .joined .., _, _ => .error .userInput

/-- `RayReadOnlyRunner.read` on a view with one source (`ray/runners.py:60-86`) followed by
`read_all`. -/
def viewRead (E : Env) (R : RayEnv) (U : UdfEnv) (ray : RayOpts) (v : View) (h : Handle) (w : World) (o : ReadOpts)
    (ver : Option Version) : Except Err (List Row) :=
  match reload (h, w) with
  | (.error e, _) => .error e
  | (.ok _, (h, w)) =>
    match (match ver with
      | none => .ok none
      | some v => (h.md.versionId v).map some : Except Err (Option Nat)) with
    | .error e => .error e
    | .ok id =>
      match viewBlocks E R U w.fs h ray id v [] o with
      | .error e => .error e
      | .ok bs => .ok (iterBatches bs).flatten

end Space
