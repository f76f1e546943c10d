import Verif.Join

/-!
# Objects that callers pass: options of `View.ray_dataset`, lists of `View.join`, the
dictionary of `RandomAccessDataSource`; transforms on top of joins

Python passes objects.  A function that changes an object it was given changes it for the
caller and for everyone else who holds it.  Here each function also returns the object as it
leaves it.
-/

set_option autoImplicit false

namespace Space

/-! ## Read options -/

/-- `transform_utils.ray_dataset` (`core/transform/utils.py:27-42`) on the options object
`o`; `read` is `_ray_dataset` of the input. -/
def inputCall (input : View) (read : ReadOpts → Except Err (List (List Row)) × ReadOpts) (o : ReadOpts) :
    Except Err (List (List Row)) × ReadOpts :=
  match input with
  | .dataset _ => read o
  | _ =>
    match read { o with fields := none } with
    | (.error e, o') => (.error e, o')
    | (.ok bs, o') =>
      match o.fields with
      | none => (.ok bs, o')
      | some fields => (selectColumns fields bs, o')

/-- `_ray_dataset` (`core/datasets.py:127-130`, `transform/udfs.py:106-115`, `:151-155`,
`:187-188`) on the options object `o`.  `leaf` is `_ray_dataset` of datasets and joins, which
leave the object as it is (`storage.py:445-457`, `transform/join.py:111-126`). -/
def chainCall (R : RayEnv) (U : UdfEnv) (leaf : View → List Nat → ReadOpts → Except Err (List (List Row))) :
    View → List Nat → ReadOpts → Except Err (List (List Row)) × ReadOpts
  | .dataset d, at_, o => (leaf (.dataset d) at_ o, o)
  | .joined out pks recs, at_, o => (leaf (.joined out pks recs) at_ o, o)
  | .map u i fields, at_, o =>
    if o.fields.isSome then (.error .userInput, o)
    else
      match inputCall i (fun o => chainCall R U leaf i (0 :: at_) o) { o with fields := some fields } with
      | (.error e, o') => (.error e, o')
      | (.ok bs, o') => (.ok ((R.deliver (1 :: at_) bs).map (U.map u.fn)), o')
  | .filter u i fields, at_, o =>
    if o.fields.isSome then (.error .userInput, o)
    else
      match inputCall i (fun o => chainCall R U leaf i (0 :: at_) o) { o with fields := some fields } with
      | (.error e, o') => (.error e, o')
      | (.ok bs, o') => (.ok ((R.deliver (1 :: at_) bs).map (fun b => b.filter (U.keep u.fn))), o')

/-- The leaf of a view with one source: the storage of handle `h`; a join has two. -/
def storageLeaf (E : Env) (R : RayEnv) (fs : FS) (h : Handle) (ray : RayOpts) (id : Option Nat) :
    View → List Nat → ReadOpts → Except Err (List (List Row))
  | .dataset _, at_, o => storageBlocks E R fs h ray at_ o id
  | _, _, _ => .error .userInput

/-- `View.ray_dataset(read_options=o)` (`core/views.py:92-99`) of a view with one source, and
the rows of the dataset; nothing is reloaded.  Also returns the options object afterwards. -/
def rayDatasetCall (E : Env) (R : RayEnv) (U : UdfEnv) (ray : RayOpts) (v : View) (h : Handle) (w : World)
    (id : Option Nat) (o : ReadOpts) : Except Err (List Row) × ReadOpts :=
  match chainCall R U (storageLeaf E R w.fs h ray id) v [] o with
  | (.error e, o') => (.error e, o')
  | (.ok bs, o') => (.ok (iterBatches bs).flatten, o')

/-! ## Transforms on top of a join -/

/-- The leaf of a view on top of the join `J` (`transform/join.py:111-126`).  Join options are
not passed on: `transform/utils.py:30`, `:40` makes empty ones, so there is no partition
function. -/
def joinLeaf (E : Env) (R : RayEnv) (U : UdfEnv) (noneBlock : Option Err) (ray : RayOpts) (J : JoinView)
    (fs : FS) (h : Handle) (fs' : FS) (h' : Handle) : View → List Nat → ReadOpts → Except Err (List (List Row))
  | .joined .., _, o =>
    if o.fields.isSome || o.refRead then .error .userInput
    else joinBlocks E R U noneBlock ray J none fs h fs' h'
  | _, _, _ => .error .userInput

/-- `RayReadOnlyRunner.read` (`ray/runners.py:60-86`) on a map or filter on top of the join `J`,
followed by `read_all`: as `joinRead`, but the join options are not used. -/
def overRead (E : Env) (R : RayEnv) (U : UdfEnv) (noneBlock : Option Err) (ray : RayOpts) (J : JoinView) (v : View)
    (h : Handle) (w : World) (h' : Handle) (w' : World) (o : ReadOpts) (ver : Option Version) : Except Err (List Row) :=
  match reload (h, w) with
  | (.error e, _) => .error e
  | (.ok _, (h, w)) =>
    match reload (h', w') with
    | (.error e, _) => .error e
    | (.ok _, (h', w')) =>
      match (match ver with
        | none => .ok none
        | some v => if J.same then (h.md.versionId v).map some else .error .userInput : Except Err (Option Nat)) with
      | .error e => .error e
      | .ok _ =>
        match (chainCall R U (joinLeaf E R U noneBlock ray J w.fs h w'.fs h') v [] o).1 with
        | .error e => .error e
        | .ok bs => .ok (iterBatches bs).flatten

/-! ## Lists of fields -/

/-- Lists of names that a program holds, by their addresses. -/
abbrev Lists := AMap Nat (List String)

/-- The list at an address. -/
def Lists.at (H : Lists) (a : Nat) : List String := (H.get? a).getD []

/-- `_sanitize_fields` (`core/views.py:203-210`) on the list object at an address. -/
def sanitizeAt (key : String) (H : Lists) : Option Nat → Except Err Unit × Lists
  | none => (.ok (), H)
  | some a =>
    if (H.at a).isEmpty || H.at a == [key] then (.error .userInput, H)
    else (.ok (), if (H.at a).contains key then H else H.set a (H.at a ++ [key]))

/-- A `JoinTransform` as an object: its inputs hold the lists of the caller
(`core/views.py:218-224`, `ray/ops/join.py:40-47`); the names of its output schema are made
when it is made (`transform/join.py:48-50`). -/
structure JoinRef where
  key : String
  left : View
  right : View
  leftFields : Option Nat
  rightFields : Option Nat
  leftRef : Bool
  rightRef : Bool
  outs : List String
  same : Bool

/-- What reading the object looks at: the lists as they are now. -/
def JoinRef.now (H : Lists) (J : JoinRef) : JoinView :=
  { key := J.key, left := ⟨J.left, J.leftFields.map H.at, J.leftRef⟩,
    right := ⟨J.right, J.rightFields.map H.at, J.rightRef⟩, outs := J.outs, same := J.same }

/-- `View.join` (`core/views.py:183-224`) and `JoinTransform.__post_init__`, given lists by
address. -/
def joinCall (s s' : Schema) (left right : View) (keys : List String) (lf rf : Option Nat)
    (lref rref same : Bool) (H : Lists) : Except Err JoinRef × Lists :=
  match keys with
  | [key] =>
    if !(s.pks.contains key && s'.pks.contains key) then (.error .userInput, H)
    else
      match sanitizeAt key H lf with
      | (.error e, H) => (.error e, H)
      | (.ok _, H) =>
        match sanitizeAt key H rf with
        | (.error e, H) => (.error e, H)
        | (.ok _, H) =>
          match JoinSide.outFields s key ⟨left, lf.map H.at, lref⟩ with
          | .error e => (.error e, H)
          | .ok lo =>
            match JoinSide.outFields s' key ⟨right, rf.map H.at, rref⟩ with
            | .error e => (.error e, H)
            | .ok ro => (.ok ⟨key, left, right, lf, rf, lref, rref, key :: lo ++ ro, same⟩, H)
  | _ => (.error .userInput, H)

/-! ## Feature fields -/

/-- The value of an entry of `feature_fields`: a location, or a storage object. -/
inductive GivenStorage (S : Type) where
  | location (path : String)
  | opened (storage : S)
deriving DecidableEq, Repr

/-- The loop over `feature_fields` of `RandomAccessDataSource.__init__`
(`core/random_access.py:165-173`): the dictionary afterwards; `load` is `Storage.load`. -/
def openFeatures {S : Type} (load : String → Except Err S) :
    List (String × GivenStorage S) → Except Err Unit × List (String × GivenStorage S)
  | [] => (.ok (), [])
  | (field, .opened x) :: rest =>
    let r := openFeatures load rest
    (r.1, (field, .opened x) :: r.2)
  | (field, .location p) :: rest =>
    match load p with
    | .error e => (.error e, (field, .location p) :: rest)
    | .ok x =>
      let r := openFeatures load rest
      (r.1, (field, .opened x) :: r.2)

end Space
