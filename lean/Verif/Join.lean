import Verif.Views

/-!
# Joins: `core/views.py`, `core/transform/join.py`, `ray/ops/join.py`
-/

set_option autoImplicit false

namespace Space

/-- `Range` (`core/options.py:102-112`). -/
structure KeyRange where
  min : Scalar
  max : Scalar
  includeMax : Bool := false
deriving DecidableEq, Repr

/-- `_range_to_filter` (`ray/ops/join.py:180-185`). -/
def KeyRange.filter (key : String) (r : KeyRange) : Expr :=
  .bin "and" (.bin "gte" (.sel key) (.lit r.min))
    (.bin (if r.includeMax then "lte" else "lt") (.sel key) (.lit r.max))

/-- `JoinInput` (`ray/ops/join.py:40-47`). -/
structure JoinSide where
  view : View
  fields : Option (List String) := none
  refRead : Bool := false

/-- `View.schema.names`: `s` is the schema of the source dataset. -/
def View.schemaNames (s : Schema) : View → List String
  | .dataset _ => s.names
  | .map u _ _ => u.out.map AField.name
  | .filter _ i _ => i.schemaNames s
  | .joined out _ _ => out.map AField.name

/-- `field_name_to_id_dict(view.schema)` at the join key (`ray/ops/join.py:147-154`): `none` if
there is no such field; the id is absent if the schema of the view has no field ids. -/
def View.keyId (s : Schema) (key : String) : View → Option (Option Nat)
  | .dataset _ => (s.fidOf key).map some
  | .map u _ _ => (nameToId u.out).get? key
  | .filter _ i _ => i.keyId s key
  | .joined out _ _ => (nameToId out).get? key

/-- A `JoinTransform` (`transform/join.py:38-50`) with the names of its output schema. -/
structure JoinView where
  key : String
  left : JoinSide
  right : JoinSide
  outs : List String
  /-- both sides have the same source -/
  same : Bool := false

/-- `_sanitize_fields` (`core/views.py:203-210`). -/
def joinFields (key : String) : Option (List String) → Except Err (Option (List String))
  | none => .ok none
  | some fs =>
    if fs.isEmpty || fs == [key] then .error .userInput
    else .ok (some (if fs.contains key then fs else fs ++ [key]))

/-- Non-key fields of an input (`transform/join.py:69-83`); an unknown field raises. -/
def JoinSide.outFields (s : Schema) (key : String) (x : JoinSide) : Except Err (List String) :=
  let fs := (x.fields.getD (x.view.schemaNames s)).filter (· ≠ key)
  if fs.all (fun c => (x.view.schemaNames s).contains c) then .ok fs else .error .userInput

/-- `View.join` (`core/views.py:183-224`) and `JoinTransform._output_schema`
(`transform/join.py:65-97`).  `s`, `s'` are the schemas of the sources; transforms keep the
primary keys of their input. -/
def View.join (s s' : Schema) (left right : View) (keys : List String) (lf rf : Option (List String))
    (lref rref same : Bool) : Except Err JoinView :=
  match keys with
  | [key] =>
    if !(s.pks.contains key && s'.pks.contains key) then .error .userInput
    else
      match joinFields key lf with
      | .error e => .error e
      | .ok lf =>
        match joinFields key rf with
        | .error e => .error e
        | .ok rf =>
          let l : JoinSide := ⟨left, lf, lref⟩
          let r : JoinSide := ⟨right, rf, rref⟩
          match l.outFields s key with
          | .error e => .error e
          | .ok lo =>
            match r.outFields s' key with
            | .error e => .error e
            | .ok ro => .ok { key := key, left := l, right := r, outs := key :: lo ++ ro, same := same }
  | _ => .error .userInput

/-- `pc.min` and `pc.max` of the statistics of one manifest (`ray/ops/join.py:160-169`); a
column that is not there raises. -/
def manifestRange (fid : Nat) (rows : List ManifestRow) : Except Err (Option Scalar × Option Scalar) :=
  if rows.all (fun m => (m.stats.get? fid).isSome) then
    .ok ((minMaxOf (rows.map (fun m => (m.stats.get? fid).bind (·.1)))).1,
      (minMaxOf (rows.map (fun m => (m.stats.get? fid).bind (·.2)))).2)
  else .error (.other "KeyError")

/-- The loop over `Storage.index_manifest` (`ray/ops/join.py:157-169`, `storage.py:459-480`).
Python's `min` of a value and `None` raises a TypeError, as in `mergeStats`. -/
def rangeLoop (fs : FS) (fid : Nat) : List Path → Option Scalar × Option Scalar →
    Except Err (Option Scalar × Option Scalar)
  | [], acc => .ok acc
  | p :: ps, acc =>
    match fs.imanifest p with
    | none => .error (.other "FileNotFoundError")
    | some rows =>
      match manifestRange fid rows with
      | .error e => .error e
      | .ok st =>
        match mergeStats acc st with
        | .error e => .error e
        | .ok acc => rangeLoop fs fid ps acc

/-- `_join_key_range` (`ray/ops/join.py:145-177`).  Views of two sources are refused by
`singleton_storage` (`ray/ops/utils.py:29-41`). -/
def joinKeyRange (fs : FS) (h : Handle) (v : View) (key : String) : Except Err (Option KeyRange) :=
  match v with
  | .joined .. => .error .userInput
  | _ =>
    match v.keyId h.md.schema key with
    | none => .error .userInput
    | some none => .error (.other "KeyError")
    | some (some fid) =>
      match h.snapshot none with
      | .error e => .error e
      | .ok snap =>
        match rangeLoop fs fid snap.index (none, none) with
        | .error e => .error e
        | .ok (none, none) => .ok none
        | .ok (some mn, some mx) => .ok (some ⟨mn, mx, true⟩)
        | .ok _ => .error (.other "AssertionError")

/-- The ranges that are joined (`ray/ops/join.py:69-79`). -/
def joinRanges (partition : Option (KeyRange → List KeyRange)) : Option KeyRange → Option KeyRange → List KeyRange
  | some l, some r =>
    let whole : KeyRange := ⟨if l.min < r.min then r.min else l.min, if r.max < l.max then r.max else l.max, true⟩
    match partition with
    | none => [whole]
    | some f => f whole
  | _, _ => []

/-- `transform_utils.ray_dataset` of one side (`transform/utils.py:27-42`), read to the end
(`_read_all`, `ray/ops/join.py:137-142`): the rows of the non-empty blocks. -/
def sideRead (E : Env) (R : RayEnv) (U : UdfEnv) (fs : FS) (h : Handle) (ray : RayOpts) (x : JoinSide) (at_ : List Nat)
    (filter : Option Expr) : Except Err (List Row) :=
  let o : ReadOpts := { filter := filter, refRead := x.refRead }
  let bs := match x.view, x.fields with
    | .dataset _, fields => viewBlocks E R U fs h ray none x.view at_ { o with fields := fields }
    | _, none => viewBlocks E R U fs h ray none x.view at_ o
    | _, some fields => inputBlocks x.view (viewBlocks E R U fs h ray none x.view at_) fields o
  match bs with
  | .error e => .error e
  | .ok bs => .ok (iterBatches bs).flatten

/-- A cell of a nested type. -/
def Val.nested : Val → Bool
  | .struct _ => true
  | _ => false

/-! ### Addresses are flattened for the join, and folded again -/

/-- Names of columns after `Table.flatten()`: `file_path_field_name` and `row_id_field_name`
(`schema/utils.py:55-62`) of a record field, or the name of a column.  Simplification: no column is
named like the file or row id of a record field. -/
inductive FlatName where
  | col (c : String)
  | file (f : String)
  | rowId (f : String)
deriving DecidableEq, Repr

inductive FlatCell where
  | cell (v : Val)
  | file (p : Path)
  | rowId (i : Nat)
deriving DecidableEq, Repr

def FlatCell.nested : FlatCell → Bool
  | .cell v => v.nested
  | _ => false

/-- A row of a flattened table. -/
abbrev FlatRow := AMap FlatName FlatCell

/-- `Table.flatten()` on one row (`ray/ops/join.py:120-124`).  Simplification: columns of other
nested types stay as they are, so that the join refuses them; flattened they would be missing in the
result. -/
def flatten (recs : List String) (r : Row) : FlatRow :=
  r.flatMap fun x => match recs.contains x.1, x.2 with
    | true, .addr p i => [(.file x.1, .file p), (.rowId x.1, .rowId i)]
    | _, v => [(.col x.1, .cell v)]

/-- A flattened table: its columns, and its rows. -/
structure Flat where
  cols : List FlatName
  rows : List FlatRow

/-- `pa.Table.join` with `join_type="inner"` (`ray/ops/join.py:127`): null keys match nothing; the
columns are those of the left, and those of the right without the key. -/
def joinFlat (key : String) (l r : List FlatRow) : List FlatRow :=
  l.flatMap fun a => (r.filter fun b =>
      decide (a.get? (.col key) ≠ none) && decide (a.get? (.col key) ≠ some (.cell .null)) &&
        decide (a.get? (.col key) = b.get? (.col key))).map fun b =>
    a ++ b.filter fun x => decide (x.1 ≠ .col key)

/-- `pa.StructArray.from_arrays` on one row; other columns than those of addresses do not occur. -/
def foldCells : Option FlatCell → Option FlatCell → FlatCell
  | some (.file p), some (.rowId i) => .cell (.addr p i)
  | _, _ => .cell .null

/-- One step of `_fold_addresses` (`ray/ops/join.py:195-209`); `column` refuses names that are
missing or not unique. -/
def Flat.fold (f : String) (t : Flat) : Except Err Flat :=
  if t.cols.count (.file f) = 1 && t.cols.count (.rowId f) = 1 then
    .ok { cols := t.cols.filter (fun c => decide (c ≠ .file f) && decide (c ≠ .rowId f)) ++ [.col f],
          rows := t.rows.map fun r => r.filter (fun x => decide (x.1 ≠ .file f) && decide (x.1 ≠ .rowId f)) ++
            [(.col f, foldCells (r.get? (.file f)) (r.get? (.rowId f)))] }
  else .error (.other "KeyError")

/-- `_fold_addresses` (`ray/ops/join.py:194-211`). -/
def foldAddresses : List String → Flat → Except Err Flat
  | [], t => .ok t
  | f :: fs, t =>
    match t.fold f with
    | .error e => .error e
    | .ok t => foldAddresses fs t

/-- The cell of a column. -/
def FlatCell.value : Option FlatCell → Val
  | some (.cell v) => v
  | _ => .null

/-- `Table.select` (`ray/ops/join.py:133-134`). -/
def Flat.select (outs : List String) (t : Flat) : Except Err (List Row) :=
  if outs.all (fun c => t.cols.count (.col c) = 1) then
    .ok (t.rows.map fun r => outs.map fun c =>
      (c, FlatCell.value (AMap.get? r (.col c))))
  else .error (.other "KeyError")

/-- `_join` (`ray/ops/join.py:107-142`); `lrec`, `rrec` are the record fields of a side that is read
by reference.  Library behaviour: `concat_tables` refuses tables with different columns, and
`Table.join` refuses nested columns (simplification: recognised by their values). -/
def joinPart (key : String) (outs : List String) (lrec rrec : Option (List String)) (l r : List Row) :
    Except Err (Option (List Row)) :=
  match l, r with
  | a :: _, b :: _ =>
    if !(l.all (fun x => x.cols = a.cols) && r.all (fun x => x.cols = b.cols)) then .error (.other "ArrowInvalid")
    else
      let flatL := flatten (lrec.getD [])
      let flatR := flatten (rrec.getD [])
      if (l.map flatL ++ r.map flatR).any (fun x => x.any (fun c => c.2.nested)) then .error (.other "ArrowInvalid")
      else
        match foldAddresses (lrec.getD [])
            ⟨(flatL a).keys ++ (flatR b).keys.filter (fun c => decide (c ≠ .col key)),
              joinFlat key (l.map flatL) (r.map flatR)⟩ with
        | .error e => .error e
        | .ok t =>
          match foldAddresses (rrec.getD []) t with
          | .error e => .error e
          | .ok t => (t.select outs).map some
  | _, _ => .ok none

/-- `view.record_fields`; `s` is the schema of the source dataset. -/
def View.recordFields (s : Schema) : View → List String
  | .dataset _ => s.recs
  | .map u _ _ => u.recs
  | .filter _ i _ => i.recordFields s
  | .joined _ _ recs => recs

/-- `_selected_record_fields` (`ray/ops/join.py:187-191`) of a side that is read by reference. -/
def JoinSide.folded (s : Schema) (x : JoinSide) : Option (List String) :=
  if x.refRead then
    match x.fields with
    | none => some (x.view.recordFields s)
    | some f => some ((x.view.recordFields s).filter (fun c => f.contains c)).eraseDups
  else none

/-- The loop over the ranges (`ray/ops/join.py:81-103`). -/
def joinParts (lread rread : Nat → Expr → Except Err (List Row)) (key : String) (outs : List String)
    (lrec rrec : Option (List String)) : Nat → List KeyRange → Except Err (List (Option (List Row)))
  | _, [] => .ok []
  | k, ρ :: ρs =>
    match lread k (ρ.filter key) with
    | .error e => .error e
    | .ok l =>
      match rread k (ρ.filter key) with
      | .error e => .error e
      | .ok r =>
        match joinPart key outs lrec rrec l r with
        | .error e => .error e
        | .ok b =>
          match joinParts lread rread key outs lrec rrec (k + 1) ρs with
          | .error e => .error e
          | .ok bs => .ok (b :: bs)

/-- `ray.data.from_arrow_refs` (`ray/ops/join.py:105`).  What Ray does with a `None` instead
of a table is a parameter: raise, or take it as no rows. -/
def fromArrowRefs (noneBlock : Option Err) : List (Option (List Row)) → Except Err (List (List Row))
  | [] => .ok []
  | b :: bs =>
    match b, noneBlock with
    | none, some e => .error e
    | b, _ =>
      match fromArrowRefs noneBlock bs with
      | .error e => .error e
      | .ok cs => .ok (b.getD [] :: cs)

/-- `RayJoinOp.ray_dataset` (`ray/ops/join.py:66-105`). -/
def joinBlocks (E : Env) (R : RayEnv) (U : UdfEnv) (noneBlock : Option Err) (ray : RayOpts) (J : JoinView)
    (partition : Option (KeyRange → List KeyRange)) (fs : FS) (h : Handle) (fs' : FS) (h' : Handle) :
    Except Err (List (List Row)) :=
  match joinKeyRange fs h J.left.view J.key with
  | .error e => .error e
  | .ok lr =>
    match joinKeyRange fs' h' J.right.view J.key with
    | .error e => .error e
    | .ok rr =>
      match joinParts (fun k e => sideRead E R U fs h ray J.left [k, 0] (some e))
          (fun k e => sideRead E R U fs' h' ray J.right [k, 1] (some e)) J.key J.outs
          (J.left.folded h.md.schema) (J.right.folded h'.md.schema) 0 (joinRanges partition lr rr) with
      | .error e => .error e
      | .ok parts =>
        match fromArrowRefs noneBlock parts with
        | .error e => .error e
        | .ok bs => .ok (R.deliver [] bs)

/-- `RayReadOnlyRunner.read` on a join (`ray/runners.py:60-86`, `transform/join.py:112-128`),
followed by `read_all`: all sources are reloaded; a version needs a single source; the
filter and the snapshot id are not looked at.  `(h, w)` and `(h', w')` are the storages of
the sides. -/
def joinRead (E : Env) (R : RayEnv) (U : UdfEnv) (noneBlock : Option Err) (ray : RayOpts) (J : JoinView)
    (partition : Option (KeyRange → List KeyRange)) (h : Handle) (w : World) (h' : Handle) (w' : World)
    (o : ReadOpts) (ver : Option Version) : Except Err (List Row) :=
  match reload (h, w) with
  | (.error e, _) => .error e
  | (.ok _, (h, w)) =>
    match reload (h', w') with
    | (.error e, _) => .error e
    | (.ok _, (h', w')) =>
      match (match ver with
        | none => .ok none
        | some v => if J.same then (h.md.versionId v).map some else .error .userInput : Except Err (Option Nat)) with
      | .error e => .error e
      | .ok _ =>
        if o.fields.isSome || o.refRead then .error .userInput
        else
          match joinBlocks E R U noneBlock ray J partition w.fs h w'.fs h' with
          | .error e => .error e
          | .ok bs => .ok (iterBatches bs).flatten

end Space
