import Verif.Memory

/-!
# The table in memory, used by several at once

The specification of C60.  Users act one after the other; each acts on a branch.  What is
left out is only which number a new version gets: any number above those in use.  Files of
users never change, so what they hold is a constant.
-/

namespace Space

/-- The rows of a branch after a mutation, from those before; `none` if it has no effect.
It does not matter whether the library runs it locally or with Ray.  `fs` has the files that are loaded. -/
def effect (I : Interp) (s : Schema) (fs : FS) (old : List Row) : Mutation → Option (List Row)
  | .append tables => add tables.flatten
  | .rayAppend _ _ rows => add rows
  | .rayAppendFrom _ _ sources => add sources.flatten.flatten
  | .insert rows => insert rows
  | .rayInsert .insert _ _ rows => insert rows
  | .upsert rows => upsert rows
  | .rayInsert .upsert _ _ rows => upsert rows
  | .delete e => delete e
  | .rayDelete e => delete e
  | .appendParquet files => (files.mapM fs.parquet).map (fun found => old ++ found.flatten.flatten)
  | .appendArrayRecord fn files => (files.mapM fs.records).bind (fun found => load fn found.flatten)
  | .sync _ _ gone added => sync gone (added.getD []).flatten.flatten
where
  add (rows : List Row) : Option (List Row) :=
    if rows = [] then none else some (old ++ rows.map (·.select s.names))
  insert (rows : List Row) : Option (List Row) :=
    if (rows.map (rowKey s)).Nodup ∧ ∀ r ∈ old, rowKey s r ∉ rows.map (rowKey s) then add rows else none
  upsert (rows : List Row) : Option (List Row) :=
    if (rows.map (rowKey s)).Nodup ∧ rows ≠ [] then
      some (old.filter (fun r => !(rows.map (rowKey s)).contains (rowKey s r)) ++ rows.map (·.select s.names))
    else none
  delete (e : Expr) : Option (List Row) :=
    if old.any (fun r => e.truth I r == some true) then some (old.filter (fun r => e.truth I r != some true))
    else none
  load (fn : List Nat → Row) (found : List (List Nat)) : Option (List Row) :=
    if found = [] then none else some (old ++ found.map (fun rec => s.names.map (fun c =>
      (c, if s.recs.contains c then .sc (.bytes rec) else (fn rec).val c))))
  sync (gone rows : List Row) : Option (List Row) :=
    if (gone.map (rowKey s)).Nodup ∧ (rows = [] → ∃ r ∈ old, rowKey s r ∈ gone.map (rowKey s)) then
      some (old.filter (fun r => !(gone.map (rowKey s)).contains (rowKey s r)) ++ rows.map (·.select s.names))
    else none

/-- What somebody did: on which branch they worked, the call, and the number of the
version it made, if it made one. -/
structure Deed where
  on : String
  call : Call
  num : Nat

/-- Put a new version with the given number on a branch. -/
def Mem.putAt (m : Mem) (b : String) (n : Nat) (rows : List Row) : Mem :=
  { m with
    versions := fun k => if k = n then some rows else m.versions k
    main := if b = "main" then n else m.main
    refs := if b = "main" then m.refs else m.refs.set b { id := n, kind := .branch } }

/-- The table after a deed; `none` if the deed cannot have been done. -/
def Mem.deed (I : Interp) (s : Schema) (fs : FS) (m : Mem) (d : Deed) : Option Mem :=
  match d.call with
  | .mutate mu =>
    match ({ m with on := d.on }.rows none).bind (fun old => effect I s fs old mu) with
    | some rows =>
      if m.next ≤ d.num ∧ (d.on = "main" ∨ (m.refs.get? d.on).map (·.kind) = some .branch) then
        some (m.putAt d.on d.num rows)
      else none
    | none => none
  | c =>
    match { m with on := d.on }.call I s c with
    | (.done, m') => some m'
    | _ => none

/-- Deeds one after the other. -/
def Mem.deeds (I : Interp) (s : Schema) (fs : FS) (m : Mem) : List Deed → Option Mem
  | [] => some m
  | d :: ds => (m.deed I s fs d).bind (fun m' => m'.deeds I s fs ds)

end Space
