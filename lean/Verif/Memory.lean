import Verif.Runner

/-!
# A table of versions in memory

The specification of C51: what a user of one handle may think a table is.  No files,
no manifests, no statistics, no transactions.
-/

namespace Space

/-- Versions of a table: the rows of each, the version `main` is at, the versions that
tags and branches are at, and the branch one works on. -/
structure Mem where
  versions : Nat → Option (List Row)
  main : Nat
  refs : AMap String Ref
  on : String

/-- A new table: version 0, without rows. -/
def Mem.new : Mem :=
  { versions := fun n => if n = 0 then some [] else none, main := 0, refs := [], on := "main" }

/-- The version that an argument names; by default the one the branch is at. -/
def Mem.version (m : Mem) : Option Version → Option Nat
  | none => if m.on = "main" then some m.main else (m.refs.get? m.on).map (·.id)
  | some (.id n) => some n
  | some (.name t) => (m.refs.get? t).map (·.id)

/-- The rows of a version. -/
def Mem.rows (m : Mem) (v : Option Version) : Option (List Row) := (m.version v).bind m.versions

/-- The rows on the branch. -/
def Mem.head (m : Mem) : List Row := (m.rows none).getD []

/-- The number of the next version: above those that anything is at. -/
def Mem.next (m : Mem) : Nat := (m.refs.map (·.2.id)).foldr max m.main + 1

/-- Put a new version on the branch. -/
def Mem.put (m : Mem) (rows : List Row) : Mem :=
  { m with
    versions := fun n => if n = m.next then some rows else m.versions n
    main := if m.on = "main" then m.next else m.main
    refs := if m.on = "main" then m.refs else m.refs.set m.on { id := m.next, kind := .branch } }

/-- The key of a row. -/
def rowKey (s : Schema) (r : Row) : List Val := s.pks.map r.val

/-- What a call answers: it took effect; there was nothing to do; no row was deleted;
it was refused. -/
inductive Ans where
  | done | skipped | vain | refused
deriving DecidableEq, Repr

/-- A call on the table in memory. -/
def Mem.call (I : Interp) (s : Schema) (m : Mem) : Call → Ans × Mem
  | .mutate (.append tables) =>
    if tables.flatten = [] then (.skipped, m)
    else (.done, m.put (m.head ++ tables.flatten.map (·.select s.names)))
  | .mutate (.insert rows) =>
    if rows = [] then (.skipped, m)
    else if (rows.map (rowKey s)).Nodup ∧ ∀ r ∈ m.head, rowKey s r ∉ rows.map (rowKey s) then
      (.done, m.put (m.head ++ rows.map (·.select s.names)))
    else (.refused, m)
  | .mutate (.upsert rows) =>
    if rows = [] then (.skipped, m)
    else if (rows.map (rowKey s)).Nodup then
      (.done, m.put (m.head.filter (fun r => !(rows.map (rowKey s)).contains (rowKey s r)) ++
        rows.map (·.select s.names)))
    else (.refused, m)
  | .mutate (.delete e) =>
    if m.head.any (fun r => e.truth I r == some true) then
      (.done, m.put (m.head.filter (fun r => e.truth I r != some true)))
    else (.vain, m)
  | .mutate _ => (.refused, m)
  | .addTag name id =>
    if name ≠ "" ∧ name ≠ "main" ∧ m.refs.get? name = none ∧ (m.versions (id.getD m.main)).isSome then
      (.done, { m with refs := m.refs.set name { id := id.getD m.main, kind := .tag } })
    else (.refused, m)
  | .addBranch name =>
    if name ≠ "" ∧ name ≠ "main" ∧ m.refs.get? name = none then
      (.done, { m with refs := m.refs.set name { id := m.main, kind := .branch } })
    else (.refused, m)
  | .removeTag name =>
    if (m.refs.get? name).map (·.kind) = some .tag then (.done, { m with refs := m.refs.erase name })
    else (.refused, m)
  | .removeBranch name =>
    if (m.refs.get? name).map (·.kind) = some .branch ∧ name ≠ m.on then
      (.done, { m with refs := m.refs.erase name })
    else (.refused, m)
  | .setBranch name =>
    if name = "main" ∨ (m.refs.get? name).map (·.kind) = some .branch then (.done, { m with on := name })
    else (.refused, m)
  | .reload => (.done, m)

/-- A read of the table in memory. -/
def Mem.read (I : Interp) (s : Schema) (m : Mem) (o : ReadOpts) (v : Option Version) : Option (List Row) :=
  (m.rows v).map fun rows =>
    (rows.filter (fun r => o.filter.all (fun e => e.truth I r == some true))).map (·.select (o.fields.getD s.names))

/-- Several calls: the answers, and the table at the end. -/
def Mem.calls (I : Interp) (s : Schema) (m : Mem) : List Call → List Ans × Mem
  | [] => ([], m)
  | c :: cs =>
    let x := m.call I s c
    let y := x.2.calls I s cs
    (x.1 :: y.1, y.2)

/-- A result of the library that means an answer of the table in memory.  A delete that
finds no row to delete reports that it was skipped or that it failed. -/
def Ans.means : Ans → Result → Prop
  | .done, r => r = .job .succeeded ∨ r = .returned
  | .skipped, r => r = .job .skipped
  | .vain, r => r = .job .skipped ∨ r = .job .failed
  | .refused, r => r = .job .failed ∨ ∃ e, r = .raised e

end Space
