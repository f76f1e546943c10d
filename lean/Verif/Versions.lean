import Verif.Storage

/-!
# `Storage.versions` (`core/storage.py:410-443`)
-/

namespace Space

/-- The rows joined with key `k`, or `k` alone. -/
def orAlone {β : Type} (k : Nat) : List (Nat × Option β) → List (Nat × Option β)
  | [] => [(k, none)]
  | rows => rows

/-- Arrow's left outer join on an integer key (`storage.py:441-443`): every left row
with each right row of the same key, or alone.  The order of the result is not
specified; the caller sorts. -/
def leftOuterJoin {β : Type} (left : List Nat) (right : List (Nat × β)) : List (Nat × Option β) :=
  left.flatMap (fun k => orAlone k ((right.filter (fun x => x.1 == k)).map (fun x => (k, some x.2))))

/-- `versions` (`storage.py:410-443`): snapshot ids joined with references, then
sorted by creation time.  `sort` stands for the sort; creation times are not
modelled.  The rows are (snapshot id, tag or branch). -/
def Metadata.versions (sort : List (Nat × Option String) → List (Nat × Option String))
    (md : Metadata) : List (Nat × Option String) :=
  sort (leftOuterJoin (AMap.keys md.snaps) (md.refs.map (fun x => (x.2.id, x.1))))

/-- `snapshot_ids` (`storage.py:405-408`). -/
def Metadata.snapshotIds (md : Metadata) : List Nat := AMap.keys md.snaps

end Space
