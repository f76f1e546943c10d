import Verif.Views

/-!
# Refreshing materialized views: `ray/runners.py:131-260`

A materialized view is a storage of its own.  The storage of the source dataset and the
storage of the view share no file; each has its own `World`.  Simplification: nobody else
writes to either during a call of `refresh`.
-/

set_option autoImplicit false

namespace Space

/-- What the view is made of: how its source is read, what Ray and the functions do, and the
view itself. -/
structure Upstream where
  E : Env
  R : RayEnv
  U : UdfEnv
  ray : RayOpts
  view : View

/-- `process_source` (`core/datasets.py:123-125`, `transform/udfs.py:102-104`,
`transform/join.py:108-109`) on the blocks of a Ray dataset. -/
def processBlocks (R : RayEnv) (U : UdfEnv) : View → List Nat → List (List Row) → Except Err (List (List Row))
  | .dataset _, _, bs => .ok bs
  | .map u i fields, at_, bs =>
    match processBlocks R U i (0 :: at_) bs with
    | .error e => .error e
    | .ok bs =>
      match selectColumns fields bs with
      | .error e => .error e
      | .ok bs => .ok ((R.deliver (1 :: at_) bs).map (U.map u.fn))
  | .filter u i fields, at_, bs =>
    match processBlocks R U i (0 :: at_) bs with
    | .error e => .error e
    | .ok bs =>
      match selectColumns fields bs with
      | .error e => .error e
      | .ok bs => .ok ((R.deliver (1 :: at_) bs).map (fun b => b.filter (U.keep u.fn)))
  | .joined .., _, _ => .error (.other "NotImplementedError")

/-- The changes of one snapshot as the generator yields them (`ray/ops/change_data.py:44-100`):
what it raises ends it. -/
def rayStream (fs : FS) (md : Metadata) (ray : RayOpts) (batch : Nat) (id : Nat) : List (Except Err RayChange) :=
  match md.snaps.get? id with
  | none => [.error .versionNotFound]
  | some snap =>
    match (snap.log.bind fs.log) with
    | none => [.error (.other "FileNotFoundError")]
    | some cl =>
      (if cl.deleted = [] then []
        else [.ok ⟨id, .delete, [⟨cl.deleted.map bitmapFile, { fields := some md.schema.pks, batch := batch }⟩]⟩]) ++
      (if cl.added = [] then []
        else match addShards ray.parallelism cl.added with
        | .error e => [.error e]
        | .ok shards => [.ok ⟨id, .add, shards.map (fun b => ⟨b.map bitmapFile, { batch := batch }⟩)⟩])

/-- The rows `_process_delete` reads (`ray/runners.py:238-243`); `concat_tables` of nothing
raises. -/
def readGone (X : Upstream) (fs : FS) (s : Schema) (at_ : List Nat) (data : List RayDataset) :
    Except Err (List Row) :=
  match data with
  | [d] =>
    match d.blocks X.E X.R fs s X.ray at_ with
    | .error e => .error e
    | .ok bs => if iterBatches bs = [] then .error (.other "ArrowInvalid") else .ok (iterBatches bs).flatten
  | _ => .error (.other "AssertionError")

/-- The processed batches of the datasets of an ADD change (`ray/runners.py:115-124`,
`:253-256`), numbered from `k`. -/
def readAdded (X : Upstream) (fs : FS) (s : Schema) (at_ : List Nat) :
    Nat → List RayDataset → Except Err (List (List (List Row)))
  | _, [] => .ok []
  | k, d :: ds =>
    match d.blocks X.E X.R fs s X.ray (0 :: k :: at_) with
    | .error e => .error e
    | .ok bs =>
      match processBlocks X.R X.U X.view (1 :: k :: at_) bs with
      | .error e => .error e
      | .ok bs =>
        match readAdded X fs s at_ (k + 1) ds with
        | .error e => .error e
        | .ok cs => .ok (iterBatches bs :: cs)

/-- Apply one change to the storage of the view (`ray/runners.py:217-225`, `:238-256`);
also returns the rows whose keys it deletes.  `h` is the object of that storage, `fs` and
`s` the files and schema of the source.  Simplification: the batches to append are read
before the first is written. -/
def applyChange (F : Env) (X : Upstream) (fs : FS) (s : Schema) (sched : List Nat) (at_ : List Nat) (h : Handle)
    (c : RayChange) : WM (Option Patch × List Row) :=
  match c.type with
  | .delete => do
    let keys ← M.lift (readGone X fs s (0 :: at_) c.data)
    let p ← syncDelete F h keys
    pure (p, keys)
  | .add => do
    let sources ← M.lift (readAdded X fs s (1 :: at_) 0 c.data)
    let p ← rayAppendFromAll F h.md.schema X.ray.parallelism sched sources
    pure (p, [])

/-- A finished transaction of `refresh`: its job state.  The other fields are not in the
code; they tell when it began and what it deleted. -/
structure SyncDone where
  job : Job
  h : Handle
  w : World
  gone : List Row

/-- The variables of `refresh` (`ray/runners.py:195-199`), and when the transaction under way
began and what it deletes, which are not in the code. -/
structure RefreshState where
  done : List SyncDone
  patches : List (Option Patch)
  previous : Option Nat
  txn : Txn
  start : Handle × World
  gone : List Row

/-- The job result of the transaction under way. -/
def RefreshState.finish (st : RefreshState) (j : Job) : SyncDone := ⟨j, st.start.1, st.start.2, st.gone⟩

/-- What became of a call: the finished transactions, and what it raised. -/
abbrev Refreshed := List SyncDone × Option Err

/-- The commit when changes of another snapshot begin (`ray/runners.py:203-215`); an `error`
is the end of `refresh`. -/
def refreshBoundary (id : Nat) (st : RefreshState) (hw : Handle × World) :
    Except Refreshed RefreshState × (Handle × World) :=
  if st.previous = none ∨ st.previous = some id then (.ok st, hw)
  else
    match st.txn.commit (mergePatches st.patches) hw with
    | (.error e, hw) => (.error (st.done, some e), hw)
    | (.ok .failed, hw) => (.error (st.done ++ [st.finish .failed], none), hw)
    | (.ok j, hw) =>
      match Txn.enter hw with
      | (.error e, hw') => (.error (st.done ++ [st.finish j], some e), hw')
      | (.ok t, hw') => (.ok { done := st.done ++ [st.finish j], patches := [], previous := st.previous, txn := t, start := hw, gone := [] }, hw')

/-- The loop of `refresh` and the commit after it (`ray/runners.py:200-236`).  `sched` are
the schedules of the actors for each snapshot of the source. -/
def refreshLoop (F : Env) (X : Upstream) (fs : FS) (s : Schema) (sched : Nat → List Nat) (at_ : List Nat) :
    List (Except Err RayChange) → RefreshState → Handle × World → Refreshed × (Handle × World)
  | [], st, hw =>
    if st.patches = [] then ((st.done, none), hw)
    else
      match st.txn.commit (mergePatches st.patches) hw with
      | (.error e, hw) => ((st.done, some e), hw)
      | (.ok j, hw) => ((st.done ++ [st.finish j], none), hw)
  | .error e :: _, st, hw => ((st.done, some e), hw)
  | .ok c :: cs, st, hw =>
    match refreshBoundary c.id st hw with
    | (.error r, hw) => (r, hw)
    | (.ok st, hw) =>
      match applyChange F X fs s (sched c.id) (c.id :: at_) hw.1 c hw.2 with
      | (.error e, w) =>
        if e.caught then ((st.done ++ [st.finish .failed], none), (hw.1, w)) else ((st.done, some e), (hw.1, w))
      | (.ok (p, gone), w) =>
        refreshLoop F X fs s sched at_ cs
          { st with patches := st.patches ++ [p], previous := some c.id, gone := st.gone ++ gone } (hw.1, w)

/-- The snapshot to refresh to (`ray/runners.py:182-191`), by the object of the source as it
is. -/
def refreshEnd (src : Handle) (target : Option Version) : Except Err Nat :=
  match target with
  | none => .ok src.md.current
  | some v =>
    match src.md.versionId v with
    | .error e => .error e
    | .ok n => if n > src.md.current then .error .versionNotFound else .ok n

/-- `RayMaterializedViewRunner.refresh` (`ray/runners.py:174-236`) on the object `hw` of the
storage of the view, with what it did before an exception.  `src` is the object of the
source, which is reloaded after the transaction has begun (`:104`).  The snapshot it starts
from is the current snapshot of the view's own storage (`:193`). -/
def refreshRun (F : Env) (X : Upstream) (src : Handle) (ws : World) (batch : Nat) (target : Option Version)
    (sched : Nat → List Nat) (at_ : List Nat) (hw : Handle × World) : Refreshed × (Handle × World) :=
  match refreshEnd src target with
  | .error e => (([], some e), hw)
  | .ok last =>
    match Txn.enter hw with
    | (.error e, hw') => (([], some e), hw')
    | (.ok t, hw') =>
      match reload (src, ws) with
      | (.error e, _) => (([], some e), hw')
      | (.ok _, (src, ws)) =>
        match orderedIds src.md hw.1.md.current last with
        | .error e => (([], some e), hw')
        | .ok ids =>
          refreshLoop F X ws.fs src.md.schema sched at_ (ids.flatMap (rayStream ws.fs src.md X.ray batch))
            { done := [], patches := [], previous := none, txn := t, start := hw, gone := [] } hw'

/-- `RayMaterializedViewRunner.refresh` (`ray/runners.py:174-236`). -/
def refresh (F : Env) (X : Upstream) (src : Handle) (ws : World) (batch : Nat) (target : Option Version)
    (sched : Nat → List Nat) (at_ : List Nat) : HM (List Job) := fun hw =>
  match refreshRun F X src ws batch target sched at_ hw with
  | ((_, some e), hw') => (.error e, hw')
  | ((d, none), hw') => (.ok (d.map (·.job)), hw')

end Space
