import Verif.Runner

/-!
# Reading with Ray: `ray/data_sources.py`, `ray/ops/change_data.py`, `ray/ops/utils.py`,
`ray/runners.py`
-/

set_option autoImplicit false

namespace Space

/-- What Ray decides.  A Ray dataset is a list of blocks (tables).  Blocks may be delivered
in any order, and the rows of a dataset may be regrouped into other blocks; no row is lost
or repeated.  `at_` tells calls apart: the same blocks may be delivered differently each
time. -/
structure RayEnv where
  deliver : List Nat → List (List Row) → List (List Row)
  deliver_perm : ∀ at_ bs, (deliver at_ bs).flatten.Perm bs.flatten
  /-- what `repartition(0)` raises, if it does -/
  repartition0 : Option Err

/-- `RayOptions` (`ray/options.py:20-40`). -/
structure RayOpts where
  parallelism : Nat := 8
  rowRange : Bool := true
deriving DecidableEq, Repr

/-- `math.ceil(a / b)` for `b ≠ 0`.  Simplification: exact; the code divides floats, which
is exact below `2 ^ 53`. -/
def ceilDiv (a b : Nat) : Nat := (a + b - 1) / b

/-! ## The data source -/

/-- Read tasks of one index file (`data_sources.py:87-127`). -/
def fileTasks (rowRange : Bool) (batch : Nat) (f : DataFile) : List DataFile :=
  if f.stats.rows = 0 then [f]
  else if rowRange && decide (batch ≠ 0) then
    (List.range (ceilDiv f.stats.rows.toNat batch)).map (fun i =>
      { f with slice := some (i * batch, min ((i + 1) * batch) f.stats.rows.toNat) })
  else [f]

/-- `has_bitmap` (`data_sources.py:100-102`): rows are selected by a bitmap. -/
def DataFile.marked (f : DataFile) : Bool :=
  match f.bitmap with
  | some bm => !bm.allRows
  | none => false

/-- Numbers of rows announced for these read tasks (`data_sources.py:92-127`, `_block_metadata`
`:140-151`), in the same order; `none` is unknown. -/
def fileCounts (rowRange : Bool) (batch : Nat) (f : DataFile) : List (Option Nat) :=
  if f.stats.rows = 0 then [none]
  else if rowRange && decide (batch ≠ 0) then
    (List.range (ceilDiv f.stats.rows.toNat batch)).map (fun i =>
      if f.marked then none else some (min ((i + 1) * batch) f.stats.rows.toNat - i * batch))
  else [if f.marked then none else some f.stats.rows.toNat]

/-- A Ray dataset of the data source: the files and the options it was built with
(`data_sources.py:41-49`). -/
structure RayDataset where
  files : List DataFile
  opts : ReadOpts
deriving DecidableEq, Repr

/-- `get_read_tasks` (`data_sources.py:79-129`). -/
def RayDataset.tasks (ray : RayOpts) (d : RayDataset) : List DataFile :=
  d.files.flatMap (fileTasks ray.rowRange d.opts.batch)

/-- Numbers of rows announced for the read tasks of a dataset. -/
def RayDataset.counts (ray : RayOpts) (d : RayDataset) : List (Option Nat) :=
  d.files.flatMap (fileCounts ray.rowRange d.opts.batch)

/-- `Dataset.count` on a dataset that was not changed (library behaviour): the sum of the announced numbers if all are
known, otherwise the number of rows `n` that are found. -/
def rayCount (counts : List (Option Nat)) (n : Nat) : Nat :=
  if counts.all (·.isSome) then (counts.map (·.getD 0)).sum else n

/-- The blocks of a dataset: each read task is a `FileSetReadOp` on one file
(`data_sources.py:131-134`).  Simplification: a task that raises makes the whole dataset
raise the error of the first such task; a dataset without tasks has no blocks. -/
def RayDataset.blocks (E : Env) (R : RayEnv) (fs : FS) (s : Schema) (ray : RayOpts) (at_ : List Nat)
    (d : RayDataset) : Except Err (List (List Row)) :=
  (readFiles E fs s d.opts (d.tasks ray)).map (R.deliver at_)

/-- `iter_batches` (`ray/ops/utils.py:44-53`). -/
def iterBatches (bs : List (List Row)) : List (List Row) := bs.filter (fun b => !b.isEmpty)

/-- `Storage.ray_dataset` (`core/storage.py:445-457`, `data_sources.py:82-84`): the blocks of
the files of a snapshot.  `repartition` only regroups rows, unless the number of partitions, which
is made of `ds.count()`, is zero. -/
def storageBlocks (E : Env) (R : RayEnv) (fs : FS) (h : Handle) (ray : RayOpts) (at_ : List Nat)
    (o : ReadOpts) (id : Option Nat) : Except Err (List (List Row)) :=
  match dataFiles fs h o.filter id with
  | .error e => .error e
  | .ok fset =>
    match (RayDataset.mk fset.files o).blocks E R fs h.md.schema ray at_ with
    | .error e => .error e
    | .ok bs =>
      if !ray.rowRange && decide (o.batch ≠ 0) &&
          decide (rayCount ((RayDataset.mk fset.files o).counts ray) bs.flatten.length = 0) then
        match R.repartition0 with
        | some e => .error e
        | none => .ok bs
      else .ok bs

/-- `RayReadOnlyRunner.read` on a dataset (`ray/runners.py:60-86`) followed by `read_all`. -/
def rayRead (E : Env) (R : RayEnv) (ray : RayOpts) (h : Handle) (w : World) (o : ReadOpts)
    (v : Option Version) : Except Err (List Row) :=
  match reload (h, w) with
  | (.error e, _) => .error e
  | (.ok _, (h, w)) =>
    match (match v with
      | none => .ok none
      | some v => (h.md.versionId v).map some : Except Err (Option Nat)) with
    | .error e => .error e
    | .ok id =>
      match storageBlocks E R w.fs h ray [] o id with
      | .error e => .error e
      | .ok bs => .ok (iterBatches bs).flatten

/-! ## Change data -/

/-- `ChangeData` with Ray datasets (`core/ops/change_data.py:46-56`). -/
structure RayChange where
  id : Nat
  type : ChangeType
  data : List RayDataset
deriving DecidableEq, Repr

/-- The shards of the added files (`ray/ops/change_data.py:72-80`). -/
def addShards (n : Nat) (added : List RowBitmap) : Except Err (List (List RowBitmap)) :=
  if n = 0 then .error (.other "ZeroDivisionError")
  else
    let size := ceilDiv added.length n
    .ok ((List.range n).map (fun i =>
      (added.drop (i * size)).take (min ((i + 1) * size) added.length - i * size)))

/-- `_RayChangeDataReadOp` (`ray/ops/change_data.py:44-100`). -/
def rayChanges (fs : FS) (md : Metadata) (ray : RayOpts) (batch : Nat) (id : Nat) :
    Except Err (List RayChange) :=
  match md.snaps.get? id with
  | none => .error .versionNotFound
  | some snap =>
    match (snap.log.bind fs.log) with
    | none => .error (.other "FileNotFoundError")
    | some cl =>
      let dels : List RayChange := if cl.deleted = [] then []
        else [⟨id, .delete, [⟨cl.deleted.map bitmapFile, { fields := some md.schema.pks, batch := batch }⟩]⟩]
      if cl.added = [] then .ok dels
      else
        match addShards ray.parallelism cl.added with
        | .error e => .error e
        | .ok shards => .ok (dels ++
            [⟨id, .add, shards.map (fun b => ⟨b.map bitmapFile, { batch := batch }⟩)⟩])

/-- `read_change_data` over a list of snapshots (`ray/ops/change_data.py:32-42`). -/
def rayChangeIds (fs : FS) (md : Metadata) (ray : RayOpts) (batch : Nat) :
    List Nat → Except Err (List RayChange)
  | [] => .ok []
  | i :: is =>
    match rayChanges fs md ray batch i with
    | .error e => .error e
    | .ok c =>
      match rayChangeIds fs md ray batch is with
      | .error e => .error e
      | .ok cs => .ok (c ++ cs)

/-- `diff_ray` on a dataset (`ray/runners.py:99-125`) after the reload: `process_source` of a
dataset is the identity (`core/datasets.py:123-125`).  Simplification: the generator is run to
its end. -/
def diffRay (fs : FS) (h : Handle) (ray : RayOpts) (batch : Nat) (a b : Version) :
    Except Err (List RayChange) :=
  match h.md.versionId a with
  | .error e => .error e
  | .ok ia =>
    match h.md.versionId b with
    | .error e => .error e
    | .ok ib =>
      match orderedIds h.md ia ib with
      | .error e => .error e
      | .ok ids => rayChangeIds fs h.md ray batch ids

/-- All blocks of a list of datasets, numbered from `k`. -/
def datasetBlocks (E : Env) (R : RayEnv) (fs : FS) (s : Schema) (ray : RayOpts) (at_ : List Nat) :
    Nat → List RayDataset → Except Err (List (List Row))
  | _, [] => .ok []
  | k, d :: ds =>
    match d.blocks E R fs s ray (k :: at_) with
    | .error e => .error e
    | .ok bs =>
      match datasetBlocks E R fs s ray at_ (k + 1) ds with
      | .error e => .error e
      | .ok cs => .ok (iterBatches bs ++ cs)

/-- The loop of `diff` (`ray/runners.py:88-97`), changes numbered from `k`. -/
def flattenChanges (E : Env) (R : RayEnv) (fs : FS) (s : Schema) (ray : RayOpts) :
    Nat → List RayChange → Except Err (List ChangeData)
  | _, [] => .ok []
  | k, c :: cs =>
    match datasetBlocks E R fs s ray [k] 0 c.data with
    | .error e => .error e
    | .ok bs =>
      match flattenChanges E R fs s ray (k + 1) cs with
      | .error e => .error e
      | .ok ds => .ok (bs.map (fun t => { id := c.id, type := c.type, data := t }) ++ ds)

/-- `RayReadOnlyRunner.diff` on a dataset (`ray/runners.py:88-125`), reload first. -/
def rayDiff (E : Env) (R : RayEnv) (ray : RayOpts) (h : Handle) (w : World) (batch : Nat) (a b : Version) :
    Except Err (List ChangeData) :=
  match reload (h, w) with
  | (.error e, _) => .error e
  | (.ok _, (h, w)) =>
    match diffRay w.fs h ray batch a b with
    | .error e => .error e
    | .ok cs => flattenChanges E R w.fs h.md.schema ray 0 cs

end Space
