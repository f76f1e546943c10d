import Verif.Load

/-!
# `ray/ops/append.py`, `ray/ops/insert.py`, `ray/ops/delete.py`: distributed writes

A Ray actor is a process with a `LocalAppendOp`.  Its calls run one after the other, in
the order they were submitted; calls of different actors run at the same time.  A schedule
lists which actor writes its next table.  Actors only touch files named by uuids they
drew, so one table is written in one step.
-/

namespace Space

/-- `_AppendActor` (`ray/ops/append.py:96-120`): its operation, and the tables waiting. -/
abbrev Actor := AppendOp × List (List Row)

/-- Actor `i` writes its next table (`ray/ops/append.py:108-116`); nothing happens if no
table is waiting. -/
def actorStep (E : Env) (s : Schema) (i : Nat) (as : List Actor) : WM (List Actor) :=
  match as[i]? with
  | some (op, t :: ts) => do
    let op ← op.write E s t
    pure (as.set i (op, ts))
  | _ => pure as

/-- Run a schedule.  After an exception `ray.get` raises it
(`ray/ops/append.py:77`, `:89`); what other actors still write is not referred to by
anything and left out. -/
def actorsRun (E : Env) (s : Schema) : List Nat → List Actor → WM (List Actor)
  | [], as => pure as
  | i :: is, as => do
    let as ← actorStep E s i as
    actorsRun E s is as

/-- A schedule that writes all tables waiting. -/
def drain (as : List Actor) : List Nat :=
  (List.range as.length).flatMap (fun i => List.replicate ((as[i]?.map (·.2.length)).getD 0) i)

/-- `finish` of all actors (`ray/ops/append.py:91-92`), in order. -/
def finishActors (E : Env) (s : Schema) : List Actor → WM (List (Option Patch))
  | [] => pure []
  | (op, _) :: as => do
    let p ← op.finish E s
    let ps ← finishActors E s as
    pure (p :: ps)

/-- Actors given these tables, then `finish` (`ray/ops/append.py:36-93`).  The schedule
is followed as far as it goes; the tables still waiting at its end are written by one
actor after the other. -/
def rayWrite (E : Env) (s : Schema) (sched : List Nat) (queues : List (List (List Row))) :
    WM (Option Patch) := do
  let as ← actorsRun E s sched (queues.map (fun q => ({ addrInput := false }, q)))
  let as ← actorsRun E s (drain as) as
  let ps ← finishActors E s as
  pure (mergePatches ps)

/-- The loop of `RayAppendOp.write` (`ray/ops/append.py:63-71`): the shards for the
remaining actors, and the offset reached. -/
def shardLoop (rows : List Row) (size : Nat) : Nat → Nat → List (List Row) × Nat
  | 0, off => ([], off)
  | k + 1, off =>
    let shard := (rows.drop off).take size
    if off + size ≥ rows.length then ([shard], off + size)
    else
      let r := shardLoop rows size k (off + size)
      (shard :: r.1, r.2)

/-- `shard_size` (`ray/ops/append.py:57-61`). -/
def shardSize (n rows : Nat) : Nat := if rows / n = 0 then 1 else rows / n

/-- The tables `RayAppendOp.write` gives to each actor (`ray/ops/append.py:53-77`). -/
def shardQueues (n : Nat) (rows : List Row) : Except Err (List (List (List Row))) :=
  if n = 0 then .error (.other "ZeroDivisionError")
  else
    let r := shardLoop rows (shardSize n rows.length) n 0
    .ok ((List.range n).map (fun i =>
      r.1[i]?.toList ++ (if i = 0 ∧ r.2 < rows.length then [rows.drop r.2] else [])))

/-- The tables `RayAppendOp.write_from` gives to each actor
(`ray/ops/append.py:79-89`): source `j` goes to actor `j % num_actors`. -/
def sourceQueues (n : Nat) (sources : List (List (List Row))) :
    Except Err (List (List (List Row))) :=
  if n = 0 ∧ sources ≠ [] then .error (.other "ZeroDivisionError")
  else .ok ((List.range n).map (fun i =>
    (sources.zipIdx.filter (fun x => x.2 % n = i)).flatMap (·.1)))

/-- The body of `RayReadWriterRunner.append` (`ray/runners.py:274-279`). -/
def rayAppendBody (E : Env) (s : Schema) (n : Nat) (sched : List Nat) (rows : List Row) :
    WM (Option Patch) := do
  let qs ← M.lift (shardQueues n rows)
  rayWrite E s sched qs

/-- `_append_from` (`ray/runners.py:318-324`). -/
def rayAppendFromAll (E : Env) (s : Schema) (n : Nat) (sched : List Nat)
    (sources : List (List (List Row))) : WM (Option Patch) := do
  let qs ← M.lift (sourceQueues n sources)
  rayWrite E s sched qs

/-- The body of `RayReadWriterRunner.append_from` (`ray/runners.py:281-293`). -/
def rayAppendFromBody (E : Env) (s : Schema) (n : Nat) (sched : List Nat)
    (sources : List (List (List Row))) : WM (Option Patch) :=
  rayAppendFromAll E s (min sources.length n) sched sources

/-- One `filter_matched` per file (`ray/ops/insert.py:42-54`). -/
def rayMatched (E : Env) (fs : FS) (s : Schema) (e : Expr) : List DataFile → Except Err Bool
  | [] => .ok false
  | f :: files =>
    match filterMatched E fs s [f] e, rayMatched E fs s e files with
    | .ok a, .ok b => .ok (a || b)
    | .error er, _ => .error er
    | _, .error er => .error er

/-- `RayInsertOp.write` (`ray/ops/insert.py:34-60`, `core/ops/insert.py:79-99`): as
`LocalInsertOp.write` but for the duplication check and the append; upserts delete
locally. -/
def rayInsertBody (E : Env) (h : Handle) (mode : InsertMode) (n : Nat) (sched : List Nat)
    (data : List Row) : WM (Option Patch) := do
  if data = [] then pure none
  else do
    let fe ← M.lift (primaryKeyFilter h.md.schema.pks data)
    match fe with
    | none => M.raise (.other "AssertionError")
    | some e => do
      let w ← M.get
      let fset ← M.lift (dataFiles w.fs h (some e) none)
      let dp ← (if fset.files = [] then (pure none : WM (Option Patch))
        else match mode with
          | .insert => do
            let m ← M.lift (rayMatched E w.fs h.md.schema e fset.files)
            if m then M.raise .pkExists else pure none
          | .upsert => deleteFiles E h.md.schema fset e)
      let ap ← rayAppendBody E h.md.schema n sched data
      pure (mergePatches [dp, ap])

/-- The deletes of `RayDeleteOp.delete`, one per file, each with all manifests
(`ray/ops/delete.py:48-61`).  They write to different files; they are run in order. -/
def rayDeleteLoop (E : Env) (s : Schema) (manifests : AMap Nat Path) (e : Expr) :
    List DataFile → WM (List (Option Patch))
  | [] => pure []
  | f :: files => do
    let p ← deleteFiles E s { files := [f], manifests := manifests } e
    let ps ← rayDeleteLoop E s manifests e files
    pure (p :: ps)

/-- The body of `RayReadWriterRunner.delete` (`ray/runners.py:312-315`,
`ray/ops/delete.py:43-62`). -/
def rayDeleteBody (E : Env) (h : Handle) (e : Expr) : WM (Option Patch) := do
  let w ← M.get
  let fset ← M.lift (dataFiles w.fs h (some e) none)
  let ps ← rayDeleteLoop E h.md.schema fset.manifests e fset.files
  pure (mergePatches ps)

/-- `_process_delete` of a materialized view on the rows read (`ray/runners.py:238-251`).
There are rows: without any `concat_tables` raises (`Verif/MV.lean`). -/
def syncDelete (E : Env) (h : Handle) (keys : List Row) : WM (Option Patch) := do
  let fe ← M.lift (primaryKeyFilter h.md.schema.pks keys)
  match fe with
  | none => pure none
  | some e => deleteBody E h e

/-- What `refresh` of a materialized view does between the start of a transaction and its
commit, for the changes of one version of the source (`ray/runners.py:199-234`): rows whose
keys are deleted (none if nothing was deleted), then the processed rows to add, if any. -/
def syncBody (E : Env) (h : Handle) (n : Nat) (sched : List Nat) (gone : List Row)
    (added : Option (List (List (List Row)))) : WM (Option Patch) := do
  let dp ← (if gone = [] then (pure none : WM (Option Patch)) else syncDelete E h gone)
  let ap ← (match added with
    | none => (pure none : WM (Option Patch))
    | some sources => rayAppendFromAll E h.md.schema n sched sources)
  pure (mergePatches [dp, ap])

end Space
