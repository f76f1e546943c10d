import Verif.RayWrite

/-!
# `core/runners.py`: transactional calls, and systems of several handles
-/

namespace Space

/-- The outcome of a mutating call. -/
inductive Outcome where
  | job (j : Job)
  | raised (e : Err)
deriving DecidableEq, Repr

/-- A data mutation of `LocalRunner` (`core/runners.py:239-286`) or
`RayReadWriterRunner` (`ray/runners.py:274-315`).  For the latter `n` is the parallelism,
and `sched` the order in which the actors write. -/
inductive Mutation where
  | append (tables : List (List Row))
  | insert (rows : List Row)
  | upsert (rows : List Row)
  | delete (filter : Expr)
  | appendParquet (files : List Path)
  | appendArrayRecord (indexFn : List Nat → Row) (files : List Path)
  | rayAppend (n : Nat) (sched : List Nat) (rows : List Row)
  | rayAppendFrom (n : Nat) (sched : List Nat) (sources : List (List (List Row)))
  | rayInsert (mode : InsertMode) (n : Nat) (sched : List Nat) (rows : List Row)
  | rayDelete (filter : Expr)
  /-- one transaction of `RayMaterializedViewRunner.refresh`, see `Verif/MV.lean` -/
  | sync (n : Nat) (sched : List Nat) (gone : List Row) (added : Option (List (List (List Row))))

/-- The decorated function, on the object as it is after `__enter__`. -/
def Mutation.body (E : Env) (h : Handle) : Mutation → WM (Option Patch)
  | .append ts => appendBody E h.md.schema ts
  | .insert rows => insertBody E h .insert rows
  | .upsert rows => insertBody E h .upsert rows
  | .delete e => deleteBody E h e
  | .appendParquet files => appendParquetBody E h.md.schema files
  | .appendArrayRecord fn files => appendArrayRecordBody E h.md.schema fn files
  | .rayAppend n sched rows => rayAppendBody E h.md.schema n sched rows
  | .rayAppendFrom n sched sources => rayAppendFromBody E h.md.schema n sched sources
  | .rayInsert mode n sched rows => rayInsertBody E h mode n sched rows
  | .rayDelete e => rayDeleteBody E h e
  | .sync n sched gone added => syncBody E h n sched gone added

/-- `transactional` before the exception handler (`core/runners.py:112-116`). -/
def runMutation (E : Env) (m : Mutation) : HM Job := do
  let t ← Txn.enter
  let h ← self
  let p ← liftW (m.body E h)
  t.commit p

/-- `transactional` (`core/runners.py:105-121`): library errors become FAILED, other
exceptions escape. -/
def mutate (E : Env) (m : Mutation) (h : Handle) (w : World) : Outcome × Handle × World :=
  match runMutation E m (h, w) with
  | (.ok j, (h', w')) => (.job j, h', w')
  | (.error e, (h', w')) => (if e.caught then .job .failed else .raised e, h', w')

/-- A call on a `Storage`/`Dataset` object. -/
inductive Call where
  | mutate (m : Mutation)
  | addTag (name : String) (id : Option Nat)
  | addBranch (name : String)
  | removeTag (name : String)
  | removeBranch (name : String)
  | setBranch (name : String)
  | reload

/-- Result of a call: the job state, or a plain return, or an exception. -/
inductive Result where
  | job (j : Job)
  | returned
  | raised (e : Err)
deriving DecidableEq, Repr

/-- Run a method that returns nothing. -/
def runUnit {α : Type} (m : HM α) (h : Handle) (w : World) : Result × Handle × World :=
  match m (h, w) with
  | (.ok _, (h', w')) => (.returned, h', w')
  | (.error e, (h', w')) => (.raised e, h', w')

/-- Execute a call on one handle. -/
def exec (E : Env) (c : Call) (h : Handle) (w : World) : Result × Handle × World :=
  match c with
  | .mutate m =>
    match mutate E m h w with
    | (.job j, h', w') => (.job j, h', w')
    | (.raised e, h', w') => (.raised e, h', w')
  | .addTag n id => runUnit (addTag n id) h w
  | .addBranch n => runUnit (addBranch n) h w
  | .removeTag n => runUnit (removeTag n) h w
  | .removeBranch n => runUnit (removeBranch n) h w
  | .setBranch n => runUnit (setCurrentBranch n) h w
  | .reload => runUnit reload h w

/-! ## Reads -/

/-- `LocalRunner.read` followed by `read_all` (`core/runners.py:58-77`, `:207-227`):
the `reload` decorator (`:123-132`) first. -/
def tableRead (E : Env) (h : Handle) (w : World) (o : ReadOpts) (v : Option Version) :
    Except Err (List Row) :=
  match reload (h, w) with
  | (.error e, _) => .error e
  | (.ok _, (h', w')) => readAll E w'.fs h' o v

/-- `LocalRunner.diff` (`core/runners.py:229-237`), reload first. -/
def tableDiff (E : Env) (h : Handle) (w : World) (batch : Nat) (a b : Version) :
    Except Err (List ChangeData) :=
  match reload (h, w) with
  | (.error e, _) => .error e
  | (.ok _, (h', w')) => diffHandle E w'.fs h' batch a b

end Space
