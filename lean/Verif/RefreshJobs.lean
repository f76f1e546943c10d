import Verif.Jobs
import Verif.MVLoop

/-!
# What `refresh` returns: `ray/runners.py:174-236` with the results of its transactions

`Verif/MV.lean` keeps only the states of the transactions of a refresh, and when each began.  Here
is the same function with the variables the code has and the results it returns, and the proof that
it runs the same.
-/

set_option autoImplicit false

namespace Space

/-- The variables of `refresh` (`ray/runners.py:195-199`). -/
structure RefreshVars where
  results : List JobResult
  patches : List (Option Patch)
  previous : Option Nat
  txn : Txn

/-- How a call ended: the results so far, and what it raised. -/
abbrev Returned := List JobResult × Option Err

/-- The commit when changes of another snapshot begin (`ray/runners.py:203-215`); an `error`
is the end of `refresh`. -/
def boundaryResult (id : Nat) (v : RefreshVars) (hw : Handle × World) :
    Except Returned RefreshVars × (Handle × World) :=
  if v.previous = none ∨ v.previous = some id then (.ok v, hw)
  else
    match v.txn.commitResult (mergePatches v.patches) hw with
    | (.error e, hw) => (.error (v.results, some e), hw)
    | (.ok r, hw) =>
      if r.state = .failed then (.error (v.results ++ [r], none), hw)
      else
        match Txn.enter hw with
        | (.error e, hw') => (.error (v.results ++ [r], some e), hw')
        | (.ok t, hw') => (.ok { results := v.results ++ [r], patches := [], previous := v.previous, txn := t }, hw')

/-- The loop of `refresh` and the commit after it (`ray/runners.py:200-236`). -/
def resultLoop (F : Env) (X : Upstream) (fs : FS) (s : Schema) (sched : Nat → List Nat) (at_ : List Nat) :
    List (Except Err RayChange) → RefreshVars → Handle × World → Returned × (Handle × World)
  | [], v, hw =>
    if v.patches = [] then ((v.results, none), hw)
    else
      match v.txn.commitResult (mergePatches v.patches) hw with
      | (.error e, hw) => ((v.results, some e), hw)
      | (.ok r, hw) => ((v.results ++ [r], none), hw)
  | .error e :: _, v, hw => ((v.results, some e), hw)
  | .ok c :: cs, v, hw =>
    match boundaryResult c.id v hw with
    | (.error r, hw) => (r, hw)
    | (.ok v, hw) =>
      match applyChange F X fs s (sched c.id) (c.id :: at_) hw.1 c hw.2 with
      | (.error e, w) =>
        if e.caught then ((v.results ++ [{ state := .failed }], none), (hw.1, w)) else ((v.results, some e), (hw.1, w))
      | (.ok (p, _), w) =>
        resultLoop F X fs s sched at_ cs
          { v with patches := v.patches ++ [p], previous := some c.id } (hw.1, w)

/-- `RayMaterializedViewRunner.refresh` (`ray/runners.py:174-236`), with what it did before an
exception. -/
def refreshReturned (F : Env) (X : Upstream) (src : Handle) (ws : World) (batch : Nat) (target : Option Version)
    (sched : Nat → List Nat) (at_ : List Nat) (hw : Handle × World) : Returned × (Handle × World) :=
  match refreshEnd src target with
  | .error e => (([], some e), hw)
  | .ok last =>
    match Txn.enter hw with
    | (.error e, hw') => (([], some e), hw')
    | (.ok t, hw') =>
      match reload (src, ws) with
      | (.error e, _) => (([], some e), hw')
      | (.ok _, (src, ws)) =>
        match orderedIds src.md hw.1.md.current last with
        | .error e => (([], some e), hw')
        | .ok ids =>
          resultLoop F X ws.fs src.md.schema sched at_ (ids.flatMap (rayStream ws.fs src.md X.ray batch))
            { results := [], patches := [], previous := none, txn := t } hw'

/-- `RayMaterializedViewRunner.refresh` (`ray/runners.py:174-236`). -/
def refreshResults (F : Env) (X : Upstream) (src : Handle) (ws : World) (batch : Nat) (target : Option Version)
    (sched : Nat → List Nat) (at_ : List Nat) : HM (List JobResult) := fun hw =>
  match refreshReturned F X src ws batch target sched at_ hw with
  | ((_, some e), hw') => (.error e, hw')
  | ((rs, none), hw') => (.ok rs, hw')

/-! ## It runs as `refresh` -/

/-- The same variables. -/
structure SameVars (v : RefreshVars) (st : RefreshState) : Prop where
  results : v.results.map (·.state) = st.done.map (·.job)
  patches : v.patches = st.patches
  previous : v.previous = st.previous
  txn : v.txn = st.txn

/-- The same end. -/
def SameEnd (a : Returned) (b : Refreshed) : Prop := a.1.map (·.state) = b.1.map (·.job) ∧ a.2 = b.2

theorem boundary_same (id : Nat) {v : RefreshVars} {st : RefreshState} (hs : SameVars v st) (hw : Handle × World) :
    (boundaryResult id v hw).2 = (refreshBoundary id st hw).2 ∧
    match (boundaryResult id v hw).1, (refreshBoundary id st hw).1 with
    | .error a, .error b => SameEnd a b
    | .ok v, .ok st => SameVars v st
    | _, _ => False := by
  unfold boundaryResult refreshBoundary
  rw [hs.previous, hs.patches, hs.txn]
  split
  · exact ⟨rfl, hs⟩
  · have e := Txn.commitResult_state st.txn (mergePatches st.patches) hw
    rcases hx : st.txn.commitResult (mergePatches st.patches) hw with ⟨x, hw1⟩
    rw [hx] at e
    rw [← e]
    cases x with
    | error e => exact ⟨rfl, hs.results, rfl⟩
    | ok r =>
      obtain ⟨j, u⟩ := r
      have hr : ∀ j' : Job, (v.results ++ [(⟨j', u⟩ : JobResult)]).map JobResult.state = (st.done ++ [st.finish j']).map (·.job) := by
        intro j'
        simp [hs.results, RefreshState.finish]
      cases j with
      | failed => exact ⟨rfl, hr _, rfl⟩
      | succeeded =>
        rcases hy : Txn.enter hw1 with ⟨y, hw2⟩
        simp only [Except.map, reduceCtorEq, if_false, hy]
        cases y with
        | error e => exact ⟨rfl, hr _, rfl⟩
        | ok t => exact ⟨rfl, hr _, rfl, rfl, rfl⟩
      | skipped =>
        rcases hy : Txn.enter hw1 with ⟨y, hw2⟩
        simp only [Except.map, reduceCtorEq, if_false, hy]
        cases y with
        | error e => exact ⟨rfl, hr _, rfl⟩
        | ok t => exact ⟨rfl, hr _, rfl, rfl, rfl⟩

theorem loop_same (F : Env) (X : Upstream) (fs : FS) (s : Schema) (sched : Nat → List Nat) (at_ : List Nat) :
    ∀ (cs : List (Except Err RayChange)) {v : RefreshVars} {st : RefreshState}, SameVars v st → ∀ hw,
    (resultLoop F X fs s sched at_ cs v hw).2 = (refreshLoop F X fs s sched at_ cs st hw).2 ∧
    SameEnd (resultLoop F X fs s sched at_ cs v hw).1 (refreshLoop F X fs s sched at_ cs st hw).1
  | [], v, st, hs, hw => by
    rw [resultLoop, refreshLoop, hs.patches, hs.txn]
    split
    · exact ⟨rfl, hs.results, rfl⟩
    · have e := Txn.commitResult_state st.txn (mergePatches st.patches) hw
      rcases hx : st.txn.commitResult (mergePatches st.patches) hw with ⟨x, hw1⟩
      rw [hx] at e
      rw [← e]
      cases x with
      | error e => exact ⟨rfl, hs.results, rfl⟩
      | ok r => exact ⟨rfl, by simp [hs.results, RefreshState.finish, Except.map], rfl⟩
  | .error e :: cs, v, st, hs, hw => by
    rw [resultLoop, refreshLoop]
    exact ⟨rfl, hs.results, rfl⟩
  | .ok c :: cs, v, st, hs, hw => by
    rw [resultLoop, refreshLoop]
    have hb := boundary_same c.id hs hw
    rcases h1 : boundaryResult c.id v hw with ⟨a, hw1⟩
    rcases h2 : refreshBoundary c.id st hw with ⟨b, hw2⟩
    rw [h1, h2] at hb
    obtain ⟨e, hb⟩ := hb
    cases e
    cases a with
    | error a =>
      cases b with
      | error b => exact ⟨rfl, hb⟩
      | ok b => exact hb.elim
    | ok v1 =>
      cases b with
      | error b => exact hb.elim
      | ok st1 =>
        dsimp only at hb ⊢
        rcases h3 : applyChange F X fs s (sched c.id) (c.id :: at_) hw1.1 c hw1.2 with ⟨y, w⟩
        cases y with
        | error e =>
          dsimp only
          split
          · exact ⟨rfl, by simp [hb.results, RefreshState.finish], rfl⟩
          · exact ⟨rfl, hb.results, rfl⟩
        | ok y =>
          obtain ⟨p, gone⟩ := y
          dsimp only
          exact loop_same F X fs s sched at_ cs (v := { v1 with patches := v1.patches ++ [p], previous := some c.id })
            (st := { st1 with patches := st1.patches ++ [p], previous := some c.id, gone := st1.gone ++ gone })
            ⟨hb.results, congrArg (· ++ [p]) hb.patches, rfl, hb.txn⟩ _

/-- The states of the results are those of `refresh`, with the same effect. -/
theorem refreshResults_state (F : Env) (X : Upstream) (src : Handle) (ws : World) (batch : Nat) (target : Option Version)
    (sched : Nat → List Nat) (at_ : List Nat) (hw : Handle × World) :
    ((refreshResults F X src ws batch target sched at_ hw).1.map (·.map (·.state)),
      (refreshResults F X src ws batch target sched at_ hw).2) = refresh F X src ws batch target sched at_ hw := by
  have key : (refreshReturned F X src ws batch target sched at_ hw).2 = (refreshRun F X src ws batch target sched at_ hw).2 ∧
      SameEnd (refreshReturned F X src ws batch target sched at_ hw).1 (refreshRun F X src ws batch target sched at_ hw).1 := by
    unfold refreshReturned refreshRun
    cases refreshEnd src target with
    | error e => exact ⟨rfl, rfl, rfl⟩
    | ok last =>
      dsimp only
      rcases Txn.enter hw with ⟨x, hw'⟩
      cases x with
      | error e => exact ⟨rfl, rfl, rfl⟩
      | ok t =>
        dsimp only
        rcases reload (src, ws) with ⟨y, src', ws'⟩
        cases y with
        | error e => exact ⟨rfl, rfl, rfl⟩
        | ok b =>
          dsimp only
          cases orderedIds src'.md hw.1.md.current last with
          | error e => exact ⟨rfl, rfl, rfl⟩
          | ok ids => exact loop_same F X _ _ sched at_ _ ⟨rfl, rfl, rfl, rfl⟩ hw'
  unfold refreshResults refresh
  rcases h1 : refreshReturned F X src ws batch target sched at_ hw with ⟨⟨a, e⟩, hw1⟩
  rcases h2 : refreshRun F X src ws batch target sched at_ hw with ⟨⟨b, e'⟩, hw2⟩
  rw [h1, h2] at key
  obtain ⟨k1, k2, k3⟩ := key
  cases k1
  cases k3
  cases e with
  | some e => rfl
  | none =>
    show (Except.ok (a.map (·.state)), _) = _
    rw [k2]

end Space
