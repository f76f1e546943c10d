import Verif.Runner

/-!
# `core/jobs.py`: the results of mutations

`Verif/Storage.lean` and `Verif/Runner.lean` keep only the state of a `JobResult`.  Here are the
same functions with the statistics a job reports, and the proof that they run the same.
-/

namespace Space

/-- `JobResult` (`core/jobs.py:25-45`).  The error message is left out. -/
structure JobResult where
  state : Job
  update : Option SStats := none
deriving DecidableEq, Repr

/-- `Transaction.commit` after the check and `result` (`storage.py:575-585`). -/
def Txn.writeResult (t : Txn) (p : Patch) : HM JobResult := do
  Space.commit p t.branch
  pure { state := .succeeded, update := some p.stats }

/-- `Transaction.commit` and `result` (`storage.py:556-585`). -/
def Txn.commitResult (t : Txn) (p : Option Patch) : HM JobResult := do
  let ok ← t.check
  if !ok then pure { state := .failed }
  else match p with
    | none => pure { state := .skipped }
    | some p => t.writeResult p

/-- `transactional` before the exception handler (`core/runners.py:112-116`). -/
def runResult (E : Env) (m : Mutation) : HM JobResult := do
  let t ← Txn.enter
  let h ← self
  let p ← liftW (m.body E h)
  t.commitResult p

/-- `transactional` (`core/runners.py:105-121`). -/
def mutateResult (E : Env) (m : Mutation) (h : Handle) (w : World) : Except Err JobResult × Handle × World :=
  match runResult E m (h, w) with
  | (.ok r, (h', w')) => (.ok r, h', w')
  | (.error e, (h', w')) => (if e.caught then .ok { state := .failed } else .error e, h', w')

theorem M.map_bind {σ α β γ : Type} (m : M σ α) {f : α → M σ β} {g : α → M σ γ} {k : β → γ}
    (h : ∀ a s, ((f a s).1.map k, (f a s).2) = g a s) (s : σ) :
    (((m >>= f) s).1.map k, ((m >>= f) s).2) = (m >>= g) s := by
  show ((M.andThen m f s).1.map k, (M.andThen m f s).2) = M.andThen m g s
  unfold M.andThen
  rcases m s with ⟨r, s1⟩
  cases r with
  | error e => rfl
  | ok a => exact h a s1

/-- The state of the result is that of `Txn.commit`, with the same effect. -/
theorem Txn.commitResult_state (t : Txn) (p : Option Patch) (st : Handle × World) :
    ((t.commitResult p st).1.map (·.state), (t.commitResult p st).2) = t.commit p st := by
  refine M.map_bind _ (fun b s => ?_) st
  cases b with
  | false => rfl
  | true =>
    cases p with
    | none => rfl
    | some p => exact M.map_bind _ (fun _ _ => rfl) s

/-- The state of the result is that of `runMutation`, with the same effect. -/
theorem runResult_state (E : Env) (m : Mutation) (st : Handle × World) :
    ((runResult E m st).1.map (·.state), (runResult E m st).2) = runMutation E m st :=
  M.map_bind _ (fun t s => M.map_bind _ (fun _ s => M.map_bind _
    (fun p s => Txn.commitResult_state t p s) s) s) st

/-- The state of the result is that of `exec`, with the same effect. -/
theorem mutateResult_exec {E : Env} {m : Mutation} {h h' : Handle} {w w' : World} {r : JobResult}
    (hr : mutateResult E m h w = (.ok r, h', w')) : exec E (.mutate m) h w = (.job r.state, h', w') := by
  have e := runResult_state E m (h, w)
  simp only [exec, mutate, ← e]
  unfold mutateResult at hr
  rcases hx : runResult E m (h, w) with ⟨x, h2, w2⟩
  rw [hx] at hr
  cases x with
  | ok x => cases hr; rfl
  | error x =>
    simp only [Prod.mk.injEq] at hr
    obtain ⟨h1, rfl, rfl⟩ := hr
    split at h1
    · rename_i hc
      cases h1
      simp [Except.map, hc]
    · cases h1

/-- A job reports statistics exactly if it succeeded: those of the patch. -/
theorem Txn.commitResult_update {t : Txn} {p : Option Patch} {st st' : Handle × World} {r : JobResult}
    (hr : t.commitResult p st = (.ok r, st')) :
    (r.state = .succeeded ∧ ∃ q, p = some q ∧ r.update = some q.stats) ∨
      (r.state ≠ .succeeded ∧ r.update = none) := by
  unfold Txn.commitResult at hr
  change M.andThen t.check _ st = _ at hr
  unfold M.andThen at hr
  rcases hc : t.check st with ⟨c, s1⟩
  rw [hc] at hr
  cases c with
  | error e => cases hr
  | ok b =>
    cases b with
    | false => cases hr; exact Or.inr ⟨by simp, rfl⟩
    | true =>
      cases p with
      | none => cases hr; exact Or.inr ⟨by simp, rfl⟩
      | some q =>
        change M.andThen (Space.commit q t.branch) _ s1 = _ at hr
        unfold M.andThen at hr
        rcases hc : Space.commit q t.branch s1 with ⟨c, s2⟩
        rw [hc] at hr
        cases c with
        | error e => cases hr
        | ok x => cases hr; exact Or.inl ⟨rfl, q, rfl, rfl⟩

/-- What a whole call reports: the statistics of the patch its body returned. -/
theorem mutateResult_update {E : Env} {m : Mutation} {h h' : Handle} {w w' : World} {r : JobResult}
    (hr : mutateResult E m h w = (.ok r, h', w')) :
    (r.state = .succeeded ∧ ∃ t h1 w0 p w1, Txn.enter (h, w) = (.ok t, (h1, w0)) ∧
        m.body E h1 w0 = (.ok (some p), w1) ∧ t.commit (some p) (h1, w1) = (.ok .succeeded, (h', w')) ∧
        r.update = some p.stats) ∨
      (r.state ≠ .succeeded ∧ r.update = none) := by
  unfold mutateResult at hr
  rcases hx : runResult E m (h, w) with ⟨x, h2, w2⟩
  rw [hx] at hr
  cases x with
  | error x =>
    simp only [Prod.mk.injEq] at hr
    obtain ⟨h1, rfl, rfl⟩ := hr
    split at h1
    · cases h1; exact Or.inr ⟨by simp, rfl⟩
    · cases h1
  | ok x =>
    cases hr
    unfold runResult at hx
    change M.andThen Txn.enter _ (h, w) = _ at hx
    unfold M.andThen at hx
    rcases he : Txn.enter (h, w) with ⟨c, h1, w0⟩
    rw [he] at hx
    cases c with
    | error e => cases hx
    | ok t =>
      change M.andThen (liftW (m.body E h1)) _ (h1, w0) = _ at hx
      unfold M.andThen liftW at hx
      simp only at hx
      rcases hb : m.body E h1 w0 with ⟨c, w1⟩
      rw [hb] at hx
      cases c with
      | error e => cases hx
      | ok p =>
        rcases Txn.commitResult_update hx with ⟨h3, q, rfl, h4⟩ | h3
        · have e := Txn.commitResult_state t (some q) (h1, w1)
          change t.commitResult (some q) (h1, w1) = _ at hx
          rw [hx] at e
          refine Or.inl ⟨h3, t, h1, w0, q, w1, rfl, hb, ?_, h4⟩
          rw [← e, ← h3]
          rfl
        · exact Or.inr h3

end Space
