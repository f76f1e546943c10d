import Verif.Props.Conflict

/-!
# C78: FAILED means an error of the library, every other exception reaches the caller
-/

set_option autoImplicit false

namespace Space

open Demo

/-- The classes of `utils/errors.py:18-55`: `UserInputError` and its six subclasses,
and `SpaceRuntimeError` with its subclasses. -/
def libraryErrors : List Err :=
  [.userInput, .versionNotFound, .versionExists, .pkExists, .fileExists, .storageExists, .storageNotFound,
    .runtime]

/-- The operation `m` itself, on the object `h` brought up to date, raises `e`. -/
def Raises (E : Env) (m : Mutation) (h : Handle) (w : World) (e : Err) : Prop :=
  ∃ b h1 w1, reload (h, w) = (.ok b, (h1, w)) ∧ m.body E h1 w = (.error e, w1)

theorem caught_iff (e : Err) : e.caught = true ↔ e ∈ libraryErrors := by
  cases e <;> simp [Err.caught, libraryErrors]

/-- C78: a mutation on a branch that exists, with nobody else committing during it,
lets an exception through exactly if the operation raised it and it is no error of the
library, and returns FAILED exactly if the operation raised an error of the library.
Otherwise it returns SUCCEEDED or SKIPPED. -/
theorem C78 {E : Env} {s : Schema} (hn : s.names.Nodup) {σ : Sys} {i : Nat} {sl : Slot} {m : Mutation}
    (h : Reach E s anyStep σ) (hsl : σ.slots[i]? = some sl) (hadm : m.Admissible s σ.w.fs)
    (hb : branchIn sl.h.branch σ) :
    (∀ e, (exec E (.mutate m) sl.h σ.w).1 = .raised e ↔ Raises E m sl.h σ.w e ∧ e ∉ libraryErrors) ∧
    ((exec E (.mutate m) sl.h σ.w).1 = .job .failed ↔ ∃ e, Raises E m sl.h σ.w e ∧ e ∈ libraryErrors) ∧
    ((¬ ∃ e, Raises E m sl.h σ.w e) →
      (exec E (.mutate m) sl.h σ.w).1 = .job .succeeded ∨ (exec E (.mutate m) sl.h σ.w).1 = .job .skipped) := by
  obtain ⟨md, hok⟩ := reach_ok hn h
  have hh := (hok.slots _ (List.mem_of_getElem? hsl)).1
  have hb' : OnBranch md sl.h.branch := by
    rcases hb with hb | ⟨md', r, a, b, c⟩
    · exact Or.inl hb
    · have := stored_of hok a
      subst this
      exact Or.inr ⟨r, b, c⟩
  obtain ⟨b, h1, e1, e2, e3, e4, -, -, -, -⟩ := reload_eq hok.wok hh
  have one : ∀ e, Raises E m sl.h σ.w e → (m.body E h1 σ.w).1 = .error e := by
    rintro e ⟨b', h1', w1, a, c⟩
    rw [e1] at a
    cases a
    rw [c]
  cases hbody : m.body E h1 σ.w with
  | mk r w1 =>
  cases r with
  | ok p =>
    have no : ∀ e, ¬ Raises E m sl.h σ.w e := by
      intro e he
      have := one e he
      rw [hbody] at this
      cases this
    obtain ⟨q, h', w', -, hex⟩ := exec_total_of (R := fun _ => True) hn hok.wok hh hadm hb' (fun h2 _ _ _ hre => by
      obtain ⟨b', hre⟩ := hre
      rw [e1] at hre
      cases hre
      rw [hbody]
      exact trivial)
    rw [hex]
    refine ⟨fun e => ⟨fun hx => (by cases hx), fun hx => (no e hx.1).elim⟩, ⟨fun hx => ?_, fun ⟨e, hx, _⟩ => (no e hx).elim⟩,
      fun _ => ?_⟩
    · cases q <;> simp at hx
    · cases q <;> simp
  | error e =>
    have yes : Raises E m sl.h σ.w e := ⟨b, h1, w1, e1, hbody⟩
    have only : ∀ e', Raises E m sl.h σ.w e' → e' = e := by
      intro e' he
      have := one e' he
      rw [hbody] at this
      cases this
      rfl
    obtain ⟨cur, hid, -, -⟩ := hb'.head hok.wok.ok
    have hid' : h1.md.currentId sl.h.branch = .ok cur.id := by rw [e2]; exact hid
    have hr : runMutation E m (sl.h, σ.w) = (.error e, (h1, w1)) := by
      simp [runMutation, Txn.enter, self, liftW, bind, M.andThen, M.lift, pure, M.ret, e1, hid', hbody]
    have hx : exec E (.mutate m) sl.h σ.w
        = (if e ∈ libraryErrors then .job .failed else .raised e, h1, w1) := by
      by_cases hc : e ∈ libraryErrors
      · simp [exec, mutate, hr, (caught_iff e).2 hc, hc]
      · have : e.caught = false := by
          cases h : e.caught with
          | false => rfl
          | true => exact (hc ((caught_iff e).1 h)).elim
        simp [exec, mutate, hr, this, hc]
    rw [hx]
    refine ⟨fun e' => ⟨fun hx => ?_, fun ⟨hx, hy⟩ => ?_⟩, ⟨fun hx => ?_, fun ⟨e', hx, hy⟩ => ?_⟩, fun hx => (hx ⟨e, yes⟩).elim⟩
    · by_cases hc : e ∈ libraryErrors
      · simp [hc] at hx
      · simp only [hc, if_false, Result.raised.injEq] at hx
        subst hx
        exact ⟨yes, hc⟩
    · rw [only e' hx] at hy ⊢
      simp [hy]
    · by_cases hc : e ∈ libraryErrors
      · exact ⟨e, yes, hc⟩
      · simp [hc] at hx
    · rw [only e' hx] at hy
      simp [hy]

/-- On a branch that is gone every mutation returns FAILED. -/
theorem C78_gone {E : Env} {s : Schema} (hn : s.names.Nodup) {σ : Sys} {i : Nat} {sl : Slot} {m : Mutation}
    (h : Reach E s anyStep σ) (hsl : σ.slots[i]? = some sl) (hm : sl.h.branch ≠ mainBranch)
    (hb : ∀ md, σ.w.stored = some md → md.refs.get? sl.h.branch = none) :
    (exec E (.mutate m) sl.h σ.w).1 = .job .failed := by
  obtain ⟨md, hok⟩ := reach_ok hn h
  have hh := (hok.slots _ (List.mem_of_getElem? hsl)).1
  obtain ⟨b, h1, e1, e2, e3, e4, -, -, -, -⟩ := reload_eq hok.wok hh
  have hid : h1.md.currentId sl.h.branch = .error .versionNotFound := by
    rw [e2]
    simp [Metadata.currentId, Metadata.lookupRef, hm, hb md hok.wok.storedEq]
    rfl
  have hr : runMutation E m (sl.h, σ.w) = (.error .versionNotFound, (h1, σ.w)) := by
    simp [runMutation, Txn.enter, self, bind, M.andThen, M.lift, e1, hid]
  simp [exec, mutate, hr, Err.caught]

/-- Every other call raises what it raises: none returns FAILED. -/
theorem C78_others {E : Env} {c : Call} {h : Handle} {w : World} (hc : ∀ m, c ≠ .mutate m) (j : Job) :
    (exec E c h w).1 ≠ .job j := by
  have unit : ∀ {α : Type} (x : HM α), (runUnit x h w).1 ≠ .job j := by
    intro α x
    unfold runUnit
    split <;> simp
  cases c with
  | mutate m => exact (hc m rfl).elim
  | _ => exact unit _

/-- Deleting by a column that does not exist. -/
def byNothing : Mutation := .delete (.bin "equal" (.sel "nope") (.lit (.int 1)))

/-- After an append of key 1: an insert of key 1 meets an error of the library and
returns FAILED; a delete by a column that does not exist raises what Arrow raises. -/
example : ∃ (σ : Sys) (sl : Slot), Reach env schema anyStep σ ∧ σ.slots[0]? = some sl ∧ branchIn sl.h.branch σ ∧
    (∃ e, Raises env (.insert [row 1 "y" []]) sl.h σ.w e ∧ e ∈ libraryErrors) ∧
    (exec env (.mutate (.insert [row 1 "y" []])) sl.h σ.w).1 = .job .failed ∧
    Raises env byNothing sl.h σ.w (.other "ArrowInvalid") ∧
    (exec env (.mutate byNothing) sl.h σ.w).1 = .raised (.other "ArrowInvalid") := by
  let σ := after env anyB schema [.call 0 (.mutate (.append [[row 1 "x" [1]]]))]
  obtain ⟨sl, h1, -, h2⟩ := slot_of (σ := σ) (i := 0)
    (f := fun sl => decide (sl.h.branch = mainBranch) &&
      decide ((exec env (.mutate (.insert [row 1 "y" []])) sl.h σ.w).1 = .job .failed) &&
      decide ((exec env (.mutate byNothing) sl.h σ.w).1 = .raised (.other "ArrowInvalid")))
    (x := true) (by decide +kernel)
  simp only [Bool.and_eq_true, decide_eq_true_eq] at h2
  obtain ⟨⟨h3, h4⟩, h5⟩ := h2
  have hr : Reach env schema anyStep σ := after_reach (fun _ _ _ => trivial) _
  have hb : branchIn sl.h.branch σ := Or.inl h3
  have hn : schema.names.Nodup := by decide
  exact ⟨σ, sl, hr, h1, hb, (C78 (m := .insert [row 1 "y" []]) hn hr h1 trivial hb).2.1.1 h4, h4, (((C78 (m := byNothing) hn hr h1 trivial hb).1 _).1 h5).1, h5⟩

/-- Handle 1 is on a branch that handle 0 then removes. -/
example : ∃ (σ : Sys) (sl : Slot), Reach env schema anyStep σ ∧ σ.slots[1]? = some sl ∧
    sl.h.branch ≠ mainBranch ∧ ∀ md, σ.w.stored = some md → md.refs.get? sl.h.branch = none := by
  let σ := after env anyB schema [.call 0 (.addBranch "dev"), .load, .call 1 (.setBranch "dev"),
    .call 0 (.removeBranch "dev")]
  obtain ⟨sl, h1, -, h2⟩ := slot_of (σ := σ) (i := 1)
    (f := fun sl => decide (sl.h.branch ≠ mainBranch) &&
      decide ((σ.w.stored.map (fun md => (md.refs.get? sl.h.branch).isSome)) = some false))
    (x := true) (by decide +kernel)
  simp only [Bool.and_eq_true, decide_eq_true_eq] at h2
  refine ⟨σ, sl, after_reach (fun _ _ _ => trivial) _, h1, h2.1, fun md hmd => ?_⟩
  have h3 := h2.2
  rw [hmd] at h3
  simpa using h3

end Space
