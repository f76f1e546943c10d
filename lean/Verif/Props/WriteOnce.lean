import Verif.Props.Files

/-!
# C62: files are written once
-/

set_option autoImplicit false

namespace Space

open Demo

/-- What each of the files put in place in a step may be: a file, under a name of its kind (`ownName`),
where there was none, or, as the last one, the entry point, naming a metadata file that is there. -/
def WriteOnce (fs : FS) (ops : List (Path × Content)) : Prop :=
  ∀ before p c after, ops = before ++ (p, c) :: after →
    (AMap.get? (applyOps fs before) p = none ∧ ownName p c = true) ∨
    (p = .entryPoint ∧ after = [] ∧
      ∃ m md, c = .entry m ∧ AMap.get? (applyOps fs before) m = some (.mdata md))

/-- C62: whatever a handle does, in one step of any history, whether the call succeeds or
fails, each file it puts in place is new, except that the last one may be the entry point. -/
theorem C62 {E : Env} {s : Schema} (hn : s.names.Nodup) {σ σ' : Sys} {ev : Event} (hr : Reach E s anyStep σ)
    (hs : Step E s σ ev σ') (hev : ev.slot ≠ none) :
    ∃ ops, σ'.w.log = σ.w.log ++ ops ∧ σ'.w.fs = applyOps σ.w.fs ops ∧ WriteOnce σ.w.fs ops := by
  obtain ⟨md, hok⟩ := reach_ok hn hr
  obtain ⟨md', hok', -⟩ := step_full hn hok hs
  rcases step_writes hn hok hs hev with h | ⟨w2, q, h, he⟩
  · obtain ⟨ops, h1, h2, -, -, h3⟩ := h.trace
    refine ⟨ops, h1, h2, fun a p c b hp => Or.inl ?_⟩
    obtain ⟨h4, h5⟩ := h3 a p c b hp
    exact ⟨h5, h4⟩
  · obtain ⟨ops, h1, h2, -, -, h3⟩ := h.trace
    refine ⟨ops ++ [(.entryPoint, .entry q)], by rw [he]; simp [World.put, h1], ?_, fun a p c b hp => ?_⟩
    · rw [applyOps_append, ← h2, he]
      rfl
    · rcases List.append_eq_append_iff.mp hp with ⟨x, h4, h5⟩ | ⟨x, h4, h5⟩
      · refine Or.inr ?_
        cases x with
        | nil =>
          simp only [List.nil_append, List.cons.injEq, Prod.mk.injEq] at h5
          obtain ⟨⟨rfl, rfl⟩, rfl⟩ := h5
          refine ⟨rfl, rfl, q, ?_⟩
          rw [List.append_nil] at h4
          rw [h4, ← h2]
          obtain ⟨m, e1, e2⟩ := hok'.wok.stored
          rw [he] at e1 e2
          simp only [World.put, FS.entry, AMap.get?_set_self, Option.some.injEq] at e1
          subst e1
          refine ⟨md', rfl, ?_⟩
          simp only [World.put, FS.mdata] at e2
          split at e2 <;> cases e2
          rename_i hx
          by_cases hq : q = .entryPoint
          · rw [hq, AMap.get?_set_self] at hx
            cases hx
          · rwa [AMap.get?_set_ne _ _ hq] at hx
        | cons y x => simp at h5
      · cases x with
        | nil =>
          refine Or.inr ?_
          simp only [List.nil_append, List.cons.injEq, Prod.mk.injEq] at h5
          obtain ⟨⟨rfl, rfl⟩, rfl⟩ := h5
          refine ⟨rfl, rfl, q, ?_⟩
          rw [List.append_nil] at h4
          rw [← h4, ← h2]
          obtain ⟨m, e1, e2⟩ := hok'.wok.stored
          rw [he] at e1 e2
          simp only [World.put, FS.entry, AMap.get?_set_self, Option.some.injEq] at e1
          subst e1
          refine ⟨md', rfl, ?_⟩
          simp only [World.put, FS.mdata] at e2
          split at e2 <;> cases e2
          rename_i hx
          by_cases hq : q = .entryPoint
          · rw [hq, AMap.get?_set_self] at hx
            cases hx
          · rwa [AMap.get?_set_ne _ _ hq] at hx
        | cons y x =>
          simp only [List.cons_append, List.cons.injEq] at h5
          obtain ⟨rfl, -⟩ := h5
          obtain ⟨h6, h7⟩ := h3 a p c x h4
          exact Or.inl ⟨h7, h6⟩

/-- C62, for whole histories: a file that is there stays, as it is, whatever anyone does later;
only what the entry point holds changes. -/
theorem C62_kept {E : Env} {s : Schema} (hn : s.names.Nodup) {σ σ' : Sys} (hr : Reach E s anyStep σ)
    (hrun : Run E s anyStep σ σ') {p : Path} {c : Content} (hc : ∀ m, c ≠ .entry m)
    (hp : AMap.get? σ.w.fs p = some c) : AMap.get? σ'.w.fs p = some c := by
  induction hrun with
  | refl => exact hp
  | step h1 _ hs ih =>
    obtain ⟨σ0, h0, hr0⟩ := hr
    obtain ⟨md, hok⟩ := reach_ok hn ⟨σ0, h0, hr0.trans h1⟩
    obtain ⟨md', -, hle, -⟩ := step_full hn hok hs
    refine hle p c ?_ ih
    cases c <;> first | rfl | exact absurd rfl (hc _)

/-- An upsert to which C62 applies: it puts eight new files, and then the entry point. -/
example : ∃ σ σ' r, Reach env schema anyStep σ ∧
    Step env schema σ (.call 0 (.mutate (.upsert [row 1 "b" [2], row 7 "c" [3]])) r) σ' ∧
    σ.w.log.length + 9 = σ'.w.log.length ∧ σ'.w.log.getLast?.map (·.1) = some .entryPoint := by
  let σ := after env anyB schema [.call 0 (.mutate (.append [[row 1 "a" [1], row 2 "a" [2]]]))]
  let a : Act := .call 0 (.mutate (.upsert [row 1 "b" [2], row 7 "c" [3]]))
  obtain ⟨-, h2⟩ := doing_step (E := env) (s := schema) (σ := σ) (a := a)
    (o := .res (.job .succeeded)) (by decide +kernel)
  refine ⟨σ, _, _, after_reach (fun _ _ _ => trivial) _, h2, ?_, ?_⟩
  · decide +kernel
  · decide +kernel

end Space
