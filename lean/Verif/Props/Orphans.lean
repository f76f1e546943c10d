import Verif.Orphans
import Verif.Props.Records
import Verif.Landing
import Verif.Props.Delete

/-! # C80: a mutation leaves no file behind that the table does not use -/

set_option autoImplicit false

namespace Space

/-- The new version uses a file: it is the metadata file named by the entry point, the change log or a
manifest of the version, or a manifest of the version lists it. -/
def InUse (fs : FS) (snap : Snapshot) (q : Path) : Prop :=
  AMap.get? fs .entryPoint = some (.entry q) ∨ snap.log = some q ∨ q ∈ snap.index ∨ q ∈ snap.recs ∨
    (∃ m ∈ snap.index.flatMap (entriesOf fs), m.file = q) ∨ ∃ m ∈ snap.recs.flatMap (recEntriesOf fs), m.file = q

section
variable {E : Env} {s : Schema}

/-- What the patch uses, the new version uses. -/
theorem Uses.inUse {w w1 : World} {fs : FS} {ops : List (Path × Content)} {idx recs : List Path} {snap : Snapshot}
    {q : Path} (h : Uses ops idx recs q) (hl : w1.log = w.log ++ ops) (hg : Grows w w1) (hle : FSLe w1.fs fs)
    (hi : ∀ q ∈ idx, q ∈ snap.index) (hr : ∀ q ∈ recs, q ∈ snap.recs) : InUse fs snap q := by
  rcases h with h | h | ⟨p, hp, rows, ho, m, hm, e⟩ | ⟨p, hp, rows, ho, m, hm, e⟩
  · exact Or.inr (Or.inr (Or.inl (hi q h)))
  · exact Or.inr (Or.inr (Or.inr (Or.inl (hr q h))))
  · have := hle p _ rfl (traced_kept hg.trace hl ho)
    refine Or.inr (Or.inr (Or.inr (Or.inr (Or.inl ⟨m, List.mem_flatMap.mpr ⟨p, hi p hp, ?_⟩, e⟩))))
    simpa [entriesOf, FS.imanifest, this] using hm
  · have := hle p _ rfl (traced_kept hg.trace hl ho)
    refine Or.inr (Or.inr (Or.inr (Or.inr (Or.inr ⟨m, List.mem_flatMap.mpr ⟨p, hr p hp, ?_⟩, e⟩))))
    simpa [recEntriesOf, FS.rmanifest, this] using hm

/-- C80, what holds: after a mutation that succeeded, each file that was not there before is in use by the
new version of the table.  For mutations that delete rows, an index manifest may be left unused
(`C80_violated`). -/
theorem C80_partial (hn : s.names.Nodup) {σ σ' : Sys} {i : Nat} {m : Mutation} (hr : Reach E s anyStep σ)
    (hs : Step E s σ (.call i (.mutate m) (.job .succeeded)) σ') :
    ∃ sl' snap, σ'.slots[i]? = some sl' ∧ headOf sl'.h σ'.w = some snap ∧
      ∀ q, AMap.get? σ.w.fs q = none → AMap.get? σ'.w.fs q ≠ none →
        InUse σ'.w.fs snap q ∨ (m.Deletes ∧ ∃ u, q = .indexManifest u) := by
  obtain ⟨md, hok⟩ := reach_ok hn hr
  cases hs with
  | @call w slots i h c r h' w' hi hadm hrun =>
    have hw := hok.wok
    have hh := hok.slot (List.mem_of_getElem? hi)
    have hmut := exec_mutate hrun
    obtain ⟨hb, hh', hm⟩ := mutate_post hw hh hn m hadm hmut
    rcases hm with hm | ⟨-, h1, w1, p, n, cur, snap, hm⟩
    · exact absurd rfl hm.1
    have hsucc := hm.success hw hh hadm hb hh'
    obtain ⟨hlt, -⟩ := List.getElem?_eq_some_iff.mp hi
    refine ⟨⟨h', .idle⟩, snap, List.getElem?_set_self hlt, hsucc.head', ?_⟩
    have hp := runMutation_puts (E := E) hw hh hn m hadm
    have hrun' : runMutation E m (h, w) = (.ok .succeeded, (h', w')) := by
      unfold mutate at hmut
      rcases hx : runMutation E m (h, w) with ⟨r, h2, w2⟩
      rw [hx] at hmut
      cases r with
      | ok j =>
        simp only [Prod.mk.injEq, Outcome.job.injEq] at hmut
        obtain ⟨rfl, rfl, rfl⟩ := hmut
        rfl
      | error e =>
        simp only [Prod.mk.injEq] at hmut
        split at hmut <;> simp at hmut
    obtain ⟨w2, p2, snap2, hc, hg, g1, g2, g3, hle, he, hnew⟩ := (Post.elim hp hrun').2 rfl
    have hsnap : snap2 = snap := by
      have := hm.step.com.newSnap
      rw [← hm.step.max, g1] at this
      exact Option.some.inj this
    subst hsnap
    intro q hq0 hq
    by_cases h1q : AMap.get? w2.fs q = none
    · rcases hnew q h1q hq with rfl | rfl | hl
      · obtain ⟨pe, hpe, -⟩ := hw.stored
        have hq0 : AMap.get? w.fs .entryPoint = none := hq0
        simp [FS.entry, hq0] at hpe
      · exact Or.inl (Or.inl he)
      · exact Or.inl (Or.inr (Or.inl hl))
    · obtain ⟨ops, hl, hu⟩ := hc
      obtain ⟨x, hx, rfl⟩ := traced_put hg.trace hl hq0 h1q
      obtain ⟨pt, hpt, hux⟩ := hu x hx
      simp only [List.mem_singleton, Option.some.injEq] at hpt
      subst hpt
      exact hux.imp (fun hu => hu.inUse hl hg hle g2 g3) id

/-- C80 for mutations that change nothing: when a mutation is skipped, the files are as they were. -/
theorem C80_skipped (hn : s.names.Nodup) {σ σ' : Sys} {i : Nat} {m : Mutation} (hr : Reach E s anyStep σ)
    (hs : Step E s σ (.call i (.mutate m) (.job .skipped)) σ') : σ'.w.fs = σ.w.fs := by
  obtain ⟨md, hok⟩ := reach_ok hn hr
  cases hs with
  | @call w slots i h c r h' w' hi hadm hrun =>
    have hp := runMutation_puts (E := E) hok.wok (hok.slot (List.mem_of_getElem? hi)) hn m hadm
    have hrun' : runMutation E m (h, w) = (.ok .skipped, (h', w')) := by
      simp only [exec, mutate] at hrun
      rcases hx : runMutation E m (h, w) with ⟨r, h2, w2⟩
      rw [hx] at hrun
      cases r with
      | ok j =>
        simp only [Prod.mk.injEq, Result.job.injEq] at hrun
        obtain ⟨rfl, rfl, rfl⟩ := hrun
        rfl
      | error e =>
        cases hc : e.caught <;> simp [hc] at hrun
    exact (Post.elim hp hrun').1 rfl

/-- C80 for mutations whose steps are interleaved with those of others: each file that the mutation put in
place before its commit (it ran from `w` to `w1`) is in use by the new version. -/
theorem C80_staged_partial (hn : s.names.Nodup) {i : Nat} {m : Mutation} {σ σ' : Sys} (h : Done E s i m σ σ') :
    ∃ sl' snap h1 w p w1, σ'.slots[i]? = some sl' ∧ headOf sl'.h σ'.w = some snap ∧
      m.body E h1 w = (.ok (some p), w1) ∧ FSLe w.fs σ.w.fs ∧ FSLe w1.fs σ'.w.fs ∧
      ∀ q, AMap.get? w.fs q = none → AMap.get? w1.fs q ≠ none →
        InUse σ'.w.fs snap q ∨ (m.Deletes ∧ ∃ u, q = .indexManifest u) := by
  obtain ⟨sl, sl', w, h1, w1, p, cur, snap, hl, -, -⟩ := h.landing hn
  have hs := hl.succ
  refine ⟨sl', snap, h1, w, p, w1, hl.slot', hs.head', hs.body, hs.earlier, hs.le, fun q hq0 hq => ?_⟩
  obtain ⟨ops, hlog, hu⟩ := Post.elim (body_clean (E := E) hs.fresh hs.handle m) hs.body
  obtain ⟨x, hx, rfl⟩ := traced_put hs.grows.trace hlog hq0 hq
  obtain ⟨pt, hpt, hux⟩ := hu x hx
  simp only [List.mem_singleton, Option.some.injEq] at hpt
  subst hpt
  refine hux.imp (fun hu => hu.inUse hlog hs.grows hs.le ?_ ?_) id
  · intro q hq
    rw [hs.index]
    exact List.mem_append_right _ hq
  · intro q hq
    rw [hs.recs]
    exact List.mem_append_right _ hq

end

/-! ## Witnesses -/

open Demo

instance (fs : FS) (snap : Snapshot) (q : Path) : Decidable (InUse fs snap q) := by
  unfold InUse
  infer_instance

/-- Paths of `σ'` that `σ` has not, and whether the new version on the main branch uses them. -/
def Demo.newPaths (σ σ' : Sys) : List (Path × Bool) :=
  ((σ'.w.fs.map (·.1)).filter fun q => (AMap.get? σ.w.fs q).isNone).map fun q =>
    (q, σ'.slots.any fun sl => ((headOf sl.h σ'.w).map fun snap => decide (InUse σ'.w.fs snap q)).getD false)

/-- An append that writes two index files and two record files: eight new files, all in use. -/
example : ∃ σ σ', Reach env schema anyStep σ ∧
    Step env schema σ (.call 0 (.mutate (.append [[row 2 "b" [2, 2, 2], row 3 "c" [3]],
      [row 4 "d" [4, 4, 4, 4, 4], row 5 "e" [5, 5, 5]], [row 6 "f" [6, 6, 6, 6], row 7 "g" [7]]])) (.job .succeeded)) σ' ∧
    (newPaths σ σ').length = 8 ∧ (newPaths σ σ').all (·.2) = true := by
  obtain ⟨e, hst⟩ := doing_step (E := env) (s := schema)
    (σ := after env anyB schema [.call 0 (.mutate (.append [[row 1 "a" [1]]]))])
    (a := .call 0 (.mutate (.append [[row 2 "b" [2, 2, 2], row 3 "c" [3]],
      [row 4 "d" [4, 4, 4, 4, 4], row 5 "e" [5, 5, 5]], [row 6 "f" [6, 6, 6, 6], row 7 "g" [7]]])))
    (o := .res (.job .succeeded)) (by decide +kernel)
  exact ⟨_, _, after_reach (fun _ _ _ => trivial) _, hst, by decide +kernel, by decide +kernel⟩

/-- A delete that writes a file anew, and one that is skipped. -/
example : ∃ σ σ' σ'', Reach env schema anyStep σ ∧
    Step env schema σ (.call 0 (.mutate (.delete (idIs "lt" 2))) (.job .succeeded)) σ' ∧
    (newPaths σ σ').map (·.2) = [true, true, true, true] ∧
    Step env schema σ (.call 0 (.mutate (.delete (idIs "equal" 2))) (.job .skipped)) σ'' ∧ newPaths σ σ'' = [] := by
  obtain ⟨-, hst⟩ := doing_step (E := env) (s := schema)
    (σ := after env anyB schema [.call 0 (.mutate (.append [[row 1 "a" [1], row 3 "b" [2]]]))])
    (a := .call 0 (.mutate (.delete (idIs "lt" 2)))) (o := .res (.job .succeeded)) (by decide +kernel)
  obtain ⟨-, hst'⟩ := doing_step (E := env) (s := schema)
    (σ := after env anyB schema [.call 0 (.mutate (.append [[row 1 "a" [1], row 3 "b" [2]]]))])
    (a := .call 0 (.mutate (.delete (idIs "equal" 2)))) (o := .res (.job .skipped)) (by decide +kernel)
  exact ⟨_, _, _, after_reach (fun _ _ _ => trivial) _, hst, by decide +kernel, hst', by decide +kernel⟩

/-- An append on a branch, started before and committed after another handle's append to main. -/
example : ∃ σ σ', Done env schema 1 (.append [[row 3 "c" [3]]]) σ σ' ∧
    (newPaths σ σ').all (·.2) = true := by
  let σ := after env calmB schema [.call 0 (.mutate (.append [[row 1 "a" [1]]])), .call 0 (.addBranch "dev"),
    .load, .call 1 (.setBranch "dev"), .begin 1 (.append [[row 3 "c" [3]]]), .compute 1,
    .call 0 (.mutate (.append [[row 2 "b" [2]]]))]
  obtain ⟨sl, h1, -, h2⟩ := slot_of (σ := σ) (i := 1)
    (f := fun sl => match sl.phase with
      | .ready _ (.append ts) _ => ts == [[row 3 "c" [3]]]
      | _ => false) (x := true) (by decide +kernel)
  obtain ⟨t, p, hph⟩ : ∃ t p, sl.phase = .ready t (.append [[row 3 "c" [3]]]) p := by
    split at h2
    · rename_i t ts p hp
      simp only [beq_iff_eq] at h2
      subst h2
      exact ⟨t, p, hp⟩
    · cases h2
  obtain ⟨-, hst⟩ := doing_step (E := env) (s := schema) (σ := σ) (a := .commit 1)
    (o := .job (.ok .succeeded)) (by decide +kernel)
  exact ⟨σ, _, .commit (after_reach calmB_calm _) h1 hph hst, by decide +kernel⟩

/-- C80 is false for deletes that keep no row of the files they change: the manifest written for the files
they do not change is not added to the table, and nothing refers to it. -/
theorem C80_violated : ∃ σ σ' sl' snap q, Reach env schema anyStep σ ∧
    Step env schema σ (.call 0 (.mutate (.delete (idIs "gt" 4))) (.job .succeeded)) σ' ∧
    σ'.slots[0]? = some sl' ∧ headOf sl'.h σ'.w = some snap ∧ AMap.get? σ.w.fs q = none ∧
    AMap.get? σ'.w.fs q ≠ none ∧ ¬ InUse σ'.w.fs snap q := by
  have hn : schema.names.Nodup := by decide
  obtain ⟨-, hst⟩ := doing_step (E := env) (s := schema)
    (σ := after env anyB schema [.call 0 (.mutate (.append [[row 1 "a" [1], row 2 "b" [2], row 3 "c" [3], row 4 "d" [4]],
        [row 5 "e" [5]]]))])
    (a := .call 0 (.mutate (.delete (idIs "gt" 4)))) (o := .res (.job .succeeded)) (by decide +kernel)
  have hr := after_reach (E := env) (s := schema) (P := anyStep) (ok := anyB) (fun _ _ _ => trivial)
    [.call 0 (.mutate (.append [[row 1 "a" [1], row 2 "b" [2], row 3 "c" [3], row 4 "d" [4]], [row 5 "e" [5]]]))]
  obtain ⟨sl', snap, h1, h2, -⟩ := C80_partial hn hr hst
  refine ⟨_, _, sl', snap, .indexManifest 9, hr, hst, h1, h2, by decide +kernel, by decide +kernel, fun hu => ?_⟩
  have hall : (doing env (after env anyB schema [.call 0 (.mutate (.append
      [[row 1 "a" [1], row 2 "b" [2], row 3 "c" [3], row 4 "d" [4]], [row 5 "e" [5]]]))])
      (.call 0 (.mutate (.delete (idIs "gt" 4))))).slots.all (fun sl =>
        (headOf sl.h (doing env (after env anyB schema [.call 0 (.mutate (.append
      [[row 1 "a" [1], row 2 "b" [2], row 3 "c" [3], row 4 "d" [4]], [row 5 "e" [5]]]))])
      (.call 0 (.mutate (.delete (idIs "gt" 4))))).w).all fun snap => !decide (InUse (doing env (after env anyB schema [.call 0 (.mutate (.append
      [[row 1 "a" [1], row 2 "b" [2], row 3 "c" [3], row 4 "d" [4]], [row 5 "e" [5]]]))])
      (.call 0 (.mutate (.delete (idIs "gt" 4))))).w.fs snap (.indexManifest 9))) = true := by decide +kernel
  have := List.all_eq_true.mp hall _ (List.mem_of_getElem? h1)
  rw [h2] at this
  simp only [Option.all_some, Bool.not_eq_true', decide_eq_false_iff_not] at this
  exact this hu

end Space
