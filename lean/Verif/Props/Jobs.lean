import Verif.Jobs
import Verif.Props.BytesEffect
import Verif.Props.Txn

/-!
# C72: what a job reports
-/

set_option autoImplicit false

namespace Space

open Demo

/-- Handle `i` finishes the mutation `m` in a step from `σ`, with result `r`: by a whole call; by
the commit of a mutation that was started and computed before; or by the writing half of a commit
whose check was made before.  Other handles may do anything in between. -/
inductive Reported (E : Env) (s : Schema) (i : Nat) (m : Mutation) (σ : Sys) : JobResult → Sys → Prop where
  | call {h h' : Handle} {w' : World} {r : JobResult} : σ.slots[i]? = some ⟨h, .idle⟩ →
      m.Admissible s σ.w.fs → mutateResult E m h σ.w = (.ok r, h', w') →
      Reported E s i m σ r ⟨w', σ.slots.set i ⟨h', .idle⟩⟩
  | commit {h h' : Handle} {w' : World} {r : JobResult} {t : Txn} {p : Option Patch} :
      σ.slots[i]? = some ⟨h, .ready t m p⟩ → t.commitResult p (h, σ.w) = (.ok r, (h', w')) →
      Reported E s i m σ r ⟨w', σ.slots.set i ⟨h', .idle⟩⟩
  | write {h h' : Handle} {w' : World} {r : JobResult} {t : Txn} {p : Patch} :
      σ.slots[i]? = some ⟨h, .checked t m p⟩ → t.writeResult p (h, σ.w) = (.ok r, (h', w')) →
      Reported E s i m σ r ⟨w', σ.slots.set i ⟨h', .idle⟩⟩

/-- The commit was one step. -/
def Reported.Whole (m : Mutation) (i : Nat) (σ : Sys) : Prop :=
  ∃ h, σ.slots[i]? = some ⟨h, .idle⟩ ∨ ∃ t p, σ.slots[i]? = some ⟨h, .ready t m p⟩

/-- What a job says is what happened to the statistics of the head of branch `b`. -/
def Truthful (σ σ' : Sys) (b : String) (r : JobResult) : Prop :=
  (r.state ≠ .succeeded → r.update = none ∧ σ'.w.stored = σ.w.stored) ∧
  (r.state = .succeeded → ∃ u cur snap, r.update = some u ∧ HeadAt σ b cur ∧ HeadAt σ' b snap ∧
    snap.stats.rows - cur.stats.rows = u.rows ∧ snap.stats.icb - cur.stats.icb = u.icb ∧
    snap.stats.iub - cur.stats.iub = u.iub ∧ snap.stats.rub - cur.stats.rub = u.rub)

/-- A job as a step of the system. -/
theorem Reported.step {E : Env} {s : Schema} {i : Nat} {m : Mutation} {σ σ' : Sys} {r : JobResult}
    (h : Reported E s i m σ r σ') :
    Step E s σ (.call i (.mutate m) (.job r.state)) σ' ∨
    (Step E s σ (.commit i (.ok r.state)) σ' ∧ ∃ h t p, σ.slots[i]? = some ⟨h, .ready t m p⟩) ∨
    (Step E s σ (.write i (.ok ())) σ' ∧ r.state = .succeeded ∧ ∃ h t p, σ.slots[i]? = some ⟨h, .checked t m p⟩) := by
  cases h with
  | call h1 h2 h3 => exact Or.inl (.call h1 h2 (mutateResult_exec h3))
  | commit h1 h2 =>
    refine Or.inr (Or.inl ⟨.commit h1 ?_, _, _, _, h1⟩)
    rw [← Txn.commitResult_state, h2]
    rfl
  | @write h h' w' r t p h1 h2 =>
    have : Space.commit p t.branch (h, σ.w) = (.ok (), (h', w')) ∧ r.state = .succeeded := by
      unfold Txn.writeResult at h2
      change M.andThen (Space.commit p t.branch) _ (h, σ.w) = _ at h2
      unfold M.andThen at h2
      rcases hc : Space.commit p t.branch (h, σ.w) with ⟨c, s2⟩
      rw [hc] at h2
      cases c with
      | error e => cases h2
      | ok x => cases h2; exact ⟨rfl, rfl⟩
    exact Or.inr (Or.inr ⟨.write h1 this.1, this.2, _, _, _, h1⟩)

theorem CommitStep.truthful {s : Schema} {w w1 w' : World} {md : Metadata} {h' : Handle} {b : String}
    {p : Patch} {n : Nat} {cur snap : Snapshot} {slots slots' : List Slot} {r : JobResult}
    (hw : WOK s w md) (h : CommitStep s w1 w' md h' b p n cur snap) (hs : r.state = .succeeded)
    (hu : r.update = some p.stats) : Truthful ⟨w, slots⟩ ⟨w', slots'⟩ b r := by
  refine ⟨fun hc => absurd hs hc, fun _ => ⟨p.stats, cur, snap, hu,
    ⟨md, hw.storedEq, target_head h.com.head h.com.curGet⟩,
    ⟨h'.md, h.wok.storedEq, target_head h.com.newHead h.com.newSnap⟩, ?_⟩⟩
  rw [h.com.stats]
  simp only [SStats.addIndex, SStats.addRecord]
  omega

/-- C72, for commits that are one step, in any history: a job that succeeds reports the change of
all four statistics of the head of its branch, and any other job reports none and leaves the
stored metadata alone.  For commits whose check and write are apart see `C72_violated`. -/
theorem C72_partial {E : Env} {s : Schema} (hn : s.names.Nodup) {i : Nat} {m : Mutation} {σ σ' : Sys}
    {r : JobResult} (hr : Reach E s anyStep σ) (h : Reported E s i m σ r σ') (hw : Reported.Whole m i σ) :
    ∃ sl, σ.slots[i]? = some sl ∧ Truthful σ σ' sl.h.branch r := by
  obtain ⟨md, hok⟩ := reach_ok hn hr
  have hq : r.state ≠ .succeeded → σ'.w.stored = σ.w.stored := by
    intro hne
    rcases h.step with hs | ⟨hs, -⟩ | ⟨-, hs, -⟩
    · exact (C14 hn hr hs (.mutation (by simpa using hne))).1
    · exact (C14 hn hr hs (.commit (by simpa using hne))).1
    · exact absurd hs hne
  cases h with
  | @call h h' w' r h1 h2 h3 =>
    refine ⟨_, h1, ?_⟩
    rcases mutateResult_update h3 with ⟨hst, t, h4, w0, p, w1, he, hb, hc, hu⟩ | ⟨hne, hu⟩
    · have hh := (hok.slots _ (List.mem_of_getElem? h1)).1
      obtain ⟨rfl, e2, e3, e4, -, e5, e6, -⟩ := Post.elim (enter_post hok.wok hh) he
      simp only at e2 e3 e4
      have hbp := Post.elim (body_post (E := E) hok.wok.fresh e4 hn m h2) hb
      obtain ⟨-, hx⟩ := Post.elim (txnCommit_post (t := t) (p := some p) (hok.wok.grows hbp.1)
        (e4.mono hbp.1.le) (fun q hq => (hbp.2.2 q hq).1)) hc
      rcases hx with ⟨hx, -⟩ | ⟨-, -, q, h5, cur, snap, hq', -, -, hstep⟩
      · exact absurd rfl hx
      · cases hq'
        rw [e5] at hstep
        exact hstep.truthful hok.wok hst hu
    · exact ⟨fun _ => ⟨hu, hq hne⟩, fun hc => absurd hc hne⟩
  | @commit h h' w' r t p h1 h2 =>
    refine ⟨_, h1, ?_⟩
    rcases Txn.commitResult_update h2 with ⟨hst, p, rfl, hu⟩ | ⟨hne, hu⟩
    · obtain ⟨hh, hb, -, hpok, -⟩ := hok.slots _ (List.mem_of_getElem? h1)
      simp only at hb hpok hh
      have hc : t.commit (some p) (h, σ.w) = (.ok .succeeded, (h', w')) := by
        rw [← Txn.commitResult_state, h2, ← hst]
        rfl
      obtain ⟨-, hx⟩ := Post.elim (txnCommit_post (t := t) (p := some p) hok.wok hh hpok) hc
      rcases hx with ⟨hx, -⟩ | ⟨-, -, q, h5, cur, snap, hq', -, -, hstep⟩
      · exact absurd rfl hx
      · cases hq'
        rw [← hb] at hstep
        exact hstep.truthful hok.wok hst hu
    · exact ⟨fun _ => ⟨hu, hq hne⟩, fun hc => absurd hc hne⟩
  | write h1 h2 =>
    obtain ⟨h, hw | ⟨t, p, hw⟩⟩ := hw <;> (rw [h1] at hw; cases hw)

theorem CountAt.unique {σ : Sys} {b : String} {c : Int} {snap : Snapshot} (h : CountAt σ b c) (hs : HeadAt σ b snap) :
    c = snap.stats.rows := by
  obtain ⟨md, sn, h1, h2, rfl⟩ := h
  obtain ⟨md', h3, h4⟩ := hs
  rw [h1] at h3
  cases h3
  rw [h2] at h4
  cases h4
  rfl

/-- C72, the rows: the number of rows that a job reports is the number the mutation is meant to
add less the number it is meant to remove.  Whole calls in any history, commits in calm ones. -/
theorem C72_rows {E : Env} {s : Schema} (hn : s.names.Nodup) {i : Nat} {m : Mutation} {σ σ' : Sys}
    {r : JobResult} (h : Reported E s i m σ r σ') (hw : Reported.Whole m i σ)
    (hr : Reach E s calm σ ∨ Reach E s anyStep σ ∧ ∃ h, σ.slots[i]? = some ⟨h, .idle⟩)
    (hs : r.state = .succeeded) :
    ∃ sl old new u, σ.slots[i]? = some sl ∧ Reads E σ sl.h.branch old ∧ Reads E σ' sl.h.branch new ∧
      r.update = some u ∧ m.CountsBy E.I s old new u.rows := by
  have hany : Reach E s anyStep σ := hr.elim (·.imp anyStep_of) (·.1)
  have hd : Done E s i m σ σ' := by
    rcases h.step with hst | ⟨hst, h1, t, p, h2⟩ | ⟨-, -, h1, t, p, h2⟩
    · exact .call hany (hs ▸ hst)
    · rcases hr with hr | ⟨-, h3, h4⟩
      · exact .commit hr h2 rfl (hs ▸ hst)
      · rw [h2] at h4; cases h4
    · obtain ⟨h, hw | ⟨t, p, hw⟩⟩ := hw <;> (rw [h2] at hw; cases hw)
  obtain ⟨sl, old, new, c, c', h1, h2, h3, h4, h5, h6⟩ := C35_effect hn hd
  obtain ⟨sl2, h7, -, h8⟩ := C72_partial hn hany h hw
  rw [h1] at h7
  cases h7
  obtain ⟨u, cur, snap, hu, g1, g2, g3, -⟩ := h8 hs
  refine ⟨sl, old, new, u, h1, h2, h3, hu, ?_⟩
  rw [← g3, ← h4.unique g1, ← h5.unique g2]
  exact h6

namespace Demo

/-- What the job of handle `i` reports if it is finished now, by a call if the handle is idle. -/
def reportNow (E : Env) (m : Mutation) (σ : Sys) (i : Nat) : Option (Except Err JobResult) :=
  match σ.slots[i]? with
  | some ⟨h, .idle⟩ => some (mutateResult E m h σ.w).1
  | some ⟨h, .ready t _ p⟩ => some (t.commitResult p (h, σ.w)).1
  | some ⟨h, .checked t _ p⟩ => some (t.writeResult p (h, σ.w)).1
  | _ => none

/-- The mutation that handle `i` is about to finish. -/
def pending (m : Mutation) (σ : Sys) (i : Nat) : Mutation :=
  match σ.slots[i]? with
  | some ⟨_, .ready _ m _⟩ => m
  | some ⟨_, .checked _ m _⟩ => m
  | _ => m

/-- The system after that. -/
def reportThen (E : Env) (m : Mutation) (σ : Sys) (i : Nat) : Sys :=
  match σ.slots[i]? with
  | some ⟨h, .idle⟩ => ⟨(mutateResult E m h σ.w).2.2, σ.slots.set i ⟨(mutateResult E m h σ.w).2.1, .idle⟩⟩
  | some ⟨h, .ready t _ p⟩ =>
    ⟨(t.commitResult p (h, σ.w)).2.2, σ.slots.set i ⟨(t.commitResult p (h, σ.w)).2.1, .idle⟩⟩
  | some ⟨h, .checked t _ p⟩ =>
    ⟨(t.writeResult p (h, σ.w)).2.2, σ.slots.set i ⟨(t.writeResult p (h, σ.w)).2.1, .idle⟩⟩
  | _ => σ

theorem reported {E : Env} {s : Schema} {m : Mutation} {σ : Sys} {i : Nat} {r : JobResult}
    (hm : plainMut m = true) (h : reportNow E m σ i = some (.ok r)) :
    Reported E s i (pending m σ i) σ r (reportThen E m σ i) := by
  unfold reportNow at h
  unfold pending reportThen
  split at h
  · rename_i hd hs
    simp only [hs]
    refine .call hs (plainMut_adm hm _ _) ?_
    rw [← Option.some.inj h]
  · rename_i hd t m' p hs
    simp only [hs]
    refine .commit hs (p := p) (t := t) ?_
    rw [← Option.some.inj h]
  · rename_i hd t m' p hs
    simp only [hs]
    refine .write hs (p := p) (t := t) ?_
    rw [← Option.some.inj h]
  · cases h

/-- Three rows in one file. -/
def three : Sys := after env anyB schema [.call 0 (.mutate (.append [[row 1 "x" [1], row 2 "y" [2], row 3 "z" [3]]]))]

/-- The second of them goes. -/
def goTwo : Mutation := .delete (.bin "equal" (.sel "id") (.lit (.int 2)))

end Demo

/-- A delete that succeeds and reports one row less, and an insert that fails and reports none. -/
example : ∃ r r' σ σ', Reach env schema anyStep three ∧
    Reported env schema 0 goTwo three r σ ∧ r.state = .succeeded ∧ r.update.map (·.rows) = some (-1) ∧
    Reported env schema 0 (.insert [row 2 "q" []]) three r' σ' ∧ r'.state = .failed ∧
    Reported.Whole goTwo 0 three := by
  obtain ⟨⟨h, ph⟩, h1, -, h2⟩ := slot_of (σ := three) (i := 0) (f := fun sl => match sl.phase with
    | .idle => true
    | _ => false) (x := true) (by decide +kernel)
  have hp : ph = .idle := by cases ph <;> first | rfl | cases h2
  subst hp
  have e : ∀ m, pending m three 0 = m := by intro m; unfold pending; rw [h1]
  have a := reported (E := env) (s := schema) (m := goTwo) (σ := three) (i := 0)
    (r := { state := .succeeded, update := some { rows := -1, icb := -1, iub := -1, rub := 0 } }) rfl (by decide +kernel)
  have b := reported (E := env) (s := schema) (m := .insert [row 2 "q" []]) (σ := three) (i := 0)
    (r := { state := .failed }) rfl (by decide +kernel)
  rw [e] at a b
  exact ⟨_, _, _, _, after_reach (fun _ _ _ => trivial) _, a, rfl, rfl, b, rfl, h, Or.inl h1⟩

/-- C72 is false if the check and the write of a commit are apart: another commit falls between
them and is lost, the job reports a row more, and the head counts as many rows as before. -/
theorem C72_violated : ∃ (σ σ' : Sys) (m : Mutation) (r : JobResult) (sl : Slot),
    Reach env schema anyStep σ ∧ Reported env schema 1 m σ r σ' ∧ σ.slots[1]? = some sl ∧
    r.state = .succeeded ∧ r.update.map (·.rows) = some 1 ∧ CountAt σ sl.h.branch 1 ∧
    CountAt σ' sl.h.branch 1 ∧ ¬ Truthful σ σ' sl.h.branch r := by
  let σ := doing env splitMid (.write 0)
  let m : Mutation := .append []
  obtain ⟨sl, h1, -, h2⟩ := slot_of (σ := σ) (i := 1)
    (f := fun sl => decide (sl.h.branch = mainBranch)) (x := true) (by decide +kernel)
  have hb : sl.h.branch = mainBranch := by simpa using h2
  obtain ⟨md, g1, g2⟩ := stored_of_map (w := σ.w)
    (f := fun md => (md.target mainBranch none).toOption.map (·.stats.rows)) (x := some 1) (by decide +kernel)
  obtain ⟨md', g3, g4⟩ := stored_of_map (w := (reportThen env m σ 1).w)
    (f := fun md => (md.target mainBranch none).toOption.map (·.stats.rows)) (x := some 1) (by decide +kernel)
  have key : ∀ {τ : Sys} {d : Metadata}, τ.w.stored = some d →
      (d.target mainBranch none).toOption.map (·.stats.rows) = some 1 → CountAt τ sl.h.branch 1 := by
    intro τ d e1 e2
    rw [hb]
    cases ht : d.target mainBranch none with
    | error e => rw [ht] at e2; cases e2
    | ok x => rw [ht] at e2; exact ⟨d, x, e1, ht, Option.some.inj e2⟩
  have c1 := key g1 g2
  have c2 := key g3 g4
  have s1 := (doing_step (E := env) (s := schema) (σ := splitMid) (a := .write 0) (o := .unit (.ok ()))
    (by decide +kernel)).2
  refine ⟨σ, reportThen env m σ 1, pending m σ 1,
    { state := .succeeded, update := some { rows := 1, icb := 1, iub := 1, rub := 1 } }, sl,
    Reach.step (after_reach (fun _ _ _ => trivial) _) trivial s1, reported rfl (by decide +kernel), h1, rfl, rfl, c1, c2, ?_⟩
  intro ht
  obtain ⟨u, cur, snap, hu, a1, a2, a3, -⟩ := ht.2 rfl
  cases hu
  have := c1.unique a1
  have := c2.unique a2
  simp only at a3
  omega

/-- A commit in a calm history, as `C72_rows` wants: two rows computed after another handle's
append, two rows reported. -/
example : ∃ m r σ σ', Reach env schema calm σ ∧ Reported env schema 1 m σ r σ' ∧ Reported.Whole m 1 σ ∧
    r.state = .succeeded ∧ r.update.map (·.rows) = some 2 := by
  let σ := after env calmB schema [.load, .call 0 (.mutate (.append [[row 1 "x" [1]]])),
      .begin 1 (.append [[row 2 "y" [2], row 3 "z" []]]), .compute 1]
  obtain ⟨⟨h, ph⟩, h1, -, h2⟩ := slot_of (σ := σ) (i := 1) (f := fun sl => match sl.phase with
    | .ready .. => true
    | _ => false) (x := true) (by decide +kernel)
  cases ph with
  | ready t m p =>
    have a := reported (E := env) (s := schema) (m := .append []) (i := 1) (σ := σ)
      (r := { state := .succeeded, update := some { rows := 2, icb := 2, iub := 2, rub := 2 } }) rfl (by decide +kernel)
    have e : pending (.append []) σ 1 = m := by unfold pending; rw [h1]
    rw [e] at a
    exact ⟨m, _, σ, _, after_reach calmB_calm _, a, ⟨h, Or.inr ⟨t, p, h1⟩⟩, rfl, rfl⟩
  | _ => cases h2

end Space
