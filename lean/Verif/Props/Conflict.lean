import Verif.Props.Txn
import Verif.Progress
import Verif.Landing

/-!
# C61: a mutation loses only to another mutation
-/

set_option autoImplicit false

namespace Space

open Demo

/-- A step that neither commits to a branch nor removes it leaves its head. -/
theorem Change.still {σ : Sys} {ev : Event} {fs' : FS} {md md' : Metadata} (h : Change σ ev fs' md md')
    {b : String} (hk : ∀ i r, ev ≠ .call i (.removeBranch b) r) (hc : ¬ CommitEvent σ ev b) {n : Nat}
    (hb : OnBranch md b) (hid : md.currentId b = .ok n) : OnBranch md' b ∧ md'.currentId b = .ok n := by
  have hc' : ∀ c, CommitEvent σ ev c → b ≠ c := by
    rintro c h rfl
    exact hc h
  refine ⟨(h.heads hk hb hid).1, ?_⟩
  cases h with
  | same e => rw [e]; exact hid
  | commit c p k cur snap com new hce => rw [com.otherHead (hc' c hce)]; exact hid
  | addRef name kind k can e =>
    rw [e]
    unfold Metadata.currentId Metadata.lookupRef at hid ⊢
    split
    · rename_i hm
      rw [if_pos hm] at hid
      exact hid
    · rename_i hm
      rw [if_neg hm] at hid
      obtain ⟨r, h1, -⟩ := hb.resolve_left hm
      have hne : b ≠ name := by rintro rfl; rw [can.unused] at h1; cases h1
      simp only
      rw [AMap.get?_set_ne _ _ hne]
      exact hid
  | removeRef name kind k was e keep =>
    rw [e]
    unfold Metadata.currentId Metadata.lookupRef at hid ⊢
    split
    · rename_i hm
      rw [if_pos hm] at hid
      exact hid
    · rename_i hm
      rw [if_neg hm] at hid
      obtain ⟨r, h1, h2⟩ := hb.resolve_left hm
      have hne : b ≠ name := by
        rintro rfl
        rw [was] at h1
        cases h1
        obtain ⟨i, r, ⟨h0, -⟩ | ⟨-, h0⟩⟩ := keep
        · simp only at h2; rw [h0] at h2; cases h2
        · exact hk _ _ h0
      simp only
      rw [AMap.get?_erase_ne _ hne]
      exact hid

/-- During the transaction of handle `i` its branch has not moved. -/
def unmoved (E : Env) (s : Schema) (i : Nat) (t : Txn) (σ : Sys) : Prop :=
  ∃ md sl cur, SysOK E s σ md ∧ σ.slots[i]? = some sl ∧ sl.h.branch = t.branch ∧
    ((∃ m, sl.phase = .begun t m) ∨ (∃ m p, sl.phase = .ready t m p) ∨ sl.phase = .idle) ∧
    sl.h.md.snaps.get? t.start = some cur ∧ OnBranch md t.branch ∧ md.currentId t.branch = .ok t.start ∧
    md.snaps.get? t.start = some cur

theorem unmoved.step {E : Env} {s : Schema} (hn : s.names.Nodup) {σ σ' : Sys} {ev : Event} {i : Nat} {t : Txn}
    (h : unmoved E s i t σ) (hp : meanwhile i t.branch σ ev) (hc : ¬ CommitEvent σ ev t.branch)
    (hs : Step E s σ ev σ') : unmoved E s i t σ' := by
  obtain ⟨md, sl, cur, h1, h2, h3, h4, h5, h6, h7, h8⟩ := h
  obtain ⟨md', h9, -, hch⟩ := step_ok hn h1 hs
  have hch := hch hp.1
  obtain ⟨a, b⟩ := hch.still hp.2.1 hc h6 h7
  have hkeep : md'.snaps.get? t.start = md.snaps.get? t.start :=
    hch.keep (Live.le h1.wok.ok (currentId_live h7))
  rw [← hkeep] at h8
  by_cases hi : ev.slot = some i
  · have := hp.2.2 hi
    subst this
    cases hs with
    | @compute w slots _ h t' m p w' hsl hadm hb =>
      simp only at h2
      rw [hsl] at h2
      cases h2
      have ht : t' = t := by
        rcases h4 with ⟨m, h⟩ | ⟨m, p, h⟩ | h <;> simp only [Phase.begun.injEq, reduceCtorEq] at h
        exact h.1
      subst ht
      obtain ⟨hlt, -⟩ := List.getElem?_eq_some_iff.mp hsl
      exact ⟨md', _, cur, h9, List.getElem?_set_self hlt, h3, Or.inr (Or.inl ⟨m, p, rfl⟩), h5, a, b, h8⟩
    | @computeFail w slots _ h t' m e w' hsl hadm hb =>
      simp only at h2
      rw [hsl] at h2
      cases h2
      obtain ⟨hlt, -⟩ := List.getElem?_eq_some_iff.mp hsl
      exact ⟨md', _, cur, h9, List.getElem?_set_self hlt, h3, Or.inr (Or.inr rfl), h5, a, b, h8⟩
  · exact ⟨md', sl, cur, h9, hs.other hi h2, h3, h4, h5, a, b, h8⟩

/-- A patch computed on the head the branch still has is committed. -/
theorem noConflict {E : Env} {s : Schema} (hn : s.names.Nodup) {σ : Sys} {md : Metadata} (hok : SysOK E s σ md)
    {i : Nat} {h : Handle} {t : Txn} {m : Mutation} {p : Option Patch} {cur : Snapshot}
    (hi : σ.slots[i]? = some ⟨h, .ready t m p⟩) (hhead : h.md.snaps.get? t.start = some cur)
    (hb : OnBranch md t.branch) (hid : md.currentId t.branch = .ok t.start)
    (hget : md.snaps.get? t.start = some cur) :
    ∃ st, t.commit p (h, σ.w) = (.ok (if p.isSome then Job.succeeded else .skipped), st) := by
  obtain ⟨hh, hbr, hst, -, w0, w1, hadm, hf, hh0, hbody, hle⟩ := hok.slots _ (List.mem_of_getElem? hi)
  simp only at hh hbr hst hh0 hbody
  obtain ⟨b, h', e1, e2, e3, e4, -, e5, -, -⟩ := reload_eq hok.wok hh
  have hpost := Post.elim (body_post (E := E) hf hh0 hn m hadm) hbody
  obtain ⟨hg, -, hpp⟩ := hpost
  have hcurid : cur.id = t.start := hok.wok.ok.ids _ _ hget
  suffices hs : Total (t.commit p (h, σ.w)) (fun j _ => j = if p.isSome then Job.succeeded else .skipped) by
    obtain ⟨j, st, h1, rfl⟩ := hs.get
    exact ⟨st, h1⟩
  unfold Txn.commit
  refine Post.bind (Q := fun a st => a = true ∧ st = (h', σ.w)) ?_ ?_
  · unfold Txn.check
    refine Post.bind (Q := fun _ st => st = (h', σ.w)) (by rw [e1]; exact rfl) ?_
    rintro b' _ rfl
    refine Post.bind (Q := fun a st => h' = a ∧ st = (h', σ.w)) ⟨rfl, rfl⟩ ?_
    rintro a _ ⟨ha, rfl⟩
    subst ha
    rw [e2, hid]
    exact ⟨by simp, rfl⟩
  rintro _ _ ⟨rfl, rfl⟩
  simp only [Bool.not_true, Bool.false_eq_true, ite_false]
  cases p with
  | none => exact Post.pure rfl
  | some q =>
    have hsnap : h.snapshot none = .ok cur := by
      simp [Handle.snapshot, hbr, hst, Metadata.snapshot, hhead]
    have hpn := (hpp q rfl).2 cur hsnap
    have hold : SnapOK w0.fs s cur := by
      have := hh0.ok.snaps _ _ hhead
      rw [hh0.schema] at this
      exact this
    refine Post.bind (commit_total (w0 := w0) e4 (by rw [e2]; exact hb) (by rw [e2, hid, hcurid])
      (by rw [e2, hcurid]; exact hget) hold hpn) ?_
    intro _ _ _
    exact Post.pure rfl

/-- Between `σ1` and `σ2` some handle committed to branch `b`. -/
def beaten (E : Env) (s : Schema) (i : Nat) (b : String) (σ1 σ2 : Sys) : Prop :=
  ∃ σ σ' ev, Run E s (meanwhile i b) σ1 σ ∧ Step E s σ ev σ' ∧ meanwhile i b σ ev ∧ CommitEvent σ ev b ∧
    Run E s (meanwhile i b) σ' σ2

/-- Handle `i` starts a mutation, other handles do anything tidy except removing its
branch, and handle `i` commits: it returns FAILED exactly if some handle committed to
that branch in between.  It never raises; if nobody committed it returns SUCCEEDED if
there is something to commit and SKIPPED if not. -/
theorem C61 {E : Env} {s : Schema} (hn : s.names.Nodup) {σ0 σ1 σ2 σ3 : Sys} {i : Nat} {sl : Slot}
    {r : Except Err Job} (h0 : Reach E s anyStep σ0) (hsl : σ0.slots[i]? = some sl)
    (hb : branchIn sl.h.branch σ0) (h1 : Step E s σ0 (.begin i) σ1)
    (h2 : Run E s (meanwhile i sl.h.branch) σ1 σ2) (h3 : Step E s σ2 (.commit i r) σ3) :
    (r = .ok .failed ↔ beaten E s i sl.h.branch σ1 σ2) ∧
    ∃ h t m p, σ2.slots[i]? = some ⟨h, .ready t m p⟩ ∧
      (¬ beaten E s i sl.h.branch σ1 σ2 → r = .ok (if p.isSome then .succeeded else .skipped)) := by
  have lost : beaten E s i sl.h.branch σ1 σ2 → r = .ok .failed := by
    rintro ⟨σ, σ', ev, a, b, c, d, e⟩
    exact (C12_partial hn h0 hsl hb h1 a b c d e h3).1
  obtain ⟨md, hok⟩ := reach_ok hn h0
  have hb' : OnBranch md sl.h.branch := by
    rcases hb with hb | ⟨md', r, a, b, c⟩
    · exact Or.inl hb
    · have := stored_of hok a
      subst this
      exact Or.inr ⟨r, b, c⟩
  obtain ⟨md1, hok1, -, -, hq, -⟩ := step_full hn hok h1
  have e := hq .begin
  subst e
  cases h3 with
  | @commit w slots _ h t m p r h' w' hi he =>
  suffices hk : ¬ beaten E s i sl.h.branch σ1 ⟨w, slots⟩ →
      r = .ok (if p.isSome then Job.succeeded else .skipped) by
    refine ⟨⟨fun hf => ?_, lost⟩, h, t, m, p, hi, hk⟩
    refine Classical.byContradiction fun hc => ?_
    have := hk hc
    rw [hf] at this
    cases p <;> cases this
  intro hnb
  -- the transaction that was started
  have hstart : (∃ t, unmoved E s i t σ1 ∧ t.branch = sl.h.branch) ∨ ∃ x, σ1.slots[i]? = some ⟨x, .idle⟩ := by
    cases h1 with
    | @begin w slots _ h m t h' w' hi he =>
      simp only at hsl
      rw [hi] at hsl
      cases hsl
      have := enter_post hok.wok (hok.slot (List.mem_of_getElem? hi))
      simp only at this
      rw [he] at this
      obtain ⟨a1, a2, a3, a4, a5, a6, a7, a8⟩ := this
      obtain ⟨hlt, -⟩ := List.getElem?_eq_some_iff.mp hi
      obtain ⟨cur, c1, c2, -⟩ := hb'.head hok.wok.ok
      have hc : cur.id = t.start := by
        have c1' := c1
        rw [a7] at c1'
        exact (Except.ok.inj c1').symm
      rw [hc] at c2
      refine Or.inl ⟨t, ⟨md1, _, cur, hok1, List.getElem?_set_self hlt, a3.trans a6.symm, Or.inl ⟨m, rfl⟩, ?_,
        by rw [a6]; exact hb', by rw [a6]; exact a7, c2⟩, a6⟩
      simp only
      rw [a2]
      exact c2
    | @beginFail w slots _ h e h' w' hi he =>
      obtain ⟨hlt, -⟩ := List.getElem?_eq_some_iff.mp hi
      exact Or.inr ⟨h', List.getElem?_set_self hlt⟩
  rcases hstart with ⟨t1, a1, a2⟩ | ⟨x, hx⟩
  · have key : ∀ {σ : Sys}, Run E s (meanwhile i sl.h.branch) σ1 σ →
        beaten E s i sl.h.branch σ1 σ ∨ unmoved E s i t1 σ := by
      intro σ hr
      induction hr with
      | refl => exact Or.inr a1
      | @step τ τ' ev hr hp hs ih =>
        rcases ih with ⟨x, x', ev', c1, c2, c3, c4, c5⟩ | ih
        · exact Or.inl ⟨x, x', ev', c1, c2, c3, c4, .step c5 hp hs⟩
        · by_cases hc : CommitEvent τ ev sl.h.branch
          · exact Or.inl ⟨τ, τ', ev, hr, hs, hp, hc, .refl _⟩
          · rw [← a2] at hp hc
            exact Or.inr (ih.step hn hp hc hs)
    obtain ⟨md2, sl2, cur, b1, b2, b3, b4, b5, b6, b7, b8⟩ := (key h2).resolve_left hnb
    simp only at b2
    rw [hi] at b2
    cases b2
    have ht : t = t1 := by
      rcases b4 with ⟨m, h⟩ | ⟨m, p, h⟩ | h <;> simp only [Phase.ready.injEq, reduceCtorEq] at h
      exact h.1
    subst ht
    obtain ⟨st, hst⟩ := noConflict hn b1 hi b5 b6 b7 b8
    simp only at hst
    rw [hst] at he
    cases he
    rfl
  · -- a transaction that did not start does not commit
    exfalso
    have key : ∀ {τ τ' : Sys} {ev : Event}, (∃ x, τ.slots[i]? = some ⟨x, .idle⟩) →
        meanwhile i sl.h.branch τ ev → Step E s τ ev τ' → ∃ x, τ'.slots[i]? = some ⟨x, .idle⟩ := by
      rintro τ τ' ev ⟨x, hx⟩ hp hs
      by_cases hi : ev.slot = some i
      · have := hp.2.2 hi
        subst this
        cases hs with
        | compute hi => simp only at hx; rw [hi] at hx; cases hx
        | computeFail hi => simp only at hx; rw [hi] at hx; cases hx
      · exact ⟨x, hs.other hi hx⟩
    obtain ⟨x, hx⟩ := Run.invariant (I := fun τ => ∃ x, τ.slots[i]? = some ⟨x, .idle⟩) key ⟨x, hx⟩ h2
    simp only at hx
    rw [hi] at hx
    cases hx

/-- Two handles have begun mutations of the main branch and computed their patches;
the first to commit succeeds and the other then fails. -/
example : ∃ (σ0 σ1 σ2 σ3 σ4 : Sys) (sl : Slot), Reach env schema anyStep σ0 ∧
    σ0.slots[1]? = some sl ∧ branchIn sl.h.branch σ0 ∧ Step env schema σ0 (.begin 1) σ1 ∧
    Run env schema (meanwhile 1 sl.h.branch) σ1 σ2 ∧
    Step env schema σ2 (.commit 1 (.ok .succeeded)) σ3 ∧ Step env schema σ3 (.commit 0 (.ok .failed)) σ4 := by
  let σ0 := doing env (after env anyB schema race) (.begin 0 (.append [[row 5 "b" []]]))
  have h0 := (doing_step (E := env) (s := schema) (σ := after env anyB schema race)
    (a := .begin 0 (.append [[row 5 "b" []]])) (o := .none) (by decide +kernel)).2
  obtain ⟨sl, b0, b1, b2⟩ := slot_of (σ := σ0) (i := 1) (f := fun sl => sl.h.branch) (x := "main")
    (by decide +kernel)
  let σ1 := doing env σ0 (.begin 1 (.insert [row 5 "a" []]))
  have h1 := (doing_step (E := env) (s := schema) (σ := σ0)
    (a := .begin 1 (.insert [row 5 "a" []])) (o := .none) (by decide +kernel)).2
  let σ2 := more env (meanwhileB 1 "main") [.compute 0, .compute 1] σ1
  have h3 := (doing_step (E := env) (s := schema) (σ := σ2) (a := .commit 1)
    (o := .job (.ok .succeeded)) (by decide +kernel)).2
  have h4 := (doing_step (E := env) (s := schema) (σ := doing env σ2 (.commit 1)) (a := .commit 0)
    (o := .job (.ok .failed)) (by decide +kernel)).2
  obtain ⟨τ, t1, t2⟩ := after_reach (E := env) (s := schema) (P := anyStep) (ok := anyB) (fun _ _ _ => trivial) race
  refine ⟨σ0, σ1, σ2, _, _, sl, ⟨τ, t1, .step t2 trivial h0⟩, b0, Or.inl b2, h1, ?_, h3, h4⟩
  rw [b2]
  exact more_run (meanwhileB_meanwhile 1 "main") _ _

end Space
