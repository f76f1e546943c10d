import Verif.Props.Versions
import Verif.Lazy

/-!
# C12, C13, C14: transactions and failures
-/

set_option autoImplicit false

namespace Space

open Demo

/-! ## C14 -/

/-- C14: a mutation that returns FAILED or SKIPPED or raises, a call that raises, a
commit that does not succeed and everything before a commit leave the stored
metadata (and with it every listing) and every read unchanged: every read, with any
options, of any version or on any branch, gives the same rows or the same error. -/
theorem C14 {E : Env} {s : Schema} (hn : s.names.Nodup) {σ σ' : Sys} {ev : Event}
    (h1 : Reach E s anyStep σ) (hs : Step E s σ ev σ') (hq : Quiet ev) :
    σ'.w.stored = σ.w.stored ∧
    ∀ sl ∈ σ.slots, ∀ sl' ∈ σ'.slots, ∀ o v, (v = none → sl'.h.branch = sl.h.branch) →
      tableRead E sl'.h σ'.w o v = tableRead E sl.h σ.w o v := by
  obtain ⟨md, hok⟩ := reach_ok hn h1
  obtain ⟨md', h3, h4, -, h6, -⟩ := step_full hn hok hs
  have e := h6 hq
  subst e
  refine ⟨by rw [h3.wok.storedEq, hok.wok.storedEq], ?_⟩
  intro sl hsl sl' hsl' o v hv
  refine tableRead_agree hok.wok (hok.slots sl hsl).1 h3.wok (h3.slots sl' hsl').1 h4 ?_
  cases v with
  | none => rw [hv rfl]
  | some v => rfl

/-- An insert of a key that exists, after an append: it fails, as `C14` requires, and
there was something to lose. -/
example : ∃ (σ σ' : Sys) (sl : Slot) (ev : Event), Reach env schema anyStep σ ∧
    Step env schema σ ev σ' ∧ Quiet ev ∧ sl ∈ σ.slots ∧
    tableRead env sl.h σ.w {} none = .ok [row 1 "x" [1]] := by
  let σ := after env anyB schema [.call 0 (.mutate (.append [[row 1 "x" [1]]]))]
  let c : Call := .mutate (.insert [row 1 "y" []])
  obtain ⟨sl, h0, h1, h2⟩ := slot_of (σ := σ) (i := 0)
    (f := fun sl => tableRead env sl.h σ.w {} none) (x := .ok [row 1 "x" [1]]) (by decide +kernel)
  obtain ⟨σ', e, hst⟩ := call_step (E := env) (s := schema) (σ := σ) (i := 0) (c := c)
    (r := .job .failed) rfl (by decide +kernel)
  exact ⟨σ, σ', sl, _, after_reach (fun _ _ _ => trivial) _, hst, .mutation (by simp), h1, h2⟩

/-! ## C12 -/

/-- Steps of other handles leave a handle alone. -/
theorem Step.other {E : Env} {s : Schema} {σ σ' : Sys} {ev : Event} (hs : Step E s σ ev σ') {i : Nat}
    {sl : Slot} (hi : ev.slot ≠ some i) (h : σ.slots[i]? = some sl) : σ'.slots[i]? = some sl := by
  have set : ∀ (slots : List Slot) (j : Nat) (x : Slot), j ≠ i → slots[i]? = some sl →
      (slots.set j x)[i]? = some sl := by
    intro slots j x hj h
    rw [List.getElem?_set_ne hj]
    exact h
  cases hs with
  | load => 
    obtain ⟨hlt, -⟩ := List.getElem?_eq_some_iff.mp h
    simp only [List.getElem?_append_left hlt]
    exact h
  | external => exact h
  | orphans => exact h
  | _ => exact set _ _ _ (fun e => hi (by simp [Event.slot, e])) h

/-- Steps between the start of the transaction of handle `i` on branch `b` and its
commit: other handles do anything tidy except removing `b`; handle `i` runs the body
of its mutation. -/
def meanwhile (i : Nat) (b : String) (σ : Sys) (ev : Event) : Prop :=
  tidy σ ev ∧ (∀ j r, ev ≠ .call j (.removeBranch b) r) ∧ (ev.slot = some i → ev = .compute i)

/-- What is known of handle `i` during its transaction. -/
def inTxn (i : Nat) (t : Txn) (σ : Sys) : Prop :=
  ∃ sl, σ.slots[i]? = some sl ∧ sl.h.branch = t.branch ∧
    ((∃ m, sl.phase = .begun t m) ∨ (∃ m p, sl.phase = .ready t m p) ∨ sl.phase = .idle)

theorem inTxn.step {E : Env} {s : Schema} {σ σ' : Sys} {ev : Event} {i : Nat} {t : Txn}
    (h : inTxn i t σ) (hp : meanwhile i t.branch σ ev) (hs : Step E s σ ev σ') : inTxn i t σ' := by
  obtain ⟨sl, h1, h2, h3⟩ := h
  by_cases hi : ev.slot = some i
  · have := hp.2.2 hi
    subst this
    cases hs with
    | @compute w slots _ h t' m p w' hsl hadm hb =>
      simp only at h1
      rw [hsl] at h1
      cases h1
      have ht : t' = t := by
        rcases h3 with ⟨m, h⟩ | ⟨m, p, h⟩ | h <;> simp only [Phase.begun.injEq, reduceCtorEq] at h
        exact h.1
      subst ht
      obtain ⟨hlt, -⟩ := List.getElem?_eq_some_iff.mp hsl
      exact ⟨_, List.getElem?_set_self hlt, h2, Or.inr (Or.inl ⟨m, p, rfl⟩)⟩
    | @computeFail w slots _ h t' m e w' hsl hadm hb =>
      simp only at h1
      rw [hsl] at h1
      cases h1
      obtain ⟨hlt, -⟩ := List.getElem?_eq_some_iff.mp hsl
      exact ⟨_, List.getElem?_set_self hlt, h2, Or.inr (Or.inr rfl)⟩
  · exact ⟨sl, hs.other hi h1, h2, h3⟩

/-- A conflicting commit returns FAILED and writes nothing. -/
theorem conflict {s : Schema} {w : World} {md : Metadata} {h : Handle} {t : Txn} {p : Option Patch}
    (hw : WOK s w md) (hh : HandleOK s w h) {m : Nat} (hc : md.currentId t.branch = .ok m)
    (hne : t.start ≠ m) : ∃ h', t.commit p (h, w) = (.ok .failed, (h', w)) := by
  obtain ⟨b, h', h1, h2, -⟩ := reload_eq hw hh
  refine ⟨h', ?_⟩
  simp only [Txn.commit, Txn.check, Bind.bind, M.andThen, h1, self, M.lift, h2, hc, Pure.pure,
    M.ret, hne, decide_false, Bool.not_false, ↓reduceIte]

/-- The branch of the transaction only advanced since it started. -/
def advanced (E : Env) (s : Schema) (b : String) (n : Nat) (σ : Sys) : Prop :=
  ∃ md, SysOK E s σ md ∧ (b = mainBranch ∨ ∃ r, md.refs.get? b = some r ∧ r.kind = .branch) ∧
    ∃ m, md.currentId b = .ok m ∧ n ≤ m

theorem advanced.step {E : Env} {s : Schema} (hn : s.names.Nodup) {σ σ' : Sys} {ev : Event} {i : Nat}
    {b : String} {n : Nat} (h : advanced E s b n σ) (hp : meanwhile i b σ ev) (hs : Step E s σ ev σ') :
    advanced E s b n σ' ∧ (CommitEvent σ ev b → advanced E s b (n + 1) σ') := by
  obtain ⟨md, h1, h2, m, h3, h4⟩ := h
  obtain ⟨md', h5, -, h6⟩ := step_ok hn h1 hs
  obtain ⟨a, k, b1, b2, b3⟩ := (h6 hp.1).heads hp.2.1 h2 h3
  exact ⟨⟨md', h5, a, k, b1, by omega⟩, fun hc => ⟨md', h5, a, k, b1, by have := b3 hc; omega⟩⟩

/-- The stored branch `b` exists as a branch (main always does). -/
def branchIn (b : String) (σ : Sys) : Prop :=
  b = mainBranch ∨ ∃ md r, σ.w.stored = some md ∧ md.refs.get? b = some r ∧ r.kind = .branch

/-- C12: handle `i` starts a mutation on its branch; before it commits some handle
commits to that branch; then the commit of handle `i`, if it comes to that, returns
FAILED and changes no file.  (Missing: histories in which the branch is removed and
created again in between, see `C12_violated`; references changed through stale
handles; interleaving between the check and the write of a commit, see
`C12_split_violated`.) -/
theorem C12_partial {E : Env} {s : Schema} (hn : s.names.Nodup) {σ0 σ1 σ2 σ3 σ4 σ5 : Sys} {i : Nat}
    {sl : Slot} {ev : Event} {r : Except Err Job} (h0 : Reach E s anyStep σ0)
    (hsl : σ0.slots[i]? = some sl) (hb : branchIn sl.h.branch σ0)
    (h1 : Step E s σ0 (.begin i) σ1) (h2 : Run E s (meanwhile i sl.h.branch) σ1 σ2)
    (h3 : Step E s σ2 ev σ3) (hp : meanwhile i sl.h.branch σ2 ev) (hc : CommitEvent σ2 ev sl.h.branch)
    (h4 : Run E s (meanwhile i sl.h.branch) σ3 σ4) (h5 : Step E s σ4 (.commit i r) σ5) :
    r = .ok .failed ∧ σ5.w = σ4.w := by
  obtain ⟨md, hok⟩ := reach_ok hn h0
  have hb' : sl.h.branch = mainBranch ∨
      ∃ r, md.refs.get? sl.h.branch = some r ∧ r.kind = .branch := by
    rcases hb with hb | ⟨md', r, a, b, c⟩
    · exact Or.inl hb
    · have := stored_of hok a
      subst this
      exact Or.inr ⟨r, b, c⟩
  obtain ⟨md1, hok1, -, -, hq, -⟩ := step_full hn hok h1
  have e := hq .begin
  subst e
  -- the transaction that was started
  have hstart : (∃ t, inTxn i t σ1 ∧ t.branch = sl.h.branch ∧ md1.currentId t.branch = .ok t.start) ∨
      ∃ x, σ1.slots[i]? = some ⟨x, .idle⟩ := by
    cases h1 with
    | @begin w slots _ h m t h' w' hi he =>
      simp only at hsl
      rw [hi] at hsl
      cases hsl
      have := enter_post hok.wok (hok.slot (List.mem_of_getElem? hi))
      simp only at this
      rw [he] at this
      obtain ⟨a1, a2, a3, a4, a5, a6, a7, a8⟩ := this
      obtain ⟨hlt, -⟩ := List.getElem?_eq_some_iff.mp hi
      refine Or.inl ⟨t, ⟨_, List.getElem?_set_self hlt, a3.trans a6.symm, Or.inl ⟨m, rfl⟩⟩, a6, ?_⟩
      rw [a6]
      exact a7
    | @beginFail w slots _ h e h' w' hi he =>
      obtain ⟨hlt, -⟩ := List.getElem?_eq_some_iff.mp hi
      exact Or.inr ⟨h', List.getElem?_set_self hlt⟩
  rcases hstart with ⟨t, a1, a2, a3⟩ | ⟨x, hx⟩
  · rw [← a2] at h2 hp hc h4 hb'
    have b1 : advanced E s t.branch t.start σ1 := ⟨md1, hok1, hb', _, a3, Nat.le_refl _⟩
    have c2 : inTxn i t σ2 ∧ advanced E s t.branch t.start σ2 :=
      Run.invariant (I := fun σ => inTxn i t σ ∧ advanced E s t.branch t.start σ)
        (fun h hp hs => ⟨h.1.step hp hs, (h.2.step hn hp hs).1⟩) ⟨a1, b1⟩ h2
    have c3 : inTxn i t σ3 ∧ advanced E s t.branch (t.start + 1) σ3 :=
      ⟨c2.1.step hp h3, (c2.2.step hn hp h3).2 hc⟩
    have c4 : inTxn i t σ4 ∧ advanced E s t.branch (t.start + 1) σ4 :=
      Run.invariant (I := fun σ => inTxn i t σ ∧ advanced E s t.branch (t.start + 1) σ)
        (fun h hp hs => ⟨h.1.step hp hs, (h.2.step hn hp hs).1⟩) c3 h4
    obtain ⟨⟨sl4, d1, d2, d3⟩, md4, d4, -, m, d5, d6⟩ := c4
    cases h5 with
    | @commit w slots _ h t' m' p r h' w' hi he =>
      simp only at d1
      rw [hi] at d1
      cases d1
      have ht : t' = t := by
        rcases d3 with ⟨m, h⟩ | ⟨m, p, h⟩ | h <;> simp only [Phase.ready.injEq, reduceCtorEq] at h
        exact h.1
      subst ht
      obtain ⟨h'', e'⟩ := conflict (p := p) d4.wok (d4.slot (List.mem_of_getElem? hi)) d5
        (by omega)
      simp only at e'
      rw [e'] at he
      cases he
      exact ⟨rfl, rfl⟩
  · -- a transaction that did not start does not commit
    exfalso
    have key : ∀ {τ τ' : Sys} {ev : Event}, (∃ x, τ.slots[i]? = some ⟨x, .idle⟩) →
        meanwhile i sl.h.branch τ ev → Step E s τ ev τ' → ∃ x, τ'.slots[i]? = some ⟨x, .idle⟩ := by
      rintro τ τ' ev ⟨x, hx⟩ hp hs
      by_cases hi : ev.slot = some i
      · have := hp.2.2 hi
        subst this
        cases hs with
        | compute hi => simp only at hx; rw [hi] at hx; cases hx
        | computeFail hi => simp only at hx; rw [hi] at hx; cases hx
      · exact ⟨x, hs.other hi hx⟩
    obtain ⟨x, hx⟩ := Run.invariant (I := fun τ => ∃ x, τ.slots[i]? = some ⟨x, .idle⟩) key
      (key (Run.invariant (I := fun τ => ∃ x, τ.slots[i]? = some ⟨x, .idle⟩) key ⟨x, hx⟩ h2) hp h3) h4
    cases h5 with
    | commit hi => simp only at hx; rw [hi] at hx; cases hx

/-- Decides `meanwhile`. -/
def meanwhileB (i : Nat) (b : String) (σ : Sys) (ev : Event) : Bool :=
  tidyB σ ev && (match ev with
    | .call _ (.removeBranch c) _ => c != b
    | _ => true) && (match ev with
    | .compute _ => true
    | ev => ev.slot != some i)

theorem meanwhileB_meanwhile (i : Nat) (b : String) (σ : Sys) (ev : Event)
    (h : meanwhileB i b σ ev = true) : meanwhile i b σ ev := by
  simp only [meanwhileB, Bool.and_eq_true] at h
  obtain ⟨⟨h1, h2⟩, h3⟩ := h
  refine ⟨tidyB_tidy _ _ h1, ?_, ?_⟩
  · rintro j r rfl
    simp at h2
  · intro hs
    cases ev with
    | compute j => simp only [Event.slot, Option.some.injEq] at hs; rw [hs]
    | _ => simp [hs] at h3

/-- Two handles on main, one of which starts an insert. -/
def race : List Act := [.call 0 (.mutate (.append [[row 1 "x" [1]]])), .load]

/-- The second handle has begun an insert; both are about to commit to main. -/
def raceMid : Sys :=
  more env (meanwhileB 1 "main") [.compute 1]
    (doing env (after env anyB schema race) (.begin 1 (.insert [row 5 "a" []])))

/-- A history to which `C12_partial` applies. -/
example : ∃ (σ0 σ1 σ2 σ3 σ4 : Sys) (sl : Slot) (ev : Event) (r : Except Err Job),
    Reach env schema anyStep σ0 ∧ σ0.slots[1]? = some sl ∧ branchIn sl.h.branch σ0 ∧
    Step env schema σ0 (.begin 1) σ1 ∧ Run env schema (meanwhile 1 sl.h.branch) σ1 σ2 ∧
    Step env schema σ2 ev σ3 ∧ meanwhile 1 sl.h.branch σ2 ev ∧ CommitEvent σ2 ev sl.h.branch ∧
    Step env schema σ3 (.commit 1 r) σ4 := by
  let m : Mutation := .append [[row 5 "b" []]]
  obtain ⟨sl, h0, h1, h2⟩ := slot_of (σ := after env anyB schema race) (i := 1)
    (f := fun sl => sl.h.branch) (x := "main") (by decide +kernel)
  have s1 := (doing_step (E := env) (s := schema) (σ := after env anyB schema race)
    (a := .begin 1 (.insert [row 5 "a" []])) (o := .none) (by decide +kernel)).2
  have s2 := doing_step (E := env) (s := schema) (σ := raceMid) (a := .call 0 (.mutate m))
    (o := .res (.job .succeeded)) (by decide +kernel)
  have s3 := (doing_step (E := env) (s := schema) (σ := doing env raceMid (.call 0 (.mutate m)))
    (a := .commit 1) (o := .job (.ok .failed)) (by decide +kernel)).2
  obtain ⟨sl0, d1, -, d2⟩ := slot_of (σ := raceMid) (i := 0) (f := fun sl => sl.h.branch) (x := "main")
    (by decide +kernel)
  exact ⟨_, _, raceMid, _, _, sl, _, _, after_reach (fun _ _ _ => trivial) _, h0,
    Or.inl (by rw [h2]; rfl), s1, more_run (by rw [h2]; exact meanwhileB_meanwhile 1 "main") _ _, s2.2,
    by rw [h2]; exact meanwhileB_meanwhile _ _ _ _ (doing_ok s2.1 (by decide +kernel)),
    ⟨0, sl0, d1, by rw [h2, d2], Or.inl ⟨m, rfl⟩⟩, s3⟩

/-- Steps of other handles, or the body of the mutation of handle `i`; branches may
be removed. -/
def others (i : Nat) (σ : Sys) (ev : Event) : Prop :=
  tidy σ ev ∧ (ev.slot = some i → ev = .compute i)

/-- Decides `others`. -/
def othersB (i : Nat) (σ : Sys) (ev : Event) : Bool :=
  tidyB σ ev && (match ev with
    | .compute _ => true
    | ev => ev.slot != some i)

theorem othersB_others (i : Nat) (σ : Sys) (ev : Event) (h : othersB i σ ev = true) : others i σ ev := by
  simp only [othersB, Bool.and_eq_true] at h
  refine ⟨tidyB_tidy _ _ h.1, ?_⟩
  intro hs
  cases ev with
  | compute j => simp only [Event.slot, Option.some.injEq] at hs; rw [hs]
  | _ => simp [hs] at h

/-- Two handles on branch `b`, whose head is snapshot 1. -/
def onB : List Act :=
  reuse1 ++ [.load, .call 1 (.setBranch "b")]

/-- The second handle has computed an insert of key 5; meanwhile the first one has
removed and created the branch again. -/
def abaMid : Sys :=
  more env (othersB 1) [.compute 1, .call 0 (.setBranch "main"), .call 0 (.removeBranch "b"),
    .call 0 (.addBranch "b"), .call 0 (.setBranch "b")]
    (doing env (after env tidyB schema onB) (.begin 1 (.insert [row 5 "a" []])))

/-- The append of the first handle to the new branch. -/
def abaCommit : Act := .call 0 (.mutate (.append [[row 5 "b" []]]))

/-- C12 is false if the branch is removed and created again during the mutation: the
new head may get the id the branch had at the start, so a commit of another handle
goes unnoticed.  Here both handles put key 5 in and both succeed. -/
theorem C12_violated : ∃ (σ0 σ1 σ2 σ3 σ4 : Sys) (ev : Event) (sl : Slot),
    Reach env schema tidy σ0 ∧ Step env schema σ0 (.begin 1) σ1 ∧
    Run env schema (others 1) σ1 σ2 ∧ Step env schema σ2 ev σ3 ∧ others 1 σ2 ev ∧
    CommitEvent σ2 ev "b" ∧ Step env schema σ3 (.commit 1 (.ok .succeeded)) σ4 ∧
    σ4.slots[1]? = some sl ∧ sl.h.branch = "b" ∧
    tableRead env sl.h σ4.w {} none = .ok [row 5 "b" [], row 5 "a" []] := by
  have s1 := (doing_step (E := env) (s := schema) (σ := after env tidyB schema onB)
    (a := .begin 1 (.insert [row 5 "a" []])) (o := .none) (by decide +kernel)).2
  have s2 := doing_step (E := env) (s := schema) (σ := abaMid) (a := abaCommit)
    (o := .res (.job .succeeded)) (by decide +kernel)
  have s3 := (doing_step (E := env) (s := schema) (σ := doing env abaMid abaCommit)
    (a := .commit 1) (o := .job (.ok .succeeded)) (by decide +kernel)).2
  obtain ⟨sl0, d1, -, d2⟩ := slot_of (σ := abaMid) (i := 0) (f := fun sl => sl.h.branch) (x := "b")
    (by decide +kernel)
  obtain ⟨sl, e1, -, e2⟩ := slot_of (σ := doing env (doing env abaMid abaCommit) (.commit 1)) (i := 1)
    (f := fun sl => (tableRead env sl.h (doing env (doing env abaMid abaCommit) (.commit 1)).w {} none,
      sl.h.branch)) (x := (.ok [row 5 "b" [], row 5 "a" []], "b")) (by decide +kernel)
  simp only [Prod.mk.injEq] at e2
  exact ⟨_, _, abaMid, _, _, _, sl, after_reach tidyB_tidy _, s1, more_run (othersB_others 1) _ _, s2.2,
    othersB_others _ _ _ (doing_ok s2.1 (by decide +kernel)),
    ⟨0, sl0, d1, d2, Or.inl ⟨_, rfl⟩⟩, s3, e1, e2.2, e2.1⟩

/-- C12 and C61, exactly what is compared, in every reachable state, stale handles, split commits and re-created
branches included: `n` is the id of the head of the branch in the metadata that the handle loaded when the mutation
began.  The commit returns FAILED exactly if the branch is stored with a head of another id, and then no file changes;
it raises without changing a file if the branch is no longer stored (the runner then answers FAILED as well). -/
theorem C12_effect {E : Env} {s : Schema} (hn : s.names.Nodup) {σ σ' : Sys} {i : Nat} {h : Handle} {t : Txn}
    {m : Mutation} {p : Option Patch} {r : Except Err Job} (h0 : Reach E s anyStep σ)
    (hi : σ.slots[i]? = some ⟨h, .ready t m p⟩) (hs : Step E s σ (.commit i r) σ') :
    ∃ md n, σ.w.stored = some md ∧ h.md.currentId h.branch = .ok n ∧
      (r = .ok .failed ↔ ∃ k, md.currentId h.branch = .ok k ∧ k ≠ n) ∧
      (r = .ok .failed → σ'.w = σ.w) ∧
      (∀ e, md.currentId h.branch = .error e → r = .error e ∧ σ'.w = σ.w) ∧
      (p = none → md.currentId h.branch = .ok n → r = .ok .skipped ∧ σ'.w = σ.w) := by
  obtain ⟨md, hok⟩ := reach_ok hn h0
  obtain ⟨hh, hbr, hst, -⟩ := hok.slots _ (List.mem_of_getElem? hi)
  simp only at hh hbr hst
  refine ⟨md, t.start, hok.wok.storedEq, by rw [hbr]; exact hst, ?_⟩
  cases hs with
  | @commit w slots _ h2 t2 m2 p2 _ h' w' hi2 he =>
    simp only at hi
    rw [hi2] at hi
    cases hi
    obtain ⟨b, h1, e1, e2, -⟩ := reload_eq hok.wok hh
    simp only at e1
    rw [hbr]
    cases hc : md.currentId t.branch with
    | error e =>
      simp only [Txn.commit, Txn.check, Bind.bind, M.andThen, e1, self, M.lift, e2, hc] at he
      cases he
      simp
    | ok k =>
      by_cases hk : t.start = k
      · subst hk
        simp only [Txn.commit, Txn.check, Bind.bind, M.andThen, e1, self, M.lift, e2, hc, Pure.pure, M.ret,
          decide_true, Bool.not_true, Bool.false_eq_true, ↓reduceIte] at he
        have hne : r ≠ .ok .failed := by
          rintro rfl
          cases p with
          | none => simp only [M.ret] at he; cases he
          | some q =>
            simp only [M.andThen] at he
            split at he <;> cases he
        refine ⟨⟨fun h => absurd h hne, ?_⟩, fun h => absurd h hne, by simp, ?_⟩
        · rintro ⟨k, a, b⟩
          cases a
          exact absurd rfl b
        · rintro rfl -
          cases he
          exact ⟨rfl, rfl⟩
      · simp only [Txn.commit, Txn.check, Bind.bind, M.andThen, e1, self, M.lift, e2, hc, Pure.pure, M.ret,
          hk, decide_false, Bool.not_false, ↓reduceIte] at he
        cases he
        refine ⟨⟨fun _ => ⟨k, rfl, fun h => hk h.symm⟩, fun _ => rfl⟩, fun _ => rfl, by simp, ?_⟩
        intro _ h
        exact absurd (Except.ok.inj h).symm hk

/-- Is about to commit. -/
def Slot.isReady (sl : Slot) : Bool :=
  match sl.phase with
  | .ready .. => true
  | _ => false

/-- The second handle has computed an insert on branch `b`; the first one commits to the branch, or removes it. -/
example : ∃ (σ1 σ2 σ1' σ2' : Sys) (h1 h2 : Handle) (t1 t2 : Txn) (m1 m2 : Mutation) (p1 p2 : Option Patch),
    Reach env schema anyStep σ1 ∧ σ1.slots[1]? = some ⟨h1, .ready t1 m1 p1⟩ ∧
    Step env schema σ1 (.commit 1 (.ok .failed)) σ1' ∧
    Reach env schema anyStep σ2 ∧ σ2.slots[1]? = some ⟨h2, .ready t2 m2 p2⟩ ∧
    Step env schema σ2 (.commit 1 (.error .versionNotFound)) σ2' := by
  let σ1 := after env anyB schema (onB ++ [.begin 1 (.insert [row 5 "a" []]), .compute 1, .call 0 (.setBranch "b"),
    abaCommit])
  let σ2 := after env anyB schema (onB ++ [.begin 1 (.insert [row 5 "a" []]), .compute 1, .call 0 (.setBranch "main"),
    .call 0 (.removeBranch "b")])
  obtain ⟨⟨h1, p1⟩, a1, -, b1⟩ := slot_of (σ := σ1) (i := 1) (f := Slot.isReady) (x := true) (by decide +kernel)
  obtain ⟨⟨h2, p2⟩, a2, -, b2⟩ := slot_of (σ := σ2) (i := 1) (f := Slot.isReady) (x := true) (by decide +kernel)
  have s1 := (doing_step (E := env) (s := schema) (σ := σ1) (a := .commit 1) (o := .job (.ok .failed))
    (by decide +kernel)).2
  have s2 := (doing_step (E := env) (s := schema) (σ := σ2) (a := .commit 1) (o := .job (.error .versionNotFound))
    (by decide +kernel)).2
  cases p1 with
  | ready t1 m1 q1 =>
    cases p2 with
    | ready t2 m2 q2 =>
      exact ⟨σ1, σ2, _, _, h1, h2, t1, t2, m1, m2, q1, q2, after_reach (fun _ _ _ => trivial) _, a1, s1,
        after_reach (fun _ _ _ => trivial) _, a2, s2⟩
    | _ => cases b2
  | _ => cases b1

/-- Two handles on main have both passed the conflict check. -/
def splitMid : Sys :=
  after env anyB schema [.load, .begin 0 (.append [[row 1 "x" [1]]]), .begin 1 (.append [[row 2 "y" [2]]]),
    .compute 0, .compute 1, .check 0, .check 1]

/-- C12 and C13 are false if the steps of two commits interleave: the check and the
write are not atomic (the TODO in `storage.py:318`).  Both mutations succeed and
the rows of the first are lost. -/
theorem C12_split_violated : ∃ (σ0 σ1 σ2 : Sys) (sl : Slot),
    Reach env schema anyStep σ0 ∧ Step env schema σ0 (.write 0 (.ok ())) σ1 ∧
    Step env schema σ1 (.write 1 (.ok ())) σ2 ∧ sl ∈ σ2.slots ∧ sl.h.branch = mainBranch ∧
    tableRead env sl.h σ2.w {} none = .ok [row 2 "y" [2]] := by
  have s1 := (doing_step (E := env) (s := schema) (σ := splitMid) (a := .write 0) (o := .unit (.ok ()))
    (by decide +kernel)).2
  have s2 := (doing_step (E := env) (s := schema) (σ := doing env splitMid (.write 0)) (a := .write 1)
    (o := .unit (.ok ())) (by decide +kernel)).2
  obtain ⟨sl, -, e1, e2⟩ := slot_of (σ := doing env (doing env splitMid (.write 0)) (.write 1)) (i := 1)
    (f := fun sl => (tableRead env sl.h (doing env (doing env splitMid (.write 0)) (.write 1)).w {} none,
      sl.h.branch)) (x := (.ok [row 2 "y" [2]], mainBranch)) (by decide +kernel)
  simp only [Prod.mk.injEq] at e2
  exact ⟨_, _, _, sl, after_reach (fun _ _ _ => trivial) _, s1, s2, e1, e2.2, e2.1⟩

/-! ## C13 -/

/-- The head of branch `b` went from `base` to `snap`, which is `base` changed by
exactly the patch `p`. -/
structure ChildOf (md md' : Metadata) (b : String) (p : Patch) (base snap : Snapshot) : Prop where
  old : md.target b none = .ok base
  new : md'.target b none = .ok snap
  parent : snap.parent = some base.id
  index : snap.index = base.index.filter (fun m => !p.delIdx.contains m) ++ p.addIdx
  recs : snap.recs = base.recs ++ p.addRec
  stats : snap.stats = (base.stats.addIndex p.stats).addRecord p.stats

theorem Committed.child {fs' : FS} {md md' : Metadata} {b : String} {p : Patch} {n : Nat}
    {cur snap : Snapshot} (com : Committed fs' md md' b p n cur snap) : ChildOf md md' b p cur snap := by
  refine ⟨?_, ?_, com.parent, com.index, com.recs, com.stats⟩
  · simp only [Metadata.target, com.head]
    exact snapshot_of_get com.curGet
  · simp only [Metadata.target, com.newHead]
    refine snapshot_of_get ?_
    rw [com.snaps, AMap.get?_set_self]

/-- C13 for mutations run as one call: in every reachable state, whatever other
handles do before and after, the new head is the head that was stored, changed by
the patch that the mutation computed on exactly that head. -/
theorem C13_call {E : Env} {s : Schema} (hn : s.names.Nodup) {σ σ' : Sys} {i : Nat} {m : Mutation}
    (h1 : Reach E s anyStep σ) (hs : Step E s σ (.call i (.mutate m) (.job .succeeded)) σ') :
    ∃ sl md md' h1 w1 p base snap, σ.slots[i]? = some sl ∧ σ.w.stored = some md ∧
      σ'.w.stored = some md' ∧ m.body E h1 σ.w = (.ok (some p), w1) ∧ h1.md = md ∧
      h1.branch = sl.h.branch ∧ ChildOf md md' sl.h.branch p base snap := by
  obtain ⟨md, hok⟩ := reach_ok hn h1
  cases hs with
  | @call w slots _ h c r h' w' hi hadm he =>
    obtain ⟨-, b⟩ := exec_post hok.wok (hok.slot (List.mem_of_getElem? hi)) hn _ hadm he
    cases b with
    | same _ hf => exact absurd rfl hf
    | addRef _ _ _ _ hr => cases hr
    | removeRef _ _ _ _ hr => cases hr
    | commit m' h1 w1 p n cur snap hc hr mt =>
      cases hc
      exact ⟨_, md, h'.md, h1, w1, p, cur, snap, hi, hok.wok.storedEq, mt.step.wok.storedEq, mt.body,
        mt.start, mt.branch, mt.step.com.child⟩

/-- Every handle's view of the snapshots agrees with the stored one. -/
def Seen (σ : Sys) (md : Metadata) : Prop :=
  ∀ sl ∈ σ.slots, ∀ n snap, sl.h.md.snaps.get? n = some snap → md.snaps.get? n = some snap

/-- In growing histories handles are never wrong, only late. -/
theorem growing_seen {E : Env} {s : Schema} (hn : s.names.Nodup) {σ : Sys}
    (hr : Reach E s growing σ) : ∃ md, SysOK E s σ md ∧ Bounded md ∧ Seen σ md := by
  obtain ⟨σ0, hst, hrun⟩ := hr
  have h0 : ∃ md, SysOK E s σ0 md ∧ Bounded md ∧ Seen σ0 md := by
    obtain ⟨md, a, b⟩ := growing_bounded (E := E) hn ⟨σ0, hst, .refl _⟩
    refine ⟨md, a, b, ?_⟩
    obtain ⟨w0, h, e, hc, hs⟩ := hst
    obtain ⟨c1, -, -, -, -⟩ := create_ok e hc
    intro sl hsl n snap hg
    rw [hs] at hsl
    simp only [List.mem_singleton] at hsl
    subst hsl
    rw [← a.wok.unique c1] at hg
    exact hg
  refine Run.invariant (I := fun σ => ∃ md, SysOK E s σ md ∧ Bounded md ∧ Seen σ md) ?_ h0 hrun
  rintro τ τ' ev ⟨md, a, b, c⟩ hp hs
  obtain ⟨md', d1, -, d3, -, d5⟩ := step_full hn a hs
  have ch := d3 hp.1
  refine ⟨md', d1, ch.bounded hp.2 b, ?_⟩
  intro sl hsl n snap hg
  rcases d5 sl hsl with e | e | ⟨sl0, hm, e⟩
  · rw [e] at hg; exact ch.keepAll b hg
  · rw [e] at hg; exact hg
  · rw [e] at hg; exact ch.keepAll b (c sl0 hm n snap hg)

/-- C13 for mutations during which other handles work: if the commit succeeds, the
new head is the stored head changed by the patch, and the stored head is the very
snapshot, with the same content, from which the patch was computed.  (Missing:
histories with `remove_branch`, see `C13_violated`; references changed through stale
handles; two commits interleaving between check and write, see
`C12_split_violated`.) -/
theorem C13_partial {E : Env} {s : Schema} (hn : s.names.Nodup) {σ σ' : Sys} {i : Nat}
    (h1 : Reach E s growing σ) (hs : Step E s σ (.commit i (.ok .succeeded)) σ') :
    ∃ sl t m p md md' w0 w1 base snap, σ.slots[i]? = some sl ∧ sl.phase = .ready t m (some p) ∧
      σ.w.stored = some md ∧ σ'.w.stored = some md' ∧
      m.body E sl.h w0 = (.ok (some p), w1) ∧ sl.h.md.target sl.h.branch none = .ok base ∧
      ChildOf md md' sl.h.branch p base snap := by
  obtain ⟨md, hok, -, hseen⟩ := growing_seen hn h1
  cases hs with
  | @commit w slots _ h t m p r h' w' hi he =>
    have hmem := List.mem_of_getElem? hi
    obtain ⟨a1, a2, a3, a4, w0, w1, -, -, -, a5, -⟩ := hok.slots _ hmem
    simp only at a2 a3 a4 a5
    have hp := txnCommit_post (t := t) (p := p) hok.wok a1 a4
    simp only at hp
    rw [he] at hp
    obtain ⟨b1, ⟨b2, -⟩ | ⟨-, b2, q, h2, cur, snap, b3, -, b4, b5⟩⟩ := hp
    · exact absurd rfl b2
    · subst b3
      have ch := b5.com.child
      rw [← a2] at ch a3 b2
      refine ⟨_, t, m, q, md, h'.md, w0, w1, cur, snap, hi, rfl, hok.wok.storedEq, b5.wok.storedEq, a5, ?_, ch⟩
      have hcur : t.start = cur.id := by
        have := b5.com.head
        rw [← a2, b2] at this
        exact Except.ok.inj this
      have hex : (h.md.snaps.get? t.start).isSome := by
        have := (currentId_live a3).isSome a1.ok
        exact this
      obtain ⟨x, hx⟩ := Option.isSome_iff_exists.mp hex
      have := hseen _ hmem _ _ hx
      rw [hcur, b5.com.curGet] at this
      cases this
      simp only [Metadata.target, a3]
      rw [hcur] at hx ⊢
      exact snapshot_of_get hx

/-- C13, last part: once committed to a branch, a snapshot stays in the history of
that branch, unchanged, whatever successful mutations follow: none of them loses or
overwrites it. -/
theorem C13_kept_partial {E : Env} {s : Schema} (hn : s.names.Nodup) {σ σ1 σ2 : Sys} {ev : Event}
    {b : String} (h1 : Reach E s growing σ) (hp : growing σ ev) (hs : Step E s σ ev σ1)
    (hc : CommitEvent σ ev b) (h2 : Run E s growing σ1 σ2) :
    ∃ md1 md2 n k snap, σ1.w.stored = some md1 ∧ md1.currentId b = .ok n ∧ md1.snaps.get? n = some snap ∧
      σ2.w.stored = some md2 ∧ md2.currentId b = .ok k ∧ Anc md2 k n ∧
      md2.snaps.get? n = some snap := by
  obtain ⟨md, hok, hbd⟩ := growing_bounded hn h1
  obtain ⟨md1, a1, -, a3⟩ := step_ok hn hok hs
  have hcom : ∃ n p cur snap, Committed σ1.w.fs md md1 b p n cur snap := by
    cases a3 hp.1 with
    | same _ h => exact absurd hc (h _)
    | addRef _ _ _ _ _ _ h => exact absurd hc (h _)
    | removeRef _ _ _ _ _ _ h => exact absurd hc (h _)
    | commit b' p n cur snap com _ hce =>
      have hb : b' = b := by
        obtain ⟨i, sl, a1, a2, a3⟩ := hc
        obtain ⟨j, sl', b1, b2, b3⟩ := hce
        have hij : i = j := by
          rcases a3 with ⟨m, h⟩ | h <;> rcases b3 with ⟨m', h'⟩ | h'
          · rw [h] at h'; simp only [Event.call.injEq] at h'; exact h'.1
          · rw [h] at h'; cases h'
          · rw [h] at h'; cases h'
          · rw [h] at h'; simp only [Event.commit.injEq] at h'; exact h'.1
        subst hij
        rw [a1] at b1
        cases b1
        exact b2.symm.trans a2
      subst hb
      exact ⟨n, p, cur, snap, com⟩
  obtain ⟨n, p, cur, snap, com⟩ := hcom
  have hget : md1.snaps.get? n = some snap := by rw [com.snaps, AMap.get?_set_self]
  have hbr : b = mainBranch ∨ ∃ r, md1.refs.get? b = some r ∧ r.kind = .branch := by
    rcases com.move with ⟨h, -⟩ | ⟨-, -, r, -, h2, h3⟩
    · exact Or.inl h
    · exact Or.inr ⟨{ r with id := n }, by rw [h3, AMap.get?_set_self], h2⟩
  have hbd1 := (a3 hp.1).bounded hp.2 hbd
  have key : ∃ md2 k, SysOK E s σ2 md2 ∧ Bounded md2 ∧
      (b = mainBranch ∨ ∃ r, md2.refs.get? b = some r ∧ r.kind = .branch) ∧
      md2.currentId b = .ok k ∧ Anc md2 k n ∧ md2.snaps.get? n = some snap := by
    refine Run.invariant (I := fun τ => ∃ md2 k, SysOK E s τ md2 ∧ Bounded md2 ∧
      (b = mainBranch ∨ ∃ r, md2.refs.get? b = some r ∧ r.kind = .branch) ∧
      md2.currentId b = .ok k ∧ Anc md2 k n ∧ md2.snaps.get? n = some snap) ?_
      ⟨md1, n, a1, hbd1, hbr, com.newHead, .self, hget⟩ h2
    rintro τ τ' e ⟨md2, k, b1, b2, b3, b4, b5, b6⟩ hq hst
    obtain ⟨md3, c1, -, c3⟩ := step_ok hn b1 hst
    have ch := c3 hq.1
    have hrem : ∀ i r, e ≠ .call i (.removeBranch b) r := by
      rintro i r rfl
      exact hq.2
    obtain ⟨d1, m, d2, -, -⟩ := ch.heads hrem b3 b4
    have anc' : Anc md3 k n :=
      b5.keep b1.wok.ok (fun j hj => ch.keep hj) (currentId_live b4)
    refine ⟨md3, m, c1, ch.bounded hq.2 b2, d1, d2, ?_, ch.keepAll b2 b6⟩
    cases ch with
    | same e' _ =>
      subst e'
      rw [b4] at d2
      cases d2
      exact b5
    | commit c' p' n' cur' snap' com' new' hce' =>
      by_cases hbc : b = c'
      · subst hbc
        have : n' = m := by
          have := com'.newHead
          rw [d2] at this
          exact (Except.ok.inj this).symm
        subst this
        have hk : cur'.id = k := by
          have := com'.head
          rw [b4] at this
          exact (Except.ok.inj this).symm
        have : Anc md3 n' k := by
          rw [← hk]
          refine .parent (snap := snap') .self ?_ com'.parent
          rw [com'.snaps, AMap.get?_set_self]
        exact this.trans anc'
      · rw [com'.otherHead hbc, b4] at d2
        cases d2
        exact anc'
    | addRef name kind j can e' _ _ =>
      have : md3.currentId b = md2.currentId b := by
        rw [e']
        unfold Metadata.currentId Metadata.lookupRef
        by_cases hm : b = mainBranch
        · simp [hm]
        · obtain ⟨r, h1, h2⟩ := b3.resolve_left hm
          have hne : b ≠ name := by rintro rfl; rw [can.unused] at h1; cases h1
          simp only [hm, ↓reduceIte]
          rw [AMap.get?_set_ne _ _ hne]
      rw [this, b4] at d2
      cases d2
      exact anc'
    | removeRef name kind j was e' hcall _ =>
      have : md3.currentId b = md2.currentId b := by
        rw [e']
        unfold Metadata.currentId Metadata.lookupRef
        by_cases hm : b = mainBranch
        · simp [hm]
        · obtain ⟨r, h1, h2⟩ := b3.resolve_left hm
          have hne : b ≠ name := by
            rintro rfl
            obtain ⟨i, r', ⟨h0, -⟩ | ⟨-, h0⟩⟩ := hcall
            · rw [was] at h1; cases h1; simp only at h2; rw [h0] at h2; cases h2
            · exact hrem _ _ h0
          simp only [hm, ↓reduceIte]
          rw [AMap.get?_erase_ne _ hne]
      rw [this, b4] at d2
      cases d2
      exact anc'
  obtain ⟨md2, k, b1, -, -, b4, b5, b6⟩ := key
  exact ⟨md1, md2, n, k, snap, a1.wok.storedEq, com.newHead, hget, b1.wok.storedEq, b4, b5, b6⟩

/-- The index manifests of what a target reads as. -/
def manifestsOf : Except Err Snapshot → Option (List Path)
  | .ok snap => some snap.index
  | .error _ => none

/-- The state of `C12_violated` before the last commit. -/
def abaEnd : Sys :=
  after env tidyB schema (onB ++ [.begin 1 (.insert [row 5 "a" []]), .compute 1,
    .call 0 (.setBranch "main"), .call 0 (.removeBranch "b"), .call 0 (.addBranch "b"),
    .call 0 (.setBranch "b"), abaCommit])

/-- C13 is false if the branch is removed and created again during the mutation: the
insert below was computed from a branch holding only key 1, and is applied to a
branch holding key 5. -/
theorem C13_violated : ∃ (σ σ' : Sys) (sl sl' : Slot) (md : Metadata),
    Reach env schema tidy σ ∧ Step env schema σ (.commit 1 (.ok .succeeded)) σ' ∧
    σ.slots[1]? = some sl ∧ σ'.slots[1]? = some sl' ∧ σ.w.stored = some md ∧ sl.h.branch = "b" ∧
    sl.h.md.target "b" none ≠ md.target "b" none ∧
    tableRead env sl'.h σ'.w {} none = .ok [row 5 "b" [], row 5 "a" []] := by
  have s1 := (doing_step (E := env) (s := schema) (σ := abaEnd) (a := .commit 1) (o := .job (.ok .succeeded))
    (by decide +kernel)).2
  obtain ⟨md, hs, hm⟩ := stored_of_map (w := abaEnd.w) (f := fun md => manifestsOf (md.target "b" none))
    (x := some [.indexManifest 16]) (by decide +kernel)
  obtain ⟨sl, d1, -, d2⟩ := slot_of (σ := abaEnd) (i := 1)
    (f := fun sl => (sl.h.branch, manifestsOf (sl.h.md.target "b" none)))
    (x := ("b", some [.indexManifest 4])) (by decide +kernel)
  obtain ⟨sl', e1, -, e2⟩ := slot_of (σ := doing env abaEnd (.commit 1)) (i := 1)
    (f := fun sl => tableRead env sl.h (doing env abaEnd (.commit 1)).w {} none)
    (x := .ok [row 5 "b" [], row 5 "a" []]) (by decide +kernel)
  simp only [Prod.mk.injEq] at d2
  refine ⟨abaEnd, _, sl, sl', md, after_reach tidyB_tidy _, s1, d1, e1, hs, d2.1, ?_, e2⟩
  intro h
  rw [h, hm] at d2
  simp at d2

/-- A history to which `C13_partial` applies: another handle works on another branch
during an insert. -/
def mixed : List Act :=
  [.call 0 (.mutate (.append [[row 1 "x" [1]]])), .load, .call 1 (.addBranch "b"), .call 1 (.setBranch "b"),
    .begin 0 (.insert [row 5 "a" []]), .call 1 (.mutate (.append [[row 7 "c" []]])), .compute 0,
    .call 1 (.addTag "t" none)]

example : ∃ σ σ' : Sys, Reach env schema growing σ ∧
    Step env schema σ (.commit 0 (.ok .succeeded)) σ' :=
  ⟨after env growingB schema mixed, _, after_reach growingB_growing _,
    (doing_step (E := env) (s := schema) (a := .commit 0) (o := .job (.ok .succeeded)) (by decide +kernel)).2⟩

/-- The commit after `mixed`, and a later append. -/
def mixedCommit : Sys := doing env (after env growingB schema mixed) (.commit 0)
def mixedLater : Sys := more env growingB [.call 0 (.mutate (.append [[row 8 "z" []]]))] mixedCommit

/-- A history to which `C13_kept_partial` applies. -/
example : ∃ (σ σ1 σ2 : Sys) (ev : Event), Reach env schema growing σ ∧ growing σ ev ∧
    Step env schema σ ev σ1 ∧ CommitEvent σ ev "main" ∧ Run env schema growing σ1 σ2 ∧
    σ2.w.stored ≠ σ1.w.stored := by
  have s1 := doing_step (E := env) (s := schema) (σ := after env growingB schema mixed) (a := .commit 0)
    (o := .job (.ok .succeeded)) (by decide +kernel)
  obtain ⟨sl, d1, -, d2⟩ := slot_of (σ := after env growingB schema mixed) (i := 0)
    (f := fun sl => sl.h.branch) (x := "main") (by decide +kernel)
  refine ⟨_, mixedCommit, mixedLater, _, after_reach growingB_growing _, growingB_growing _ _ (doing_ok s1.1 (by decide +kernel)), s1.2,
    ⟨0, sl, d1, d2, Or.inr rfl⟩, more_run growingB_growing _ _, by decide +kernel⟩

end Space
