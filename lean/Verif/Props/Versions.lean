import Verif.Demo

/-!
# C02, C03, C10, C11: versions keep their data

Reads are `tableRead`: `LocalRunner.read` with a preceding `reload`.  A slot is a
handle of some process; the statements hold for reads through any handle.
-/

set_option autoImplicit false

namespace Space

open Demo

theorem target_id (md : Metadata) (b : String) (n : Nat) :
    md.target b (some (.id n)) = md.snapshot n := rfl

theorem snapshot_eq {md md' : Metadata} {n : Nat} (h : md'.snaps.get? n = md.snaps.get? n) :
    md'.snapshot n = md.snapshot n := by
  unfold Metadata.snapshot
  rw [h]

theorem snapshot_get {md : Metadata} {n : Nat} {snap : Snapshot} (h : md.snapshot n = .ok snap) :
    md.snaps.get? n = some snap := by
  unfold Metadata.snapshot at h
  split at h
  · cases h; assumption
  · cases h

theorem snapshot_of_get {md : Metadata} {n : Nat} {snap : Snapshot} (h : md.snaps.get? n = some snap) :
    md.snapshot n = .ok snap := by
  unfold Metadata.snapshot
  rw [h]

theorem stored_of {E : Env} {s : Schema} {σ : Sys} {md md' : Metadata} (h : SysOK E s σ md)
    (h' : σ.w.stored = some md') : md' = md := by
  rw [h.wok.storedEq] at h'
  exact (Option.some.inj h').symm

/-! ## C02 -/

/-- The history of the counterexample: a branch gets a commit and is removed, and
main reuses its snapshot id. -/
def reuse1 : List Act :=
  [.call 0 (.addBranch "b"), .call 0 (.setBranch "b"),
    .call 0 (.mutate (.append [[row 1 "x" [1]]])), .call 0 (.setBranch "main")]

def reuse2 : List Act :=
  [.call 0 (.removeBranch "b"), .call 0 (.mutate (.append [[row 2 "y" [2]]]))]

/-- C02 is false: after the branch that holds snapshot 1 is removed, the next
commit on main is given id 1 again and `read(version=1)` returns other rows, even
on a single handle. -/
theorem C02_violated : ∃ (σ σ' : Sys) (sl sl' : Slot),
    Reach env schema solo σ ∧ Run env schema solo σ σ' ∧ sl ∈ σ.slots ∧ sl' ∈ σ'.slots ∧
    tableRead env sl.h σ.w {} (some (.id 1)) = .ok [row 1 "x" [1]] ∧
    tableRead env sl'.h σ'.w {} (some (.id 1)) = .ok [row 2 "y" [2]] := by
  obtain ⟨sl, -, h1, h2⟩ := slot_of (σ := after env soloB schema reuse1) (i := 0)
    (f := fun sl => tableRead env sl.h (after env soloB schema reuse1).w {} (some (.id 1)))
    (x := .ok [row 1 "x" [1]]) (by decide +kernel)
  obtain ⟨sl', -, h1', h2'⟩ := slot_of (σ := more env soloB reuse2 (after env soloB schema reuse1)) (i := 0)
    (f := fun sl => tableRead env sl.h (more env soloB reuse2 (after env soloB schema reuse1)).w {} (some (.id 1)))
    (x := .ok [row 2 "y" [2]]) (by decide +kernel)
  exact ⟨_, _, sl, sl', after_reach soloB_solo _, more_run soloB_solo _ _, h1, h1', h2, h2'⟩

/-- C02 for histories in which no branch is removed: once a read of snapshot id `n`
returned rows, with whatever options, it returns the same rows after any further
history, through any handle.  (Missing from C02: histories with `remove_branch`,
with reference changes on stale handles, or with interleaving inside a commit.) -/
theorem C02_partial {E : Env} {s : Schema} (hn : s.names.Nodup) {σ σ' : Sys}
    (h1 : Reach E s growing σ) (h2 : Run E s growing σ σ') {sl sl' : Slot} (hs : sl ∈ σ.slots)
    (hs' : sl' ∈ σ'.slots) {o : ReadOpts} {n : Nat} {rows : List Row}
    (hr : tableRead E sl.h σ.w o (some (.id n)) = .ok rows) :
    tableRead E sl'.h σ'.w o (some (.id n)) = .ok rows := by
  obtain ⟨md, a1, a2⟩ := growing_bounded hn h1
  have key : ∃ md', SysOK E s σ' md' ∧ Bounded md' ∧ FSLe σ.w.fs σ'.w.fs ∧
      ∀ k snap, md.snaps.get? k = some snap → md'.snaps.get? k = some snap := by
    refine Run.invariant (I := fun τ => ∃ md', SysOK E s τ md' ∧ Bounded md' ∧ FSLe σ.w.fs τ.w.fs ∧
      ∀ k snap, md.snaps.get? k = some snap → md'.snaps.get? k = some snap) ?_
      ⟨md, a1, a2, FSLe.refl _, fun _ _ h => h⟩ h2
    rintro τ τ' ev ⟨md1, b1, b2, b3, b4⟩ hp hst
    obtain ⟨md2, c1, c2, c3⟩ := step_ok hn b1 hst
    exact ⟨md2, c1, (c3 hp.1).bounded hp.2 b2, b3.trans c2,
      fun k snap h => (c3 hp.1).keepAll b2 (b4 k snap h)⟩
  obtain ⟨md', b1, -, b2, b3⟩ := key
  refine tableRead_same a1.wok (a1.slot hs) b1.wok (b1.slot hs') b2 ?_ hr
  intro snap ht
  exact snapshot_of_get (b3 n snap (snapshot_get ht))

/-- Two handles go on working after `reuse1`. -/
def goOn : List Act :=
  [.load, .call 1 (.mutate (.append [[row 2 "y" [2]]])), .call 0 .reload, .call 0 (.addTag "t" (some 1))]

/-- A history to which `C02_partial` applies, with a read of rows that stays. -/
example : ∃ (σ σ' : Sys) (sl sl' : Slot),
    Reach env schema growing σ ∧ Run env schema growing σ σ' ∧ sl ∈ σ.slots ∧ sl' ∈ σ'.slots ∧
    tableRead env sl.h σ.w {} (some (.id 1)) = .ok [row 1 "x" [1]] ∧
    tableRead env sl'.h σ'.w {} none = .ok [row 2 "y" [2]] := by
  obtain ⟨sl, -, h1, h2⟩ := slot_of (σ := after env growingB schema reuse1) (i := 0)
    (f := fun sl => tableRead env sl.h (after env growingB schema reuse1).w {} (some (.id 1)))
    (x := .ok [row 1 "x" [1]]) (by decide +kernel)
  obtain ⟨sl', -, h1', h2'⟩ := slot_of (σ := more env growingB goOn (after env growingB schema reuse1)) (i := 1)
    (f := fun sl => tableRead env sl.h (more env growingB goOn (after env growingB schema reuse1)).w {} none)
    (x := .ok [row 2 "y" [2]]) (by decide +kernel)
  exact ⟨_, _, sl, sl', after_reach growingB_growing _, more_run growingB_growing _ _, h1, h1', h2, h2'⟩

/-- Main or some branch or tag points at snapshot `n` or at a later one. -/
def coveredIn (n : Nat) (σ : Sys) : Prop :=
  ∃ md, σ.w.stored = some md ∧ (n ≤ md.current ∨ ∃ name r, md.refs.get? name = some r ∧ n ≤ r.id)

/-- C02 with removal of branches: while at the start of every step main or some branch or tag
points at an id not below `n`, a read of id `n` that returned rows returns the same rows, whether
or not snapshot `n` is still reachable.  (Missing from C02: the steps after the last reference at
or above `n` has gone, for which `C02_effect` says what happens.) -/
theorem C02_covered_partial {E : Env} {s : Schema} (hn : s.names.Nodup) {σ σ' : Sys} {n : Nat}
    (h1 : Reach E s anyStep σ)
    (h2 : Run E s (fun τ ev => tidy τ ev ∧ coveredIn n τ) σ σ') {sl sl' : Slot} (hs : sl ∈ σ.slots)
    (hs' : sl' ∈ σ'.slots) {o : ReadOpts} {rows : List Row}
    (hr : tableRead E sl.h σ.w o (some (.id n)) = .ok rows) :
    tableRead E sl'.h σ'.w o (some (.id n)) = .ok rows := by
  obtain ⟨md, a1⟩ := reach_ok hn h1
  have key : ∃ md', SysOK E s σ' md' ∧ FSLe σ.w.fs σ'.w.fs ∧
      md'.snaps.get? n = md.snaps.get? n := by
    refine Run.invariant (I := fun τ => ∃ md', SysOK E s τ md' ∧ FSLe σ.w.fs τ.w.fs ∧
      md'.snaps.get? n = md.snaps.get? n) ?_ ⟨md, a1, FSLe.refl _, rfl⟩ h2
    rintro τ τ' ev ⟨md1, b1, b2, b3⟩ ⟨hp, mdl, hl1, hl2⟩ hst
    obtain ⟨md2, c1, c2, c3⟩ := step_ok hn b1 hst
    have := stored_of b1 hl1
    subst this
    have hle : n ≤ mdl.maxRefId := by
      rcases hl2 with h | ⟨name, r, h, h'⟩
      · exact Nat.le_trans h (current_le_max _)
      · exact Nat.le_trans h' (ref_le_max h)
    exact ⟨md2, c1, b2.trans c2, by rw [(c3 hp).keep hle]; exact b3⟩
  obtain ⟨md', b1, b2, b3⟩ := key
  refine tableRead_same a1.wok (a1.slot hs) b1.wok (b1.slot hs') b2 ?_ hr
  intro snap ht
  rw [target_id] at ht ⊢
  rw [snapshot_eq b3]
  exact ht

/-- What the code does instead of C02: a step changes what id `n` means only if it is a commit
that was given id `n`, becomes the head of its branch, and found main and every branch and tag
pointing below `n`.  (`C02_violated` is a history in which this happens.) -/
theorem C02_effect {E : Env} {s : Schema} (hn : s.names.Nodup) {σ σ' : Sys} {ev : Event}
    (h1 : Reach E s anyStep σ) (hp : tidy σ ev) (hs : Step E s σ ev σ') :
    ∃ md md', σ.w.stored = some md ∧ σ'.w.stored = some md' ∧ ∀ n,
      (md'.snaps.get? n = md.snaps.get? n ∧ ∀ sl ∈ σ.slots, ∀ sl' ∈ σ'.slots, ∀ o rows,
        tableRead E sl.h σ.w o (some (.id n)) = .ok rows →
        tableRead E sl'.h σ'.w o (some (.id n)) = .ok rows) ∨
      ∃ b, CommitEvent σ ev b ∧ md'.currentId b = .ok n ∧ md.current < n ∧
        ∀ name r, md.refs.get? name = some r → r.id < n := by
  obtain ⟨md, a1⟩ := reach_ok hn h1
  obtain ⟨md', b1, b2, b3⟩ := step_ok hn a1 hs
  refine ⟨md, md', a1.wok.storedEq, b1.wok.storedEq, fun n => ?_⟩
  have same : md'.snaps.get? n = md.snaps.get? n →
      md'.snaps.get? n = md.snaps.get? n ∧ ∀ sl ∈ σ.slots, ∀ sl' ∈ σ'.slots, ∀ o rows,
        tableRead E sl.h σ.w o (some (.id n)) = .ok rows →
        tableRead E sl'.h σ'.w o (some (.id n)) = .ok rows := by
    intro he
    refine ⟨he, fun sl hsl sl' hsl' o rows hr => ?_⟩
    refine tableRead_same a1.wok (a1.slot hsl) b1.wok (b1.slot hsl') b2 ?_ hr
    intro snap ht
    rw [target_id] at ht ⊢
    rw [snapshot_eq he]
    exact ht
  by_cases hle : n ≤ md.maxRefId
  · exact Or.inl (same ((b3 hp).keep hle))
  · cases b3 hp with
    | same e _ => exact Or.inl (same (by rw [e]))
    | addRef name kind k can e _ _ => exact Or.inl (same (by rw [e]))
    | removeRef name kind k was e _ _ => exact Or.inl (same (by rw [e]))
    | commit b p k cur snap com new hev =>
      by_cases hk : n = k
      · subst hk
        refine Or.inr ⟨b, hev, com.newHead, ?_, fun name r hr => ?_⟩
        · have := current_le_max md; omega
        · have := ref_le_max hr; omega
      · exact Or.inl (same (by rw [com.snaps, AMap.get?_set_ne _ _ hk]))

/-- A branch that got snapshot 1 is removed after main moved on to snapshot 2. -/
def passed1 : List Act :=
  reuse1 ++ [.call 0 (.mutate (.append [[row 2 "y" [2]]]))]

def passed2 : List Act :=
  [.call 0 (.removeBranch "b"), .call 0 (.mutate (.append [[row 3 "z" [3]]]))]

def coveredB (n : Nat) (σ : Sys) (_ : Event) : Bool :=
  match σ.w.stored with
  | some md => decide (n ≤ md.current)
  | none => false

/-- A history to which `C02_covered_partial` applies, in which the snapshot is not reachable
any more when it is read again. -/
example : ∃ (σ σ' : Sys) (sl sl' : Slot),
    Reach env schema anyStep σ ∧ Run env schema (fun τ ev => tidy τ ev ∧ coveredIn 1 τ) σ σ' ∧
    sl ∈ σ.slots ∧ sl' ∈ σ'.slots ∧
    tableRead env sl.h σ.w {} (some (.id 1)) = .ok [row 1 "x" [1]] ∧
    tableRead env sl'.h σ'.w {} (some (.id 1)) = .ok [row 1 "x" [1]] ∧
    tableRead env sl'.h σ'.w {} none = .ok [row 2 "y" [2], row 3 "z" [3]] := by
  obtain ⟨sl, -, h1, h2⟩ := slot_of (σ := after env anyB schema passed1) (i := 0)
    (f := fun sl => tableRead env sl.h (after env anyB schema passed1).w {} (some (.id 1)))
    (x := .ok [row 1 "x" [1]]) (by decide +kernel)
  let P : Sys → Event → Bool := fun τ ev => tidyB τ ev && coveredB 1 τ ev
  have hP : ∀ τ ev, P τ ev = true → tidy τ ev ∧ coveredIn 1 τ := by
    intro τ ev h
    simp only [P, Bool.and_eq_true] at h
    refine ⟨tidyB_tidy _ _ h.1, ?_⟩
    have h' := h.2
    unfold coveredB at h'
    split at h'
    · next md hmd => exact ⟨md, hmd, Or.inl (of_decide_eq_true h')⟩
    · cases h'
  obtain ⟨sl', -, h1', h2'⟩ := slot_of (σ := more env P passed2 (after env anyB schema passed1)) (i := 0)
    (f := fun sl => decide (
      tableRead env sl.h (more env P passed2 (after env anyB schema passed1)).w {} (some (.id 1)) = .ok [row 1 "x" [1]] ∧
      tableRead env sl.h (more env P passed2 (after env anyB schema passed1)).w {} none =
        .ok [row 2 "y" [2], row 3 "z" [3]]))
    (x := true) (by decide +kernel)
  exact ⟨_, _, sl, sl', after_reach (fun _ _ _ => trivial) _, more_run hP _ _, h1, h1', h2, of_decide_eq_true h2'⟩

/-! ## C03 -/

/-- Snapshot `n` is reachable in the stored metadata. -/
def liveIn (n : Nat) (σ : Sys) : Prop := ∃ md, σ.w.stored = some md ∧ Live md n

/-- C03, for any number of handles: while snapshot `n` is reachable at the start of
every step, reads of it return the same rows. -/
theorem C03_tidy {E : Env} {s : Schema} (hn : s.names.Nodup) {σ σ' : Sys} {n : Nat}
    (h1 : Reach E s anyStep σ)
    (h2 : Run E s (fun τ ev => tidy τ ev ∧ liveIn n τ) σ σ') {sl sl' : Slot} (hs : sl ∈ σ.slots)
    (hs' : sl' ∈ σ'.slots) {o : ReadOpts} {rows : List Row}
    (hr : tableRead E sl.h σ.w o (some (.id n)) = .ok rows) :
    tableRead E sl'.h σ'.w o (some (.id n)) = .ok rows := by
  obtain ⟨md, a1⟩ := reach_ok hn h1
  have key : ∃ md', SysOK E s σ' md' ∧ FSLe σ.w.fs σ'.w.fs ∧
      md'.snaps.get? n = md.snaps.get? n := by
    refine Run.invariant (I := fun τ => ∃ md', SysOK E s τ md' ∧ FSLe σ.w.fs τ.w.fs ∧
      md'.snaps.get? n = md.snaps.get? n) ?_ ⟨md, a1, FSLe.refl _, rfl⟩ h2
    rintro τ τ' ev ⟨md1, b1, b2, b3⟩ ⟨hp, mdl, hl1, hl2⟩ hst
    obtain ⟨md2, c1, c2, c3⟩ := step_ok hn b1 hst
    have := stored_of b1 hl1
    subst this
    exact ⟨md2, c1, b2.trans c2, by rw [(c3 hp).keep (hl2.le b1.wok.ok)]; exact b3⟩
  obtain ⟨md', b1, b2, b3⟩ := key
  refine tableRead_same a1.wok (a1.slot hs) b1.wok (b1.slot hs') b2 ?_ hr
  intro snap ht
  rw [target_id] at ht ⊢
  rw [snapshot_eq b3]
  exact ht

/-- C03: on one handle, the rows of a snapshot never change while it is reachable. -/
theorem C03 {E : Env} {s : Schema} (hn : s.names.Nodup) {σ σ' : Sys} {n : Nat}
    (h1 : Reach E s solo σ)
    (h2 : Run E s (fun τ ev => solo τ ev ∧ liveIn n τ) σ σ') {sl sl' : Slot} (hs : sl ∈ σ.slots)
    (hs' : sl' ∈ σ'.slots) {o : ReadOpts} {rows : List Row}
    (hr : tableRead E sl.h σ.w o (some (.id n)) = .ok rows) :
    tableRead E sl'.h σ'.w o (some (.id n)) = .ok rows :=
  C03_tidy hn (h1.imp anyStep_of) (solo_tidy hn h1 h2) hs hs' hr

/-- C03, second half: the id of a new commit is larger than all reachable ids. -/
theorem C03_newId {E : Env} {s : Schema} (hn : s.names.Nodup) {σ σ' : Sys}
    (h1 : Reach E s solo σ) {i : Nat} {m : Mutation} {sl : Slot} (hi : σ.slots[i]? = some sl)
    (hp : solo σ (.call i (.mutate m) (.job .succeeded)))
    (hs : Step E s σ (.call i (.mutate m) (.job .succeeded)) σ') :
    ∃ md md' new, σ.w.stored = some md ∧ σ'.w.stored = some md' ∧
      md'.currentId sl.h.branch = .ok new ∧ ∀ n, Live md n → n < new := by
  obtain ⟨h, e, hok⟩ := solo_inv hn h1
  obtain ⟨md', h3, h4, h5⟩ := step_ok hn hok hs
  have ht := (solo_step hn ⟨h, e, hok⟩ hp hs).1
  refine ⟨h.md, md', ?_⟩
  have hce : CommitEvent σ (.call i (.mutate m) (.job .succeeded)) sl.h.branch :=
    ⟨i, sl, hi, rfl, Or.inl ⟨m, rfl⟩⟩
  cases h5 ht with
  | same _ hc => exact absurd hce (hc _)
  | addRef _ _ _ _ _ _ hc => exact absurd hce (hc _)
  | removeRef _ _ _ _ _ _ hc => exact absurd hce (hc _)
  | commit b p k cur snap com new hce' =>
    refine ⟨k, hok.wok.storedEq, h3.wok.storedEq, ?_, fun n hl => ?_⟩
    · obtain ⟨j, sl', h1', h2', h3'⟩ := hce'
      have hj : i = j := by
        rcases h3' with ⟨m', h3'⟩ | h3'
        · simp only [Event.call.injEq] at h3'; exact h3'.1
        · cases h3'
      subst hj
      rw [hi] at h1'
      cases h1'
      rw [h2']
      exact com.newHead
    · have := hl.le hok.wok.ok
      omega

/-- A commit on a branch and one on main. -/
def twoHeads : List Act := reuse1 ++ [.call 0 (.mutate (.append [[row 2 "y" [2]]]))]

/-- The head of the branch is reachable and its rows are the ones appended. -/
example : ∃ (σ : Sys) (sl : Slot), Reach env schema solo σ ∧ sl ∈ σ.slots ∧ liveIn 1 σ ∧
    tableRead env sl.h σ.w {} (some (.id 1)) = .ok [row 1 "x" [1]] ∧
    tableRead env sl.h σ.w {} none = .ok [row 2 "y" [2]] := by
  obtain ⟨sl, -, h1, h2⟩ := slot_of (σ := after env soloB schema twoHeads) (i := 0)
    (f := fun sl => (tableRead env sl.h (after env soloB schema twoHeads).w {} (some (.id 1)),
      tableRead env sl.h (after env soloB schema twoHeads).w {} none))
    (x := (.ok [row 1 "x" [1]], .ok [row 2 "y" [2]])) (by decide +kernel)
  obtain ⟨md, h3, h4⟩ := stored_of_map (w := (after env soloB schema twoHeads).w)
    (f := fun md => md.refs.get? "b") (x := some { id := 1, kind := .branch }) (by decide +kernel)
  simp only [Prod.mk.injEq] at h2
  exact ⟨_, sl, after_reach soloB_solo _, h1, ⟨md, h3, Live.ref h4⟩, h2⟩

/-! ## C10 -/

/-- What a mutation on branch `b` must leave alone. -/
structure Isolated (E : Env) (σ σ' : Sys) (b : String) : Prop where
  /-- other branches and main, read through a handle set to them -/
  branch : ∀ sl ∈ σ.slots, ∀ sl' ∈ σ'.slots, sl.h.branch ≠ b → sl'.h.branch = sl.h.branch →
    ∀ o rows, tableRead E sl.h σ.w o none = .ok rows → tableRead E sl'.h σ'.w o none = .ok rows
  /-- tags and other branches, read by name -/
  name : ∀ sl ∈ σ.slots, ∀ sl' ∈ σ'.slots, ∀ nm, nm ≠ b →
    ∀ o rows, tableRead E sl.h σ.w o (some (.name nm)) = .ok rows →
      tableRead E sl'.h σ'.w o (some (.name nm)) = .ok rows
  /-- snapshots by id -/
  id : ∀ sl ∈ σ.slots, ∀ sl' ∈ σ'.slots, ∀ n, liveIn n σ →
    ∀ o rows, tableRead E sl.h σ.w o (some (.id n)) = .ok rows →
      tableRead E sl'.h σ'.w o (some (.id n)) = .ok rows

theorem target_none_eq {md md' : Metadata} {b : String} (hid : md'.currentId b = md.currentId b)
    (hk : ∀ n, md.currentId b = .ok n → md'.snaps.get? n = md.snaps.get? n) :
    md'.target b none = md.target b none := by
  unfold Metadata.target
  rw [hid]
  cases h : md.currentId b with
  | error e => rfl
  | ok n => exact snapshot_eq (hk n h)

theorem target_name_eq {md md' : Metadata} {b b' nm : String} (hr : md'.refs.get? nm = md.refs.get? nm)
    (hk : ∀ r, md.refs.get? nm = some r → md'.snaps.get? r.id = md.snaps.get? r.id) :
    md'.target b' (some (.name nm)) = md.target b (some (.name nm)) := by
  unfold Metadata.target
  simp only [Metadata.versionId, Metadata.lookupRef, hr]
  cases h : md.refs.get? nm with
  | none => rfl
  | some r => exact snapshot_eq (hk r h)

/-- An event commits to one branch. -/
theorem CommitEvent.branch {σ : Sys} {ev : Event} {b c : String} (h1 : CommitEvent σ ev b)
    (h2 : CommitEvent σ ev c) : b = c := by
  obtain ⟨i, sl, a1, a2, a3⟩ := h1
  obtain ⟨j, sl', b1, b2, b3⟩ := h2
  have hij : i = j := by
    rcases a3 with ⟨m, h⟩ | h <;> rcases b3 with ⟨m', h'⟩ | h'
    · rw [h] at h'; simp only [Event.call.injEq] at h'; exact h'.1
    · rw [h] at h'; cases h'
    · rw [h] at h'; cases h'
    · rw [h] at h'; simp only [Event.commit.injEq] at h'; exact h'.1
  subst hij
  rw [a1] at b1
  cases b1
  rw [← a2, ← b2]

/-- C10 except for unreachable snapshot ids: a mutation committed on one branch, in
any reachable state, leaves every other branch, main, every tag and every reachable
snapshot id as they were.  (Missing: snapshot ids that no branch or tag reaches any
more, see `C10_violated`; commits split by other processes.) -/
theorem C10_partial {E : Env} {s : Schema} (hn : s.names.Nodup) {σ σ' : Sys} {ev : Event}
    {b : String} (h1 : Reach E s anyStep σ) (hs : Step E s σ ev σ') (hc : CommitEvent σ ev b) :
    Isolated E σ σ' b := by
  obtain ⟨md, hok⟩ := reach_ok hn h1
  obtain ⟨md', h3, h4, h5⟩ := step_ok hn hok hs
  have ht : tidy σ ev := by
    obtain ⟨i, sl, -, -, ⟨m, rfl⟩ | rfl⟩ := hc
    · exact ⟨trivial, fun h => by simp [Call.isRef] at h⟩
    · exact ⟨trivial, trivial⟩
  cases h5 ht with
  | same _ h => exact absurd hc (h _)
  | addRef _ _ _ _ _ _ h => exact absurd hc (h _)
  | removeRef _ _ _ _ _ _ h => exact absurd hc (h _)
  | commit b' p k cur snap com new hce =>
    have hb : b' = b := hce.branch hc
    subst hb
    have keep : ∀ n, Live md n → md'.snaps.get? n = md.snaps.get? n := by
      intro n hl
      rw [com.snaps, AMap.get?_set_ne]
      have := hl.le hok.wok.ok
      omega
    refine ⟨?_, ?_, ?_⟩
    · intro sl hsl sl' hsl' hne hbr o rows hr
      refine tableRead_same hok.wok (hok.slot hsl) h3.wok (h3.slot hsl') h4 ?_ hr
      intro snap hx
      rw [hbr, target_none_eq (com.otherHead hne) (fun n h => keep n (currentId_live h))]
      exact hx
    · intro sl hsl sl' hsl' nm hne o rows hr
      refine tableRead_same hok.wok (hok.slot hsl) h3.wok (h3.slot hsl') h4 ?_ hr
      intro snap hx
      rw [target_name_eq (b := sl.h.branch) (com.otherRef hne) (fun r h => keep _ (Live.ref h))]
      exact hx
    · rintro sl hsl sl' hsl' n ⟨mdl, l1, l2⟩ o rows hr
      have := stored_of hok l1
      subst this
      refine tableRead_same hok.wok (hok.slot hsl) h3.wok (h3.slot hsl') h4 ?_ hr
      intro snap hx
      rw [target_id] at hx ⊢
      rw [snapshot_eq (keep n l2)]
      exact hx

/-- C10 with every snapshot id, when no branch was ever removed. -/
theorem C10_growing_partial {E : Env} {s : Schema} (hn : s.names.Nodup) {σ σ' : Sys} {ev : Event}
    (h1 : Reach E s growing σ) (hp : growing σ ev) (hs : Step E s σ ev σ')
    {sl sl' : Slot} (hsl : sl ∈ σ.slots) (hsl' : sl' ∈ σ'.slots) {n : Nat} {o : ReadOpts} {rows : List Row}
    (hr : tableRead E sl.h σ.w o (some (.id n)) = .ok rows) :
    tableRead E sl'.h σ'.w o (some (.id n)) = .ok rows :=
  C02_partial hn h1 (.step (.refl _) hp hs) hsl hsl' hr

/-- C10 for every snapshot id, reachable or not: the commit changes what one id reads, the id it
was given, which is the new head of its branch and lies above main and every branch and tag. -/
theorem C10_effect {E : Env} {s : Schema} (hn : s.names.Nodup) {σ σ' : Sys} {ev : Event} {b : String}
    (h1 : Reach E s anyStep σ) (hs : Step E s σ ev σ') (hc : CommitEvent σ ev b) :
    ∃ md md' n, σ.w.stored = some md ∧ σ'.w.stored = some md' ∧ md'.currentId b = .ok n ∧
      md.current < n ∧ (∀ name r, md.refs.get? name = some r → r.id < n) ∧
      ∀ k, k ≠ n → ∀ sl ∈ σ.slots, ∀ sl' ∈ σ'.slots, ∀ o rows,
        tableRead E sl.h σ.w o (some (.id k)) = .ok rows →
        tableRead E sl'.h σ'.w o (some (.id k)) = .ok rows := by
  obtain ⟨md, a1⟩ := reach_ok hn h1
  obtain ⟨md', b1, -, b3⟩ := step_ok hn a1 hs
  have ht : tidy σ ev := by
    obtain ⟨i, sl, -, -, ⟨m, rfl⟩ | rfl⟩ := hc
    · exact ⟨trivial, fun h => by simp [Call.isRef] at h⟩
    · exact ⟨trivial, trivial⟩
  cases b3 ht with
  | same _ h => exact absurd hc (h _)
  | addRef _ _ _ _ _ _ h => exact absurd hc (h _)
  | removeRef _ _ _ _ _ _ h => exact absurd hc (h _)
  | commit b' p n cur snap com new hev =>
    have hb : b' = b := CommitEvent.branch hev hc
    subst hb
    refine ⟨md, md', n, a1.wok.storedEq, b1.wok.storedEq, com.newHead, ?_, fun name r hr => ?_, ?_⟩
    · have := current_le_max md; omega
    · have := ref_le_max hr; omega
    · intro k hk sl hsl sl' hsl' o rows hr
      obtain ⟨md1, md1', e1, e1', h⟩ := C02_effect hn h1 ht hs
      rw [a1.wok.storedEq] at e1
      rw [b1.wok.storedEq] at e1'
      cases e1
      cases e1'
      rcases h k with ⟨-, h⟩ | ⟨c, hc', hk', -⟩
      · exact h sl hsl sl' hsl' o rows hr
      · have := CommitEvent.branch hc' hev
        subst this
        rw [com.newHead] at hk'
        cases hk'
        exact absurd rfl hk

/-- C10 is false for snapshot ids of removed branches: a commit on main replaces
what `read(version=1)` returned just before. -/
theorem C10_violated : ∃ (σ σ' : Sys) (sl sl' : Slot) (ev : Event),
    Reach env schema solo σ ∧ Step env schema σ ev σ' ∧ CommitEvent σ ev "main" ∧
    sl ∈ σ.slots ∧ sl' ∈ σ'.slots ∧
    tableRead env sl.h σ.w {} (some (.id 1)) = .ok [row 1 "x" [1]] ∧
    tableRead env sl'.h σ'.w {} (some (.id 1)) = .ok [row 2 "y" [2]] := by
  let σ := after env soloB schema (reuse1 ++ [.call 0 (.removeBranch "b")])
  let c : Call := .mutate (.append [[row 2 "y" [2]]])
  obtain ⟨sl, h0, h1, h2⟩ := slot_of (σ := σ) (i := 0)
    (f := fun sl => (tableRead env sl.h σ.w {} (some (.id 1)), sl.h.branch))
    (x := (.ok [row 1 "x" [1]], "main")) (by decide +kernel)
  simp only [Prod.mk.injEq] at h2
  obtain ⟨σ', e, hst⟩ := call_step (E := env) (s := schema) (σ := σ) (i := 0) (c := c)
    (r := .job .succeeded) rfl (by decide +kernel)
  have h3 : ((act env σ (.call 0 c)).map (fun x => (x.2.slots[0]?).map
      (fun sl => tableRead env sl.h x.2.w {} (some (.id 1))))) = some (some (.ok [row 2 "y" [2]])) := by
    decide +kernel
  rw [e] at h3
  obtain ⟨sl', -, h4, h5⟩ := slot_of (Option.some.inj h3)
  exact ⟨σ, σ', sl, sl', _, after_reach soloB_solo _, hst, ⟨0, sl, h0, h2.2, Or.inl ⟨_, rfl⟩⟩, h1, h4,
    h2.1, h5⟩

/-- Main with rows and a tag, and a branch that is current. -/
def onBranch : List Act :=
  [.call 0 (.mutate (.append [[row 1 "x" [1]]])), .call 0 (.addTag "t" none),
    .call 0 (.addBranch "b"), .call 0 (.setBranch "b")]

/-- A commit on a branch to which `C10_partial` applies. -/
example : ∃ (σ σ' : Sys) (sl : Slot) (ev : Event), Reach env schema anyStep σ ∧
    Step env schema σ ev σ' ∧ CommitEvent σ ev "b" ∧ sl ∈ σ.slots ∧
    tableRead env sl.h σ.w {} (some (.name "t")) = .ok [row 1 "x" [1]] := by
  let σ := after env anyB schema onBranch
  let c : Call := .mutate (.append [[row 9 "z" []]])
  obtain ⟨sl, h0, h1, h2⟩ := slot_of (σ := σ) (i := 0)
    (f := fun sl => (tableRead env sl.h σ.w {} (some (.name "t")), sl.h.branch))
    (x := (.ok [row 1 "x" [1]], "b")) (by decide +kernel)
  simp only [Prod.mk.injEq] at h2
  obtain ⟨σ', e, hst⟩ := call_step (E := env) (s := schema) (σ := σ) (i := 0) (c := c)
    (r := .job .succeeded) rfl (by decide +kernel)
  exact ⟨σ, σ', sl, _, after_reach (fun _ _ _ => trivial) _, hst, ⟨0, sl, h0, h2.2, Or.inl ⟨_, rfl⟩⟩,
    h1, h2.1⟩

/-! ## C11 -/

/-- The event is not the removal of tag `nm`. -/
def Event.keepsTag (nm : String) : Event → Prop
  | .call _ (.removeTag x) _ => x ≠ nm
  | _ => True

/-- What the tag resolves to in the stored metadata. -/
def tagIn (nm : String) (n : Nat) (σ : Sys) : Prop :=
  ∃ md, σ.w.stored = some md ∧ md.refs.get? nm = some { id := n, kind := .tag }

theorem tag_step {σ : Sys} {fs' : FS} {ev : Event} {nm : String} {md md' : Metadata}
    (hch : Change σ ev fs' md md') (hk : ev.keepsTag nm) {n : Nat}
    (hr : md.refs.get? nm = some { id := n, kind := .tag }) :
    md'.refs.get? nm = some { id := n, kind := .tag } := by
  cases hch with
  | same e _ => rw [e]; exact hr
  | commit b p k cur snap com _ _ => exact com.tagRef hr
  | addRef name kind k can e _ _ =>
    rw [e]
    simp only
    rw [AMap.get?_set_ne _ _ (by rintro rfl; rw [can.unused] at hr; cases hr)]
    exact hr
  | removeRef name kind k was e call _ =>
    rw [e]
    simp only
    rw [AMap.get?_erase_ne]
    · exact hr
    · rintro rfl
      rw [hr] at was
      cases was
      obtain ⟨i, r, ⟨-, h0⟩ | ⟨h0, -⟩⟩ := call
      · rw [h0] at hk; exact hk rfl
      · cases h0

/-- C11: as long as nobody removes tag `nm`, it resolves to the same snapshot id and
reads through it, by any handle, return the same rows. -/
theorem C11 {E : Env} {s : Schema} (hn : s.names.Nodup) {σ σ' : Sys} {nm : String} {n : Nat}
    (h1 : Reach E s anyStep σ) (ht : tagIn nm n σ)
    (h2 : Run E s (fun τ ev => tidy τ ev ∧ ev.keepsTag nm) σ σ') :
    tagIn nm n σ' ∧ ∀ sl ∈ σ.slots, ∀ sl' ∈ σ'.slots, ∀ o rows,
      tableRead E sl.h σ.w o (some (.name nm)) = .ok rows →
      tableRead E sl'.h σ'.w o (some (.name nm)) = .ok rows := by
  obtain ⟨md, a1⟩ := reach_ok hn h1
  obtain ⟨mdt, t1, t2⟩ := ht
  have := stored_of a1 t1
  subst this
  have key : ∃ md', SysOK E s σ' md' ∧ FSLe σ.w.fs σ'.w.fs ∧
      md'.refs.get? nm = some { id := n, kind := .tag } ∧ md'.snaps.get? n = mdt.snaps.get? n := by
    refine Run.invariant (I := fun τ => ∃ md', SysOK E s τ md' ∧ FSLe σ.w.fs τ.w.fs ∧
      md'.refs.get? nm = some { id := n, kind := .tag } ∧ md'.snaps.get? n = mdt.snaps.get? n) ?_
      ⟨mdt, a1, FSLe.refl _, t2, rfl⟩ h2
    rintro τ τ' ev ⟨md1, b1, b2, b3, b4⟩ ⟨hp, hk⟩ hst
    obtain ⟨md2, c1, c2, c3⟩ := step_ok hn b1 hst
    refine ⟨md2, c1, b2.trans c2, tag_step (c3 hp) hk b3, ?_⟩
    rw [(c3 hp).keep ((Live.ref b3).le b1.wok.ok)]
    exact b4
  obtain ⟨md', b1, b2, b3, b4⟩ := key
  refine ⟨⟨md', b1.wok.storedEq, b3⟩, ?_⟩
  intro sl hs sl' hs' o rows hr
  refine tableRead_same a1.wok (a1.slot hs) b1.wok (b1.slot hs') b2 ?_ hr
  intro snap hx
  rw [target_name_eq (b := sl.h.branch) (b3.trans t2.symm)
    (fun r h => by rw [t2] at h; cases h; exact b4)]
  exact hx

/-- A tag followed by other work of two handles. -/
example : ∃ (σ σ' : Sys) (sl sl' : Slot), Reach env schema anyStep σ ∧ tagIn "t" 1 σ ∧
    Run env schema (fun τ ev => tidy τ ev ∧ ev.keepsTag "t") σ σ' ∧ sl ∈ σ.slots ∧ sl' ∈ σ'.slots ∧
    tableRead env sl.h σ.w {} (some (.name "t")) = .ok [row 1 "x" [1]] ∧
    tableRead env sl'.h σ'.w {} none = .ok [row 1 "x" [1], row 2 "y" [2]] := by
  let σ := after env anyB schema [.call 0 (.mutate (.append [[row 1 "x" [1]]])), .call 0 (.addTag "t" none)]
  let ok : Sys → Event → Bool := fun τ ev => tidyB τ ev && (match ev with
    | .call _ (.removeTag _) _ => false
    | _ => true)
  let as : List Act := [.load, .call 1 (.mutate (.append [[row 2 "y" [2]]]))]
  have hok : ∀ τ ev, ok τ ev = true → tidy τ ev ∧ ev.keepsTag "t" := by
    intro τ ev h
    simp only [ok, Bool.and_eq_true] at h
    refine ⟨tidyB_tidy τ ev h.1, ?_⟩
    cases ev with
    | call i c r => cases c <;> first | trivial | simp at h
    | _ => trivial
  obtain ⟨sl, h0, h1, h2⟩ := slot_of (σ := σ) (i := 0)
    (f := fun sl => tableRead env sl.h σ.w {} (some (.name "t")))
    (x := .ok [row 1 "x" [1]]) (by decide +kernel)
  obtain ⟨sl', h0', h1', h2'⟩ := slot_of (σ := more env ok as σ) (i := 1)
    (f := fun sl => tableRead env sl.h (more env ok as σ).w {} none)
    (x := .ok [row 1 "x" [1], row 2 "y" [2]]) (by decide +kernel)
  obtain ⟨md, h3, h4⟩ := stored_of_map (w := σ.w)
    (f := fun md => md.refs.get? "t") (x := some { id := 1, kind := .tag }) (by decide +kernel)
  exact ⟨σ, _, sl, sl', after_reach (fun _ _ _ => trivial) _, ⟨md, h3, h4⟩, more_run hok as σ, h1, h1',
    h2, h2'⟩

end Space
