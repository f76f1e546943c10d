import Verif.Calls

/-!
# Systems of several handles

Any number of `Storage` objects, in any number of processes, work on one storage.
A mutation can be run in one step (`call`) or in three (`begin`, `compute`,
`commit`) with steps of other handles in between; `check` and `write` split the
commit once more (`storage.py:556-577`).  Reading files is not split further:
files other than the entry point never change once written.
-/

namespace Space

/-- Where a handle stands in a mutation (`core/runners.py:105-121`). -/
inductive Phase where
  | idle
  /-- after `__enter__` -/
  | begun (t : Txn) (m : Mutation)
  /-- after the decorated function returned its patch -/
  | ready (t : Txn) (m : Mutation) (p : Option Patch)
  /-- inside `Transaction.commit`, after the check found no conflict -/
  | checked (t : Txn) (m : Mutation) (p : Patch)

/-- A handle and what it is doing. -/
structure Slot where
  h : Handle
  phase : Phase

/-- The files and all handles. -/
structure Sys where
  w : World
  slots : List Slot

/-- What happened in a step, with the slot it happened in. -/
inductive Event where
  | load
  | call (i : Nat) (c : Call) (r : Result)
  | begin (i : Nat)
  | compute (i : Nat)
  | commit (i : Nat) (r : Except Err Job)
  | check (i : Nat)
  | write (i : Nat) (r : Except Err Unit)
  | external (p : Path)
  | orphans

/-- The handle a step belongs to. -/
def Event.slot : Event → Option Nat
  | .load => none
  | .call i _ _ => some i
  | .begin i => some i
  | .compute i => some i
  | .commit i _ => some i
  | .check i => some i
  | .write i _ => some i
  | .external _ => none
  | .orphans => none

/-- The steps of a system. -/
inductive Step (E : Env) (s : Schema) : Sys → Event → Sys → Prop where
  /-- a process opens the storage -/
  | load {w slots h} : load w = .ok h → Step E s ⟨w, slots⟩ .load ⟨w, slots ++ [⟨h, .idle⟩]⟩
  /-- a whole call -/
  | call {w slots i h c r h' w'} : slots[i]? = some ⟨h, .idle⟩ → c.Admissible s w.fs →
      exec E c h w = (r, h', w') →
      Step E s ⟨w, slots⟩ (.call i c r) ⟨w', slots.set i ⟨h', .idle⟩⟩
  /-- a mutation starts -/
  | begin {w slots i h m t h' w'} : slots[i]? = some ⟨h, .idle⟩ →
      Txn.enter (h, w) = (.ok t, (h', w')) →
      Step E s ⟨w, slots⟩ (.begin i) ⟨w', slots.set i ⟨h', .begun t m⟩⟩
  /-- a mutation fails to start -/
  | beginFail {w slots i h e h' w'} : slots[i]? = some ⟨h, .idle⟩ →
      Txn.enter (h, w) = (.error e, (h', w')) →
      Step E s ⟨w, slots⟩ (.begin i) ⟨w', slots.set i ⟨h', .idle⟩⟩
  /-- the body of the mutation writes its files and returns -/
  | compute {w slots i h t m p w'} : slots[i]? = some ⟨h, .begun t m⟩ → m.Admissible s w.fs →
      m.body E h w = (.ok p, w') →
      Step E s ⟨w, slots⟩ (.compute i) ⟨w', slots.set i ⟨h, .ready t m p⟩⟩
  /-- the body of the mutation raises -/
  | computeFail {w slots i h t m e w'} : slots[i]? = some ⟨h, .begun t m⟩ → m.Admissible s w.fs →
      m.body E h w = (.error e, w') →
      Step E s ⟨w, slots⟩ (.compute i) ⟨w', slots.set i ⟨h, .idle⟩⟩
  /-- `Transaction.commit` as one step -/
  | commit {w slots i h t m p r h' w'} : slots[i]? = some ⟨h, .ready t m p⟩ →
      t.commit p (h, w) = (r, (h', w')) →
      Step E s ⟨w, slots⟩ (.commit i r) ⟨w', slots.set i ⟨h', .idle⟩⟩
  /-- the first half of `Transaction.commit` -/
  | check {w slots i h t m p h' w'} : slots[i]? = some ⟨h, .ready t m (some p)⟩ →
      t.check (h, w) = (.ok true, (h', w')) →
      Step E s ⟨w, slots⟩ (.check i) ⟨w', slots.set i ⟨h', .checked t m p⟩⟩
  /-- the second half of `Transaction.commit` -/
  | write {w slots i h t m p r h' w'} : slots[i]? = some ⟨h, .checked t m p⟩ →
      Space.commit p t.branch (h, w) = (r, (h', w')) →
      Step E s ⟨w, slots⟩ (.write i r) ⟨w', slots.set i ⟨h', .idle⟩⟩
  /-- a user puts a file outside the storage -/
  | external {w slots x c} : AMap.get? w.fs (.external x) = none →
      Step E s ⟨w, slots⟩ (.external (.external x))
        ⟨{ w with fs := AMap.set w.fs (.external x) c }, slots⟩
  /-- a process that died, or failed to create the storage again, leaves files that
  nothing refers to -/
  | orphans {w slots w'} : Adds w w' → Step E s ⟨w, slots⟩ .orphans ⟨w', slots⟩

/-- Finite runs all of whose steps satisfy `P`. -/
inductive Run (E : Env) (s : Schema) (P : Sys → Event → Prop) : Sys → Sys → Prop where
  | refl (σ) : Run E s P σ σ
  | step {σ σ' σ'' ev} : Run E s P σ σ' → P σ' ev → Step E s σ' ev σ'' → Run E s P σ σ''

/-- The location is empty apart from files of the user. -/
structure World.Empty (w : World) : Prop where
  fresh : w.Fresh
  noEntry : AMap.get? w.fs .entryPoint = none

/-- The system after `create`. -/
def Started (s : Schema) (σ : Sys) : Prop :=
  ∃ w0 h, w0.Empty ∧ create s w0 = (.ok h, σ.w) ∧ σ.slots = [⟨h, .idle⟩]

/-- Systems reached from `create` by steps satisfying `P`. -/
def Reach (E : Env) (s : Schema) (P : Sys → Event → Prop) (σ : Sys) : Prop :=
  ∃ σ0, Started s σ0 ∧ Run E s P σ0 σ

/-- All steps. -/
def anyStep : Sys → Event → Prop := fun _ _ => True

/-- The stored metadata of a world. -/
def World.stored (w : World) : Option Metadata :=
  match readStored w with
  | .ok (_, md) => some md
  | .error _ => none

/-- Commits are not split. -/
def Event.atomic : Event → Prop
  | .check _ | .write _ _ => False
  | _ => True

/-- Is a call on references or on the branch of the handle. -/
def Call.isRef : Call → Bool
  | .addTag .. | .addBranch .. | .removeTag .. | .removeBranch .. => true
  | _ => false

/-- Calls that write references are made on handles that hold the stored metadata. -/
def upToDate (σ : Sys) : Event → Prop
  | .call i c _ => c.isRef = true → ∀ sl, σ.slots[i]? = some sl → σ.w.stored = some sl.h.md
  | _ => True

/-- The discipline under which no update is lost: commits are atomic, references
are changed on up-to-date handles only. -/
def tidy (σ : Sys) (ev : Event) : Prop := ev.atomic ∧ upToDate σ ev

/-- Not a successful or unsuccessful `remove_branch`. -/
def Event.keepsBranches : Event → Prop
  | .call _ (.removeBranch _) _ => False
  | _ => True

/-- Tidy, and no branch is removed. -/
def growing (σ : Sys) (ev : Event) : Prop := tidy σ ev ∧ ev.keepsBranches

/-! ## The invariant -/

/-- What holds of a slot. -/
def SlotOK (E : Env) (s : Schema) (w : World) (sl : Slot) : Prop :=
  HandleOK s w sl.h ∧
  match sl.phase with
  | .idle => True
  | .begun t _ => sl.h.branch = t.branch ∧ sl.h.md.currentId t.branch = .ok t.start
  | .ready t m p => sl.h.branch = t.branch ∧ sl.h.md.currentId t.branch = .ok t.start ∧
      (∀ q, p = some q → PatchOK w.fs s q) ∧
      ∃ w0 w1, m.Admissible s w0.fs ∧ w0.Fresh ∧ HandleOK s w0 sl.h ∧ m.body E sl.h w0 = (.ok p, w1) ∧
        FSLe w1.fs w.fs
  | .checked t m p => sl.h.branch = t.branch ∧ sl.h.md.currentId t.branch = .ok t.start ∧
      sl.h.full = false ∧ PatchOK w.fs s p

/-- The stored metadata is well-formed, and so are all handles. -/
structure SysOK (E : Env) (s : Schema) (σ : Sys) (md : Metadata) : Prop where
  wok : WOK s σ.w md
  slots : ∀ sl ∈ σ.slots, SlotOK E s σ.w sl

theorem WOK.storedEq {s : Schema} {w : World} {md : Metadata} (h : WOK s w md) : w.stored = some md := by
  obtain ⟨p, h1, h2⟩ := h.stored
  simp [World.stored, readStored, h1, h2]

theorem SlotOK.mono {E : Env} {s : Schema} {w w' : World} {sl : Slot} (hf : FSLe w.fs w'.fs)
    (h : SlotOK E s w sl) : SlotOK E s w' sl := by
  obtain ⟨h1, h2⟩ := h
  refine ⟨h1.mono hf, ?_⟩
  cases hp : sl.phase with
  | idle => trivial
  | begun t m => rw [hp] at h2; exact h2
  | ready t m p =>
    rw [hp] at h2
    obtain ⟨a, b, c, w0, w1, d⟩ := h2
    exact ⟨a, b, fun q hq => (c q hq).mono hf, w0, w1, d.1, d.2.1, d.2.2.1, d.2.2.2.1, d.2.2.2.2.trans hf⟩
  | checked t m p =>
    rw [hp] at h2
    exact ⟨h2.1, h2.2.1, h2.2.2.1, h2.2.2.2.mono hf⟩

theorem slots_set {E : Env} {s : Schema} {w w' : World} {slots : List Slot} {i : Nat} {sl : Slot}
    (h : ∀ x ∈ slots, SlotOK E s w x) (hf : FSLe w.fs w'.fs) (hs : SlotOK E s w' sl) :
    ∀ x ∈ slots.set i sl, SlotOK E s w' x := by
  intro x hx
  rcases List.mem_or_eq_of_mem_set hx with h1 | rfl
  · exact (h x h1).mono hf
  · exact hs

theorem slot_get {E : Env} {s : Schema} {w : World} {slots : List Slot} {i : Nat} {sl : Slot}
    (h : ∀ x ∈ slots, SlotOK E s w x) (hi : slots[i]? = some sl) : SlotOK E s w sl :=
  h sl (List.mem_of_getElem? hi)

/-- The system after `create` is well-formed. -/
theorem create_ok {s : Schema} {w0 w : World} {h : Handle} (hw : w0.Empty)
    (hc : create s w0 = (.ok h, w)) :
    WOK s w h.md ∧ HandleOK s w h ∧ h.branch = mainBranch ∧ FSLe w0.fs w.fs ∧
      h.md = { schema := s, current := 0, snaps := [(0, { id := 0 })], refs := [] } := by
  have hnone : AMap.get? w0.fs (.metadata w0.next) = none := hw.fresh _ _ rfl (Nat.le_refl _)
  have hne : AMap.get? (AMap.set w0.fs (.metadata w0.next)
      (.mdata { schema := s, current := 0, snaps := [(0, { id := 0 })], refs := [] })) .entryPoint
      = none := by
    rw [AMap.get?_set_ne _ _ (by simp)]; exact hw.noEntry
  simp only [create, createHead, createTail, Bind.bind, M.andThen, fresh, putFile, M.modify, M.get,
    World.put, hne, Pure.pure, M.ret,
    Prod.mk.injEq, Except.ok.injEq] at hc
  obtain ⟨rfl, rfl⟩ := hc
  have hle : FSLe w0.fs (AMap.set (AMap.set w0.fs (.metadata w0.next)
      (.mdata { schema := s, current := 0, snaps := [(0, { id := 0 })], refs := [] })) .entryPoint
      (.entry (.metadata w0.next))) := (FSLe.set hnone).trans (FSLe.set hne)
  have hok : ∀ fs, MdOK fs { schema := s, current := 0, snaps := [(0, { id := 0 })], refs := [] } := by
    intro fs
    have key : ∀ n snap, AMap.get? [(0, ({ id := 0 } : Snapshot))] n = some snap →
        n = 0 ∧ snap = { id := 0 } := by
      intro n snap hs
      simp only [AMap.get?] at hs
      split at hs
      · rename_i h0
        exact ⟨h0.symm, by cases hs; rfl⟩
      · cases hs
    refine ⟨?_, ?_, ?_, ?_, rfl, rfl, ?_, rfl, by simp [AMap.keys], by simp [AMap.keys]⟩
    · intro n snap hs
      obtain ⟨rfl, rfl⟩ := key n snap hs
      rfl
    · intro n snap hs
      obtain ⟨rfl, rfl⟩ := key n snap hs
      exact ⟨by simp, by simp, by simp, by simp, by simp⟩
    · intro n snap p hs hp
      obtain ⟨rfl, rfl⟩ := key n snap hs
      simp at hp
    · intro n snap hs _
      exact (key n snap hs).1
    · intro name r hr
      simp [AMap.get?] at hr
  have hmd : FS.mdata (AMap.set (AMap.set w0.fs (.metadata w0.next)
      (.mdata { schema := s, current := 0, snaps := [(0, { id := 0 })], refs := [] })) .entryPoint
      (.entry (.metadata w0.next))) (.metadata w0.next) = some { schema := s, current := 0, snaps := [(0, { id := 0 })], refs := [] } := by
    simp only [FS.mdata]
    rw [AMap.get?_set_ne _ _ (by simp), AMap.get?_set_self]
  refine ⟨⟨?_, ⟨_, ?_, hmd⟩, hok _, rfl⟩, ⟨hmd, hok _, rfl, fun hf => by cases hf⟩, rfl, hle, rfl⟩
  · intro p u hp hu
    simp only at hu ⊢
    rw [AMap.get?_set_ne _ _ (by rintro rfl; cases hp),
      AMap.get?_set_ne _ _ (by rintro rfl; cases hp; omega)]
    exact hw.fresh p u hp (by omega)
  · simp only [FS.entry]
    rw [AMap.get?_set_self]

/-- A mutation of branch `b` succeeds in this step. -/
def CommitEvent (σ : Sys) (ev : Event) (b : String) : Prop :=
  ∃ i sl, σ.slots[i]? = some sl ∧ sl.h.branch = b ∧
    ((∃ m, ev = .call i (.mutate m) (.job .succeeded)) ∨ ev = .commit i (.ok .succeeded))

/-- How a tidy step changes the stored metadata. -/
inductive Change (σ : Sys) (ev : Event) (fs' : FS) (md md' : Metadata) : Prop where
  | same (eq : md' = md) (ev : ∀ b, ¬ CommitEvent σ ev b)
  | commit (b : String) (p : Patch) (n : Nat) (cur snap : Snapshot)
      (com : Committed fs' md md' b p n cur snap) (new : md.maxRefId < n) (ev : CommitEvent σ ev b)
  | addRef (name : String) (kind : RefKind) (n : Nat) (can : CanAdd md name n)
      (eq : md' = { md with refs := md.refs.set name { id := n, kind := kind } })
      (call : ∃ i r, (kind = .tag ∧ ∃ id : Option Nat, n = id.getD md.current ∧ ev = .call i (.addTag name id) r) ∨
        (kind = .branch ∧ n = md.current ∧ ev = .call i (.addBranch name) r))
      (ev : ∀ b, ¬ CommitEvent σ ev b)
  | removeRef (name : String) (kind : RefKind) (n : Nat)
      (was : md.refs.get? name = some { id := n, kind := kind })
      (eq : md' = { md with refs := md.refs.erase name })
      (call : ∃ i r, (kind = .tag ∧ ev = .call i (.removeTag name) r) ∨
        (kind = .branch ∧ ev = .call i (.removeBranch name) r)) (ev : ∀ b, ¬ CommitEvent σ ev b)

theorem WOK.external {s : Schema} {w : World} {md : Metadata} (hw : WOK s w md) {x : String}
    {c : Content} (hx : AMap.get? w.fs (.external x) = none) :
    FSLe w.fs (AMap.set w.fs (.external x) c) ∧
      WOK s { w with fs := AMap.set w.fs (.external x) c } md := by
  have hle : FSLe w.fs (AMap.set w.fs (.external x) c) := FSLe.set hx
  obtain ⟨p, h1, h2⟩ := hw.stored
  refine ⟨hle, ⟨?_, ⟨p, ?_, hle.mdata h2⟩, hw.ok.mono hle, hw.schema⟩⟩
  · intro q u hq hu
    simp only
    rw [AMap.get?_set_ne _ _ (by rintro rfl; cases hq)]
    exact hw.fresh q u hq hu
  · rw [← h1]
    simp only [FS.entry]
    rw [AMap.get?_set_ne _ _ (by simp)]

theorem not_commitEvent {σ : Sys} {ev : Event} (h1 : ∀ i m, ev ≠ .call i (.mutate m) (.job .succeeded))
    (h2 : ∀ i, ev ≠ .commit i (.ok .succeeded)) : ∀ b, ¬ CommitEvent σ ev b := by
  rintro b ⟨i, sl, -, -, ⟨m, h⟩ | h⟩
  · exact h1 i m h
  · exact h2 i h

/-- Steps that do not complete a mutation or a change of references: mutations that
return FAILED or SKIPPED or raise, calls that raise, commits that do not succeed,
and everything before a commit. -/
inductive Quiet : Event → Prop where
  | mutation {i m r} : r ≠ .job .succeeded → Quiet (.call i (.mutate m) r)
  | raised {i c e} : Quiet (.call i c (.raised e))
  | set {i b r} : Quiet (.call i (.setBranch b) r)
  | reload {i r} : Quiet (.call i .reload r)
  | commit {i r} : r ≠ .ok .succeeded → Quiet (.commit i r)
  | write {i e} : Quiet (.write i (.error e))
  | begin {i} : Quiet (.begin i)
  | compute {i} : Quiet (.compute i)
  | check {i} : Quiet (.check i)
  | load : Quiet .load
  | external {p} : Quiet (.external p)
  | orphans : Quiet .orphans

/-- The metadata of every handle after a step: the stored one before or after the
step, or what a handle already had. -/
def Views (σ σ' : Sys) (md md' : Metadata) : Prop :=
  ∀ sl' ∈ σ'.slots, sl'.h.md = md ∨ sl'.h.md = md' ∨ ∃ sl ∈ σ.slots, sl'.h.md = sl.h.md

theorem Views.set {w w' : World} {slots : List Slot} {i : Nat} {sl : Slot} {md md' : Metadata}
    (h : sl.h.md = md ∨ sl.h.md = md' ∨ ∃ x, slots[i]? = some x ∧ sl.h.md = x.h.md) :
    Views ⟨w, slots⟩ ⟨w', slots.set i sl⟩ md md' := by
  intro x hx
  rcases List.mem_or_eq_of_mem_set hx with h1 | rfl
  · exact Or.inr (Or.inr ⟨x, h1, rfl⟩)
  · rcases h with h | h | ⟨y, hy, h⟩
    · exact Or.inl h
    · exact Or.inr (Or.inl h)
    · exact Or.inr (Or.inr ⟨y, List.mem_of_getElem? hy, h⟩)

/-- Every step keeps the system well-formed, and a tidy step changes the stored
metadata in one of four ways. -/
theorem step_full {E : Env} {s : Schema} (hn : s.names.Nodup) {σ σ' : Sys} {ev : Event} {md : Metadata}
    (hok : SysOK E s σ md) (hs : Step E s σ ev σ') :
    ∃ md', SysOK E s σ' md' ∧ FSLe σ.w.fs σ'.w.fs ∧ (tidy σ ev → Change σ ev σ'.w.fs md md') ∧
      (Quiet ev → md' = md) ∧ Views σ σ' md md' := by
  obtain ⟨hw, hsl⟩ := hok
  cases hs with
  | @load w slots h hl =>
    obtain ⟨h', e1, e2, e3, e4⟩ := load_eq hw
    simp only at e1
    rw [hl] at e1
    cases e1
    refine ⟨md, ⟨hw, ?_⟩, FSLe.refl _, fun _ => .same rfl (not_commitEvent (by simp) (by simp)),
      fun _ => rfl, ?_⟩
    · intro sl hm
      rcases List.mem_append.mp hm with hm | hm
      · exact hsl sl hm
      · simp only [List.mem_singleton] at hm
        subst hm
        exact ⟨e4, trivial⟩
    · intro sl hm
      rcases List.mem_append.mp hm with hm | hm
      · exact Or.inr (Or.inr ⟨sl, hm, rfl⟩)
      · simp only [List.mem_singleton] at hm
        subst hm
        exact Or.inl e2
  | @call w slots i h c r h' w' hi hadm hx =>
    have hh := (slot_get hsl hi).1
    obtain ⟨a, b⟩ := exec_post hw hh hn c hadm hx
    obtain ⟨hle, -, md', hw', -⟩ := b.wok hw
    refine ⟨md', ⟨hw', slots_set hsl hle ⟨a, trivial⟩⟩, hle, fun ht => ?_, fun hq => ?_, Views.set ?_⟩
    rotate_left
    · cases b with
      | same g hf _ => exact hw'.unique (hw.grows g)
      | commit m h1 w1 p n cur snap hc hr mt =>
        cases hq with
        | mutation h => exact absurd hr h
        | raised => cases hr
        | set => cases hc
        | reload => cases hc
      | addRef name kind n hc hr hcan o =>
        exfalso
        cases hq with
        | mutation h => rcases hc with ⟨-, h | ⟨h, -⟩⟩ | ⟨-, h, -⟩ <;> cases h
        | raised => cases hr
        | set => rcases hc with ⟨-, h | ⟨h, -⟩⟩ | ⟨-, h, -⟩ <;> cases h
        | reload => rcases hc with ⟨-, h | ⟨h, -⟩⟩ | ⟨-, h, -⟩ <;> cases h
      | removeRef name kind n hc hr hwas o =>
        exfalso
        cases hq with
        | mutation h => rcases hc with ⟨-, h⟩ | ⟨-, h, -⟩ <;> cases h
        | raised => cases hr
        | set => rcases hc with ⟨-, h⟩ | ⟨-, h, -⟩ <;> cases h
        | reload => rcases hc with ⟨-, h⟩ | ⟨-, h, -⟩ <;> cases h
    · cases b with
      | same g hf k =>
        rcases k with k | k
        · exact Or.inl k
        · exact Or.inr (Or.inr ⟨_, hi, k⟩)
      | commit m h1 w1 p n cur snap hc hr mt => exact Or.inr (Or.inl (hw'.unique mt.step.wok).symm)
      | addRef name kind n hc hr hcan o => exact Or.inr (Or.inl (hw'.unique o.wok).symm)
      | removeRef name kind n hc hr hwas o => exact Or.inr (Or.inl (hw'.unique o.wok).symm)
    have hup : c.isRef = true → md = h.md := by
      intro hc
      have := ht.2 hc _ hi
      rw [hw.storedEq] at this
      exact Option.some.inj this
    cases b with
    | same g hf _ =>
      exact .same (hw'.unique (hw.grows g)) (not_commitEvent
        (by rintro j m hj; simp only [Event.call.injEq] at hj; exact hf hj.2.2) (by simp))
    | commit m h1 w1 p n cur snap hc hr mt =>
      have := hw'.unique mt.step.wok
      subst this
      subst hc hr
      exact .commit h.branch p n cur snap mt.step.com mt.step.new
        ⟨i, _, hi, rfl, Or.inl ⟨m, rfl⟩⟩
    | addRef name kind n hc hr hcan o =>
      have e := hw'.unique o.wok
      have hmd : md = h.md := by
        apply hup
        rcases hc with ⟨-, h1 | h1⟩ | ⟨-, h1, -⟩
        · rw [h1]; rfl
        · rw [h1.1]; rfl
        · rw [h1]; rfl
      subst hmd
      refine .addRef name kind n hcan (e.trans o.md) ?_ (not_commitEvent
        (by rintro j m hj; simp only [Event.call.injEq] at hj; rw [hr] at hj; simp at hj) (by simp))
      rcases hc with ⟨h0, h1 | ⟨h1, h2⟩⟩ | ⟨h0, h1, h2⟩
      · exact ⟨i, r, Or.inl ⟨h0, some n, rfl, by rw [h1]⟩⟩
      · exact ⟨i, r, Or.inl ⟨h0, none, h2, by rw [h1]⟩⟩
      · exact ⟨i, r, Or.inr ⟨h0, h2, by rw [h1]⟩⟩
    | removeRef name kind n hc hr hwas o =>
      have e := hw'.unique o.wok
      have hmd : md = h.md := by
        apply hup
        rcases hc with ⟨-, h1⟩ | ⟨-, h1, -⟩
        · rw [h1]; rfl
        · rw [h1]; rfl
      subst hmd
      refine .removeRef name kind n hwas (e.trans o.md) ?_ (not_commitEvent
        (by rintro j m hj; simp only [Event.call.injEq] at hj; rw [hr] at hj; simp at hj) (by simp))
      rcases hc with ⟨h0, h1⟩ | ⟨h0, h1, -⟩
      · exact ⟨i, r, Or.inl ⟨h0, by rw [h1]⟩⟩
      · exact ⟨i, r, Or.inr ⟨h0, by rw [h1]⟩⟩
  | @begin w slots i h m t h' w' hi hx =>
    have hh := (slot_get hsl hi).1
    have hp := enter_post hw hh
    simp only at hp hx
    rw [hx] at hp
    obtain ⟨rfl, e1, e2, e3, e4, e5, e6, -⟩ := hp
    simp only at e1 e2 e3 e4 e5 e6
    refine ⟨md, ⟨hw, slots_set hsl (FSLe.refl _) ⟨e3, ?_⟩⟩, FSLe.refl _,
      fun _ => .same rfl (not_commitEvent (by simp) (by simp)), fun _ => rfl, Views.set (Or.inl e1)⟩
    exact ⟨by simp only; rw [e2, e5], by simp only; rw [e1, e5]; exact e6⟩
  | @beginFail w slots i h e h' w' hi hx =>
    have hh := (slot_get hsl hi).1
    have hp := enter_post hw hh
    simp only at hp hx
    rw [hx] at hp
    obtain ⟨rfl, e1, e2, e3⟩ := hp
    exact ⟨md, ⟨hw, slots_set hsl (FSLe.refl _) ⟨e3, trivial⟩⟩, FSLe.refl _,
      fun _ => .same rfl (not_commitEvent (by simp) (by simp)), fun _ => rfl, Views.set (Or.inl e1)⟩
  | @compute w slots i h t m p w' hi hadm hx =>
    obtain ⟨hh, hb1, hb2⟩ := slot_get hsl hi
    have hp := body_post (E := E) hw.fresh hh hn m hadm
    simp only at hp hx
    rw [hx] at hp
    obtain ⟨g, -, hq⟩ := hp
    refine ⟨md, ⟨hw.grows g, slots_set hsl g.le ⟨hh.mono g.le, hb1, hb2, fun q h => (hq q h).1,
      w, w', hadm, hw.fresh, hh, hx, FSLe.refl _⟩⟩, g.le,
      fun _ => .same rfl (not_commitEvent (by simp) (by simp)), fun _ => rfl,
      Views.set (Or.inr (Or.inr ⟨_, hi, rfl⟩))⟩
  | @computeFail w slots i h t m e w' hi hadm hx =>
    obtain ⟨hh, hb1, hb2⟩ := slot_get hsl hi
    have hp := body_post (E := E) hw.fresh hh hn m hadm
    simp only at hp hx
    rw [hx] at hp
    have g : Grows w w' := hp
    exact ⟨md, ⟨hw.grows g, slots_set hsl g.le ⟨hh.mono g.le, trivial⟩⟩, g.le,
      fun _ => .same rfl (not_commitEvent (by simp) (by simp)), fun _ => rfl,
      Views.set (Or.inr (Or.inr ⟨_, hi, rfl⟩))⟩
  | @commit w slots i h t m p r h' w' hi hx =>
    obtain ⟨hh, hb1, hb2, hb3, hb4⟩ := slot_get hsl hi
    simp only at hb1 hb2 hb3
    have hp := txnCommit_post (t := t) (p := p) hw hh hb3
    simp only at hp hx
    rw [hx] at hp
    cases r with
    | error e =>
      obtain ⟨g, a, b, c⟩ := hp
      exact ⟨md, ⟨hw.grows g, slots_set hsl g.le ⟨a, trivial⟩⟩, g.le,
        fun _ => .same rfl (not_commitEvent (by simp) (by simp)), fun _ => rfl, Views.set (Or.inl c)⟩
    | ok j =>
      obtain ⟨hbr, ⟨h1, h2, h3, h4, -⟩ | ⟨h1, h2, q, h1', cur, snap, h3, h4, h5, h6⟩⟩ := hp
      · simp only at h2 h3
        subst h2
        exact ⟨md, ⟨hw, slots_set hsl (FSLe.refl _) ⟨h3, trivial⟩⟩, FSLe.refl _,
          fun _ => .same rfl (not_commitEvent (by simp)
            (by rintro k hk; simp only [Event.commit.injEq, Except.ok.injEq] at hk; exact h1 hk.2)),
          fun _ => rfl, Views.set (Or.inl h4)⟩
      · simp only at h6
        subst h1
        exact ⟨h'.md, ⟨h6.wok, slots_set hsl h6.le ⟨h6.handle, trivial⟩⟩, h6.le,
          fun _ => .commit t.branch q _ cur snap h6.com h6.new ⟨i, _, hi, hb1, Or.inr rfl⟩,
          fun hq => (by cases hq with | commit h => exact absurd rfl h), Views.set (Or.inr (Or.inl rfl))⟩
  | @check w slots i h t m p h' w' hi hx =>
    obtain ⟨hh, hb1, hb2, hb3, hb4⟩ := slot_get hsl hi
    simp only at hb1 hb2 hb3
    have hp := check_post (t := t) hw hh
    simp only at hp hx
    rw [hx] at hp
    obtain ⟨rfl, e1, e2, e3, e4, e5, -⟩ := hp
    simp only at e1 e2 e3 e4 e5
    refine ⟨md, ⟨hw, slots_set hsl (FSLe.refl _) ⟨e3, ?_⟩⟩, FSLe.refl _,
      fun ht => (by exact absurd ht.1 (by simp [Event.atomic])), fun _ => rfl, Views.set (Or.inl e1)⟩
    exact ⟨by simp only; rw [e2]; exact hb1, by simp only; rw [e1]; exact e5.mp trivial, e4, hb3 p rfl⟩
  | @write w slots i h t m p r h' w' hi hx =>
    obtain ⟨hh, hb1, hb2, hb3, hb4⟩ := slot_get hsl hi
    simp only at hb1 hb2 hb3 hb4
    have hp := commit_post (branch := t.branch) hw hh hb3 hb4
    simp only at hp hx
    rw [hx] at hp
    cases r with
    | error e =>
      obtain ⟨g, a⟩ := hp
      simp only at g a
      subst a
      refine ⟨md, ⟨hw.grows g, slots_set hsl g.le ⟨?_, trivial⟩⟩, g.le,
        fun ht => (by exact absurd ht.1 (by simp [Event.atomic])), fun _ => rfl,
        Views.set (Or.inr (Or.inr ⟨_, hi, rfl⟩))⟩
      exact ⟨g.le.mdata hh.file, hh.ok.mono g.le, hh.schema, fun hf => Nat.le_succ_of_le (hh.max hf)⟩
    | ok j =>
      obtain ⟨cur, snap, a1, a2, a3, a4, a5, a6, a7⟩ := hp
      exact ⟨h'.md, ⟨a3, slots_set hsl a1 ⟨a4, trivial⟩⟩, a1,
        fun ht => (by exact absurd ht.1 (by simp [Event.atomic])), fun hq => (by cases hq),
        Views.set (Or.inr (Or.inl rfl))⟩
  | @external w slots x c hx =>
    obtain ⟨h1, h2⟩ := hw.external (c := c) hx
    exact ⟨md, ⟨h2, fun sl hm => (hsl sl hm).mono h1⟩, h1,
      fun _ => .same rfl (not_commitEvent (by simp) (by simp)), fun _ => rfl,
      fun sl hm => Or.inr (Or.inr ⟨sl, hm, rfl⟩)⟩
  | @orphans w slots w' g =>
    exact ⟨md, ⟨hw.adds g, fun sl hm => (hsl sl hm).mono g.le⟩, g.le,
      fun _ => .same rfl (not_commitEvent (by simp) (by simp)), fun _ => rfl,
      fun sl hm => Or.inr (Or.inr ⟨sl, hm, rfl⟩)⟩

theorem step_ok {E : Env} {s : Schema} (hn : s.names.Nodup) {σ σ' : Sys} {ev : Event} {md : Metadata}
    (hok : SysOK E s σ md) (hs : Step E s σ ev σ') :
    ∃ md', SysOK E s σ' md' ∧ FSLe σ.w.fs σ'.w.fs ∧ (tidy σ ev → Change σ ev σ'.w.fs md md') := by
  obtain ⟨md', a, b, c, -⟩ := step_full hn hok hs
  exact ⟨md', a, b, c⟩

theorem started_ok {E : Env} {s : Schema} {σ : Sys} (h : Started s σ) : ∃ md, SysOK E s σ md := by
  obtain ⟨w0, hd, h1, h2, h3⟩ := h
  obtain ⟨a, b, -⟩ := create_ok h1 h2
  refine ⟨hd.md, ⟨a, ?_⟩⟩
  rw [h3]
  intro sl hm
  simp only [List.mem_singleton] at hm
  subst hm
  exact ⟨b, trivial⟩

theorem run_ok {E : Env} {s : Schema} (hn : s.names.Nodup) {P : Sys → Event → Prop} {σ σ' : Sys}
    {md : Metadata} (hok : SysOK E s σ md) (hr : Run E s P σ σ') :
    ∃ md', SysOK E s σ' md' ∧ FSLe σ.w.fs σ'.w.fs := by
  induction hr with
  | refl => exact ⟨md, hok, FSLe.refl _⟩
  | step _ _ hs ih =>
    obtain ⟨md1, h1, h2⟩ := ih
    obtain ⟨md2, h3, h4, -⟩ := step_ok hn h1 hs
    exact ⟨md2, h3, h2.trans h4⟩

/-- Every reachable system is well-formed. -/
theorem reach_ok {E : Env} {s : Schema} (hn : s.names.Nodup) {P : Sys → Event → Prop} {σ : Sys}
    (hr : Reach E s P σ) : ∃ md, SysOK E s σ md := by
  obtain ⟨σ0, h0, h⟩ := hr
  obtain ⟨md0, h1⟩ := started_ok (E := E) h0
  obtain ⟨md, h2, -⟩ := run_ok hn h1 h
  exact ⟨md, h2⟩

end Space
