import Verif.History

/-!
# Small concrete storages for examples and counterexamples
-/

deriving instance DecidableEq for Except

namespace Space.Demo

instance : DecidableEq (Except Err (List Row)) := inferInstance
instance : DecidableEq (Except Err (List Row) × Except Err (List Row)) := instDecidableEqProd
instance : DecidableEq (Except Err (List Row) × String) := instDecidableEqProd

/-- Functions the filters of the examples do not use, and fields of structs. -/
def interp : Interp where
  un := fun _ _ => .null
  bin := fun _ _ _ => .null
  opq := fun _ _ => .null
  sub := fun k v => match v with
    | .struct ls => match (ls[k]?).join with
      | some x => .sc x
      | none => .null
    | _ => .null

/-- One byte per row or value, row groups of more than one row, files of more than
three rows, record files of more than two records. -/
def env : Env where
  tableBytes := List.length
  columnBytes := List.length
  colSize := fun g _ => (g.length, g.length)
  rgSplit := fun t => if t = [] then [] else [t]
  rgSplit_flatten := by intro t; split <;> simp_all
  rgSplit_ne := by
    intro t g hg
    split at hg
    · simp at hg
    · simp at hg; subst hg; assumption
  chunks := fun t => [t]
  chunks_flatten := by simp
  rgMax := 1
  fileMax := 3
  recMax := 2
  I := interp

/-- An integer key, a string column and a record field. -/
def schema : Schema :=
  { fields := [⟨"id", 0, .int⟩, ⟨"txt", 1, .str⟩, ⟨"img", 2, .bytes⟩], pks := ["id"], recs := ["img"] }

/-- A row of `schema`. -/
def row (i : Int) (t : String) (b : List Nat) : Row :=
  [("id", .sc (.int i)), ("txt", .sc (.str t)), ("img", .sc (.bytes b))]

/-- The storage right after `create`. -/
def start (s : Schema) : Handle × World :=
  match create s {} with
  | (.ok h, w) => (h, w)
  | (.error _, w) => (Handle.init { schema := s, current := 0, snaps := [], refs := [] } .entryPoint
      false mainBranch, w)

/-- Execute calls in order on one handle. -/
def runCalls (E : Env) : List Call → Handle × World → Handle × World
  | [], st => st
  | c :: cs, st =>
    match exec E c st.1 st.2 with
    | (_, h, w) => runCalls E cs (h, w)

/-- The world in which `start` ran is empty. -/
theorem empty : ({} : World).Empty := ⟨by intro p u _ _; rfl, rfl⟩

/-- The system after `create`. -/
def begun (s : Schema) : Sys := ⟨(start s).2, [⟨(start s).1, .idle⟩]⟩

theorem begun_started (s : Schema) : Started s (begun s) := ⟨{}, (start s).1, empty, rfl, rfl⟩

/-- Something a process may do. -/
inductive Act where
  | load
  | call (i : Nat) (c : Call)
  | begin (i : Nat) (m : Mutation)
  | compute (i : Nat)
  | commit (i : Nat)
  | check (i : Nat)
  | write (i : Nat)

/-- Not a load of user files. -/
def plainMut : Mutation → Bool
  | .appendParquet _ => false
  | _ => true

/-- Not a load of user files. -/
def plainCall : Call → Bool
  | .mutate m => plainMut m
  | _ => true

theorem plainMut_adm {m : Mutation} (h : plainMut m = true) (s : Schema) (fs : FS) : m.Admissible s fs := by
  cases m <;> first | trivial | cases h

theorem plainCall_adm {c : Call} (h : plainCall c = true) (s : Schema) (fs : FS) : c.Admissible s fs := by
  cases c <;> first | trivial | exact plainMut_adm h s fs

/-- Do it, and tell what happened. -/
def act (E : Env) (σ : Sys) : Act → Option (Event × Sys)
  | .load =>
    match load σ.w with
    | .ok h => some (.load, ⟨σ.w, σ.slots ++ [⟨h, .idle⟩]⟩)
    | .error _ => none
  | .call i c =>
    match σ.slots[i]? with
    | some ⟨h, .idle⟩ =>
      if plainCall c then
        match exec E c h σ.w with
        | (r, h', w') => some (.call i c r, ⟨w', σ.slots.set i ⟨h', .idle⟩⟩)
      else none
    | _ => none
  | .begin i m =>
    match σ.slots[i]? with
    | some ⟨h, .idle⟩ =>
      match Txn.enter (h, σ.w) with
      | (.ok t, (h', w')) => some (.begin i, ⟨w', σ.slots.set i ⟨h', .begun t m⟩⟩)
      | (.error _, (h', w')) => some (.begin i, ⟨w', σ.slots.set i ⟨h', .idle⟩⟩)
    | _ => none
  | .compute i =>
    match σ.slots[i]? with
    | some ⟨h, .begun t m⟩ =>
      if plainMut m then
        match m.body E h σ.w with
        | (.ok p, w') => some (.compute i, ⟨w', σ.slots.set i ⟨h, .ready t m p⟩⟩)
        | (.error _, w') => some (.compute i, ⟨w', σ.slots.set i ⟨h, .idle⟩⟩)
      else none
    | _ => none
  | .commit i =>
    match σ.slots[i]? with
    | some ⟨h, .ready t _ p⟩ =>
      match t.commit p (h, σ.w) with
      | (r, (h', w')) => some (.commit i r, ⟨w', σ.slots.set i ⟨h', .idle⟩⟩)
    | _ => none
  | .check i =>
    match σ.slots[i]? with
    | some ⟨h, .ready t m (some p)⟩ =>
      match t.check (h, σ.w) with
      | (.ok true, (h', w')) => some (.check i, ⟨w', σ.slots.set i ⟨h', .checked t m p⟩⟩)
      | _ => none
    | _ => none
  | .write i =>
    match σ.slots[i]? with
    | some ⟨h, .checked t _ p⟩ =>
      match Space.commit p t.branch (h, σ.w) with
      | (r, (h', w')) => some (.write i r, ⟨w', σ.slots.set i ⟨h', .idle⟩⟩)
    | _ => none

theorem act_step {E : Env} {s : Schema} {σ σ' : Sys} {a : Act} {ev : Event}
    (h : act E σ a = some (ev, σ')) : Step E s σ ev σ' := by
  obtain ⟨w, slots⟩ := σ
  cases a with
  | load =>
    simp only [act] at h
    split at h
    · cases h; exact .load (by assumption)
    · cases h
  | call i c =>
    simp only [act] at h
    split at h
    · split at h
      · rename_i hc
        cases h
        exact .call (by assumption) (plainCall_adm hc _ _) rfl
      · cases h
    · cases h
  | begin i m =>
    simp only [act] at h
    split at h
    · split at h
      · cases h
        exact .begin (by assumption) (by assumption)
      · cases h
        exact .beginFail (by assumption) (by assumption)
    · cases h
  | compute i =>
    simp only [act] at h
    split at h
    · split at h
      · rename_i hc
        split at h
        · cases h
          exact .compute (by assumption) (plainMut_adm hc _ _) (by assumption)
        · cases h
          exact .computeFail (by assumption) (plainMut_adm hc _ _) (by assumption)
      · cases h
    · cases h
  | commit i =>
    simp only [act] at h
    split at h
    · cases h
      exact .commit (by assumption) rfl
    · cases h
  | check i =>
    simp only [act] at h
    split at h
    · split at h
      · cases h
        exact .check (by assumption) (by assumption)
      · cases h
    · cases h
  | write i =>
    simp only [act] at h
    split at h
    · cases h
      exact .write (by assumption) rfl
    · cases h

/-- Do several things; `ok` must accept each of them. -/
def acts (E : Env) (ok : Sys → Event → Bool) : List Act → Sys → Option Sys
  | [], σ => some σ
  | a :: as, σ =>
    match act E σ a with
    | none => none
    | some (ev, σ') => if ok σ ev then acts E ok as σ' else none

theorem acts_run {E : Env} {s : Schema} {P : Sys → Event → Prop} {ok : Sys → Event → Bool}
    (hok : ∀ σ ev, ok σ ev = true → P σ ev) :
    ∀ {as : List Act} {σ σ' : Sys}, acts E ok as σ = some σ' → Run E s P σ σ'
  | [], σ, σ', h => by cases h; exact .refl _
  | a :: as, σ, σ', h => by
    simp only [acts] at h
    split at h
    · cases h
    · rename_i ev σ1 ha
      split at h
      · rename_i hk
        have h1 : Run E s P σ σ1 := .step (.refl _) (hok _ _ hk) (act_step ha)
        exact h1.trans (acts_run hok h)
      · cases h

/-- Is the handle of the slot up to date? -/
def upToDateB (σ : Sys) : Event → Bool
  | .call i c _ => !c.isRef || (match σ.slots[i]? with
    | some sl => decide (σ.w.stored = some sl.h.md)
    | none => false)
  | _ => true

/-- Decides `tidy`. -/
def tidyB (σ : Sys) (ev : Event) : Bool :=
  (match ev with
    | .check _ | .write _ _ => false
    | _ => true) && upToDateB σ ev

theorem tidyB_tidy (σ : Sys) (ev : Event) (h : tidyB σ ev = true) : tidy σ ev := by
  simp only [tidyB, Bool.and_eq_true] at h
  refine ⟨?_, ?_⟩
  · cases ev <;> first | trivial | simp at h
  · cases ev with
    | call i c r =>
      intro hc sl hsl
      have h2 := h.2
      simp only [upToDateB, hc, hsl] at h2
      simpa using h2
    | _ => trivial

/-- Decides `growing`. -/
def growingB (σ : Sys) (ev : Event) : Bool :=
  tidyB σ ev && (match ev with
    | .call _ (.removeBranch _) _ => false
    | _ => true)

theorem growingB_growing (σ : Sys) (ev : Event) (h : growingB σ ev = true) : growing σ ev := by
  simp only [growingB, Bool.and_eq_true] at h
  refine ⟨tidyB_tidy σ ev h.1, ?_⟩
  cases ev with
  | call i c r => cases c <;> first | trivial | simp at h
  | _ => trivial

/-- Decides `solo`. -/
def soloB (σ : Sys) (ev : Event) : Bool :=
  σ.slots.length == 1 && (match ev with
    | .call 0 _ _ => true
    | _ => false)

theorem soloB_solo (σ : Sys) (ev : Event) (h : soloB σ ev = true) : solo σ ev := by
  simp only [soloB, Bool.and_eq_true, beq_iff_eq] at h
  refine ⟨h.1, Or.inl ?_⟩
  have h2 := h.2
  split at h2
  · exact ⟨_, _, rfl⟩
  · cases h2

/-- Decides nothing: every step is accepted. -/
def anyB (_ : Sys) (_ : Event) : Bool := true

/-- The reads of all slots. -/
def Sys.reads (E : Env) (o : ReadOpts) (v : Option Version) (σ : Sys) : List (Except Err (List Row)) :=
  σ.slots.map (fun sl => tableRead E sl.h σ.w o v)

/-- The system after some actions, starting with `create`. -/
def after (E : Env) (ok : Sys → Event → Bool) (s : Schema) (as : List Act) : Sys :=
  (acts E ok as (begun s)).getD (begun s)

theorem after_reach {E : Env} {s : Schema} {P : Sys → Event → Prop} {ok : Sys → Event → Bool}
    (hok : ∀ σ ev, ok σ ev = true → P σ ev) (as : List Act) : Reach E s P (after E ok s as) := by
  refine ⟨begun s, begun_started s, ?_⟩
  unfold after
  cases h : acts E ok as (begun s) with
  | none => exact .refl _
  | some σ => exact acts_run hok h

/-- Continue a system. -/
def more (E : Env) (ok : Sys → Event → Bool) (as : List Act) (σ : Sys) : Sys :=
  (acts E ok as σ).getD σ

theorem more_run {E : Env} {s : Schema} {P : Sys → Event → Prop} {ok : Sys → Event → Bool}
    (hok : ∀ σ ev, ok σ ev = true → P σ ev) (as : List Act) (σ : Sys) :
    Run E s P σ (more E ok as σ) := by
  unfold more
  cases h : acts E ok as σ with
  | none => exact .refl _
  | some σ' => exact acts_run hok h

/-- What a slot shows, as an equation that can be computed. -/
theorem slot_of {α : Type} {σ : Sys} {i : Nat} {f : Slot → α} {x : α}
    (h : (σ.slots[i]?).map f = some x) : ∃ sl, σ.slots[i]? = some sl ∧ sl ∈ σ.slots ∧ f sl = x := by
  cases hs : σ.slots[i]? with
  | none => rw [hs] at h; cases h
  | some sl =>
    rw [hs] at h
    exact ⟨sl, rfl, List.mem_of_getElem? hs, Option.some.inj h⟩

/-- What the stored metadata shows, as an equation that can be computed. -/
theorem stored_of_map {α : Type} {w : World} {f : Metadata → α} {x : α}
    (h : w.stored.map f = some x) : ∃ md, w.stored = some md ∧ f md = x := by
  cases hs : w.stored with
  | none => rw [hs] at h; cases h
  | some md =>
    rw [hs] at h
    exact ⟨md, rfl, Option.some.inj h⟩

/-- A call, as an equation that can be computed. -/
theorem call_step {E : Env} {s : Schema} {σ : Sys} {i : Nat} {c : Call} {r : Result}
    (hc : plainCall c = true)
    (h : (σ.slots[i]?).map (fun sl => (match sl.phase with
      | .idle => true
      | _ => false, (exec E c sl.h σ.w).1)) = some (true, r)) :
    ∃ σ', act E σ (.call i c) = some (.call i c r, σ') ∧ Step E s σ (.call i c r) σ' := by
  cases hs : σ.slots[i]? with
  | none => rw [hs] at h; cases h
  | some sl =>
    rw [hs] at h
    obtain ⟨hd, ph⟩ := sl
    simp only [Option.map_some, Option.some.injEq, Prod.mk.injEq] at h
    cases ph with
    | idle =>
      have : act E σ (.call i c) = some (.call i c r,
          ⟨(exec E c hd σ.w).2.2, σ.slots.set i ⟨(exec E c hd σ.w).2.1, .idle⟩⟩) := by
        simp only [act, hs, hc, ↓reduceIte, ← h.2]
      exact ⟨_, this, act_step this⟩
    | _ => simp at h

/-- The outcome part of an event. -/
inductive Out where
  | none
  | res (r : Result)
  | job (r : Except Err Job)
  | unit (r : Except Err Unit)
deriving DecidableEq

/-- The outcome part of an event. -/
def outOf : Event → Out
  | .call _ _ r => .res r
  | .commit _ r => .job r
  | .write _ r => .unit r
  | _ => .none

/-- The event of an action with a given outcome. -/
def Act.event : Act → Out → Event
  | .load, _ => .load
  | .call i c, .res r => .call i c r
  | .begin i _, _ => .begin i
  | .compute i, _ => .compute i
  | .commit i, .job r => .commit i r
  | .check i, _ => .check i
  | .write i, .unit r => .write i r
  | _, _ => .load

theorem act_event {E : Env} {σ σ' : Sys} {a : Act} {ev : Event} (h : act E σ a = some (ev, σ')) :
    ev = a.event (outOf ev) := by
  cases a <;> simp only [act] at h <;> repeat' split at h
  all_goals first
    | (simp only [Option.some.injEq, Prod.mk.injEq] at h; rw [← h.1]; rfl)
    | cases h

/-- The system after one action. -/
def doing (E : Env) (σ : Sys) (a : Act) : Sys := ((act E σ a).map (·.2)).getD σ

/-- An action, as an equation that can be computed. -/
theorem doing_step {E : Env} {s : Schema} {σ : Sys} {a : Act} {o : Out}
    (h : (act E σ a).map (fun x => outOf x.1) = some o) :
    act E σ a = some (a.event o, doing E σ a) ∧ Step E s σ (a.event o) (doing E σ a) := by
  unfold doing
  cases ha : act E σ a with
  | none => rw [ha] at h; cases h
  | some x =>
    obtain ⟨ev, σ'⟩ := x
    rw [ha] at h
    simp only [Option.map_some, Option.some.injEq] at h
    have := act_event ha
    rw [h] at this
    subst this
    exact ⟨rfl, act_step ha⟩

/-- One accepted action. -/
theorem doing_ok {E : Env} {σ : Sys} {a : Act} {o : Out} {ok : Sys → Event → Bool}
    (h : act E σ a = some (a.event o, doing E σ a))
    (h' : (act E σ a).map (fun x => ok σ x.1) = some true) : ok σ (a.event o) = true := by
  rw [h] at h'
  exact Option.some.inj h'

end Space.Demo
