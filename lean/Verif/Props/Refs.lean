import Verif.Props.Versions
import Verif.Versions

/-!
# C17, C40, C41, C48, C50: references, listing, reload
-/

set_option autoImplicit false

namespace Space

open Demo

theorem addRef_exec {E : Env} {s : Schema} {w : World} {md : Metadata} {h : Handle} (hw : WOK s w md)
    (hh : HandleOK s w h) {name : String} {kind : RefKind} {id : Option Nat} {r : Result}
    {h' : Handle} {w' : World}
    (hx : runUnit (addReference name kind id) h w = (r, h', w')) :
    (r = .returned ∧ CanAdd h.md name (id.getD h.md.current) ∧
        RefsWritten s h w (h.md.refs.set name { id := id.getD h.md.current, kind := kind }) h' w') ∨
      ((∃ e, r = .raised e) ∧ ¬ CanAdd h.md name (id.getD h.md.current) ∧ h' = h ∧ w' = w) := by
  unfold runUnit at hx
  rcases addReference_cases hw hh name kind id with ⟨e, h1, h2⟩ | ⟨h2, w2, h1, hcan, hout⟩
  · rw [h1] at hx
    simp only [Prod.mk.injEq] at hx
    obtain ⟨rfl, rfl, rfl⟩ := hx
    exact Or.inr ⟨⟨e, rfl⟩, h2, rfl, rfl⟩
  · rw [h1] at hx
    simp only [Prod.mk.injEq] at hx
    obtain ⟨rfl, rfl, rfl⟩ := hx
    exact Or.inl ⟨rfl, hcan, hout⟩

theorem removeRef_exec {s : Schema} {w : World} {md : Metadata} {h : Handle} (hw : WOK s w md)
    (hh : HandleOK s w h) {name : String} {kind : RefKind} {r : Result} {h' : Handle} {w' : World}
    (hx : runUnit (removeReference name kind) h w = (r, h', w')) :
    (r = .returned ∧ (∃ n, h.md.refs.get? name = some { id := n, kind := kind }) ∧
        RefsWritten s h w (h.md.refs.erase name) h' w') ∨
      ((∃ e, r = .raised e) ∧ (¬ ∃ n, h.md.refs.get? name = some { id := n, kind := kind }) ∧
        h' = h ∧ w' = w) := by
  unfold runUnit at hx
  rcases removeReference_cases hw hh name kind with ⟨e, h1, h2⟩ | ⟨h2, w2, h1, hcan, hout⟩
  · rw [h1] at hx
    simp only [Prod.mk.injEq] at hx
    obtain ⟨rfl, rfl, rfl⟩ := hx
    exact Or.inr ⟨⟨e, rfl⟩, h2, rfl, rfl⟩
  · rw [h1] at hx
    simp only [Prod.mk.injEq] at hx
    obtain ⟨rfl, rfl, rfl⟩ := hx
    exact Or.inl ⟨rfl, hcan, hout⟩

/-! ## C40

The names in use and the snapshots that exist are those the handle has loaded. -/

/-- A call either returns, or raises and leaves handle and files alone. -/
def AllOrNothing (h : Handle) (w : World) (r : Result) (h' : Handle) (w' : World) : Prop :=
  r = .returned ∨ ((∃ e, r = .raised e) ∧ h' = h ∧ w' = w)

/-- C40 for `add_tag`. -/
theorem C40_addTag {E : Env} {s : Schema} (hn : s.names.Nodup) {σ : Sys} (h1 : Reach E s anyStep σ)
    {sl : Slot} (hs : sl ∈ σ.slots) {name : String} {id : Option Nat} {r : Result} {h' : Handle}
    {w' : World} (hx : exec E (.addTag name id) sl.h σ.w = (r, h', w')) :
    (r = .returned ↔ name ≠ "" ∧ name ≠ "main" ∧ sl.h.md.refs.get? name = none ∧
        ∀ n, id = some n → (sl.h.md.snaps.get? n).isSome) ∧
      (r = .returned → h'.md.versionId (.name name) = .ok (id.getD sl.h.md.current) ∧
        w'.stored = some h'.md) ∧
      AllOrNothing sl.h σ.w r h' w' := by
  obtain ⟨md, hok⟩ := reach_ok hn h1
  have hh := hok.slot hs
  have hcur : (sl.h.md.snaps.get? (id.getD sl.h.md.current)).isSome ↔
      ∀ n, id = some n → (sl.h.md.snaps.get? n).isSome := by
    cases id with
    | none => simpa using hh.ok.cur
    | some k => simp
  rcases addRef_exec (E := E) hok.wok hh hx with ⟨rfl, a, b⟩ | ⟨⟨e, rfl⟩, a, b, c⟩
  · refine ⟨⟨fun _ => ⟨a.ne, a.main, a.unused, hcur.mp a.snap⟩, fun _ => rfl⟩, fun _ => ⟨?_, b.wok.storedEq⟩,
      Or.inl rfl⟩
    rw [b.md]
    simp [Metadata.versionId, Metadata.lookupRef, Except.map]
  · refine ⟨⟨fun h => (by cases h), fun h => absurd ?_ a⟩, fun h => (by cases h), Or.inr ⟨⟨e, rfl⟩, b, c⟩⟩
    exact ⟨hcur.mpr h.2.2.2, h.1, h.2.1, h.2.2.1⟩

/-- C40 for `add_branch`. -/
theorem C40_addBranch {E : Env} {s : Schema} (hn : s.names.Nodup) {σ : Sys} (h1 : Reach E s anyStep σ)
    {sl : Slot} (hs : sl ∈ σ.slots) {name : String} {r : Result} {h' : Handle}
    {w' : World} (hx : exec E (.addBranch name) sl.h σ.w = (r, h', w')) :
    (r = .returned ↔ name ≠ "" ∧ name ≠ "main" ∧ sl.h.md.refs.get? name = none) ∧
      (r = .returned → h'.md.versionId (.name name) = .ok sl.h.md.current ∧
        w'.stored = some h'.md) ∧
      AllOrNothing sl.h σ.w r h' w' := by
  obtain ⟨md, hok⟩ := reach_ok hn h1
  have hh := hok.slot hs
  rcases addRef_exec (E := E) hok.wok hh hx with ⟨rfl, a, b⟩ | ⟨⟨e, rfl⟩, a, b, c⟩
  · refine ⟨⟨fun _ => ⟨a.ne, a.main, a.unused⟩, fun _ => rfl⟩, fun _ => ⟨?_, b.wok.storedEq⟩,
      Or.inl rfl⟩
    rw [b.md]
    simp [Metadata.versionId, Metadata.lookupRef, Except.map]
  · refine ⟨⟨fun h => (by cases h), fun h => absurd ?_ a⟩, fun h => (by cases h), Or.inr ⟨⟨e, rfl⟩, b, c⟩⟩
    exact ⟨hh.ok.cur, h.1, h.2.1, h.2.2⟩

/-- C40 for `remove_tag`. -/
theorem C40_removeTag {E : Env} {s : Schema} (hn : s.names.Nodup) {σ : Sys} (h1 : Reach E s anyStep σ)
    {sl : Slot} (hs : sl ∈ σ.slots) {name : String} {r : Result} {h' : Handle}
    {w' : World} (hx : exec E (.removeTag name) sl.h σ.w = (r, h', w')) :
    (r = .returned ↔ ∃ n, sl.h.md.refs.get? name = some { id := n, kind := .tag }) ∧
      (r = .returned → h'.md.refs.get? name = none ∧ w'.stored = some h'.md) ∧
      AllOrNothing sl.h σ.w r h' w' := by
  obtain ⟨md, hok⟩ := reach_ok hn h1
  rcases removeRef_exec hok.wok (hok.slot hs) hx with ⟨rfl, a, b⟩ | ⟨⟨e, rfl⟩, a, b, c⟩
  · refine ⟨⟨fun _ => a, fun _ => rfl⟩, fun _ => ⟨?_, b.wok.storedEq⟩, Or.inl rfl⟩
    rw [b.md]
    exact AMap.get?_erase_self _ _
  · exact ⟨⟨fun h => (by cases h), fun h => absurd h a⟩, fun h => (by cases h), Or.inr ⟨⟨e, rfl⟩, b, c⟩⟩

/-- C40 for `remove_branch`. -/
theorem C40_removeBranch {E : Env} {s : Schema} (hn : s.names.Nodup) {σ : Sys} (h1 : Reach E s anyStep σ)
    {sl : Slot} (hs : sl ∈ σ.slots) {name : String} {r : Result} {h' : Handle}
    {w' : World} (hx : exec E (.removeBranch name) sl.h σ.w = (r, h', w')) :
    (r = .returned ↔ name ≠ sl.h.branch ∧
        ∃ n, sl.h.md.refs.get? name = some { id := n, kind := .branch }) ∧
      (r = .returned → h'.md.refs.get? name = none ∧ w'.stored = some h'.md) ∧
      AllOrNothing sl.h σ.w r h' w' := by
  obtain ⟨md, hok⟩ := reach_ok hn h1
  by_cases hb : name = sl.h.branch
  · simp only [exec, runUnit, removeBranch_run, if_pos hb, Prod.mk.injEq] at hx
    obtain ⟨rfl, rfl, rfl⟩ := hx
    exact ⟨⟨fun h => (by cases h), fun h => absurd hb h.1⟩, fun h => (by cases h), Or.inr ⟨⟨_, rfl⟩, rfl, rfl⟩⟩
  · have hx' : runUnit (removeReference name .branch) sl.h σ.w = (r, h', w') := by
      simp only [exec, runUnit, removeBranch_run, if_neg hb] at hx
      exact hx
    rcases removeRef_exec hok.wok (hok.slot hs) hx' with ⟨rfl, a, b⟩ | ⟨⟨e, rfl⟩, a, b, c⟩
    · refine ⟨⟨fun _ => ⟨hb, a⟩, fun _ => rfl⟩, fun _ => ⟨?_, b.wok.storedEq⟩, Or.inl rfl⟩
      rw [b.md]
      exact AMap.get?_erase_self _ _
    · exact ⟨⟨fun h => (by cases h), fun h => absurd h.2 a⟩, fun h => (by cases h),
        Or.inr ⟨⟨e, rfl⟩, b, c⟩⟩

/-- All outcomes occur: adding, adding again, the reserved name, the empty name, a
missing snapshot, removing with the wrong kind, removing the current branch. -/
example :
    let σ := after env anyB schema onBranch
    (σ.slots[0]?).map (fun sl =>
      [(exec env (.addTag "u" (some 0)) sl.h σ.w).1, (exec env (.addTag "t" none) sl.h σ.w).1,
        (exec env (.addBranch "main") sl.h σ.w).1, (exec env (.addBranch "") sl.h σ.w).1,
        (exec env (.addTag "v" (some 7)) sl.h σ.w).1, (exec env (.removeTag "b") sl.h σ.w).1,
        (exec env (.removeBranch "b") sl.h σ.w).1, (exec env (.removeTag "t") sl.h σ.w).1])
      = some [.returned, .raised .versionExists, .raised .userInput, .raised .userInput,
        .raised .versionNotFound, .raised .versionNotFound, .raised .userInput, .returned] := by
  decide +kernel

/-! ## C41 -/

/-- A call, and a read through the same handle afterwards. -/
def thenRead (E : Env) (c : Call) (h : Handle) (w : World) (v : Version) :
    Result × Except Err (List Row) :=
  match exec E c h w with
  | (r, h', w') => (r, tableRead E h' w' {} (some v))

/-- C41 is false: with branch "b" current and one commit ahead of main, a new
branch "c" and a new tag "t" refer to the head of main. -/
theorem C41_violated : ∃ (σ : Sys) (sl : Slot), Reach env schema solo σ ∧ sl ∈ σ.slots ∧
    sl.h.branch = "b" ∧ tableRead env sl.h σ.w {} none = .ok [row 1 "x" [1]] ∧
    thenRead env (.addBranch "c") sl.h σ.w (.name "c") = (.returned, .ok []) ∧
    thenRead env (.addTag "t" none) sl.h σ.w (.name "t") = (.returned, .ok []) := by
  let σ := after env soloB schema [.call 0 (.addBranch "b"), .call 0 (.setBranch "b"),
    .call 0 (.mutate (.append [[row 1 "x" [1]]]))]
  obtain ⟨sl, -, h1, h2⟩ := slot_of (σ := σ) (i := 0) (f := fun sl =>
    decide (sl.h.branch = "b" ∧ tableRead env sl.h σ.w {} none = .ok [row 1 "x" [1]] ∧
    thenRead env (.addBranch "c") sl.h σ.w (.name "c") = (.returned, .ok []) ∧
    thenRead env (.addTag "t" none) sl.h σ.w (.name "t") = (.returned, .ok []))) (x := true)
    (by decide +kernel)
  exact ⟨σ, sl, after_reach soloB_solo _, h1, of_decide_eq_true h2⟩

/-- C41 on main: a new branch made through an up-to-date handle whose current branch
is main reads what the handle reads.  (Missing: other current branches, for which
the property is false, and stale handles.) -/
theorem C41_partial {E : Env} {s : Schema} (hn : s.names.Nodup) {σ : Sys} (h1 : Reach E s anyStep σ)
    {sl : Slot} (hs : sl ∈ σ.slots) (hup : σ.w.stored = some sl.h.md) (hb : sl.h.branch = "main")
    {name : String} {c : Call} (hc : c = .addBranch name ∨ c = .addTag name none) {h' : Handle}
    {w' : World} (hx : exec E c sl.h σ.w = (.returned, h', w')) {o : ReadOpts} {rows : List Row}
    (hr : tableRead E sl.h σ.w o none = .ok rows) :
    tableRead E h' w' o (some (.name name)) = .ok rows := by
  obtain ⟨md, hok⟩ := reach_ok hn h1
  have hh := hok.slot hs
  have := stored_of hok hup
  subst this
  have key : ∃ kind, RefsWritten s sl.h σ.w
      (sl.h.md.refs.set name { id := sl.h.md.current, kind := kind }) h' w' := by
    rcases hc with rfl | rfl
    · rcases addRef_exec (E := E) hok.wok hh hx with ⟨-, -, b⟩ | ⟨⟨e, h⟩, -⟩
      · exact ⟨_, b⟩
      · cases h
    · rcases addRef_exec (E := E) hok.wok hh hx with ⟨-, -, b⟩ | ⟨⟨e, h⟩, -⟩
      · exact ⟨_, b⟩
      · cases h
  obtain ⟨kind, b⟩ := key
  refine tableRead_same hok.wok hh b.wok b.handle b.le ?_ hr
  intro snap ht
  rw [hb] at ht
  rw [b.md]
  simp only [Metadata.target, Metadata.versionId, Metadata.lookupRef, AMap.get?_set_self, Except.map]
  simp only [Metadata.target, Metadata.currentId, mainBranch, ↓reduceIte] at ht
  exact ht

example : ∃ (σ : Sys) (sl : Slot), Reach env schema anyStep σ ∧ sl ∈ σ.slots ∧
    σ.w.stored = some sl.h.md ∧ sl.h.branch = "main" ∧
    (exec env (.addBranch "c") sl.h σ.w).1 = .returned ∧
    tableRead env sl.h σ.w {} none = .ok [row 1 "x" [1]] := by
  let σ := after env anyB schema [.call 0 (.mutate (.append [[row 1 "x" [1]]]))]
  obtain ⟨sl, -, h1, h2⟩ := slot_of (σ := σ) (i := 0) (f := fun sl =>
    (decide (σ.w.stored = some sl.h.md ∧ sl.h.branch = "main" ∧
      (exec env (.addBranch "c") sl.h σ.w).1 = .returned ∧
      tableRead env sl.h σ.w {} none = .ok [row 1 "x" [1]]))) (x := true) (by decide +kernel)
  exact ⟨σ, sl, after_reach (fun _ _ _ => trivial) _, h1, of_decide_eq_true h2⟩

/-- What the code does instead of C41, for every handle, whatever its branch and
however stale: a new branch or unversioned tag refers to the snapshot that is the
head of main in the metadata the handle holds; and if that metadata is the stored
one, reading the new reference gives what the same handle would read on main. -/
theorem C41_effect {E : Env} {s : Schema} (hn : s.names.Nodup) {σ : Sys} (h1 : Reach E s anyStep σ)
    {sl : Slot} (hs : sl ∈ σ.slots) {name : String} {c : Call}
    (hc : c = .addBranch name ∨ c = .addTag name none) {h' : Handle} {w' : World}
    (hx : exec E c sl.h σ.w = (.returned, h', w')) :
    (∃ md', w'.stored = some md' ∧ (md'.refs.get? name).map (·.id) = some sl.h.md.current ∧
      md'.current = sl.h.md.current ∧ md'.snaps = sl.h.md.snaps) ∧
    (σ.w.stored = some sl.h.md → ∀ (o : ReadOpts) (rows : List Row),
      tableRead E { sl.h with branch := "main" } σ.w o none = .ok rows →
        tableRead E h' w' o (some (.name name)) = .ok rows) := by
  obtain ⟨md, hok⟩ := reach_ok hn h1
  have hh := hok.slot hs
  have key : ∃ kind, RefsWritten s sl.h σ.w
      (sl.h.md.refs.set name { id := sl.h.md.current, kind := kind }) h' w' := by
    rcases hc with rfl | rfl
    · rcases addRef_exec (E := E) hok.wok hh hx with ⟨-, -, b⟩ | ⟨⟨e, h⟩, -⟩
      · exact ⟨_, b⟩
      · cases h
    · rcases addRef_exec (E := E) hok.wok hh hx with ⟨-, -, b⟩ | ⟨⟨e, h⟩, -⟩
      · exact ⟨_, b⟩
      · cases h
  obtain ⟨kind, b⟩ := key
  refine ⟨⟨h'.md, b.wok.storedEq, ?_, ?_, ?_⟩, ?_⟩
  · rw [b.md]
    simp only [AMap.get?_set_self, Option.map]
  · rw [b.md]
  · rw [b.md]
  · intro hup o rows hr
    have := stored_of hok hup
    subst this
    have hm : HandleOK s σ.w { sl.h with branch := "main" } := ⟨hh.file, hh.ok, hh.schema, hh.max⟩
    refine tableRead_same hok.wok hm b.wok b.handle b.le ?_ hr
    intro snap ht
    rw [b.md]
    simp only [Metadata.target, Metadata.versionId, Metadata.lookupRef, AMap.get?_set_self, Except.map]
    simp only [Metadata.target, Metadata.currentId, mainBranch, ↓reduceIte] at ht
    exact ht

/-- On branch "b", which is a commit ahead of main; main has a row of its own. -/
example : ∃ (σ : Sys) (sl : Slot), Reach env schema anyStep σ ∧ sl ∈ σ.slots ∧
    sl.h.branch = "b" ∧ σ.w.stored = some sl.h.md ∧
    tableRead env sl.h σ.w {} none = .ok [row 1 "x" [1], row 2 "y" [2]] ∧
    tableRead env { sl.h with branch := "main" } σ.w {} none = .ok [row 1 "x" [1]] ∧
    thenRead env (.addBranch "c") sl.h σ.w (.name "c") = (.returned, .ok [row 1 "x" [1]]) := by
  let σ := after env anyB schema [.call 0 (.mutate (.append [[row 1 "x" [1]]])),
    .call 0 (.addBranch "b"), .call 0 (.setBranch "b"),
    .call 0 (.mutate (.append [[row 2 "y" [2]]]))]
  obtain ⟨sl, -, h1, h2⟩ := slot_of (σ := σ) (i := 0) (f := fun sl =>
    decide (sl.h.branch = "b" ∧ σ.w.stored = some sl.h.md ∧
    tableRead env sl.h σ.w {} none = .ok [row 1 "x" [1], row 2 "y" [2]] ∧
    tableRead env { sl.h with branch := "main" } σ.w {} none = .ok [row 1 "x" [1]] ∧
    thenRead env (.addBranch "c") sl.h σ.w (.name "c") = (.returned, .ok [row 1 "x" [1]]))) (x := true)
    (by decide +kernel)
  exact ⟨σ, sl, after_reach (fun _ _ _ => trivial) _, h1, of_decide_eq_true h2⟩

/-! ## C17 -/

/-- C17 is false: a handle that has not reloaded writes its old metadata back, and
the commit of another handle disappears from main. -/
theorem C17_violated : ∃ (σ σ' : Sys) (sl sl' : Slot), Reach env schema anyStep σ ∧
    Step env schema σ (.call 0 (.addTag "t" none) .returned) σ' ∧ sl ∈ σ.slots ∧ sl' ∈ σ'.slots ∧
    sl.h.branch = "main" ∧ sl'.h.branch = "main" ∧
    tableRead env sl.h σ.w {} none = .ok [row 1 "x" [1]] ∧
    tableRead env sl'.h σ'.w {} none = .ok [] := by
  let σ := after env anyB schema [.load, .call 1 (.mutate (.append [[row 1 "x" [1]]]))]
  obtain ⟨sl, -, h1, h2⟩ := slot_of (σ := σ) (i := 1)
    (f := fun sl => (tableRead env sl.h σ.w {} none, sl.h.branch))
    (x := (.ok [row 1 "x" [1]], "main")) (by decide +kernel)
  simp only [Prod.mk.injEq] at h2
  obtain ⟨σ', e, hst⟩ := call_step (E := env) (s := schema) (σ := σ) (i := 0) (c := .addTag "t" none)
    (r := .returned) rfl (by decide +kernel)
  have h3 : ((act env σ (.call 0 (.addTag "t" none))).map (fun x => (x.2.slots[1]?).map
      (fun sl => (tableRead env sl.h x.2.w {} none, sl.h.branch)))) = some (some (.ok [], "main")) := by
    decide +kernel
  rw [e] at h3
  obtain ⟨sl', -, h4, h5⟩ := slot_of (Option.some.inj h3)
  simp only [Prod.mk.injEq] at h5
  exact ⟨σ, σ', sl, sl', after_reach (fun _ _ _ => trivial) _, hst, h1, h4, h2.2, h5.2, h2.1, h5.1⟩

/-- C17 for handles that hold the stored metadata: no snapshot is lost or changed,
main and every branch and tag other than the one added or removed read as before.
(Missing: stale handles, for which the property is false.) -/
theorem C17_partial {E : Env} {s : Schema} (hn : s.names.Nodup) {σ σ' : Sys} (h1 : Reach E s anyStep σ)
    {i : Nat} {c : Call} {r : Result} (hc : c.isRef = true) {sl : Slot} (hi : σ.slots[i]? = some sl)
    (hup : σ.w.stored = some sl.h.md) (hs : Step E s σ (.call i c r) σ') :
    ∃ md md', σ.w.stored = some md ∧ σ'.w.stored = some md' ∧ md'.snaps = md.snaps ∧
      md'.current = md.current ∧
      (∀ name, c ≠ .addBranch name → (∀ id, c ≠ .addTag name id) → c ≠ .removeTag name →
        c ≠ .removeBranch name → md'.refs.get? name = md.refs.get? name) ∧
      ∀ sl ∈ σ.slots, ∀ sl' ∈ σ'.slots, ∀ o v rows,
        (∀ name, v = some (.name name) ∨ (v = none ∧ sl.h.branch = name) → c ≠ .addBranch name ∧
          (∀ id, c ≠ .addTag name id) ∧ c ≠ .removeTag name ∧ c ≠ .removeBranch name) →
        sl'.h.branch = sl.h.branch →
        tableRead E sl.h σ.w o v = .ok rows → tableRead E sl'.h σ'.w o v = .ok rows := by
  obtain ⟨md, hok⟩ := reach_ok hn h1
  obtain ⟨md', h3, h4, h5⟩ := step_ok hn hok hs
  have ht : tidy σ (.call i c r) := by
    refine ⟨trivial, fun _ sl' hs' => ?_⟩
    rw [hi] at hs'
    cases hs'
    exact hup
  have hnc : ∀ b, ¬ CommitEvent σ (.call i c r) b := by
    rintro b ⟨j, slj, -, -, ⟨m, h⟩ | h⟩
    · simp only [Event.call.injEq] at h
      rw [h.2.1] at hc
      cases hc
    · cases h
  have hh := hok.slot (List.mem_of_getElem? hi)
  have hmd : sl.h.md = md := stored_of hok hup
  have key : md'.snaps = md.snaps ∧ md'.current = md.current ∧
      (∀ name, c ≠ .addBranch name → (∀ id, c ≠ .addTag name id) → c ≠ .removeTag name →
        c ≠ .removeBranch name → md'.refs.get? name = md.refs.get? name) := by
    cases hs with
    | @call w slots _ h _ _ h' w' hi' hadm hx =>
      simp only at hi
      rw [hi'] at hi
      cases hi
      simp only at hmd hh
      obtain ⟨-, b⟩ := exec_post hok.wok hh hn c hadm hx
      cases b with
      | same g _ _ =>
        have := h3.wok.unique (hok.wok.grows g)
        subst this
        exact ⟨rfl, rfl, fun _ _ _ _ _ => rfl⟩
      | commit m _ _ _ _ _ _ hcm => rw [hcm] at hc; cases hc
      | addRef name kind n hcall _ can o =>
        have e := h3.wok.unique o.wok
        rw [o.md, hmd] at e
        subst e
        refine ⟨rfl, rfl, fun nm h1 h2 h3 h4 => ?_⟩
        simp only
        rw [AMap.get?_set_ne]
        rintro rfl
        rcases hcall with ⟨-, h | ⟨h, -⟩⟩ | ⟨-, h, -⟩
        · exact h2 _ h
        · exact h2 _ h
        · exact h1 h
      | removeRef name kind n hcall _ was o =>
        have e := h3.wok.unique o.wok
        rw [o.md, hmd] at e
        subst e
        refine ⟨rfl, rfl, fun nm g1 g2 g3 g4 => ?_⟩
        simp only
        rw [AMap.get?_erase_ne]
        rintro rfl
        rcases hcall with ⟨-, h⟩ | ⟨-, h, -⟩
        · exact g3 h
        · exact g4 h
  obtain ⟨k1, k2, k3⟩ := key
  refine ⟨md, md', hok.wok.storedEq, h3.wok.storedEq, k1, k2, k3, ?_⟩
  intro sa hsa sb hsb o v rows hv hbr hr
  refine tableRead_same hok.wok (hok.slot hsa) h3.wok (h3.slot hsb) h4 ?_ hr
  intro snap hx
  rw [hbr]
  have hsn : ∀ n, md'.snapshot n = md.snapshot n := fun n => snapshot_eq (by rw [k1])
  cases v with
  | none =>
    obtain ⟨a1, a2, a3, a4⟩ := hv sa.h.branch (Or.inr ⟨rfl, rfl⟩)
    have hid : md'.currentId sa.h.branch = md.currentId sa.h.branch := by
      unfold Metadata.currentId Metadata.lookupRef
      rw [k2, k3 _ a1 a2 a3 a4]
    rw [target_none_eq hid (fun n _ => by rw [k1])]
    exact hx
  | some v =>
    cases v with
    | id n =>
      rw [target_id] at hx ⊢
      rw [hsn]; exact hx
    | name nm =>
      obtain ⟨a1, a2, a3, a4⟩ := hv nm (Or.inl rfl)
      rw [target_name_eq (b := sa.h.branch) (k3 _ a1 a2 a3 a4) (fun _ _ => by rw [k1])]
      exact hx

/-- Up-to-date handles exist with commits of other handles present. -/
example : ∃ (σ : Sys) (sl : Slot), Reach env schema anyStep σ ∧ σ.slots[0]? = some sl ∧
    σ.w.stored = some sl.h.md ∧ (exec env (.addTag "t" none) sl.h σ.w).1 = .returned ∧
    tableRead env sl.h σ.w {} none = .ok [row 1 "x" [1]] := by
  let σ := after env anyB schema [.load, .call 1 (.mutate (.append [[row 1 "x" [1]]])), .call 0 .reload]
  obtain ⟨sl, h0, -, h2⟩ := slot_of (σ := σ) (i := 0) (f := fun sl =>
    (decide (σ.w.stored = some sl.h.md ∧ (exec env (.addTag "t" none) sl.h σ.w).1 = .returned ∧
      tableRead env sl.h σ.w {} none = .ok [row 1 "x" [1]]))) (x := true) (by decide +kernel)
  exact ⟨σ, sl, after_reach (fun _ _ _ => trivial) _, h0, of_decide_eq_true h2⟩

/-- What the code does instead of C17, for every handle however stale: a call that returns
replaces the stored metadata by that of the handle with the one reference added or removed, so
that exactly the snapshots and references the handle knew remain; a call that raises leaves
the stored metadata alone. -/
theorem C17_effect {E : Env} {s : Schema} (hn : s.names.Nodup) {σ σ' : Sys} (h1 : Reach E s anyStep σ)
    {i : Nat} {c : Call} {r : Result} (hc : c.isRef = true) {sl : Slot} (hi : σ.slots[i]? = some sl)
    (hs : Step E s σ (.call i c r) σ') :
    (r = .returned ∧ ∃ md', σ'.w.stored = some md' ∧ md'.snaps = sl.h.md.snaps ∧ md'.current = sl.h.md.current ∧
      (∀ name, c ≠ .addBranch name → (∀ id, c ≠ .addTag name id) → c ≠ .removeTag name →
        c ≠ .removeBranch name → md'.refs.get? name = sl.h.md.refs.get? name) ∧
      (∀ name, c = .addBranch name ∨ (∃ id, c = .addTag name id) →
        sl.h.md.refs.get? name = none ∧ ∃ ref, md'.refs.get? name = some ref) ∧
      ∀ name, c = .removeTag name ∨ c = .removeBranch name →
        (∃ ref, sl.h.md.refs.get? name = some ref) ∧ md'.refs.get? name = none) ∨
    ((∃ e, r = .raised e) ∧ σ'.w.stored = σ.w.stored) := by
  obtain ⟨md, hok⟩ := reach_ok hn h1
  have hh := hok.slot (List.mem_of_getElem? hi)
  cases hs with
  | @call w slots _ h _ _ h' w' hi' hadm hx =>
    simp only at hi
    rw [hi'] at hi
    cases hi
    simp only at hh
    cases c with
    | mutate m => cases hc
    | setBranch n => cases hc
    | reload => cases hc
    | addTag name id =>
      rcases addRef_exec (E := E) hok.wok hh hx with ⟨hr, hcan, b⟩ | ⟨he, -, -, hw⟩
      · refine Or.inl ⟨hr, h'.md, b.wok.storedEq, by rw [b.md], by rw [b.md], ?_, ?_, ?_⟩
        · intro nm g1 g2 g3 g4
          rw [b.md]
          simp only
          rw [AMap.get?_set_ne]
          rintro rfl
          exact g2 _ rfl
        · rintro nm (g | ⟨id', g⟩)
          · cases g
          · cases g
            exact ⟨hcan.unused, _, by rw [b.md]; exact AMap.get?_set_self _ _ _⟩
        · rintro nm (g | g) <;> cases g
      · exact Or.inr ⟨he, by rw [hw]⟩
    | addBranch name =>
      rcases addRef_exec (E := E) hok.wok hh hx with ⟨hr, hcan, b⟩ | ⟨he, -, -, hw⟩
      · refine Or.inl ⟨hr, h'.md, b.wok.storedEq, by rw [b.md], by rw [b.md], ?_, ?_, ?_⟩
        · intro nm g1 g2 g3 g4
          rw [b.md]
          simp only
          rw [AMap.get?_set_ne]
          rintro rfl
          exact g1 rfl
        · rintro nm (g | ⟨id', g⟩)
          · cases g
            exact ⟨hcan.unused, _, by rw [b.md]; exact AMap.get?_set_self _ _ _⟩
          · cases g
        · rintro nm (g | g) <;> cases g
      · exact Or.inr ⟨he, by rw [hw]⟩
    | removeTag name =>
      rcases removeRef_exec hok.wok hh hx with ⟨hr, ⟨n, hwas⟩, b⟩ | ⟨he, -, -, hw⟩
      · refine Or.inl ⟨hr, h'.md, b.wok.storedEq, by rw [b.md], by rw [b.md], ?_, ?_, ?_⟩
        · intro nm g1 g2 g3 g4
          rw [b.md]
          simp only
          rw [AMap.get?_erase_ne]
          rintro rfl
          exact g3 rfl
        · rintro nm (g | ⟨id', g⟩) <;> cases g
        · rintro nm (g | g)
          · cases g
            exact ⟨⟨_, hwas⟩, by rw [b.md]; exact AMap.get?_erase_self _ _⟩
          · cases g
      · exact Or.inr ⟨he, by rw [hw]⟩
    | removeBranch name =>
      have hx' : (if name = h.branch then (Result.raised .userInput, h, w)
          else runUnit (removeReference name .branch) h w) = (r, h', w') := by
        rw [← hx]
        simp only [exec, runUnit]
        rw [removeBranch_run]
        split <;> rfl
      split at hx'
      · simp only [Prod.mk.injEq] at hx'
        exact Or.inr ⟨⟨_, hx'.1.symm⟩, by rw [← hx'.2.2]⟩
      · rcases removeRef_exec hok.wok hh hx' with ⟨hr, ⟨n, hwas⟩, b⟩ | ⟨he, -, -, hw⟩
        · refine Or.inl ⟨hr, h'.md, b.wok.storedEq, by rw [b.md], by rw [b.md], ?_, ?_, ?_⟩
          · intro nm g1 g2 g3 g4
            rw [b.md]
            simp only
            rw [AMap.get?_erase_ne]
            rintro rfl
            exact g4 rfl
          · rintro nm (g | ⟨id', g⟩) <;> cases g
          · rintro nm (g | g)
            · cases g
            · cases g
              exact ⟨⟨_, hwas⟩, by rw [b.md]; exact AMap.get?_erase_self _ _⟩
        · exact Or.inr ⟨he, by rw [hw]⟩

/-- A stale handle that tags: the commit of the other handle is gone. -/
example : ∃ (σ σ' : Sys) (sl : Slot), Reach env schema anyStep σ ∧ σ.slots[0]? = some sl ∧
    σ.w.stored ≠ some sl.h.md ∧ Step env schema σ (.call 0 (.addTag "t" none) .returned) σ' ∧
    σ.w.stored.map (fun md => md.snaps.map (·.1)) = some [0, 1] ∧
    σ'.w.stored.map (fun md => md.snaps.map (·.1)) = some [0] := by
  let σ := after env anyB schema [.load, .call 1 (.mutate (.append [[row 1 "x" [1]]]))]
  obtain ⟨sl, h0, -, h2⟩ := slot_of (σ := σ) (i := 0) (f := fun sl => decide (σ.w.stored ≠ some sl.h.md))
    (x := true) (by decide +kernel)
  obtain ⟨σ', e, hst⟩ := call_step (E := env) (s := schema) (σ := σ) (i := 0) (c := .addTag "t" none)
    (r := .returned) rfl (by decide +kernel)
  have h3 : ((act env σ (.call 0 (.addTag "t" none))).map (fun x => x.2.w.stored.map
      (fun md => md.snaps.map (·.1)))) = some (some [0]) := by decide +kernel
  rw [e] at h3
  exact ⟨σ, σ', sl, after_reach (fun _ _ _ => trivial) _, h0, of_decide_eq_true h2, hst, by decide +kernel,
    Option.some.inj h3⟩

/-! ## C50 -/

/-- C50 is false as stated: after its own commit a handle holds the stored metadata,
and `reload` reports a change nevertheless. -/
theorem C50_violated : ∃ (σ : Sys) (sl : Slot), Reach env schema solo σ ∧ sl ∈ σ.slots ∧
    σ.w.stored = some sl.h.md ∧ (reload (sl.h, σ.w)).1 = .ok true := by
  let σ := after env soloB schema [.call 0 (.mutate (.append [[row 1 "x" [1]]]))]
  obtain ⟨sl, h0, h1, h2⟩ := slot_of (σ := σ) (i := 0) (f := fun sl =>
    (decide (σ.w.stored = some sl.h.md ∧ (reload (sl.h, σ.w)).1 = .ok true))) (x := true)
    (by decide +kernel)
  exact ⟨σ, sl, after_reach soloB_solo _, h1, of_decide_eq_true h2⟩

/-- C50 but for spurious reports: `reload` never raises, afterwards the handle holds
exactly the stored metadata and keeps its branch; if it reports no change there was
none, so a change is always reported.  (Missing: a report of a change may be
spurious, see `C50_violated`.) -/
theorem C50_partial {E : Env} {s : Schema} (hn : s.names.Nodup) {σ : Sys} (h1 : Reach E s anyStep σ)
    {sl : Slot} (hs : sl ∈ σ.slots) :
    ∃ b h', reload (sl.h, σ.w) = (.ok b, (h', σ.w)) ∧ σ.w.stored = some h'.md ∧
      h'.branch = sl.h.branch ∧ (b = false → h' = sl.h) ∧
      (σ.w.stored ≠ some sl.h.md → b = true) := by
  obtain ⟨md, hok⟩ := reach_ok hn h1
  obtain ⟨b, h', e1, e2, e3, e4, e5, e6, e7, e8⟩ := reload_eq hok.wok (hok.slot hs)
  refine ⟨b, h', e1, by rw [hok.wok.storedEq, e2], e3, e7, fun hne => ?_⟩
  cases b with
  | true => rfl
  | false =>
    have := e7 rfl
    subst this
    exact absurd (by rw [hok.wok.storedEq, e2]) hne

/-- Exactly when `reload` reports a change: the handle itself wrote the metadata it
holds, or the entry point names another file than the handle's.  Reloading again
at once reports none. -/
theorem C50_report {E : Env} {s : Schema} (hn : s.names.Nodup) {σ : Sys} (h1 : Reach E s anyStep σ)
    {sl : Slot} (hs : sl ∈ σ.slots) {b : Bool} {h' : Handle} {w' : World}
    (hr : reload (sl.h, σ.w) = (.ok b, (h', w'))) :
    (b = true ↔ sl.h.full = true ∨ σ.w.fs.entry ≠ some sl.h.mdFile) ∧
      reload (h', w') = (.ok false, (h', w')) := by
  obtain ⟨md, hok⟩ := reach_ok hn h1
  obtain ⟨b', h'', e1, e2, e3, e4, e5, e6, e7, e8⟩ := reload_eq hok.wok (hok.slot hs)
  rw [hr] at e1
  simp only [Prod.mk.injEq, Except.ok.injEq] at e1
  obtain ⟨rfl, rfl, rfl⟩ := e1
  refine ⟨?_, ?_⟩
  · obtain ⟨p, he, -⟩ := hok.wok.stored
    unfold reload at hr
    simp only [he] at hr
    rw [he]
    split at hr
    · rename_i hc
      simp only [Prod.mk.injEq, Except.ok.injEq] at hr
      rw [← hr.1, hc.1, hc.2]
      simp
    · rename_i hc
      split at hr
      · cases hr
      · simp only [Prod.mk.injEq, Except.ok.injEq] at hr
        rw [← hr.1]
        simp only [true_iff]
        cases hf : sl.h.full with
        | true => exact Or.inl rfl
        | false => exact Or.inr fun hp => hc ⟨hf, Option.some.inj hp⟩
  · unfold reload
    simp only [e5]
    rw [if_pos ⟨e6, trivial⟩]

/-- Two handles; the second commits, the first reloads. -/
example : ∃ (σ : Sys) (sl : Slot), Reach env schema anyStep σ ∧ sl ∈ σ.slots ∧
    σ.w.stored ≠ some sl.h.md ∧ (reload (sl.h, σ.w)).1 = .ok true ∧
    (reload (reload (sl.h, σ.w)).2).1 = .ok false := by
  let σ := after env anyB schema [.load, .call 1 (.mutate (.append [[row 1 "x" [1]]]))]
  obtain ⟨sl, h0, h1, h2⟩ := slot_of (σ := σ) (i := 0) (f := fun sl =>
    (decide (σ.w.stored ≠ some sl.h.md ∧ (reload (sl.h, σ.w)).1 = .ok true ∧
      (reload (reload (sl.h, σ.w)).2).1 = .ok false))) (x := true) (by decide +kernel)
  exact ⟨σ, sl, after_reach (fun _ _ _ => trivial) _, h1, of_decide_eq_true h2⟩

/-! ## C48 -/

theorem count_matches (k n : Nat) (b : String) : ∀ right : List (Nat × String),
    ((right.filter (fun y => y.1 == k)).map (fun y => (k, some y.2))).count (n, some b)
      = if k = n then right.count (n, b) else 0
  | [] => by simp
  | (y1, y2) :: right => by
    have ih := count_matches k n b right
    simp only [List.filter_cons]
    by_cases h1 : y1 = k
    · subst h1
      simp only [beq_self_eq_true, ↓reduceIte, List.map_cons, List.count_cons, ih]
      by_cases h2 : y1 = n
      · subst h2
        by_cases h3 : y2 = b
        · simp [h3]
        · simp [h3]
      · simp [h2]
    · have hb : (y1 == k) = false := by simp [h1]
      simp only [hb, Bool.false_eq_true, ↓reduceIte, ih, List.count_cons]
      by_cases h2 : k = n
      · subst h2
        have : ((y1, y2) == (k, b)) = false := by simp [h1]
        simp [this]
      · simp [h2]

theorem count_row (right : List (Nat × String)) (k n : Nat) (x : Option String) :
    List.count (n, x) (orAlone k ((right.filter (fun x => x.1 == k)).map (fun x => (k, some x.2)))) =
    if k = n then
      (match x with
        | some b => right.count (n, b)
        | none => if n ∈ right.map Prod.fst then 0 else 1)
    else 0 := by
  have hm : ∀ z ∈ (right.filter (fun x => x.1 == k)).map (fun x => (k, some x.2)), ∃ b, (k, b) ∈ right ∧
      z = (k, some b) := by
    intro z hz
    simp only [List.mem_map, List.mem_filter, beq_iff_eq] at hz
    obtain ⟨y, ⟨h1, h2⟩, rfl⟩ := hz
    obtain ⟨y1, y2⟩ := y
    simp only at h2
    subst h2
    exact ⟨y2, h1, rfl⟩
  unfold orAlone
  split
  · rename_i he
    have hno : ∀ b, (k, b) ∉ right := by
      intro b hb
      have : (k, some b) ∈ (right.filter (fun x => x.1 == k)).map (fun x => (k, some x.2)) :=
        List.mem_map.mpr ⟨(k, b), List.mem_filter.mpr ⟨hb, by simp⟩, rfl⟩
      rw [he] at this
      simp at this
    by_cases hk : k = n
    · subst hk
      cases x with
      | none =>
        have : k ∉ right.map Prod.fst := by
          intro h
          obtain ⟨⟨a, b⟩, h1, h2⟩ := List.mem_map.mp h
          simp only at h2
          subst h2
          exact hno b h1
        simp only [this, ↓reduceIte]
        simp
      | some b => simp [List.count_eq_zero.mpr (hno b)]
    · have : ¬ ((k, (none : Option String)) = (n, x)) := by simp [hk]
      simp [hk, this]
  · rename_i rows hne
    cases x with
    | some b => exact count_matches k n b right
    | none =>
      have h0 : List.count (n, none) ((right.filter (fun x => x.1 == k)).map (fun x => (k, some x.2))) = 0 := by
        rw [List.count_eq_zero]
        intro hz
        obtain ⟨b, -, h⟩ := hm _ hz
        simp at h
      rw [h0]
      by_cases hk : k = n
      · subst hk
        have : k ∈ right.map Prod.fst := by
          cases hl : (right.filter (fun x => x.1 == k)).map (fun x => (k, some x.2)) with
          | nil => exact absurd hl (by simpa using hne)
          | cons z zs =>
            obtain ⟨b, hb, -⟩ := hm z (by rw [hl]; exact List.mem_cons_self ..)
            exact List.mem_map.mpr ⟨_, hb, rfl⟩
        simp only [this, ↓reduceIte]
      · simp [hk]

theorem count_join (right : List (Nat × String)) (n : Nat) (x : Option String) :
    ∀ left : List Nat, (leftOuterJoin left right).count (n, x) = left.count n *
      (match x with
        | some b => right.count (n, b)
        | none => if n ∈ right.map Prod.fst then 0 else 1)
  | [] => by simp [leftOuterJoin]
  | k :: left => by
    have ih := count_join right n x left
    simp only [leftOuterJoin, List.flatMap_cons, List.count_append] at ih ⊢
    rw [ih, List.count_cons, Nat.add_mul, Nat.add_comm]
    congr 1
    refine (count_row right k n x).trans ?_
    by_cases hk : k = n
    · subst hk; simp
    · simp [hk]

theorem count_refs {refs : AMap String Ref} (hk : (AMap.keys refs).Nodup) (n : Nat) (name : String) :
    (refs.map (fun x => (x.2.id, x.1))).count (n, name) =
      if (refs.get? name).map (·.id) = some n then 1 else 0 := by
  have hnd : (refs.map (fun x => (x.2.id, x.1))).Nodup := by
    rw [List.nodup_iff_pairwise_ne] at hk ⊢
    unfold AMap.keys at hk
    rw [List.pairwise_map] at hk ⊢
    exact hk.imp (fun h he => h (by simp only [Prod.mk.injEq] at he; exact he.2))
  rw [hnd.count]
  congr 1
  apply propext
  simp only [List.mem_map, Prod.mk.injEq, Prod.exists]
  constructor
  · rintro ⟨a, r, h1, h2, rfl⟩
    rw [AMap.get?_of_mem hk h1]
    simp [h2]
  · intro h
    cases hr : refs.get? name with
    | none => rw [hr] at h; cases h
    | some r =>
      rw [hr] at h
      simp only [Option.map_some, Option.some.injEq] at h
      exact ⟨name, r, AMap.mem_of_get? hr, h, rfl⟩

/-- C48: in every reachable state, whatever the sort, the listing has for each
snapshot `n` one row per tag or branch pointing to it, one nameless row if there is
none, and no other rows. -/
theorem C48 {E : Env} {s : Schema} (hn : s.names.Nodup) {σ : Sys} (h1 : Reach E s anyStep σ)
    {md : Metadata} (hmd : σ.w.stored = some md ∨ ∃ sl ∈ σ.slots, sl.h.md = md)
    {sort : List (Nat × Option String) → List (Nat × Option String)} (hsort : ∀ l, (sort l).Perm l)
    (n : Nat) :
    (∀ name, (md.versions sort).count (n, some name) =
        if (md.snaps.get? n).isSome ∧ (md.refs.get? name).map (·.id) = some n then 1 else 0) ∧
      (md.versions sort).count (n, none) ≤ 1 ∧
      ((md.versions sort).count (n, none) = 1 ↔
        (md.snaps.get? n).isSome ∧ ¬ ∃ name, (md.refs.get? name).map (·.id) = some n) := by
  obtain ⟨md0, hok⟩ := reach_ok hn h1
  have hmdok : MdOK σ.w.fs md := by
    rcases hmd with h | ⟨sl, h, rfl⟩
    · rw [stored_of hok h]; exact hok.wok.ok
    · exact (hok.slot h).ok
  have hsnap : (AMap.keys md.snaps).count n = if (md.snaps.get? n).isSome then 1 else 0 := by
    rw [hmdok.snapKeys.count]
    congr 1
    apply propext
    rw [AMap.mem_keys_iff, Option.isSome_iff_exists]
  have hex : n ∈ (md.refs.map (fun x => (x.2.id, x.1))).map Prod.fst ↔
      ∃ name, (md.refs.get? name).map (·.id) = some n := by
    constructor
    · intro hb
      obtain ⟨⟨a, b⟩, h2, rfl⟩ := List.mem_map.mp hb
      obtain ⟨x, h3, h4⟩ := List.mem_map.mp h2
      simp only [Prod.mk.injEq] at h4
      refine ⟨b, ?_⟩
      rw [AMap.get?_of_mem (v := x.2) hmdok.refKeys (by rw [← h4.2]; exact h3)]
      simp [h4.1]
    · rintro ⟨name, h⟩
      cases hr : md.refs.get? name with
      | none => rw [hr] at h; cases h
      | some r =>
        rw [hr] at h
        simp only [Option.map_some, Option.some.injEq] at h
        exact List.mem_map.mpr ⟨(n, name), List.mem_map.mpr ⟨(name, r), AMap.mem_of_get? hr, by simp [h]⟩, rfl⟩
  unfold Metadata.versions
  refine ⟨?_, ?_⟩
  · intro name
    rw [(hsort _).count_eq, count_join, hsnap]
    simp only [count_refs hmdok.refKeys]
    by_cases a : (md.snaps.get? n).isSome <;> by_cases b : (md.refs.get? name).map (·.id) = some n <;>
      simp [a, b]
  · rw [(hsort _).count_eq, count_join, hsnap, ← hex]
    by_cases a : (md.snaps.get? n).isSome <;>
      by_cases b : n ∈ (md.refs.map (fun x => (x.2.id, x.1))).map Prod.fst <;>
      simp only [a, b, ↓reduceIte] <;> simp

/-- A storage with a tag and a branch on one snapshot and a snapshot without names. -/
example : ((after env anyB schema onBranch).w.stored.map (Metadata.versions id)) =
    some [(0, none), (1, some "t"), (1, some "b")] := by decide +kernel

end Space
