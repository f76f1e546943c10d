import Verif.Props.Refs

/-!
# C73: a version can be named by its id, its tags and its branches alike

Names are resolved by the stored metadata: every read and diff reloads first.
-/

set_option autoImplicit false

namespace Space

open Demo

/-- The stored metadata lists `name` as a tag or branch of snapshot `n`. -/
def Names (σ : Sys) (name : String) (n : Nat) : Prop :=
  ∃ md, σ.w.stored = some md ∧ (n, some name) ∈ md.versions id

/-- The same handle, on another branch. -/
def Handle.on (h : Handle) (branch : String) : Handle := { h with branch := branch }

theorem HandleOK.on {s : Schema} {w : World} {h : Handle} (hh : HandleOK s w h) (b : String) :
    HandleOK s w (h.on b) := { hh with }

theorem listed_ref {md : Metadata} {fs : FS} (hok : MdOK fs md) {name : String} {n : Nat}
    (h : (n, some name) ∈ md.versions id) : md.versionId (.name name) = .ok n := by
  unfold Metadata.versions leftOuterJoin at h
  simp only [id_eq, List.mem_flatMap] at h
  obtain ⟨k, -, h⟩ := h
  unfold orAlone at h
  split at h
  · simp only [List.mem_singleton, Prod.mk.injEq, reduceCtorEq, and_false] at h
  · simp only [List.mem_map, List.mem_filter, Prod.mk.injEq, Option.some.injEq] at h
    obtain ⟨x, ⟨⟨y, hy, hyx⟩, hk⟩, rfl, rfl⟩ := h
    subst hyx
    simp only [beq_iff_eq] at hk
    simp [Metadata.versionId, Metadata.lookupRef, AMap.get?_of_mem hok.refKeys hy, Except.map, hk]

/-- C73, all but `main`: in every reachable state, if a snapshot is listed under a name, then every
handle gives the same for the name as for the id, in reads and in diffs, and the snapshot is there.
If the name is that of a branch, the handle gives the same for it as when it is on the branch.
Missing: the branch `main` has no name (`C73_violated`, `C73_main`). -/
theorem C73_partial {E : Env} {s : Schema} (hn : s.names.Nodup) {σ : Sys} (h1 : Reach E s anyStep σ)
    {sl : Slot} (hs : sl ∈ σ.slots) {name : String} {n : Nat} (hname : Names σ name n) :
    (∀ o, tableRead E sl.h σ.w o (some (.name name)) = tableRead E sl.h σ.w o (some (.id n))) ∧
      (∀ o, tableRead E sl.h σ.w o (some (.name name)) = tableRead E (sl.h.on name) σ.w o none) ∧
      (∀ batch v, tableDiff E sl.h σ.w batch (.name name) v = tableDiff E sl.h σ.w batch (.id n) v ∧
        tableDiff E sl.h σ.w batch v (.name name) = tableDiff E sl.h σ.w batch v (.id n)) ∧
      ∃ md, σ.w.stored = some md ∧ (md.snaps.get? n).isSome := by
  obtain ⟨md, hok⟩ := reach_ok hn h1
  have hh := hok.slot hs
  obtain ⟨md', hst, hl⟩ := hname
  rw [stored_of hok hst] at hl
  have hv := listed_ref hok.wok.ok hl
  have hmain : name ≠ mainBranch := by
    rintro rfl
    simp [Metadata.versionId, Metadata.lookupRef, hok.wok.ok.noMain, Except.map] at hv
  refine ⟨fun o => ?_, fun o => ?_, fun batch v => ?_, md, hok.wok.storedEq, ?_⟩
  · rw [tableRead_target hok.wok hh, tableRead_target hok.wok hh]
    have hid : md.versionId (.id n) = .ok n := rfl
    simp only [Metadata.target, hv, hid]
  · rw [tableRead_target hok.wok hh, tableRead_target hok.wok (hh.on name)]
    have hc : md.currentId name = .ok n := by
      unfold Metadata.currentId
      rw [if_neg hmain]
      exact hv
    simp only [Metadata.target, hv, Handle.on, hc]
  · obtain ⟨b, h', e1, e2, -⟩ := reload_eq hok.wok hh
    have hid : md.versionId (.id n) = .ok n := rfl
    unfold tableDiff
    rw [e1]
    simp only [diffHandle, e2, hv, hid]
    trivial
  · simp only [Metadata.versionId, Metadata.lookupRef] at hv
    cases hr : md.refs.get? name with
    | none => rw [hr] at hv; cases hv
    | some r =>
      rw [hr] at hv
      simp only [Except.map, Except.ok.injEq] at hv
      rw [← hv]
      exact hok.wok.ok.refs _ _ hr

/-- The listed name `t` of snapshot 1, in a storage whose head is elsewhere. -/
example : Names (after env anyB schema onBranch) "t" 1 ∧ Names (after env anyB schema onBranch) "b" 1 :=
  ⟨⟨_, rfl, by decide +kernel⟩, ⟨_, rfl, by decide +kernel⟩⟩

/-- The branch `main` is never listed, and no read and no diff finds it by its name. -/
theorem C73_main {E : Env} {s : Schema} (hn : s.names.Nodup) {σ : Sys} (h1 : Reach E s anyStep σ)
    {sl : Slot} (hs : sl ∈ σ.slots) :
    (∀ n, ¬ Names σ "main" n) ∧ (∀ o, tableRead E sl.h σ.w o (some (.name "main")) = .error .versionNotFound) ∧
      ∀ batch v, tableDiff E sl.h σ.w batch (.name "main") v = .error .versionNotFound := by
  obtain ⟨md, hok⟩ := reach_ok hn h1
  have hh := hok.slot hs
  have hv : md.versionId (.name "main") = .error .versionNotFound := by
    have := hok.wok.ok.noMain
    unfold mainBranch at this
    simp [Metadata.versionId, Metadata.lookupRef, this, Except.map]
  refine ⟨?_, fun o => ?_, fun batch v => ?_⟩
  · rintro n ⟨md', hst, hl⟩
    rw [stored_of hok hst] at hl
    have := listed_ref hok.wok.ok hl
    rw [hv] at this
    cases this
  · rw [tableRead_target hok.wok hh]
    simp only [Metadata.target, hv]
  · obtain ⟨b, h', e1, e2, -⟩ := reload_eq hok.wok hh
    unfold tableDiff
    rw [e1]
    simp only [diffHandle, e2, hv]

/-- C73 is false for `main`: one can be on it, but not name it. -/
theorem C73_violated : ∃ (σ : Sys) (sl : Slot), Reach env schema anyStep σ ∧ sl ∈ σ.slots ∧
    tableRead env (sl.h.on "main") σ.w {} none = .ok [row 1 "x" [1]] ∧
    tableRead env sl.h σ.w {} (some (.name "main")) = .error .versionNotFound := by
  have hr : Reach env schema anyStep (after env anyB schema onBranch) := after_reach (fun _ _ _ => trivial) _
  obtain ⟨sl, h1, h2⟩ := slot_of (x := true) (show (after env anyB schema onBranch).slots[0]?.map
    (fun sl => decide (tableRead env (sl.h.on "main") (after env anyB schema onBranch).w {} none
      = .ok [row 1 "x" [1]])) = some true by decide +kernel)
  exact ⟨_, sl, hr, List.mem_of_getElem? h1, by simpa using h2.2, (C73_main (by decide) hr (List.mem_of_getElem? h1)).2.1 _⟩

end Space
