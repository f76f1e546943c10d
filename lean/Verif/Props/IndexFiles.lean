import Verif.Listed
import Verif.Props.Distinct

/-!
# C84: the files of a version
-/

set_option autoImplicit false

namespace Space

open Demo

/-- The files that `index_files` names are those the manifests of the addressed snapshot list. -/
theorem indexFiles_target {s : Schema} {w : World} {h : Handle} (hh : HandleOK s w h) (v : Option Version) :
    indexFiles h w v =
      match h.md.target h.branch v with
      | .error e => .error e
      | .ok snap => .ok (listedFiles w.fs snap.index) := by
  have one : ∀ n snap, h.md.snapshot n = .ok snap →
      (collectFiles w.fs none snap.index 1).map (fun fset => fset.files.map (·.path)) =
        .ok (listedFiles w.fs snap.index) := by
    intro n snap hs
    unfold Metadata.snapshot at hs
    cases hg : h.md.snaps.get? n with
    | none => rw [hg] at hs; cases hs
    | some sn =>
      rw [hg] at hs
      cases hs
      rw [collectFiles_eq snap.index 1 fun p hp => by
        obtain ⟨rows, h1, _⟩ := (hh.ok.snaps n snap hg).manifests p hp
        simp [h1]]
      simp only [Except.map, Except.ok.injEq, listedFiles, List.map_eq_flatMap, List.flatMap_assoc]
      rw [packFiles_flatMap _ (fun m => [m.file]) (fun _ _ => rfl)]
      rw [flatMap_filter_nil _ _ (by
        intro p hp
        have : keptEntries w.fs none p = [] := by simpa using hp
        rw [this]; rfl)]
      refine flatMap_congr' fun p _ => ?_
      rw [show keptEntries w.fs none p = entriesOf w.fs p from List.filter_eq_self.mpr fun _ _ => rfl]
  unfold indexFiles Metadata.target dataFiles Handle.snapshot
  cases v with
  | none =>
    simp only
    cases h.md.currentId h.branch with
    | error e => rfl
    | ok n =>
      simp only
      cases hs : h.md.snapshot n with
      | error e => rfl
      | ok snap => exact one n snap hs
  | some v =>
    simp only
    cases h.md.versionId v with
    | error e => rfl
    | ok n =>
      simp only
      cases hs : h.md.snapshot n with
      | error e => rfl
      | ok snap => exact one n snap hs

/-- What the files of a list hold: their rows in order, with references to records resolved. -/
def filesRows (fs : FS) (s : Schema) (files : List Path) : List Row :=
  files.flatMap fun f => (((fs.parquet f).getD []).flatten.map (deref fs.records s)).map (·.select s.writeNames)

theorem filesRows_listed (fs : FS) (s : Schema) (snap : Snapshot) :
    filesRows fs s (listedFiles fs snap.index) = (snapRows fs s snap).map (·.select s.writeNames) := by
  simp only [filesRows, listedFiles, snapRows, physRows, List.flatMap_map, List.map_flatMap, List.flatMap_assoc]
  rfl

/-- C84, first part: whatever happened, a handle that has loaded what is stored names for every
version the files whose rows a read of that version returns, and fails where the read fails.
Missing: handles that are not up to date (`C84_violated_stale`). -/
theorem C84_rows_partial {E : Env} {s : Schema} (hn : s.names.Nodup) {σ : Sys} {sl : Slot}
    (h : Reach E s anyStep σ) (hsl : sl ∈ σ.slots) (hcur : σ.w.stored = some sl.h.md) (v : Option Version) :
    tableRead E sl.h σ.w {} v = (indexFiles sl.h σ.w v).map (filesRows σ.w.fs s) := by
  obtain ⟨md, hok⟩ := reach_ok hn h
  have hmd := hok.wok.storedEq
  rw [hcur] at hmd
  cases hmd
  have hh := (hok.slots sl hsl).1
  rw [tableRead_full hok.wok hh, indexFiles_target hh]
  cases sl.h.md.target sl.h.branch v with
  | error e => rfl
  | ok snap => simp only [Except.map, filesRows_listed]

theorem target_snap {md : Metadata} {b : String} {v : Option Version} {snap : Snapshot}
    (ht : md.target b v = .ok snap) : ∃ n, md.snaps.get? n = some snap := by
  have key : ∀ n, md.snapshot n = .ok snap → ∃ n, md.snaps.get? n = some snap := by
    intro n hn
    unfold Metadata.snapshot at hn
    cases hg : md.snaps.get? n with
    | none => rw [hg] at hn; cases hn
    | some sn =>
      rw [hg] at hn
      cases hn
      exact ⟨n, hg⟩
  unfold Metadata.target at ht
  split at ht <;> split at ht
  · cases ht
  · exact key _ ht
  · cases ht
  · exact key _ ht

/-- For any handle, also one that is not up to date: the files named are those whose rows a read without reloading
returns. -/
theorem C84_loaded {E : Env} {s : Schema} (hn : s.names.Nodup) {σ : Sys} {sl : Slot}
    (h : Reach E s anyStep σ) (hsl : sl ∈ σ.slots) (v : Option Version) :
    readAll E σ.w.fs sl.h {} v = (indexFiles sl.h σ.w v).map (filesRows σ.w.fs s) := by
  obtain ⟨md, hok⟩ := reach_ok hn h
  have hh := (hok.slots sl hsl).1
  unfold readAll
  rw [readHandle_target, indexFiles_target hh]
  cases ht : sl.h.md.target sl.h.branch v with
  | error e => rfl
  | ok snap =>
    obtain ⟨n, hsn⟩ := target_snap ht
    have := readSnap_full (E := E) (hh.schema ▸ hh.ok.snaps n snap hsn)
    simp only [Except.map, filesRows_listed, hh.schema]
    exact this

/-- Calm steps in which a Ray delete that takes effect finds no manifest with two files that have
both rows to delete and rows to keep, and `append_parquet` is given no file twice and none
that the version lists. -/
def listsOnce (E : Env) (s : Schema) (σ : Sys) (ev : Event) : Prop :=
  calm σ ev ∧ ∀ i m sl cur, Lands σ ev i m → σ.slots[i]? = some sl → headOf sl.h σ.w = some cur →
    m.ListsOnce E.I s σ.w.fs cur

/-- No version ever stored lists a file twice. -/
theorem snaps_listed {E : Env} {s : Schema} (hn : s.names.Nodup) {σ : Sys} (h : Reach E s (listsOnce E s) σ)
    {md : Metadata} (hmd : σ.w.stored = some md) {n : Nat} {snap : Snapshot} (hsn : md.snaps.get? n = some snap) :
    (listedFiles σ.w.fs snap.index).Nodup :=
  snaps_invariant (E := E) hn (P := listsOnce E s) (fun h => h.1)
    (Good := fun fs snap => (listedFiles fs snap.index).Nodup)
    (fun {fs fs' snap} hf hok hg => by
      unfold listedFiles at hg ⊢
      rwa [flatMap_congr' fun q hq => entriesOf_mono hf (hok.manifests q hq)])
    (fun fs => by simp [listedFiles])
    (fun hp hlands hl hcur => hl.succ.listed hn (hp.2 _ _ _ _ hlands hl.slot hl.succ.head) hcur)
    h hmd hsn

/-- C84, second part, for calm histories without Ray deletes that rewrite two files of one manifest
and without loads of a file that is in use: no file is named twice.  Missing: such Ray deletes and such
loads (`C84_violated_delete`, `C84_violated_load`), and handles that are not up to date. -/
theorem C84_partial {E : Env} {s : Schema} (hn : s.names.Nodup) {σ : Sys} {sl : Slot}
    (h : Reach E s (listsOnce E s) σ) (hsl : sl ∈ σ.slots) (hcur : σ.w.stored = some sl.h.md)
    {v : Option Version} {files : List Path} (hf : indexFiles sl.h σ.w v = .ok files) : files.Nodup := by
  obtain ⟨md, hok⟩ := reach_ok hn h
  have hmd := hok.wok.storedEq
  rw [hcur] at hmd
  cases hmd
  rw [indexFiles_target (hok.slots sl hsl).1] at hf
  cases ht : sl.h.md.target sl.h.branch v with
  | error e => rw [ht] at hf; cases hf
  | ok snap =>
    rw [ht] at hf
    cases hf
    obtain ⟨n, hsn⟩ := (target_ok hok.wok ht).2
    exact snaps_listed hn h hcur hsn

/-- Decides `listsOnce`, for histories without loads of user files. -/
def Demo.listsB (E : Env) (σ : Sys) (ev : Event) : Bool :=
  calmB σ ev && landsB (fun sl m => match m with
    | .rayDelete e => e.cols.all (fun c => !schema.recs.contains c) && raySafeB (e.truth E.I) (headLayout schema sl.h σ.w)
    | .appendParquet _ => false
    | _ => true) σ ev

theorem Demo.listsB_lists {E : Env} (σ : Sys) (ev : Event) (h : listsB E σ ev = true) : listsOnce E schema σ ev := by
  simp only [listsB, Bool.and_eq_true] at h
  refine ⟨calmB_calm _ _ h.1, fun i m sl cur hl hsl hcur => ?_⟩
  have := landsB_lands h.2 hl hsl
  cases m with
  | rayDelete e =>
    simp only [Bool.and_eq_true, List.all_eq_true, Bool.not_eq_true', List.contains_eq_mem, decide_eq_false_iff_not] at this
    refine ⟨this.1, RaySafe.mixedOnce ?_⟩
    have h2 := raySafeB_safe this.2
    unfold headLayout at h2
    rwa [hcur] at h2
  | appendParquet files => cases this
  | _ => trivial

/-- Appends, an upsert by Ray actors and a Ray delete: two files of two manifests are left, and the
versions before can still be asked for theirs. -/
example : ∃ σ sl, Reach env schema (listsOnce env schema) σ ∧ sl ∈ σ.slots ∧ σ.w.stored = some sl.h.md ∧
    indexFiles sl.h σ.w none = .ok [.index 7, .index 9] ∧
    indexFiles sl.h σ.w (some (.id 3)) = .ok [.index 7, .index 9, .index 11, .index 19] ∧
    indexFiles sl.h σ.w (some (.id 1)) = .ok [.index 1] := by
  let σ := after env (listsB env) schema [.call 0 (.mutate (.append [[row 1 "a" [1]],
      [row 2 "b" [2], row 3 "c" [3], row 4 "d" [4]]])),
    .call 0 (.mutate (.rayInsert .upsert 2 [] [row 2 "B" [7], row 5 "e" [5]])),
    .call 0 (.mutate (.append [[row 9 "i" [9]]])), .call 0 (.mutate (.rayDelete (idIs "gt" 4)))]
  obtain ⟨sl, -, h1, h2⟩ := slot_of (σ := σ) (i := 0)
    (f := fun sl => (decide (σ.w.stored = some sl.h.md),
      [indexFiles sl.h σ.w none, indexFiles sl.h σ.w (some (.id 3)), indexFiles sl.h σ.w (some (.id 1))]))
    (x := (true, [.ok [.index 7, .index 9], .ok [.index 7, .index 9, .index 11, .index 19], .ok [.index 1]]))
    (by decide +kernel)
  simp only [Prod.mk.injEq, decide_eq_true_eq, List.cons.injEq, and_true] at h2
  exact ⟨σ, sl, after_reach listsB_lists _, h1, h2⟩

/-- **C84 is violated** by a handle that is not up to date: after another handle has appended,
`index_files` names no file, and a read through the same handle returns the row appended. -/
theorem C84_violated_stale : ∃ (σ : Sys) (sl : Slot), Reach env schema calm σ ∧ sl ∈ σ.slots ∧
    indexFiles sl.h σ.w none = .ok [] ∧ tableRead env sl.h σ.w {} none = .ok [row 1 "a" [1]] := by
  let σ := after env calmB schema [.load, .call 0 (.mutate (.append [[row 1 "a" [1]]]))]
  obtain ⟨sl, -, h1, h2⟩ := slot_of (σ := σ) (i := 1)
    (f := fun sl => decide (indexFiles sl.h σ.w none = .ok [] ∧ tableRead env sl.h σ.w {} none = .ok [row 1 "a" [1]]))
    (x := true) (by decide +kernel)
  exact ⟨σ, sl, after_reach calmB_calm _, h1, of_decide_eq_true h2⟩

/-- **C84 is violated** by a Ray delete that rewrites two files of one manifest: the third file of
the manifest is listed twice. -/
theorem C84_violated_delete : ∃ (σ : Sys) (sl : Slot) (files : List Path), Reach env schema calm σ ∧ sl ∈ σ.slots ∧
    σ.w.stored = some sl.h.md ∧ indexFiles sl.h σ.w none = .ok files ∧ ¬ files.Nodup := by
  let σ := after env calmB schema [.call 0 (.mutate (.append [[row 1 "a" [1], row 2 "b" [2], row 3 "c" [3], row 4 "d" [4]],
    [row 5 "e" [5], row 6 "f" [6], row 7 "g" [7], row 8 "h" [8]], [row 9 "i" [9]]])),
    .call 0 (.mutate (.rayDelete (idIn 3 6)))]
  obtain ⟨sl, -, h1, h2⟩ := slot_of (σ := σ) (i := 0)
    (f := fun sl => (decide (σ.w.stored = some sl.h.md), indexFiles sl.h σ.w none))
    (x := (true, .ok [.index 3, .index 5, .index 11, .index 1, .index 5, .index 13])) (by decide +kernel)
  simp only [Prod.mk.injEq, decide_eq_true_eq] at h2
  exact ⟨σ, sl, _, after_reach calmB_calm _, h1, h2.1, h2.2, by decide⟩

/-- **C84 is violated** by `append_parquet` of a file given twice. -/
theorem C84_violated_load : ∃ (σ : Sys) (sl : Slot) (files : List Path), Reach env plain calm σ ∧ sl ∈ σ.slots ∧
    σ.w.stored = some sl.h.md ∧ indexFiles sl.h σ.w none = .ok files ∧ ¬ files.Nodup := by
  let σ0 := after env calmB plain [.call 0 (.mutate (.append [[prow 1 "a"]]))]
  let σ := placed σ0 "/in/a.parquet" (.parquet [[prow 2 "b"]])
  let c : Call := .mutate (.appendParquet [.external "/in/a.parquet", .external "/in/a.parquet"])
  obtain ⟨sl, -, h1, h2⟩ := slot_of (σ := calling env σ 0 c) (i := 0)
    (f := fun sl => (decide ((calling env σ 0 c).w.stored = some sl.h.md), indexFiles sl.h (calling env σ 0 c).w none))
    (x := (true, .ok [.index 1, .external "/in/a.parquet", .external "/in/a.parquet"])) (by decide +kernel)
  simp only [Prod.mk.injEq, decide_eq_true_eq] at h2
  refine ⟨calling env σ 0 c, sl, _, ?_, h1, h2.1, h2.2, by decide⟩
  have h3 : Reach env plain calm σ :=
    (after_reach (E := env) (s := plain) calmB_calm [.call 0 (.mutate (.append [[prow 1 "a"]]))]).step
      (ev := .external (.external "/in/a.parquet"))
      ⟨⟨trivial, trivial⟩, fun j b r h => by rcases h with h | h <;> cases h⟩
      (.external (w := σ0.w) (slots := σ0.slots) (c := .parquet [[prow 2 "b"]]) (by decide +kernel))
  refine h3.step (ev := .call 0 (.mutate (.appendParquet
      [.external "/in/a.parquet", .external "/in/a.parquet"])) (.job .succeeded))
    ⟨⟨trivial, fun h => by cases h⟩, fun j b r h => by rcases h with h | h <;> cases h⟩
    (calling_step ?_ (by decide +kernel))
  intro p hp g hg
  have hp : p = .external "/in/a.parquet" := by simpa using hp
  subst hp
  have : σ.w.fs.parquet (.external "/in/a.parquet") = some [[prow 2 "b"]] := by decide +kernel
  rw [this] at hg
  cases hg
  decide

end Space
