import Verif.Distinct
import Verif.JoinLemmas
import Verif.Props.Stats
import Verif.Props.Loads
import Verif.Props.RayDelete
import Verif.Props.Serial

/-!
# C63: no two rows of a version share a stored record
-/

set_option autoImplicit false

namespace Space

open Demo

/-- Calm steps in which a Ray delete that takes effect finds no manifest with two files that have
both rows to delete and rows to keep, and a load of record files is given no file twice and none
that the version uses. -/
def single (E : Env) (s : Schema) (σ : Sys) (ev : Event) : Prop :=
  calm σ ev ∧ ∀ i m sl cur, Lands σ ev i m → σ.slots[i]? = some sl → headOf sl.h σ.w = some cur →
    m.Single E.I s σ.w.fs cur

/-- C63 for calm histories without Ray deletes that rewrite two files of one manifest and without
loads of a record file that is in use: in every version ever stored, no two rows hold the same
address in a record column.  Missing: such Ray deletes and such loads
(`C63_violated_delete`, `C63_violated_load`). -/
theorem C63_partial {E : Env} {s : Schema} (hn : s.names.Nodup) {σ : Sys} (h : Reach E s (single E s) σ)
    {md : Metadata} (hmd : σ.w.stored = some md) {n : Nat} {snap : Snapshot} (hsn : md.snaps.get? n = some snap) :
    ∀ c ∈ s.recNames, ((physRows σ.w.fs snap.index).map (·.val c)).Nodup :=
  snaps_invariant (E := E) hn (P := single E s) (fun h => h.1)
    (Good := fun fs snap => Unshared s (physRows fs snap.index))
    (fun {fs fs' snap} hf hok hg => by rw [physRows_mono hf hok.manifests]; exact hg)
    (fun fs c _ => by simp [physRows])
    (fun hp hlands hl hcur => hl.succ.unshared hn (hp.2 _ _ _ _ hlands hl.slot hl.succ.head) hcur)
    h hmd hsn

/-- The rows of a reference read. -/
theorem tableRead_refs {E : Env} {s : Schema} {w : World} {md : Metadata} {h : Handle}
    (hw : WOK s w md) (hh : HandleOK s w h) {fields : List String} (hc : ∀ c ∈ fields, c ∈ s.names) (v : Option Version) :
    tableRead E h w { fields := some fields, refRead := true } v =
      match md.target h.branch v with
      | .error e => .error e
      | .ok snap => .ok ((physRows w.fs snap.index).map (·.select fields)) := by
  rw [tableRead_target hw hh]
  cases ht : md.target h.branch v with
  | error e => rfl
  | ok snap =>
    have hok := (target_ok hw ht).1
    obtain ⟨bs, h1, h2⟩ := readSnap_out (E := E) (o := { fields := some fields, refRead := true }) hok
      (mf := none) rfl hc
    simp only [h1, Except.map, rowsOf_flatten, h2, Except.ok.injEq]
    rw [keptRowsOf_safe (filter := none) hok.manifests trivial rfl]
    rfl

/-- C63 as the user sees it: a reference read of any version of any table gives every address of a
record column once.  Missing: as in `C63_partial`. -/
theorem C63_read_partial {E : Env} {s : Schema} (hn : s.names.Nodup) {σ : Sys} {sl : Slot}
    (h : Reach E s (single E s) σ) (hsl : sl ∈ σ.slots) {fields : List String} (hc : ∀ c ∈ fields, c ∈ s.names)
    (v : Option Version) {rows : List Row}
    (hr : tableRead E sl.h σ.w { fields := some fields, refRead := true } v = .ok rows) :
    ∀ c ∈ fields, c ∈ s.recs → (rows.map (·.val c)).Nodup := by
  obtain ⟨md, hok⟩ := reach_ok hn h
  rw [tableRead_refs hok.wok (hok.slots sl hsl).1 hc] at hr
  intro c hcf hcr
  cases ht : md.target sl.h.branch v with
  | error e => rw [ht] at hr; cases hr
  | ok snap =>
    rw [ht] at hr
    cases hr
    obtain ⟨n, hsn⟩ : ∃ n, md.snaps.get? n = some snap := by
      have := (target_ok hok.wok ht).2
      exact this
    have := C63_partial hn h hok.wok.storedEq hsn c ?_
    · rw [List.map_map]
      rwa [show ((fun r : Row => r.val c) ∘ fun r : Row => r.select fields) = fun r => r.val c from
        funext fun r => select_val hcf]
    · obtain ⟨f, hf, rfl⟩ := List.mem_map.mp (hc c hcf)
      exact List.mem_map_of_mem (List.mem_filter.mpr ⟨hf, by simpa [Schema.isRec] using hcr⟩)

theorem RaySafe.mixedOnce {truth : Row → Option Bool} {lay : List (List (List Row))} (h : RaySafe truth lay) :
    MixedOnce truth lay := by
  rintro man hman pre file post hsplit hm other ho ⟨⟨r, hr, hnf⟩, -⟩
  exact hnf ((h man hman pre file post hsplit hm.1).1 other ho r hr)

/-- Decides `single`, for histories without user record files. -/
def Demo.singleB (E : Env) (σ : Sys) (ev : Event) : Bool :=
  calmB σ ev && landsB (fun sl m => match m with
    | .rayDelete e => e.cols.all (fun c => !schema.recs.contains c) && raySafeB (e.truth E.I) (headLayout schema sl.h σ.w)
    | .appendArrayRecord _ _ => false
    | _ => true) σ ev

theorem Demo.singleB_single {E : Env} (σ : Sys) (ev : Event) (h : singleB E σ ev = true) : single E schema σ ev := by
  simp only [singleB, Bool.and_eq_true] at h
  refine ⟨calmB_calm _ _ h.1, fun i m sl cur hl hsl hcur => ?_⟩
  have := landsB_lands h.2 hl hsl
  cases m with
  | rayDelete e =>
    simp only [Bool.and_eq_true, List.all_eq_true, Bool.not_eq_true', List.contains_eq_mem, decide_eq_false_iff_not] at this
    refine ⟨this.1, RaySafe.mixedOnce ?_⟩
    have h2 := raySafeB_safe this.2
    unfold headLayout at h2
    rwa [hcur] at h2
  | appendArrayRecord fn files => cases this
  | _ => trivial

/-- A reference read of the record column. -/
def Demo.imgRefs : ReadOpts := { fields := some ["img"], refRead := true }

/-- Rows of such a read. -/
def Demo.ref (p : Path) (i : Nat) : Row := [("img", .addr p i)]

/-- Appends, an upsert by Ray actors and a Ray delete: four rows of two record files. -/
example : ∃ σ sl, Reach env schema (single env schema) σ ∧ sl ∈ σ.slots ∧
    tableRead env sl.h σ.w imgRefs none =
      .ok [ref (.record "img" 2) 0, ref (.record "img" 2) 2, ref (.record "img" 2) 3, ref (.record "img" 10) 0] := by
  let σ := after env (singleB env) schema [.call 0 (.mutate (.append [[row 1 "a" [1]],
      [row 2 "b" [2], row 3 "c" [3], row 4 "d" [4]]])),
    .call 0 (.mutate (.rayInsert .upsert 2 [] [row 2 "B" [7], row 5 "e" [5]])),
    .call 0 (.mutate (.append [[row 9 "i" [9]]])), .call 0 (.mutate (.rayDelete (idIs "gt" 4)))]
  obtain ⟨sl, -, h1, h2⟩ := slot_of (σ := σ) (i := 0) (f := fun sl => tableRead env sl.h σ.w imgRefs none)
    (x := .ok [ref (.record "img" 2) 0, ref (.record "img" 2) 2, ref (.record "img" 2) 3, ref (.record "img" 10) 0])
    (by decide +kernel)
  exact ⟨σ, sl, after_reach singleB_single _, h1, h2⟩

/-- **C63 is violated** by a Ray delete that rewrites two files of one manifest: rows that come
back twice hold the same address. -/
theorem C63_violated_delete : ∃ (σ : Sys) (sl : Slot) (rows : List Row), Reach env schema calm σ ∧ sl ∈ σ.slots ∧
    tableRead env sl.h σ.w imgRefs none = .ok rows ∧ ¬ (rows.map (·.val "img")).Nodup := by
  let σ := after env calmB schema [.call 0 (.mutate (.append [[row 1 "a" [1], row 2 "b" [2], row 3 "c" [3], row 4 "d" [4]],
    [row 5 "e" [5], row 6 "f" [6]]])), .call 0 (.mutate (.rayDelete (idIn 3 6)))]
  let rows := [ref (.record "img" 4) 0, ref (.record "img" 4) 1, ref (.record "img" 2) 0, ref (.record "img" 2) 1,
    ref (.record "img" 2) 2, ref (.record "img" 2) 0, ref (.record "img" 2) 1, ref (.record "img" 2) 2,
    ref (.record "img" 2) 3, ref (.record "img" 4) 1]
  obtain ⟨sl, -, h1, h2⟩ := slot_of (σ := σ) (i := 0) (f := fun sl => tableRead env sl.h σ.w imgRefs none)
    (x := .ok rows) (by decide +kernel)
  exact ⟨σ, sl, rows, after_reach calmB_calm _, h1, h2, by decide⟩

/-- **C63 is violated** by a load that is given a record file twice. -/
theorem C63_violated_load : ∃ (σ : Sys) (sl : Slot) (rows : List Row), Reach env schema calm σ ∧ sl ∈ σ.slots ∧
    tableRead env sl.h σ.w imgRefs none = .ok rows ∧ ¬ (rows.map (·.val "img")).Nodup := by
  let σ0 := after env calmB schema [.call 0 (.mutate (.append [[row 1 "a" [1]]]))]
  let σ := placed σ0 "/in/a.array_record" (.records [[2], [3]])
  let c : Call := .mutate (.appendArrayRecord indexer [.external "/in/a.array_record", .external "/in/a.array_record"])
  let rows := [ref (.record "img" 2) 0, ref (.external "/in/a.array_record") 0, ref (.external "/in/a.array_record") 1,
    ref (.external "/in/a.array_record") 0, ref (.external "/in/a.array_record") 1]
  obtain ⟨sl, -, h1, h2⟩ := slot_of (σ := calling env σ 0 c) (i := 0)
    (f := fun sl => tableRead env sl.h (calling env σ 0 c).w imgRefs none) (x := .ok rows) (by decide +kernel)
  refine ⟨calling env σ 0 c, sl, rows, ?_, h1, h2, by decide⟩
  have h3 : Reach env schema calm σ :=
    (after_reach (E := env) (s := schema) calmB_calm [.call 0 (.mutate (.append [[row 1 "a" [1]]]))]).step
      (ev := .external (.external "/in/a.array_record"))
      ⟨⟨trivial, trivial⟩, fun j b r h => by rcases h with h | h <;> cases h⟩
      (.external (w := σ0.w) (slots := σ0.slots) (c := .records [[2], [3]]) (by decide +kernel))
  refine h3.step (ev := .call 0 (.mutate (.appendArrayRecord indexer
      [.external "/in/a.array_record", .external "/in/a.array_record"])) (.job .succeeded))
    ⟨⟨trivial, fun h => by cases h⟩, fun j b r h => by rcases h with h | h <;> cases h⟩
    (calling_step ?_ (by decide +kernel))
  exact trivial

end Space
