import Verif.MVHistory
import Verif.Props.Views

/-!
# C26, C27: refreshing materialized views
-/

namespace Space
open List Demo

variable {E F : Env} {s sm : Schema} {X : Upstream} {g : Nat → Row → List Row}

/-- The snapshot `n` that a refresh to `target` ends at, if the object of the source has the
metadata `md`: the head of main, or the snapshot with this id, tag or branch, unless it is later. -/
def Ends (md : Metadata) : Option Version → Nat → Prop
  | none, n => n = md.current
  | some (.id v), n => n = v ∧ v ≤ md.current
  | some (.name t), n => (∃ r, md.refs.get? t = some r ∧ r.id = n) ∧ n ≤ md.current

theorem refreshEnd_ends {src : Handle} {target : Option Version} {n : Nat} :
    refreshEnd src target = .ok n ↔ Ends src.md target n := by
  match target with
  | none => exact ⟨fun h => (Except.ok.inj h).symm, fun h => congrArg Except.ok (Eq.symm h)⟩
  | some (.id v) =>
    simp only [refreshEnd, Metadata.versionId, Ends]
    split
    · refine ⟨(fun h => nomatch h), fun h => ?_⟩
      omega
    · exact ⟨fun h => by cases h; exact ⟨rfl, by omega⟩, fun h => by rw [h.1]⟩
  | some (.name t) =>
    simp only [refreshEnd, Metadata.versionId, Metadata.lookupRef, Ends]
    cases hr : src.md.refs.get? t with
    | none => simp [Except.map]
    | some r =>
      simp only [Except.map]
      split
      · refine ⟨(fun h => nomatch h), ?_⟩
        rintro ⟨⟨r', h1, h2⟩, h3⟩
        cases h1
        omega
      · refine ⟨fun h => by cases h; exact ⟨⟨r, rfl, rfl⟩, by omega⟩, ?_⟩
        rintro ⟨⟨r', h1, h2⟩, h3⟩
        cases h1
        rw [h2]

/-! ## C26 -/

/-- C26 for histories in which nothing disturbs refreshes (`InStep`, `Undisturbed`), and
for views that work row by row and keep keys: if a refresh raises nothing and reports no
FAILED, reading the materialized view gives the rows of the view on the version of the
source that was refreshed to.  Missing: see `C26_violated_skip`, `C26_violated_branch`,
`C26_violated_stale`, `C26_violated_keys`, `C26_violated_shift`; joins. -/
theorem C26_partial (hX : Refreshable X g s sm) (hk : KeySchema s) (hkm : KeySchema sm) {σ : Sys} {h : Handle} {w : World}
    (hr : MVReach E F X s sm σ h w) {md : Metadata} (hmd : σ.w.stored = some md) {sl : Slot} (hsl : sl ∈ σ.slots)
    {batch : Nat} {target : Option Version} {sched : Nat → List Nat} {at_ : List Nat} {done : List SyncDone}
    {h' : Handle} {w' : World} {last : Nat} (hlast : Ends sl.h.md target last)
    (hrun : refreshRun F X sl.h σ.w batch target sched at_ (h, w) = ((done, none), (h', w')))
    (hu : Undisturbed σ.w.fs s sm md h.md.current (.ok last) ((done, none), (h', w')))
    (hok : ∀ t ∈ done, t.job ≠ .failed) {ER : Env} {R : RayEnv} {ray : RayOpts} (hR : Smooth R ray) (b1 b2 : Nat) :
    ∃ rows vrows, rayRead ER R ray h' w' { batch := b1 } none = .ok rows ∧
      viewRead ER R X.U ray X.view sl.h σ.w { batch := b2 } (some (.id last)) = .ok vrows ∧
      rows ~ vrows.map (·.select sm.writeNames) := by
  replace hlast := refreshEnd_ends.mpr hlast
  obtain ⟨md1, k, h1, h2, h3⟩ := hr.holding hX hk hkm
  have := h1.symm.trans hmd
  cases this
  rw [h3.current, ← hlast] at hu
  obtain ⟨k', h4, h5, h6⟩ := refresh_result hX hk hkm hr.reach hmd hsl h3 hrun hu h2
  obtain ⟨h6, hlt⟩ := h6 rfl hok
  rw [hlast] at h6
  cases h6
  obtain ⟨md', hsys⟩ := reach_ok hk.names (hr.reach.imp anyStep_of)
  have := stored_of hsys hmd
  subst this
  dsimp only at h5
  obtain ⟨cur, h7, h8⟩ := h5.rows
  obtain ⟨snap, hsnap⟩ := Option.isSome_iff_exists.mp
    (((hu.source last hlast hlt).main.live .main).isSome hsys.wok.ok)
  have hv := viewRead_rows (E := ER) (R := R) (ray := ray) hsys.wok (hsys.slot hsl) hR hX.rowWise hX.fits (f := none)
    (fun e he => by cases he) b2 (some (.id last))
  simp only [Metadata.target, Metadata.versionId, Metadata.snapshot, hsnap] at hv
  obtain ⟨vrows, h9, h10⟩ := hv
  have hm := rayRead_target (E := ER) (R := R) (ray := ray) h5.wok h5.handle { batch := b1 } none
  obtain ⟨bs, h11, h12⟩ := raySnap_serves (E := ER) hR (h5.wok.schema ▸ h5.wok.ok.snaps _ _ h7) (f := none)
    (fun e he => by cases he) b1 [] none (fun c hc => hc)
  have ht : h'.md.target h'.branch none = .ok cur := by
    simp only [Metadata.target, h5.branch, Metadata.currentId, h5.current, Metadata.snapshot, h7, if_true]
  rw [ht] at hm
  simp only [h11] at hm
  refine ⟨_, vrows, hm, h9, ?_⟩
  dsimp only
  rw [iterBatches_flatten]
  refine h12.trans ?_
  rw [Option.getD_none, outCols_names]
  refine h8.trans ?_
  simp only [viewAt, hsnap]
  exact (h10.map _).symm

/-! ### Examples -/

namespace Demo

/-- A filter on top of a map, with fields in the order of the dataset: rows with odd keys
twice, and none with key 5. -/
def kept : View :=
  .filter { fn := 1, out := [], recs := [] }
    (.map { fn := 0, out := [.mk "id" true none .i64, .mk "txt" true none .str], recs := [] } src ["id", "img"]) ["id", "txt"]

def up : Upstream := { E := env, R := rayEnv, U := udfs, ray := { parallelism := 2 }, view := kept }

def sched (_ : Nat) : List Nat := [0, 1, 0]

/-- A refresh with the first object of the source. -/
def refreshed (X : Upstream) (σ : Sys) (target : Option Version) (hw : Handle × World) : Refreshed × (Handle × World) :=
  match σ.slots[0]? with
  | some sl => refreshRun env X sl.h σ.w 2 target sched [] hw
  | none => (([], none), hw)

/-- The rows of the view on the source. -/
def viewKeys (X : Upstream) (σ : Sys) (ver : Option Version) : Option (List Val) :=
  match σ.slots[0]? with
  | some sl => keysRead (viewRead env rayEnv X.U {} X.view sl.h σ.w { batch := 2 } ver)
  | none => none

/-- The rows of the materialized view. -/
def mvKeys (hw : Handle × World) : Option (List Val) := keysRead (rayRead env rayEnv {} hw.1 hw.2 { batch := 2 } none)

def ints (l : List Int) : Option (List Val) := some (l.map (fun n => .sc (.int n)))

/-- Decides `InStep`. -/
def inStepB (fs : FS) (s : Schema) (md : Metadata) (k last : Nat) : Bool :=
  decide (last ≤ md.current) &&
  (List.range (md.current - last)).all (fun i => (md.snaps.get? (last + i + 1)).any (fun x => x.parent == some (last + i))) &&
  md.snaps.all (fun x => decide (x.1 ≤ k) || (x.2.parent == some (x.1 - 1) &&
    (match logOf fs x.2 with
      | some cl => !cl.deleted.isEmpty || !cl.added.isEmpty
      | none => true))) &&
  md.snaps.all (fun x => decide (x.1 < k) || (decide (keysOf s (snapRows fs s x.2)).Nodup && keysSetB s (snapRows fs s x.2)))

theorem inStepB_inStep {fs : FS} {s : Schema} {md : Metadata} {k last : Nat} (h : inStepB fs s md k last = true) :
    InStep fs s md k last := by
  simp only [inStepB, Bool.and_eq_true, List.all_eq_true, Bool.or_eq_true, decide_eq_true_eq, beq_iff_eq] at h
  obtain ⟨⟨⟨h1, h2⟩, h3⟩, h4⟩ := h
  refine ⟨?_, ?_, ?_, ?_⟩
  · have key : ∀ d, d ≤ md.current - last → Anc md (last + d) last := by
      intro d
      induction d with
      | zero => exact fun _ => .self
      | succ d ih =>
        intro hd
        have h5 := h2 d (List.mem_range.mpr (by omega))
        cases hs : md.snaps.get? (last + d + 1) with
        | none => rw [hs] at h5; cases h5
        | some x =>
          rw [hs] at h5
          simp only [Option.any_some, beq_iff_eq] at h5
          exact Anc.trans (.parent .self hs h5) (ih (by omega))
    have := key (md.current - last) (Nat.le_refl _)
    rwa [show last + (md.current - last) = md.current by omega] at this
  · intro n snap _ hn hs
    rcases h3 _ (AMap.mem_of_get? hs) with h5 | h5
    · simp only at h5; omega
    · exact h5.1
  · intro n snap cl _ hn hs hl
    rcases h3 _ (AMap.mem_of_get? hs) with h5 | h5
    · simp only at h5; omega
    · have h6 := h5.2
      simp only [hl, Bool.or_eq_true, Bool.not_eq_true', List.isEmpty_eq_false_iff] at h6
      exact h6
  · intro n snap _ hn hs
    rcases h4 _ (AMap.mem_of_get? hs) with h5 | h5
    · simp only at h5; omega
    · exact ⟨h5.1, keysSetB_set h5.2⟩

/-- Decides `Undisturbed` for the first object of the source. -/
def calmRefreshB (X : Upstream) (sm : Schema) (σ : Sys) (target : Option Version) (hw : Handle × World) : Bool :=
  match σ.slots[0]?, σ.w.stored with
  | some sl, some md =>
    (match refreshEnd sl.h target with
      | .ok last => inStepB σ.w.fs schema md hw.1.md.current last
      | .error _ => true) &&
    (refreshRun env X sl.h σ.w 2 target sched [] hw).1.1.all (fun t => decide (t.job ≠ .skipped) &&
      (decide (t.job ≠ .succeeded) || t.gone.isEmpty ||
        safeB (fun r => some (decide (keyOf sm.pks r ∈ t.gone.map (keyOf sm.pks)))) (headLayout sm t.h t.w)))
  | _, _ => false

theorem calmRefreshB_undisturbed {X : Upstream} {sm : Schema} {σ : Sys} {target : Option Version} {hw : Handle × World}
    (h : calmRefreshB X sm σ target hw = true) : ∃ sl md, sl ∈ σ.slots ∧ σ.slots[0]? = some sl ∧ σ.w.stored = some md ∧
      refreshRun env X sl.h σ.w 2 target sched [] hw = refreshed X σ target hw ∧
      Undisturbed σ.w.fs schema sm md hw.1.md.current (refreshEnd sl.h target) (refreshed X σ target hw) := by
  unfold calmRefreshB at h
  split at h
  · rename_i sl md h1 h2
    have e : refreshRun env X sl.h σ.w 2 target sched [] hw = refreshed X σ target hw := by simp [refreshed, h1]
    rw [e] at h
    simp only [Bool.and_eq_true, List.all_eq_true, decide_eq_true_eq, Bool.or_eq_true] at h
    refine ⟨sl, md, List.mem_of_getElem? h1, h1, h2, e, ⟨?_, ?_, ?_⟩⟩
    · intro n hn _
      rw [hn] at h
      exact inStepB_inStep h.1
    · intro t ht hj hg
      rcases (h.2 t ht).2 with (h3 | h3) | h3
      · exact absurd hj h3
      · exact absurd (List.isEmpty_iff.mp h3) hg
      · exact safeB_safe h3
    · exact fun t ht => (h.2 t ht).1
  · cases h

theorem mv_started {X : Upstream} {σ : Sys} (h : Reach env schema (faithful env schema) σ) :
    MVReach env env X schema mvSchema σ (start mvSchema).1 (start mvSchema).2 := .create h empty rfl

theorem mv_more {X : Upstream} {sm : Schema} {σ : Sys} {h : Handle} {w : World} (hr : MVReach env env X schema sm σ h w)
    (as : List Act) : MVReach env env X schema sm (more env faithfulB as σ) h w := by
  have := more_run (E := env) (s := schema) (P := faithful env schema) faithfulB_faithful as σ
  generalize more env faithfulB as σ = σ' at this
  induction this with
  | refl => exact hr
  | step _ hp hs ih => exact .source ih hp hs

end Demo

theorem kept_keys {r r' : Row} (h : r' ∈ kept.rowsOn schema rowFns udfs.keep [r]) :
    keyOf schema.pks r' = keyOf schema.pks r := by
  simp only [kept, src, View.rowsOn, List.map_cons, List.map_nil, List.mem_filter, List.mem_map,
    List.flatMap_cons, List.flatMap_nil, List.append_nil] at h
  obtain ⟨⟨x, hx, rfl⟩, -⟩ := h
  have hid : ∀ y : Row, ∀ z ∈ rowFns 0 y, z.val "id" = y.val "id" := by
    intro y z hz
    have e : z = [("id", y.val "id"), ("txt", .sc (.str "long"))] := by
      simp only [rowFns] at hz
      split at hz
      · split at hz <;> simp at hz <;> exact hz
      · simpa using hz
    subst e
    rfl
  simp only [keyOf, schema, List.map_cons, List.map_nil, List.cons.injEq, and_true]
  rw [select_val (mem_inputCols.mpr (by simp)), hid _ _ hx]
  exact select_val (mem_inputCols.mpr (by simp))

theorem kept_refreshable : Refreshable up rowFns schema mvSchema where
  rowWise := udfs_rowWise
  fits := ⟨⟨trivial, by decide, doubled_fits.1.2.2⟩, by decide⟩
  ordered := ⟨⟨trivial, by decide⟩, by decide⟩
  keys := rfl
  keeps := fun _ _ h => kept_keys h
  parallel := by decide

/-- Appends; then a delete of rows and an upsert of an old and a new key. -/
def Demo.src1 : Sys := after env faithfulB schema seven
def Demo.src2 : Sys := more env faithfulB
  [.call 0 (.mutate (.delete (.bin "equal" (.sel "txt") (.lit (.str "b"))))),
    .call 0 (.mutate (.upsert [row 1 "c" [9], row 8 "c" [8]]))] src1

/-- Two refreshes, as equations that can be computed. -/
theorem mv_example {X : Upstream} {a1 a2 : List Act} {target : Option Version} {n k : Nat} {got want : List Int}
    {jobs : List Job} {σ1 σ2 : Sys} {hw : Handle × World} {res : Refreshed × (Handle × World)}
    (e1 : σ1 = after env faithfulB schema a1) (e2 : σ2 = more env faithfulB a2 σ1)
    (hc1 : calmRefreshB X mvSchema σ1 target (start mvSchema) = true)
    (e3 : hw = (refreshed X σ1 target (start mvSchema)).2) (hc2 : calmRefreshB X mvSchema σ2 none hw = true)
    (e4 : res = refreshed X σ2 none hw) (hend : (σ2.slots[0]?).map (fun sl => sl.h.md.current) = some n)
    (hcur : hw.1.md.current = k) (hn : res.1.2 = none) (hj : res.1.1.map (·.job) = jobs) (hg : mvKeys res.2 = ints got)
    (hv : viewKeys X σ2 (some (.id n)) = ints want) :
    ∃ σ h w md sl done h' w', MVReach env env X schema mvSchema σ h w ∧ σ.w.stored = some md ∧ sl ∈ σ.slots ∧
      Ends sl.h.md none n ∧ h.md.current = k ∧
      refreshRun env X sl.h σ.w 2 none sched [] (h, w) = ((done, none), (h', w')) ∧
      Undisturbed σ.w.fs schema mvSchema md h.md.current (.ok n) ((done, none), (h', w')) ∧
      done.map (·.job) = jobs ∧ mvKeys (h', w') = ints got ∧ viewKeys X σ (some (.id n)) = ints want := by
  have r0 : MVReach env env X schema mvSchema σ1 (start mvSchema).1 (start mvSchema).2 :=
    mv_started (e1 ▸ after_reach faithfulB_faithful _)
  obtain ⟨sl, md, h1, -, h2, h3, h4⟩ := calmRefreshB_undisturbed hc1
  have r1 := mv_more (r0.refresh h2 h1 h3 h4) a2
  rw [← e2, ← e3] at r1
  obtain ⟨sl', md', h1', h0', h2', h3', h4'⟩ := calmRefreshB_undisturbed hc2
  rw [h0'] at hend
  have he : refreshEnd sl'.h none = .ok n := congrArg Except.ok (Option.some.inj hend)
  rw [he] at h4'
  rw [← e4] at h3' h4'
  obtain ⟨⟨done, e⟩, h', w'⟩ := res
  simp only at hn
  subst hn
  exact ⟨σ2, hw.1, hw.2, md', sl', done, h', w', r1, h2', h1', refreshEnd_ends.mp he, hcur, h3', h4', hj, hg, hv⟩

/-- The view is refreshed to snapshot 1 while the source is at 2, and to the latest
snapshot 4 later, in three transactions. -/
example : ∃ σ h w md sl done h' w', MVReach env env up schema mvSchema σ h w ∧ σ.w.stored = some md ∧ sl ∈ σ.slots ∧
    Ends sl.h.md none 4 ∧ h.md.current = 1 ∧
    refreshRun env up sl.h σ.w 2 none sched [] (h, w) = ((done, none), (h', w')) ∧
    Undisturbed σ.w.fs schema mvSchema md h.md.current (.ok 4) ((done, none), (h', w')) ∧
    done.map (·.job) = [.succeeded, .succeeded, .succeeded] ∧
    mvKeys (h', w') = ints [8, 1, 1, 3, 3, 7, 7] ∧ viewKeys up σ (some (.id 4)) = ints [1, 1, 8, 7, 7, 3, 3] :=
  mv_example (a1 := seven)
    (a2 := [.call 0 (.mutate (.delete (.bin "equal" (.sel "txt") (.lit (.str "b"))))),
      .call 0 (.mutate (.upsert [row 1 "c" [9], row 8 "c" [8]]))]) (target := some (.id 1)) (σ1 := src1) (σ2 := src2)
    rfl rfl (by decide +kernel) rfl (by decide +kernel) rfl (by decide +kernel) (by decide +kernel) (by decide +kernel)
    (by decide +kernel) (by decide +kernel) (by decide +kernel)

/-! ### What goes wrong -/

/-- A materialized view is created and refreshed to the latest snapshot of the source; the
source goes on; the view is refreshed again to the latest snapshot; no exception is raised
and no job reported FAILED.  Then the view read on the source has the keys `want`, but the
materialized view has `got`. -/
def Demo.Gives (X : Upstream) (sm : Schema) (got want : List Int) : Prop :=
  ∃ σ1 σ2 sl1 sl2 h w d1 h1 w1 d2 h2 w2 last, Reach env schema (faithful env schema) σ1 ∧ sl1 ∈ σ1.slots ∧
    create sm {} = (.ok h, w) ∧ refreshRun env X sl1.h σ1.w 2 none sched [] (h, w) = ((d1, none), (h1, w1)) ∧
    Run env schema (faithful env schema) σ1 σ2 ∧ sl2 ∈ σ2.slots ∧ Ends sl2.h.md none last ∧
    refreshRun env X sl2.h σ2.w 2 none sched [] (h1, w1) = ((d2, none), (h2, w2)) ∧
    (∀ t ∈ d1 ++ d2, t.job ≠ .failed) ∧ mvKeys (h2, w2) = ints got ∧
    keysRead (viewRead env rayEnv X.U {} X.view sl2.h σ2.w { batch := 2 } (some (.id last))) = ints want

/-- Decides `Gives`. -/
def Demo.givesB (X : Upstream) (sm : Schema) (a1 a2 : List Act) (got want : List Int) : Bool :=
  let σ1 := after env faithfulB schema a1
  let σ2 := more env faithfulB a2 σ1
  match σ1.slots[0]?, σ2.slots[0]? with
  | some sl1, some sl2 =>
    let r1 := refreshRun env X sl1.h σ1.w 2 none sched [] (start sm)
    let r2 := refreshRun env X sl2.h σ2.w 2 none sched [] r1.2
    r1.1.2 == none && r2.1.2 == none && (r1.1.1 ++ r2.1.1).all (fun t => decide (t.job ≠ .failed)) &&
      mvKeys r2.2 == ints got &&
      keysRead (viewRead env rayEnv X.U {} X.view sl2.h σ2.w { batch := 2 } (some (.id sl2.h.md.current))) == ints want
  | _, _ => false

theorem givesB_gives {X : Upstream} {sm : Schema} {a1 a2 : List Act} {got want : List Int}
    (h : givesB X sm a1 a2 got want = true) : Gives X sm got want := by
  unfold givesB at h
  dsimp only at h
  split at h
  · rename_i sl1 sl2 e1 e2
    simp only [Bool.and_eq_true, beq_iff_eq, List.all_eq_true, decide_eq_true_eq] at h
    generalize hr1 : refreshRun env X sl1.h (after env faithfulB schema a1).w 2 none sched [] (start sm) = r1 at h
    obtain ⟨⟨d1, x1⟩, h1, w1⟩ := r1
    dsimp only at h
    generalize hr2 : refreshRun env X sl2.h (more env faithfulB a2 (after env faithfulB schema a1)).w 2 none sched []
      (h1, w1) = r2 at h
    obtain ⟨⟨d2, x2⟩, h2, w2⟩ := r2
    dsimp only at h
    obtain ⟨⟨⟨⟨rfl, rfl⟩, h3⟩, h4⟩, h5⟩ := h
    exact ⟨_, _, sl1, sl2, (start sm).1, (start sm).2, d1, h1, w1, d2, h2, w2, sl2.h.md.current,
      after_reach faithfulB_faithful a1, List.mem_of_getElem? e1, rfl, hr1, more_run faithfulB_faithful a2 _,
      List.mem_of_getElem? e2, rfl, hr2, h3, h4, h5⟩
  · cases h

/-- C26 is false in general: `refresh` takes the id of the view's own snapshot for the id of
the snapshot of the source refreshed to last (`ray/runners.py:193`).  A commit whose rows
the view drops gives no snapshot of the view, so the ids part, and the next refresh applies
a commit again: key 1 is in the view four times instead of twice. -/
theorem C26_violated_skip : Gives up mvSchema [2, 1, 1, 1, 1] [2, 1, 1] :=
  givesB_gives (a1 := [.call 0 (.mutate (.append [[row 5 "a" [1]]])), .call 0 (.mutate (.append [[row 1 "a" [1]]]))])
    (a2 := [.call 0 (.mutate (.append [[row 2 "a" [1]]]))]) (by decide +kernel)

/-- The same, if a commit on a branch of the source took an id. -/
theorem C26_violated_branch : Gives up mvSchema [4, 3, 3, 3, 3, 2, 1, 1] [4, 3, 3, 2, 1, 1] :=
  givesB_gives (a1 := [.call 0 (.mutate (.append [[row 1 "a" [1]]])), .call 0 (.addBranch "b"), .call 0 (.setBranch "b"),
      .call 0 (.mutate (.append [[row 9 "a" [1]]])), .call 0 (.setBranch "main"),
      .call 0 (.mutate (.append [[row 2 "a" [1]]])), .call 0 (.mutate (.append [[row 3 "a" [1]]]))])
    (a2 := [.call 0 (.mutate (.append [[row 4 "a" [1]]]))]) (by decide +kernel)

/-- The map that adds ten to keys. -/
def Demo.upShift : Upstream := { up with view := shifted }
def Demo.shiftSchema : Schema := { fields := [⟨"id", 0, .int⟩], pks := ["id"], recs := [] }

/-- C26 is false for functions that change keys: rows of the view are deleted by the keys of
the rows of the source (`ray/runners.py:238-251`).  Keys 1 and 11 become 11 and 21; the row
with key 11 is deleted from the source; the view loses the wrong row. -/
theorem C26_violated_shift : Gives upShift shiftSchema [21] [11] :=
  givesB_gives (a1 := [.call 0 (.mutate (.append [[row 1 "a" [1], row 11 "a" [1]]]))])
    (a2 := [.call 0 (.mutate (.delete (.bin "equal" (.sel "id") (.lit (.int 11)))))]) (by decide +kernel)

/-- C26 is false if rows of the source share a key: one of two rows with key 2 is deleted,
the view loses both. -/
theorem C26_violated_keys : Gives up mvSchema [4] [2, 4] :=
  givesB_gives (a1 := [.call 0 (.mutate (.append [[row 2 "a" [1], row 2 "b" [1], row 4 "a" [1]]]))])
    (a2 := [.call 0 (.mutate (.delete (.bin "equal" (.sel "txt") (.lit (.str "b")))))]) (by decide +kernel)

/-- C26 is false if two objects of the storage of the view are used in turn: the second
takes the snapshot to start from before it is reloaded (`ray/runners.py:193-199`), and
applies all commits again. -/
theorem C26_violated_stale : ∃ σ sl h w d1 h1 w1 d2 h2 w2, Reach env schema (faithful env schema) σ ∧ sl ∈ σ.slots ∧
    create mvSchema {} = (.ok h, w) ∧ refreshRun env up sl.h σ.w 2 none sched [] (h, w) = ((d1, none), (h1, w1)) ∧
    refreshRun env up sl.h σ.w 2 none sched [] (h, w1) = ((d2, none), (h2, w2)) ∧
    (∀ t ∈ d1 ++ d2, t.job = .succeeded) ∧ mvKeys (h2, w2) = ints [2, 2] ∧
    keysRead (viewRead env rayEnv udfs {} kept sl.h σ.w { batch := 2 } none) = ints [2] := by
  obtain ⟨sl, -, h1, h2⟩ := slot_of (σ := after env faithfulB schema [.call 0 (.mutate (.append [[row 2 "a" [1]]]))]) (i := 0)
    (f := fun sl =>
      let σ := after env faithfulB schema [.call 0 (.mutate (.append [[row 2 "a" [1]]]))]
      let r1 := refreshRun env up sl.h σ.w 2 none sched [] (start mvSchema)
      let r2 := refreshRun env up sl.h σ.w 2 none sched [] ((start mvSchema).1, r1.2.2)
      decide (r1.1.2 = none ∧ r2.1.2 = none ∧ (∀ t ∈ r1.1.1 ++ r2.1.1, t.job = .succeeded) ∧ mvKeys r2.2 = ints [2, 2] ∧
        keysRead (viewRead env rayEnv udfs {} kept sl.h σ.w { batch := 2 } none) = ints [2]))
    (x := true) (by decide +kernel)
  have hr := after_reach (E := env) (s := schema) faithfulB_faithful [.call 0 (.mutate (.append [[row 2 "a" [1]]]))]
  generalize after env faithfulB schema [.call 0 (.mutate (.append [[row 2 "a" [1]]]))] = σ at *
  simp only [decide_eq_true_eq] at h2
  generalize hr1 : refreshRun env up sl.h σ.w 2 none sched [] (start mvSchema) = r1 at h2
  obtain ⟨⟨d1, x1⟩, g1, w1⟩ := r1
  dsimp only at h2
  generalize hr2 : refreshRun env up sl.h σ.w 2 none sched [] ((start mvSchema).1, w1) = r2 at h2
  obtain ⟨⟨d2, x2⟩, g2, w2⟩ := r2
  dsimp only at h2
  obtain ⟨rfl, rfl, h3, h4, h5⟩ := h2
  exact ⟨σ, sl, (start mvSchema).1, (start mvSchema).2, d1, g1, w1, d2, g2, w2, hr, h1, rfl, hr1, hr2, h3, h4, h5⟩

/-- A view that drops rows may never be refreshed again: key 5, which the view drops, is
deleted from the source, no file of the view's storage can have it, and the transaction is
FAILED, each time. -/
theorem C26_stuck : ∃ σ sl h w d1 h1 w1 d2 h2 w2, Reach env schema (faithful env schema) σ ∧ sl ∈ σ.slots ∧
    create mvSchema {} = (.ok h, w) ∧ refreshRun env up sl.h σ.w 2 none sched [] (h, w) = ((d1, none), (h1, w1)) ∧
    refreshRun env up sl.h σ.w 2 none sched [] (h1, w1) = ((d2, none), (h2, w2)) ∧
    d1.map (·.job) = [.succeeded, .failed] ∧ d2.map (·.job) = [.failed] ∧ h2.md = h1.md := by
  let as : List Act := [.call 0 (.mutate (.append [[row 5 "a" [1], row 1 "a" [1]]])),
    .call 0 (.mutate (.delete (.bin "equal" (.sel "id") (.lit (.int 5)))))]
  obtain ⟨sl, -, h1, h2⟩ := slot_of (σ := after env faithfulB schema as) (i := 0)
    (f := fun sl =>
      let σ := after env faithfulB schema as
      let r1 := refreshRun env up sl.h σ.w 2 none sched [] (start mvSchema)
      let r2 := refreshRun env up sl.h σ.w 2 none sched [] r1.2
      decide (r1.1.2 = none ∧ r2.1.2 = none ∧ r1.1.1.map (·.job) = [.succeeded, .failed] ∧
        r2.1.1.map (·.job) = [.failed] ∧ r2.2.1.md = r1.2.1.md))
    (x := true) (by decide +kernel)
  have hr := after_reach (E := env) (s := schema) faithfulB_faithful as
  generalize after env faithfulB schema as = σ at *
  simp only [decide_eq_true_eq] at h2
  generalize hr1 : refreshRun env up sl.h σ.w 2 none sched [] (start mvSchema) = r1 at h2
  obtain ⟨⟨d1, x1⟩, g1, w1⟩ := r1
  dsimp only at h2
  generalize hr2 : refreshRun env up sl.h σ.w 2 none sched [] (g1, w1) = r2 at h2
  obtain ⟨⟨d2, x2⟩, g2, w2⟩ := r2
  dsimp only at h2
  obtain ⟨rfl, rfl, h3, h4, h5⟩ := h2
  exact ⟨σ, sl, (start mvSchema).1, (start mvSchema).2, d1, g1, w1, d2, g2, w2, hr, h1, rfl, hr1, hr2, h3, h4, h5⟩

/-! ## C27 -/

/-- C27, the half that holds, for every state of the view's storage and of the source: a
refresh to a snapshot that the view is at, or past, writes nothing, and all reads stay the
same.  Missing: it does not succeed but raises UserInputError, always. -/
theorem C27_partial {E E' F : Env} {s sm : Schema} (hn : s.names.Nodup) (hm : sm.names.Nodup) {σ : Sys}
    (h : Reach E s anyStep σ) {sl : Slot} (hsl : sl ∈ σ.slots) {σm : Sys} (hr : Reach E' sm anyStep σm) {slm : Slot}
    (hslm : slm ∈ σm.slots) (X : Upstream) {target : Option Version} {last : Nat} (hlast : Ends sl.h.md target last)
    (hup : last ≤ slm.h.md.current) (batch : Nat) (sched : Nat → List Nat) (at_ : List Nat) :
    ∃ e h', refresh F X sl.h σ.w batch target sched at_ (slm.h, σm.w) = (.error e, (h', σm.w)) ∧
      (slm.h.branch = mainBranch → e = .userInput) ∧ ∀ R o v, tableRead R h' σm.w o v = tableRead R slm.h σm.w o v := by
  replace hlast := refreshEnd_ends.mpr hlast
  obtain ⟨md, hok⟩ := reach_ok hn h
  obtain ⟨mdm, hokm⟩ := reach_ok hm hr
  have hp := enter_post hokm.wok (hokm.slot hslm)
  obtain ⟨b, src, hrl, rfl, -⟩ := reload_eq hok.wok (hok.slot hsl)
  have reads : ∀ h', h'.branch = slm.h.branch → HandleOK sm σm.w h' →
      ∀ R o v, tableRead R h' σm.w o v = tableRead R slm.h σm.w o v := by
    intro h' h1 h2 R o v
    rw [tableRead_target hokm.wok h2, tableRead_target hokm.wok (hokm.slot hslm), h1]
  unfold refresh refreshRun
  simp only [hlast]
  cases he : Txn.enter (slm.h, σm.w) with
  | mk r st =>
    obtain ⟨h', w'⟩ := st
    rw [he] at hp
    cases r with
    | error e =>
      obtain ⟨rfl, h1, h2, h3⟩ := hp
      refine ⟨e, h', rfl, fun hb => ?_, reads h' h2 h3⟩
      exfalso
      unfold Txn.enter at he
      obtain ⟨b, h4, e1, e2, e3, -⟩ := reload_eq hokm.wok (hokm.slot hslm)
      simp [bind, M.andThen, self, M.lift, pure, M.ret, e1, e2, hb, Metadata.currentId] at he
    | ok t =>
      obtain ⟨rfl, h1, h2, h3, -⟩ := hp
      simp only [hrl, orderedIds, ge_iff_le, hup, if_true]
      exact ⟨.userInput, h', rfl, fun _ => rfl, reads h' h2 h3⟩

/-- C27 is false: two rows, one refresh, and a second one, which raises. -/
theorem C27_violated : ∃ σ sl h w d h1 w1 h2, Reach env schema (faithful env schema) σ ∧ sl ∈ σ.slots ∧
    create mvSchema {} = (.ok h, w) ∧ refreshRun env up sl.h σ.w 2 none sched [] (h, w) = ((d, none), (h1, w1)) ∧
    d.map (·.job) = [.succeeded] ∧ mvKeys (h1, w1) = ints [2, 4] ∧
    Ends sl.h.md none 1 ∧ h1.md.current = 1 ∧
    refresh env up sl.h σ.w 2 none sched [] (h1, w1) = (.error .userInput, (h2, w1)) := by
  let as : List Act := [.call 0 (.mutate (.append [[row 2 "a" [1], row 4 "a" [1]]]))]
  obtain ⟨sl, -, h1, h2⟩ := slot_of (σ := after env faithfulB schema as) (i := 0)
    (f := fun sl =>
      let σ := after env faithfulB schema as
      let r1 := refreshRun env up sl.h σ.w 2 none sched [] (start mvSchema)
      let r2 := refresh env up sl.h σ.w 2 none sched [] r1.2
      decide (r1.1.2 = none ∧ r1.1.1.map (·.job) = [.succeeded] ∧ mvKeys r1.2 = ints [2, 4] ∧ sl.h.md.current = 1 ∧
        r1.2.1.md.current = 1 ∧ r2.1 = .error .userInput ∧ r2.2.2 = r1.2.2))
    (x := true) (by decide +kernel)
  have hr := after_reach (E := env) (s := schema) faithfulB_faithful as
  generalize after env faithfulB schema as = σ at *
  simp only [decide_eq_true_eq] at h2
  generalize hr1 : refreshRun env up sl.h σ.w 2 none sched [] (start mvSchema) = r1 at h2
  obtain ⟨⟨d1, x1⟩, g1, w1⟩ := r1
  dsimp only at h2
  generalize hr2 : refresh env up sl.h σ.w 2 none sched [] (g1, w1) = r2 at h2
  obtain ⟨x2, g2, w2⟩ := r2
  dsimp only at h2
  obtain ⟨rfl, h3, h4, h5, h6, rfl, rfl⟩ := h2
  exact ⟨σ, sl, (start mvSchema).1, (start mvSchema).2, d1, g1, w2, g2, hr, h1, rfl, hr1, h3, h4,
    h5.symm, h6, hr2⟩

end Space
