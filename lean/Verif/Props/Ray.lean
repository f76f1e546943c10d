import Verif.RayLemmas
import Verif.Props.Diff

/-!
# C24, C25: reads and diffs with Ray
-/

set_option autoImplicit false

namespace Space

open Demo List

/-! ## C24 -/

/-- C24: in every history, for every version, filter, column selection, with or without
record references, with or without row-range blocks, for all batch sizes of the two reads
and whatever Ray does with the blocks: the Ray read raises if the local read raises, and
otherwise returns the same rows, each as often.  The one exception is a read without rows
and without row-range blocks, which fails if Ray refuses to repartition into zero blocks. -/
theorem C24 {E : Env} {s : Schema} (hn : s.names.Nodup) {σ : Sys} (h : Reach E s anyStep σ) {sl : Slot}
    (hsl : sl ∈ σ.slots) (R : RayEnv) (ray : RayOpts) (o : ReadOpts) (batch : Nat) (v : Option Version) :
    match tableRead E sl.h σ.w o v with
    | .error e => rayRead E R ray sl.h σ.w { o with batch := batch } v = .error e
    | .ok rows => (∃ rows', rayRead E R ray sl.h σ.w { o with batch := batch } v = .ok rows' ∧ rows' ~ rows) ∨
      (rows = [] ∧ ray.rowRange = false ∧ ∃ e, R.repartition0 = some e ∧
        rayRead E R ray sl.h σ.w { o with batch := batch } v = .error e) := by
  obtain ⟨md, hok⟩ := reach_ok hn h
  rw [tableRead_target hok.wok (hok.slot hsl), rayRead_target hok.wok (hok.slot hsl)]
  cases ht : md.target sl.h.branch v with
  | error e => rfl
  | ok snap =>
    have key := raySnap_rows (E := E) (R := R) (o := o) (target_ok hok.wok ht).1 ray [] batch
    simp only
    cases hr : readSnap E σ.w.fs s o snap with
    | error e =>
      rw [hr] at key
      simp only [Except.map] at key ⊢
      rw [key]
    | ok bs =>
      rw [hr] at key
      simp only [Except.map, rowsOf_flatten] at key ⊢
      rcases key with ⟨cs, h1, h2⟩ | ⟨h1, h2, e, h3, h4⟩
      · refine Or.inl ⟨_, by rw [h1], ?_⟩
        rw [iterBatches_flatten]
        exact h2
      · exact Or.inr ⟨h1, h2, e, h3, by rw [h4]⟩

/-- Blocks in the opposite order. -/
def Demo.rayEnv : RayEnv where
  deliver := fun _ bs => bs.reverse
  deliver_perm := by
    intro _ bs
    exact (List.reverse_perm bs).flatten
  repartition0 := some .runtime

/-- Keys of the rows read. -/
def Demo.keysRead (r : Except Err (List Row)) : Option (List Val) := r.toOption.map (·.map (·.val "id"))

/-- Seven rows in two files, one filter on a column that is not a key: blocks of two rows
cut across the row groups, some are empty after the filter. -/
def Demo.seven : List Act :=
  [.call 0 (.mutate (.append [[row 1 "a" [1], row 2 "b" [2], row 3 "a" [3], row 4 "b" [4], row 5 "a" [5]]])),
    .call 0 (.mutate (.append [[row 6 "b" [6], row 7 "a" [7]]]))]

example : ∃ σ sl, Reach env schema calm σ ∧ sl ∈ σ.slots ∧
    keysRead (tableRead env sl.h σ.w { filter := some (.bin "equal" (.sel "txt") (.lit (.str "a"))) } none) =
      some [.sc (.int 1), .sc (.int 3), .sc (.int 5), .sc (.int 7)] ∧
    keysRead (rayRead env rayEnv {} sl.h σ.w
      { filter := some (.bin "equal" (.sel "txt") (.lit (.str "a"))), batch := 2 } none) =
      some [.sc (.int 7), .sc (.int 5), .sc (.int 1), .sc (.int 3)] ∧
    keysRead (rayRead env rayEnv { rowRange := false } sl.h σ.w
      { filter := some (.bin "equal" (.sel "txt") (.lit (.str "zzz"))), batch := 2 } none) = some [] ∧
    keysRead (rayRead env rayEnv { rowRange := false } sl.h σ.w
      { filter := some (.bin "equal" (.sel "id") (.lit (.int 99))), batch := 2 } none) = none := by
  obtain ⟨sl, -, h1, h2⟩ := slot_of (σ := after env calmB schema seven) (i := 0)
    (f := fun sl => (keysRead (tableRead env sl.h (after env calmB schema seven).w
        { filter := some (.bin "equal" (.sel "txt") (.lit (.str "a"))) } none),
      keysRead (rayRead env rayEnv {} sl.h (after env calmB schema seven).w
        { filter := some (.bin "equal" (.sel "txt") (.lit (.str "a"))), batch := 2 } none),
      keysRead (rayRead env rayEnv { rowRange := false } sl.h (after env calmB schema seven).w
        { filter := some (.bin "equal" (.sel "txt") (.lit (.str "zzz"))), batch := 2 } none),
      keysRead (rayRead env rayEnv { rowRange := false } sl.h (after env calmB schema seven).w
        { filter := some (.bin "equal" (.sel "id") (.lit (.int 99))), batch := 2 } none)))
    (x := (some [.sc (.int 1), .sc (.int 3), .sc (.int 5), .sc (.int 7)],
      some [.sc (.int 7), .sc (.int 5), .sc (.int 1), .sc (.int 3)], some [], none)) (by decide +kernel)
  simp only [Prod.mk.injEq] at h2
  exact ⟨_, sl, after_reach calmB_calm _, h1, h2.1, h2.2.1, h2.2.2.1, h2.2.2.2⟩

/-! ## C25 -/

/-- `c` reports the commit `n` up to the order of rows: first the keys of the rows logged as
deleted, then the rows logged as added. -/
def RayReports (fs : FS) (s : Schema) (n : Nat) (snap : Snapshot) (c : List ChangeData) : Prop :=
  ∃ (cl : ChangeLog) (ds as : List (List Row)), logOf fs snap = some cl ∧
    c = ds.map (ChangeData.mk n .delete) ++ as.map (ChangeData.mk n .add) ∧
    ds.flatten ~ (loggedRows fs s cl.deleted).map (·.select s.pks) ∧
    as.flatten ~ (loggedRows fs s cl.added).map (·.select s.writeNames)

/-- The datasets of the changes `c` of a commit with change log `cl`: one dataset with all
files of deleted rows; `streams` datasets that together have every file of added rows once. -/
def Covers (streams : Nat) (cl : ChangeLog) (c : List RayChange) : Prop :=
  filesOf .delete c = cl.deleted.map bitmapFile ∧ filesOf .add c = cl.added.map bitmapFile ∧
    ∀ x ∈ c, (x.type = .add → x.data.length = streams) ∧ (x.type = .delete → x.data.length = 1)

section
variable {E : Env} {R : RayEnv} {ray : RayOpts} {fs : FS} {md : Metadata}

theorem rayChange_of (hk : PlainKeys md.schema) (hok : MdOK fs md) (hp : 0 < ray.parallelism) (batch batch' n : Nat) :
    match readChanges E fs md batch n with
    | .error e => rayChanges fs md ray batch' n = .error e
    | .ok _ => ∃ c snap cl, rayChanges fs md ray batch' n = .ok c ∧ md.snaps.get? n = some snap ∧
        logOf fs snap = some cl ∧ Covers ray.parallelism cl c ∧ (∀ x ∈ c, x.id = n) ∧
        ∀ k, ∃ r, flattenChanges E R fs md.schema ray k c = .ok r ∧ RayReports fs md.schema n snap r := by
  cases hs : md.snaps.get? n with
  | none => simp [readChanges, rayChanges, hs]
  | some snap =>
    cases hl : logOf fs snap with
    | none => rw [readChanges_none batch hs hl]; exact rayChanges_none batch' hs hl
    | some cl =>
      obtain ⟨c0, h0, -⟩ := reports_of (E := E) (batch := batch) hk hok hs hl
      rw [h0]
      have hlog : LogOK fs md.schema cl := by
        unfold logOf at hl
        cases hsl : snap.log with
        | none => rw [hsl] at hl; cases hl
        | some q =>
          obtain ⟨cl', h1, h2⟩ := (hok.snaps _ _ hs).log q hsl
          rw [hsl] at hl
          simp only [Option.bind_some] at hl
          rw [hl] at h1
          cases h1
          exact h2
      obtain ⟨c, h1, h2, h3, h4, h5⟩ := rayChanges_eq (E := E) (R := R) batch' hp (fun c hc => (hk c hc).1) hs hl hlog
      refine ⟨c, snap, cl, h1, rfl, hl, ⟨h3, h4, fun x hx => (h2 x hx).2⟩, fun x hx => (h2 x hx).1, fun k => ?_⟩
      obtain ⟨ds, as, h6, h7, h8⟩ := h5 k
      refine ⟨_, h6, cl, ds, as, hl, rfl, ?_, h8⟩
      refine h7.trans ?_
      rw [loggedRows, List.map_map]
      refine List.Perm.of_eq (List.map_congr_left fun r _ => ?_)
      simp only [outRow, outCols_plain hk, Function.comp_apply]

theorem rayIds_of (hk : PlainKeys md.schema) (hok : MdOK fs md) (hp : 0 < ray.parallelism) (batch batch' : Nat) :
    ∀ ids : List Nat,
    match readChangeIds E fs md batch ids with
    | .error e => rayChangeIds fs md ray batch' ids = .error e
    | .ok _ => ∃ rc : List (List RayChange), rayChangeIds fs md ray batch' ids = .ok rc.flatten ∧
        rc.length = ids.length ∧
        (∀ (i n : Nat) (c : List RayChange), ids[i]? = some n → rc[i]? = some c → ∃ snap cl,
          md.snaps.get? n = some snap ∧ logOf fs snap = some cl ∧ Covers ray.parallelism cl c ∧ ∀ x ∈ c, x.id = n) ∧
        ∀ k, ∃ rcs : List (List ChangeData), flattenChanges E R fs md.schema ray k rc.flatten = .ok rcs.flatten ∧
          rcs.length = ids.length ∧
          ∀ (i n : Nat) (c : List ChangeData), ids[i]? = some n → rcs[i]? = some c →
            ∃ snap, md.snaps.get? n = some snap ∧ RayReports fs md.schema n snap c
  | [] => ⟨[], rfl, rfl, by simp, fun k => ⟨[], rfl, rfl, by simp⟩⟩
  | n :: ids => by
    have h1 := rayChange_of (E := E) (R := R) hk hok hp batch batch' n
    have h2 := rayIds_of hk hok hp batch batch' ids
    simp only [readChangeIds]
    cases hr : readChanges E fs md batch n with
    | error e =>
      rw [hr] at h1
      simp only at h1 ⊢
      simp only [rayChangeIds, h1]
    | ok c0 =>
      rw [hr] at h1
      obtain ⟨c, snap, cl, a1, a2, a3, a4, a5, a6⟩ := h1
      simp only
      cases hr2 : readChangeIds E fs md batch ids with
      | error e =>
        rw [hr2] at h2
        simp only at h2 ⊢
        simp only [rayChangeIds, a1, h2]
      | ok cs0 =>
        rw [hr2] at h2
        obtain ⟨rc, b1, b2, b3, b4⟩ := h2
        simp only
        refine ⟨c :: rc, ?_, by simp [b2], ?_, ?_⟩
        · simp only [rayChangeIds, a1, b1, List.flatten_cons]
        · intro i m d hi hd
          cases i with
          | zero =>
            simp only [List.getElem?_cons_zero, Option.some.injEq] at hi hd
            subst hi hd
            exact ⟨snap, cl, a2, a3, a4, a5⟩
          | succ i =>
            simp only [List.getElem?_cons_succ] at hi hd
            exact b3 i m d hi hd
        · intro k
          obtain ⟨r, c1, c2⟩ := a6 k
          obtain ⟨rcs, d1, d2, d3⟩ := b4 (k + c.length)
          refine ⟨r :: rcs, ?_, by simp [d2], ?_⟩
          · rw [List.flatten_cons, List.flatten_cons]
            exact flattenChanges_append c1 d1
          · intro i m d hi hd
            cases i with
            | zero =>
              simp only [List.getElem?_cons_zero, Option.some.injEq] at hi hd
              subst hi hd
              exact ⟨snap, a2, c2⟩
            | succ i =>
              simp only [List.getElem?_cons_succ] at hi hd
              exact d3 i m d hi hd

end

/-- C25: in every history, with any positive number of streams, any batch sizes, with or
without row-range blocks: the Ray diff raises if the local diff raises; otherwise it reports
the same commits in the same order, for each the same deleted keys and then the same added
rows as the change log says, each as often. -/
theorem C25 {E : Env} {s : Schema} (hn : s.names.Nodup) (hk : PlainKeys s) {σ : Sys} (h : Reach E s anyStep σ)
    {sl : Slot} (hsl : sl ∈ σ.slots) (R : RayEnv) {ray : RayOpts} (hp : 0 < ray.parallelism) (batch batch' : Nat)
    (a b : Version) :
    match tableDiff E sl.h σ.w batch a b with
    | .error e => rayDiff E R ray sl.h σ.w batch' a b = .error e
    | .ok _ => ∃ md ia ib ids, ∃ css : List (List ChangeData), σ.w.stored = some md ∧
        md.versionId a = .ok ia ∧ md.versionId b = .ok ib ∧ Commits md ia ib ids ∧
        rayDiff E R ray sl.h σ.w batch' a b = .ok css.flatten ∧ css.length = ids.length ∧
        ∀ (k n : Nat) (c : List ChangeData), ids[k]? = some n → css[k]? = some c →
          ∃ snap, md.snaps.get? n = some snap ∧ RayReports σ.w.fs s n snap c := by
  obtain ⟨md, hok⟩ := reach_ok hn h
  rw [tableDiff_target hok.wok (hok.slot hsl), rayDiff_target hok.wok (hok.slot hsl)]
  cases ha : md.versionId a with
  | error e => rfl
  | ok ia =>
    simp only
    cases hb : md.versionId b with
    | error e => rfl
    | ok ib =>
      simp only
      cases ho : orderedIds md ia ib with
      | error e => rfl
      | ok ids =>
        simp only
        have key := rayIds_of (E := E) (R := R) (hok.wok.schema ▸ hk) hok.wok.ok hp batch batch' ids
        cases hr : readChangeIds E σ.w.fs md batch ids with
        | error e => rw [hr] at key; simp only at key ⊢; rw [key]
        | ok cs =>
          rw [hr] at key
          obtain ⟨rc, h1, -, -, h4⟩ := key
          obtain ⟨rcs, h5, h6, h7⟩ := h4 0
          refine ⟨md, ia, ib, ids, rcs, hok.wok.storedEq, ha, hb, ((orderedIds_ok hok.wok.ok).mp ho).2, ?_, h6, ?_⟩
          · rw [h1]
            exact h5
          · rw [← hok.wok.schema]
            exact h7

/-- C25, files: `diff_ray` on an up-to-date handle gives, for each commit in order, one dataset
with every file of deleted rows, and as many datasets as streams which together have every
file of added rows exactly once. -/
theorem C25_files {E : Env} {s : Schema} (hn : s.names.Nodup) (hk : PlainKeys s) {σ : Sys} (h : Reach E s anyStep σ)
    {md : Metadata} (hmd : σ.w.stored = some md) {hd : Handle} (hh : hd.md = md) {ray : RayOpts}
    (hp : 0 < ray.parallelism) (batch : Nat) {a b : Version} {rc : List RayChange}
    (hr : diffRay σ.w.fs hd ray batch a b = .ok rc) :
    ∃ ia ib ids, ∃ rcs : List (List RayChange), md.versionId a = .ok ia ∧ md.versionId b = .ok ib ∧
      Commits md ia ib ids ∧ rc = rcs.flatten ∧ rcs.length = ids.length ∧
      ∀ (i n : Nat) (c : List RayChange), ids[i]? = some n → rcs[i]? = some c → ∃ snap cl,
        md.snaps.get? n = some snap ∧ logOf σ.w.fs snap = some cl ∧ Covers ray.parallelism cl c ∧
        ∀ x ∈ c, x.id = n := by
  obtain ⟨md', hok⟩ := reach_ok hn h
  have := stored_of hok hmd
  subst this
  unfold diffRay at hr
  rw [hh] at hr
  cases ha : md.versionId a with
  | error e => rw [ha] at hr; cases hr
  | ok ia =>
    rw [ha] at hr
    simp only at hr
    cases hb : md.versionId b with
    | error e => rw [hb] at hr; cases hr
    | ok ib =>
      rw [hb] at hr
      simp only at hr
      cases ho : orderedIds md ia ib with
      | error e => rw [ho] at hr; cases hr
      | ok ids =>
        rw [ho] at hr
        simp only at hr
        have key := rayIds_of (E := E) (R := Demo.rayEnv) (hok.wok.schema ▸ hk) hok.wok.ok hp batch batch ids
        cases hx : readChangeIds E σ.w.fs md batch ids with
        | error e => rw [hx] at key; simp only at key; rw [key] at hr; cases hr
        | ok cs =>
          rw [hx] at key
          obtain ⟨rcs, h1, h2, h3, -⟩ := key
          rw [h1] at hr
          exact ⟨ia, ib, ids, rcs, rfl, rfl, ((orderedIds_ok hok.wok.ok).mp ho).2, (Except.ok.inj hr).symm, h2, h3⟩

/-- C25, without streams: a commit that added rows cannot be read. -/
theorem C25_none {fs : FS} {md : Metadata} {ray : RayOpts} {n : Nat} {snap : Snapshot} {cl : ChangeLog} (batch : Nat)
    (hs : md.snaps.get? n = some snap) (hl : logOf fs snap = some cl) (ha : cl.added ≠ []) (hp : ray.parallelism = 0) :
    rayChanges fs md ray batch n = .error (.other "ZeroDivisionError") := by
  unfold logOf at hl
  simp only [rayChanges, hs, hl, if_neg ha, addShards, hp, if_true]

/-- Three files added by one commit and read by two streams and by five; rows deleted from a
file that is cut into slices. -/
def Demo.streams : List Act :=
  [.call 0 (.mutate (.append [[row 1 "a" [1], row 2 "b" [2], row 3 "a" [3], row 4 "b" [4]],
      [row 5 "a" [5], row 6 "a" [6], row 7 "a" [7], row 8 "a" [8]], [row 9 "a" [9]]])),
    .call 0 (.mutate (.delete (.bin "equal" (.sel "txt") (.lit (.str "b")))))]

/-- The reported keys, deleted ones negative. -/
def Demo.signed (r : Except Err (List ChangeData)) : Option (List Int) :=
  (brief r).map (·.map (fun b => match b.key with
    | .sc (.int i) => if b.add then i else -i
    | _ => 0))

example : ∃ σ sl, Reach env schema calm σ ∧ sl ∈ σ.slots ∧
    signed (tableDiff env sl.h σ.w 3 (.id 0) (.id 2)) = some [1, 2, 3, 4, 5, 6, 7, 8, 9, -2, -4] ∧
    signed (rayDiff env rayEnv { parallelism := 2 } sl.h σ.w 3 (.id 0) (.id 2)) =
      some [8, 5, 6, 7, 4, 1, 2, 3, 9, -4, -2] ∧
    signed (rayDiff env rayEnv { parallelism := 5 } sl.h σ.w 3 (.id 0) (.id 2)) =
      some [4, 1, 2, 3, 8, 5, 6, 7, 9, -4, -2] := by
  obtain ⟨sl, -, h1, h2⟩ := slot_of (σ := after env calmB schema streams) (i := 0)
    (f := fun sl => (signed (tableDiff env sl.h (after env calmB schema streams).w 3 (.id 0) (.id 2)),
      signed (rayDiff env rayEnv { parallelism := 2 } sl.h (after env calmB schema streams).w 3 (.id 0) (.id 2)),
      signed (rayDiff env rayEnv { parallelism := 5 } sl.h (after env calmB schema streams).w 3 (.id 0) (.id 2))))
    (x := (some [1, 2, 3, 4, 5, 6, 7, 8, 9, -2, -4], some [8, 5, 6, 7, 4, 1, 2, 3, 9, -4, -2],
      some [4, 1, 2, 3, 8, 5, 6, 7, 9, -4, -2])) (by decide +kernel)
  simp only [Prod.mk.injEq] at h2
  exact ⟨_, sl, after_reach calmB_calm _, h1, h2.1, h2.2.1, h2.2.2⟩

end Space
