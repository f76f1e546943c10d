import Verif.Diffs
import Verif.Props.Loads
import Verif.Props.Keys
import Verif.Props.Stats

/-!
# C18, C19, C20, C21: diffs

`Commits md a b ids` (in `Diffs.lean`): `ids` are the commits after `a` up to `b` on the
history of `b`.
-/

set_option autoImplicit false

namespace Space

open Demo List

/-! ## C18 -/

/-- `c` reports the commit `n`: the keys of the rows logged as deleted, then the rows logged
as added, in batches. -/
def Reports (fs : FS) (s : Schema) (n : Nat) (snap : Snapshot) (c : List ChangeData) : Prop :=
  ∃ (cl : ChangeLog) (ds as : List (List Row)), logOf fs snap = some cl ∧
    c = ds.map (ChangeData.mk n .delete) ++ as.map (ChangeData.mk n .add) ∧
    ds.flatten = (loggedRows fs s cl.deleted).map (·.select s.pks) ∧
    as.flatten = (loggedRows fs s cl.added).map (·.select s.writeNames)

/-- Keys are columns that are not record fields. -/
def PlainKeys (s : Schema) : Prop := ∀ k ∈ s.pks, k ∈ s.names ∧ k ∉ s.recs

theorem outCols_plain {s : Schema} (hk : PlainKeys s) : outCols s s.pks = s.pks := by
  unfold outCols
  rw [List.filter_eq_self.mpr, List.filter_eq_nil_iff.mpr, List.append_nil]
  · intro k h
    simpa using (hk k h).2
  · intro k h
    simpa using (hk k h).2

theorem reports_of {E : Env} {fs : FS} {md : Metadata} {n : Nat} {snap : Snapshot} {batch : Nat}
    (hk : PlainKeys md.schema) (hok : MdOK fs md) (hs : md.snaps.get? n = some snap) {cl : ChangeLog}
    (hl : logOf fs snap = some cl) :
    ∃ c, readChanges E fs md batch n = .ok c ∧ Reports fs md.schema n snap c := by
  have hlog : LogOK fs md.schema cl := by
    unfold logOf at hl
    cases hsl : snap.log with
    | none => rw [hsl] at hl; cases hl
    | some q =>
      obtain ⟨cl', h1, h2⟩ := (hok.snaps _ _ hs).log q hsl
      rw [hsl] at hl
      simp only [Option.bind_some] at hl
      rw [hl] at h1
      cases h1
      exact h2
  obtain ⟨ds, as, h1, h2, h3⟩ := readChanges_eq (E := E) batch (fun c hc => (hk c hc).1) hs hl hlog
  refine ⟨_, h1, cl, ds, as, hl, rfl, ?_, h3⟩
  rw [h2, loggedRows, List.map_map]
  refine List.map_congr_left fun r _ => ?_
  simp only [outRow, outCols_plain hk, Function.comp_apply]

theorem readChanges_log {E : Env} {fs : FS} {md : Metadata} {n : Nat} {batch : Nat} {c : List ChangeData}
    (h : readChanges E fs md batch n = .ok c) : ∃ snap cl, md.snaps.get? n = some snap ∧ logOf fs snap = some cl := by
  cases hs : md.snaps.get? n with
  | none => simp [readChanges, hs] at h
  | some snap =>
    cases hl : logOf fs snap with
    | none => rw [readChanges_none batch hs hl] at h; cases h
    | some cl => exact ⟨snap, cl, rfl, hl⟩

/-- C18: in every history, a diff that succeeds reports the commits after `a` up to and
including `b` on the history of `b`, one after the other, in order. -/
theorem C18 {E : Env} {s : Schema} (hn : s.names.Nodup) (hk : PlainKeys s) {σ : Sys} (h : Reach E s anyStep σ)
    {sl : Slot} (hsl : sl ∈ σ.slots) {batch : Nat} {a b : Version} {cs : List ChangeData}
    (hd : tableDiff E sl.h σ.w batch a b = .ok cs) :
    ∃ md ia ib ids, ∃ css : List (List ChangeData), σ.w.stored = some md ∧
      md.versionId a = .ok ia ∧ md.versionId b = .ok ib ∧ ia < ib ∧ Commits md ia ib ids ∧
      cs = css.flatten ∧ css.length = ids.length ∧
      ∀ (k n : Nat) (c : List ChangeData), ids[k]? = some n → css[k]? = some c →
        ∃ snap, md.snaps.get? n = some snap ∧ Reports σ.w.fs s n snap c := by
  obtain ⟨md, hok⟩ := reach_ok hn h
  obtain ⟨ia, ib, ids, h1, h2, h3, h4, h5⟩ := (tableDiff_ok hok.wok (hok.slot hsl)).mp hd
  obtain ⟨css, h6, h7⟩ := readChangeIds_ok.mp h5
  refine ⟨md, ia, ib, ids, css, hok.wok.storedEq, h1, h2, h3, h4, h7, ?_, ?_⟩
  · simpa using congrArg List.length h6
  · intro k n c hk1 hk2
    have h8 := congrArg (·[k]?) h6
    simp only [List.getElem?_map, hk1, hk2, Option.map_some, Option.some.injEq] at h8
    obtain ⟨snap, cl, h9, h10⟩ := readChanges_log h8.symm
    obtain ⟨c', h11, h12⟩ := reports_of (E := E) (batch := batch) (hok.wok.schema ▸ hk) hok.wok.ok h9 h10
    rw [← h8] at h11
    cases h11
    exact ⟨snap, h9, hok.wok.schema ▸ h12⟩

/-- C18, second half: a diff raises if `b` is not newer than `a`, or `a` is not an ancestor
of `b`. -/
theorem C18_raises {E : Env} {s : Schema} (hn : s.names.Nodup) {σ : Sys} (h : Reach E s anyStep σ)
    {sl : Slot} (hsl : sl ∈ σ.slots) {md : Metadata} (hmd : σ.w.stored = some md) {a b : Version} {ia ib : Nat}
    (ha : md.versionId a = .ok ia) (hb : md.versionId b = .ok ib) (hbad : ib ≤ ia ∨ ¬ Anc md ib ia) (batch : Nat) :
    ∃ e, tableDiff E sl.h σ.w batch a b = .error e := by
  obtain ⟨md', hok⟩ := reach_ok hn h
  have := stored_of hok hmd
  subst this
  cases hd : tableDiff E sl.h σ.w batch a b with
  | error e => exact ⟨e, rfl⟩
  | ok cs =>
    obtain ⟨ia', ib', ids, h1, h2, h3, h4, -⟩ := (tableDiff_ok hok.wok (hok.slot hsl)).mp hd
    rw [ha] at h1
    rw [hb] at h2
    cases h1
    cases h2
    rcases hbad with hbad | hbad
    · omega
    · exact absurd h4.anc hbad

/-- A reported row: commit, added or deleted, key. -/
structure Demo.Brief where
  id : Nat
  add : Bool
  key : Val
deriving DecidableEq

/-- The reported rows in order; nothing if the diff raised. -/
def Demo.brief : Except Err (List ChangeData) → Option (List Brief)
  | .error _ => none
  | .ok cs => some (cs.flatMap (fun c => c.data.map (fun r => ⟨c.id, decide (c.type = .add), r.val "id"⟩)))

/-- A history with a branch: 1 and 2 on main, 3 on a branch from 2, 4 on main. -/
def Demo.forked : List Act :=
  [.call 0 (.mutate (.append [[row 1 "a" [1]]])), .call 0 (.mutate (.append [[row 2 "b" [2]]])),
    .call 0 (.addBranch "x"), .call 0 (.setBranch "x"),
    .call 0 (.mutate (.append [[row 3 "c" [3]]])), .call 0 (.setBranch "main"),
    .call 0 (.mutate (.upsert [row 1 "A" [4]]))]

/-- The diff from 1 to the head of main reports 2 and 4 and not 3, which is on the branch;
the one from 3 to 4 raises. -/
example : ∃ σ sl, Reach env schema calm σ ∧ sl ∈ σ.slots ∧
    brief (tableDiff env sl.h σ.w 16 (.id 1) (.id 4)) =
      some [⟨2, true, .sc (.int 2)⟩, ⟨4, false, .sc (.int 1)⟩, ⟨4, true, .sc (.int 1)⟩] ∧
    brief (tableDiff env sl.h σ.w 16 (.id 2) (.name "x")) = some [⟨3, true, .sc (.int 3)⟩] ∧
    brief (tableDiff env sl.h σ.w 16 (.id 3) (.id 4)) = none ∧
    brief (tableDiff env sl.h σ.w 16 (.id 4) (.id 3)) = none := by
  obtain ⟨sl, -, h1, h2⟩ := slot_of (σ := after env calmB schema forked) (i := 0)
    (f := fun sl => (brief (tableDiff env sl.h (after env calmB schema forked).w 16 (.id 1) (.id 4)),
      brief (tableDiff env sl.h (after env calmB schema forked).w 16 (.id 2) (.name "x")),
      brief (tableDiff env sl.h (after env calmB schema forked).w 16 (.id 3) (.id 4)),
      brief (tableDiff env sl.h (after env calmB schema forked).w 16 (.id 4) (.id 3))))
    (x := (some [⟨2, true, .sc (.int 2)⟩, ⟨4, false, .sc (.int 1)⟩, ⟨4, true, .sc (.int 1)⟩],
      some [⟨3, true, .sc (.int 3)⟩], none, none)) (by decide +kernel)
  simp only [Prod.mk.injEq] at h2
  exact ⟨_, sl, after_reach calmB_calm _, h1, h2.1, h2.2.1, h2.2.2.1, h2.2.2.2⟩

/-! ## C20 -/

/-- C20: in every history, if `b` lies between `a` and `c`, then the diff from `a` to `c` is
the one from `a` to `b` followed by the one from `b` to `c`, and it succeeds exactly when
both do. -/
theorem C20 {E : Env} {s : Schema} (hn : s.names.Nodup) {σ : Sys} (h : Reach E s anyStep σ)
    {sl : Slot} (hsl : sl ∈ σ.slots) {md : Metadata} (hmd : σ.w.stored = some md) {a b c : Version} {ia ib ic : Nat}
    (ha : md.versionId a = .ok ia) (hb : md.versionId b = .ok ib) (hc : md.versionId c = .ok ic)
    (hab : ia < ib) (hbc : ib < ic) (h1 : Anc md ib ia) (h2 : Anc md ic ib) (batch : Nat) (z : List ChangeData) :
    tableDiff E sl.h σ.w batch a c = .ok z ↔
      ∃ x y, tableDiff E sl.h σ.w batch a b = .ok x ∧ tableDiff E sl.h σ.w batch b c = .ok y ∧ z = x ++ y := by
  obtain ⟨md', hok⟩ := reach_ok hn h
  have := stored_of hok hmd
  subst this
  obtain ⟨xs, hx⟩ := h1.commits
  obtain ⟨ys, hy⟩ := h2.commits
  have hh := hok.slot hsl
  constructor
  · intro hz
    obtain ⟨ia', ic', zs, h3, h4, h5, h6, h7⟩ := (tableDiff_ok hok.wok hh).mp hz
    rw [ha] at h3
    rw [hc] at h4
    cases h3
    cases h4
    rw [h6.unique hok.wok.ok (hx.trans hy), readChangeIds_append] at h7
    obtain ⟨x, y, h8, h9, rfl⟩ := h7
    exact ⟨x, y, (tableDiff_ok hok.wok hh).mpr ⟨_, _, _, ha, hb, hab, hx, h8⟩,
      (tableDiff_ok hok.wok hh).mpr ⟨_, _, _, hb, hc, hbc, hy, h9⟩, rfl⟩
  · rintro ⟨x, y, h3, h4, rfl⟩
    obtain ⟨ia', ib', xs', h5, h6, -, h7, h8⟩ := (tableDiff_ok hok.wok hh).mp h3
    obtain ⟨ib2, ic', ys', h9, h10, -, h11, h12⟩ := (tableDiff_ok hok.wok hh).mp h4
    rw [ha] at h5
    rw [hb] at h6 h9
    rw [hc] at h10
    cases h5
    cases h6
    cases h9
    cases h10
    exact (tableDiff_ok hok.wok hh).mpr ⟨_, _, _, ha, hc, by omega, h7.trans h11,
      readChangeIds_append.mpr ⟨x, y, h8, h12, rfl⟩⟩

/-- Versions 0, 2 and 4 of `forked`. -/
example : ∃ σ sl md, Reach env schema calm σ ∧ sl ∈ σ.slots ∧ σ.w.stored = some md ∧ Anc md 2 0 ∧ Anc md 4 2 ∧
    brief (tableDiff env sl.h σ.w 16 (.id 0) (.id 2)) = some [⟨1, true, .sc (.int 1)⟩, ⟨2, true, .sc (.int 2)⟩] ∧
    brief (tableDiff env sl.h σ.w 16 (.id 2) (.id 4)) = some [⟨4, false, .sc (.int 1)⟩, ⟨4, true, .sc (.int 1)⟩] := by
  let σ := after env calmB schema forked
  obtain ⟨sl, -, h1, h2⟩ := slot_of (σ := σ) (i := 0)
    (f := fun sl => (brief (tableDiff env sl.h σ.w 16 (.id 0) (.id 2)), brief (tableDiff env sl.h σ.w 16 (.id 2) (.id 4))))
    (x := (some [⟨1, true, .sc (.int 1)⟩, ⟨2, true, .sc (.int 2)⟩],
      some [⟨4, false, .sc (.int 1)⟩, ⟨4, true, .sc (.int 1)⟩])) (by decide +kernel)
  obtain ⟨md, h3, h4⟩ := stored_of_map (w := σ.w) (f := fun md => [1, 2, 4].map (fun n => (md.snaps.get? n).map (·.parent)))
    (x := [some (some 0), some (some 1), some (some 2)]) (by decide +kernel)
  simp only [List.map_cons, List.map_nil, List.cons.injEq, Option.map_eq_some_iff, and_true, Prod.mk.injEq] at h2 h4
  obtain ⟨⟨s1, a1, b1⟩, ⟨s2, a2, b2⟩, ⟨s4, a4, b4⟩⟩ := h4
  exact ⟨σ, sl, md, after_reach calmB_calm _, h1, h3, .parent (.parent .self a2 b2) a1 b1, .parent .self a4 b4, h2.1, h2.2⟩

/-! ## C21 -/

/-- Calm steps in which no `append_parquet` lands. -/
def logging (σ : Sys) (ev : Event) : Prop := calm σ ev ∧ ∀ i files, ¬ Lands σ ev i (.appendParquet files)

theorem logOf_mono {fs fs' : FS} {s : Schema} {snap : Snapshot} (hf : FSLe fs fs') (hs : SnapOK fs s snap)
    (h : (logOf fs snap).isSome) : (logOf fs' snap).isSome := by
  unfold logOf at *
  cases hl : snap.log with
  | none => rw [hl] at h; cases h
  | some q =>
    obtain ⟨cl, h1, -⟩ := hs.log q hl
    simp only [Option.bind_some, hf.log h1, Option.isSome_some]

theorem readChangeIds_total {E : Env} {fs : FS} {md : Metadata} {batch : Nat} : ∀ {ids : List Nat},
    (∀ n ∈ ids, ∃ c, readChanges E fs md batch n = .ok c) → ∃ cs, readChangeIds E fs md batch ids = .ok cs
  | [], _ => ⟨[], readChangeIds_ok.mpr ⟨[], rfl, rfl⟩⟩
  | n :: ids, h => by
    obtain ⟨c, hc⟩ := h n List.mem_cons_self
    obtain ⟨cs, hcs⟩ := readChangeIds_total fun k hk => h k (List.mem_cons_of_mem _ hk)
    obtain ⟨css, h1, h2⟩ := readChangeIds_ok.mp hcs
    exact ⟨_, readChangeIds_ok.mpr ⟨c :: css, by simp [h1, hc], rfl⟩⟩

theorem Commits.mem {md : Metadata} {a n : Nat} {ids : List Nat} (h : Commits md a n ids) :
    ∀ k ∈ ids, ∃ snap p, md.snaps.get? k = some snap ∧ snap.parent = some p := by
  induction h with
  | here => intro k hk; cases hk
  | next _ h1 h2 ih =>
    intro k hk
    rcases List.mem_append.mp hk with hk | hk
    · exact ih k hk
    · simp only [List.mem_singleton] at hk
      subst hk
      exact ⟨_, _, h1, h2⟩

/-- C21 for calm histories in which no `append_parquet` lands: the diff from any version to
any later one it is an ancestor of succeeds.  With `C18` it reports every commit between
them.  Missing: commits of `append_parquet`, see `C21_violated`. -/
theorem C21_partial {E : Env} {s : Schema} (hn : s.names.Nodup) (hk : PlainKeys s) {σ : Sys} (h : Reach E s logging σ)
    {sl : Slot} (hsl : sl ∈ σ.slots) {md : Metadata} (hmd : σ.w.stored = some md) {a b : Version} {ia ib : Nat}
    (ha : md.versionId a = .ok ia) (hb : md.versionId b = .ok ib) (hlt : ia < ib) (hanc : Anc md ib ia) (batch : Nat) :
    ∃ cs, tableDiff E sl.h σ.w batch a b = .ok cs := by
  obtain ⟨md', hok⟩ := reach_ok hn (h.imp anyStep_of)
  have := stored_of hok hmd
  subst this
  obtain ⟨ids, hids⟩ := hanc.commits
  obtain ⟨cs, hcs⟩ := readChangeIds_total (E := E) (fs := σ.w.fs) (md := md) (batch := batch) (ids := ids) (by
    intro n hnm
    obtain ⟨snap, q, h1, h2⟩ := hids.mem n hnm
    have : snap.parent ≠ none → (logOf σ.w.fs snap).isSome := by
      refine snaps_invariant hn (P := logging) (fun h => h.1)
        (Good := fun fs snap => snap.parent ≠ none → (logOf fs snap).isSome) ?_ ?_ ?_ h hmd h1
      · intro fs fs' snap hf hs hg hp
        exact logOf_mono hf hs (hg hp)
      · intro fs hp
        exact absurd rfl hp
      · intro σ σ' ev i m sl sl' w h1 w1 p cur snap hp hl hl' _ _
        exact hl'.succ.hasLog hn (fun files hm => hp.2 i files (hm ▸ hl))
    obtain ⟨cl, hcl⟩ := Option.isSome_iff_exists.mp (this (by rw [h2]; exact Option.some_ne_none _))
    obtain ⟨c, h3, -⟩ := reports_of (E := E) (batch := batch) (hok.wok.schema ▸ hk) hok.wok.ok h1 hcl
    exact ⟨c, h3⟩)
  exact ⟨cs, (tableDiff_ok hok.wok (hok.slot hsl)).mpr ⟨ia, ib, ids, ha, hb, hlt, hids, hcs⟩⟩

/-- C18, both halves: in every history, for versions that exist, a diff succeeds exactly when
`b` is newer than `a`, `a` is an ancestor of `b` and every commit between them has a change
log.  (Commits of `append_parquet` have none, see `C21_violated`.) -/
theorem C18_exact {E : Env} {s : Schema} (hn : s.names.Nodup) (hk : PlainKeys s) {σ : Sys} (h : Reach E s anyStep σ)
    {sl : Slot} (hsl : sl ∈ σ.slots) {md : Metadata} (hmd : σ.w.stored = some md) {a b : Version} {ia ib : Nat}
    (ha : md.versionId a = .ok ia) (hb : md.versionId b = .ok ib) (batch : Nat) :
    (∃ cs, tableDiff E sl.h σ.w batch a b = .ok cs) ↔
      ia < ib ∧ ∃ ids, Commits md ia ib ids ∧
        ∀ n ∈ ids, ∃ snap cl, md.snaps.get? n = some snap ∧ logOf σ.w.fs snap = some cl := by
  obtain ⟨md', hok⟩ := reach_ok hn h
  have := stored_of hok hmd
  subst this
  constructor
  · rintro ⟨cs, hcs⟩
    obtain ⟨ia', ib', ids, h1, h2, h3, h4, h5⟩ := (tableDiff_ok hok.wok (hok.slot hsl)).mp hcs
    rw [ha] at h1
    rw [hb] at h2
    cases h1
    cases h2
    refine ⟨h3, ids, h4, fun n hnm => ?_⟩
    obtain ⟨css, h6, -⟩ := readChangeIds_ok.mp h5
    have h7 : readChanges E σ.w.fs md batch n ∈ css.map Except.ok := h6 ▸ List.mem_map_of_mem hnm
    obtain ⟨c, -, hc⟩ := List.mem_map.mp h7
    exact readChanges_log hc.symm
  · rintro ⟨hlt, ids, hids, hlog⟩
    obtain ⟨cs, hcs⟩ := readChangeIds_total (E := E) (fs := σ.w.fs) (md := md) (batch := batch) (ids := ids) (by
      intro n hnm
      obtain ⟨snap, cl, h1, hcl⟩ := hlog n hnm
      obtain ⟨c, h3, -⟩ := reports_of (E := E) (batch := batch) (hok.wok.schema ▸ hk) hok.wok.ok h1 hcl
      exact ⟨c, h3⟩)
    exact ⟨cs, (tableDiff_ok hok.wok (hok.slot hsl)).mpr ⟨ia, ib, ids, ha, hb, hlt, hids, hcs⟩⟩

/-- The keys a diff deletes. -/
def deletedKeys (s : Schema) (cs : List ChangeData) : List (List Val) :=
  keysOf s ((cs.filter (fun c => decide (c.type = .delete))).flatMap (·.data))

/-- The rows a diff adds. -/
def addedRows (cs : List ChangeData) : List Row := (cs.filter (fun c => decide (c.type = .add))).flatMap (·.data)

theorem deletedKeys_reports {fs : FS} {s : Schema} {n : Nat} {snap : Snapshot} {c : List ChangeData} {cl : ChangeLog}
    (hl : logOf fs snap = some cl) (h : Reports fs s n snap c) :
    deletedKeys s c = keysOf s (loggedRows fs s cl.deleted) ∧
      addedRows c = (loggedRows fs s cl.added).map (·.select s.writeNames) := by
  obtain ⟨cl', ds, as, h1, h2, h3, h4⟩ := h
  rw [hl] at h1
  cases h1
  have e1 : c.filter (fun c => decide (c.type = .delete)) = ds.map (ChangeData.mk n .delete) := by
    subst h2
    rw [List.filter_append, List.filter_eq_self.mpr (by simp), List.filter_eq_nil_iff.mpr (by simp), List.append_nil]
  have e2 : c.filter (fun c => decide (c.type = .add)) = as.map (ChangeData.mk n .add) := by
    subst h2
    rw [List.filter_append, List.filter_eq_nil_iff.mpr (by simp), List.filter_eq_self.mpr (by simp), List.nil_append]
  constructor
  · unfold deletedKeys keysOf
    rw [e1, List.flatMap_map]
    show (ds.flatMap id).map _ = _
    rw [List.flatMap_id, h3, List.map_map]
    refine List.map_congr_left fun r _ => List.map_congr_left fun k hk => select_val hk
  · unfold addedRows
    rw [e2, List.flatMap_map]
    show as.flatMap id = _
    rw [List.flatMap_id, h4]

theorem headOf_id {E : Env} {s : Schema} {σ : Sys} {md : Metadata} (hok : SysOK E s σ md) {h : Handle} {cur : Snapshot}
    (hh : headOf h σ.w = some cur) : md.currentId h.branch = .ok cur.id ∧ md.snaps.get? cur.id = some cur := by
  unfold headOf at hh
  rw [hok.wok.storedEq] at hh
  simp only [Option.bind_some, Metadata.target] at hh
  cases hc : md.currentId h.branch with
  | error e => rw [hc] at hh; cases hh
  | ok n =>
    rw [hc] at hh
    simp only [Metadata.snapshot] at hh
    cases hg : md.snaps.get? n with
    | none => rw [hg] at hh; cases hh
    | some x =>
      rw [hg] at hh
      cases hh
      rw [hok.wok.ok.ids n _ hg]
      exact ⟨rfl, hg⟩

/-- C21, the commit itself: when a mutation other than `append_parquet` takes effect, the
diff from the version before to the version after succeeds for every handle, and reports
the change: the rows before are some rows `kept`, rows with the deleted keys, and rows
`lost`; the rows after are `kept` and the added rows.  Nothing is lost if the layout is one
on which the mutation loses no file.  For deletes by Ray this needs such a layout
(`C23_violated`). -/
theorem C21_commit_partial {E : Env} {s : Schema} (hk : KeySchema s) {i : Nat} {m : Mutation} {σ σ' : Sys}
    (hd : Done E s i m σ σ') (hm : ∀ files, m ≠ .appendParquet files) :
    ∃ sl md md' n n' old new, σ.slots[i]? = some sl ∧ σ.w.stored = some md ∧ σ'.w.stored = some md' ∧
      md.currentId sl.h.branch = .ok n ∧ md'.currentId sl.h.branch = .ok n' ∧
      Reads E σ sl.h.branch old ∧ Reads E σ' sl.h.branch new ∧
      ∀ sl' ∈ σ'.slots, ∀ batch, ∃ cs, tableDiff E sl'.h σ'.w batch (.id n) (.id n') = .ok cs ∧
        (∀ c ∈ cs, c.id = n') ∧
        ((∀ e, m = .rayDelete e → m.Keeps E.I s (headLayout s sl.h σ.w)) →
          ∃ kept gone lost, deletedKeys s cs = keysOf s gone ∧ old ~ kept ++ lost ++ gone ∧
            new ~ kept ++ addedRows cs ∧ (m.Keeps E.I s (headLayout s sl.h σ.w) → lost = [])) := by
  obtain ⟨hr, ev, hs⟩ := hd.reach
  obtain ⟨md, hok⟩ := reach_ok hk.names hr
  obtain ⟨md', hok', -⟩ := step_full hk.names hok hs
  obtain ⟨sl, sl', w, h1, w1, p, cur, snap, hl, hold, hnew⟩ := hd.landing hk.names
  obtain ⟨hc1, hc2⟩ := headOf_id hok hl.succ.head
  obtain ⟨hc3, hc4⟩ := headOf_id hok' hl.succ.head'
  refine ⟨sl, md, md', cur.id, snap.id, _, _, hl.slot, hok.wok.storedEq, hok'.wok.storedEq, hc1, hl.branch ▸ hc3,
    hold, hnew, ?_⟩
  intro a ha batch
  obtain ⟨cl, h5⟩ := Option.isSome_iff_exists.mp (hl.succ.hasLog hk.names hm)
  have hsch := hok'.wok.schema
  obtain ⟨c, h9, h10⟩ := reports_of (E := E) (batch := batch) (hsch ▸ fun k h => ⟨hk.keys k h, hk.plain k h⟩)
    hok'.wok.ok hc4 h5
  rw [hsch] at h10
  obtain ⟨h11, h12⟩ := deletedKeys_reports h5 h10
  obtain ⟨hlt, hp⟩ := hok'.wok.ok.parents _ _ _ hc4 hl.succ.parent
  obtain ⟨cur', hp'⟩ := Option.isSome_iff_exists.mp hp
  have hle : FSLe w.fs σ'.w.fs := hl.succ.grows.le.trans hl.succ.le
  refine ⟨c, ?_, ?_, fun hray => ?_⟩
  · refine (tableDiff_ok hok'.wok (hok'.slot ha)).mpr ⟨cur.id, snap.id, [snap.id], ?_, ?_, hlt,
      .next .here hc4 hl.succ.parent, readChangeIds_ok.mpr ⟨[c], by simp [h9], by simp⟩⟩
    · rfl
    · rfl
  · obtain ⟨_, ds, as, -, rfl, -⟩ := h10
    intro x hx
    simp only [List.mem_append, List.mem_map] at hx
    rcases hx with ⟨_, _, rfl⟩ | ⟨_, _, rfl⟩ <;> rfl
  rw [hl.layout] at hray
  obtain ⟨lost, ⟨cl', kept, h5', h6, h7, h8⟩, hno⟩ := hl.succ.logged hk.names hm hray
  rw [h5] at h5'
  cases h5'
  refine ⟨kept.map (·.select s.writeNames), (loggedRows σ'.w.fs s cl.deleted).map (·.select s.writeNames),
    lost.map (·.select s.writeNames), ?_, ?_, ?_, ?_⟩
  · rw [h11, keysOf_select hk]
  · rw [← snapRows_mono hle hl.succ.curOK, ← List.map_append, ← List.map_append]
    exact h7.map _
  · rw [h12, ← List.map_append]
    exact h8.map _
  · intro hkp
    rw [hl.layout] at hkp
    rw [hno hkp]
    rfl

/-- After `append_parquet` takes effect, every diff across its commit raises. -/
theorem C21_parquet {E : Env} {s : Schema} (hn : s.names.Nodup) {i : Nat} {files : List Path} {σ σ' : Sys}
    (hd : Done E s i (.appendParquet files) σ σ') :
    ∃ sl md md' n n', σ.slots[i]? = some sl ∧ σ.w.stored = some md ∧ σ'.w.stored = some md' ∧
      md.currentId sl.h.branch = .ok n ∧ md'.currentId sl.h.branch = .ok n' ∧ n < n' ∧ Anc md' n' n ∧
      ∀ sl' ∈ σ'.slots, ∀ batch, ∃ e, tableDiff E sl'.h σ'.w batch (.id n) (.id n') = .error e := by
  obtain ⟨hr, ev, hs⟩ := hd.reach
  obtain ⟨md, hok⟩ := reach_ok hn hr
  obtain ⟨md', hok', -⟩ := step_full hn hok hs
  obtain ⟨sl, sl', w, h1, w1, p, cur, snap, hl, hold, hnew⟩ := hd.landing hn
  obtain ⟨hc1, hc2⟩ := headOf_id hok hl.succ.head
  obtain ⟨hc3, hc4⟩ := headOf_id hok' hl.succ.head'
  have hlt := (hok'.wok.ok.parents _ _ _ hc4 hl.succ.parent).1
  refine ⟨sl, md, md', cur.id, snap.id, hl.slot, hok.wok.storedEq, hok'.wok.storedEq, hc1, hl.branch ▸ hc3, hlt,
    .parent .self hc4 hl.succ.parent, ?_⟩
  intro a ha batch
  cases hd : tableDiff E a.h σ'.w batch (.id cur.id) (.id snap.id) with
  | error e => exact ⟨e, rfl⟩
  | ok cs =>
    obtain ⟨ia, ib, ids, h3, h4, -, h5, h6⟩ := (tableDiff_ok hok'.wok (hok'.slot ha)).mp hd
    cases h3
    cases h4
    rw [h5.unique hok'.wok.ok (.next .here hc4 hl.succ.parent)] at h6
    obtain ⟨css, h7, -⟩ := readChangeIds_ok.mp h6
    cases css with
    | nil => cases h7
    | cons c css =>
      simp only [List.nil_append, List.map_cons, List.map_nil, List.cons.injEq] at h7
      rw [readChanges_none batch hc4 hl.succ.notLogged] at h7
      cases h7.1

/-- Is a mutation logged? -/
def Demo.logsB : Mutation → Bool
  | .appendParquet _ => false
  | _ => true

/-- No `append_parquet` lands. -/
def Demo.logsE (σ : Sys) : Event → Bool
  | .call _ (.mutate m) _ => logsB m
  | .commit i _ => (match σ.slots[i]? with
    | some ⟨_, .ready _ m _⟩ => logsB m
    | _ => true)
  | _ => true

theorem Demo.logsB_lands {σ : Sys} {ev : Event} (h : logsE σ ev = true) (i : Nat)
    (files : List Path) : ¬ Lands σ ev i (.appendParquet files) := by
  rintro (rfl | ⟨rfl, ⟨x, ph⟩, t, p, hsl, hph⟩)
  · cases h
  · simp only at hph
    subst hph
    simp only [logsE, hsl] at h
    cases h

/-- Decides `logging`. -/
def Demo.loggingB (σ : Sys) (ev : Event) : Bool := calmB σ ev && logsE σ ev

theorem Demo.loggingB_logging (σ : Sys) (ev : Event) (h : loggingB σ ev = true) : logging σ ev := by
  simp only [loggingB, Bool.and_eq_true] at h
  exact ⟨calmB_calm _ _ h.1, logsB_lands h.2⟩

/-- An insert, an upsert and a delete; every commit is reported. -/
example : ∃ σ sl md, Reach env schema logging σ ∧ sl ∈ σ.slots ∧ σ.w.stored = some md ∧ Anc md 3 0 ∧
    brief (tableDiff env sl.h σ.w 16 (.id 0) (.id 3)) = some [⟨1, true, .sc (.int 1)⟩, ⟨1, true, .sc (.int 2)⟩,
      ⟨2, false, .sc (.int 2)⟩, ⟨2, true, .sc (.int 2)⟩, ⟨3, false, .sc (.int 1)⟩] := by
  let σ := after env loggingB schema [.call 0 (.mutate (.insert [row 1 "a" [1], row 2 "b" [2]])),
    .call 0 (.mutate (.upsert [row 2 "B" [2]])), .call 0 (.mutate (.delete (idIs "lt" 2)))]
  obtain ⟨sl, -, h1, h2⟩ := slot_of (σ := σ) (i := 0)
    (f := fun sl => brief (tableDiff env sl.h σ.w 16 (.id 0) (.id 3)))
    (x := some [⟨1, true, .sc (.int 1)⟩, ⟨1, true, .sc (.int 2)⟩,
      ⟨2, false, .sc (.int 2)⟩, ⟨2, true, .sc (.int 2)⟩, ⟨3, false, .sc (.int 1)⟩]) (by decide +kernel)
  obtain ⟨md, h3, h4⟩ := stored_of_map (w := σ.w) (f := fun md => [1, 2, 3].map (fun n => (md.snaps.get? n).map (·.parent)))
    (x := [some (some 0), some (some 1), some (some 2)]) (by decide +kernel)
  simp only [List.map_cons, List.map_nil, List.cons.injEq, Option.map_eq_some_iff, and_true] at h4
  obtain ⟨⟨s1, a1, b1⟩, ⟨s2, a2, b2⟩, ⟨s3, a3, b3⟩⟩ := h4
  exact ⟨σ, sl, md, after_reach loggingB_logging _, h1, h3, .parent (.parent (.parent .self a3 b3) a2 b2) a1 b1, h2⟩

/-- C21 is false for `append_parquet`: it succeeds and its rows are read, and the diff over
it raises. -/
theorem C21_violated : ∃ σ σ', Done env plain 0 (.appendParquet [.external "/in/a.parquet"]) σ σ' ∧
    Reads env σ mainBranch [prow 1 "a"] ∧ Reads env σ' mainBranch [prow 1 "a", prow 2 "b"] ∧
    ∃ sl, sl ∈ σ'.slots ∧ tableDiff env sl.h σ'.w 16 (.id 1) (.id 2) = .error (.other "FileNotFoundError") := by
  let σ := placed (after env anyB plain [.call 0 (.mutate (.append [[prow 1 "a"]]))]) "/in/a.parquet"
    (.parquet [[prow 2 "b"]])
  have hr : Reach env plain anyStep σ := placed_reach (after_reach (fun _ _ _ => trivial) _) _ (by decide +kernel)
  have hadm : (Call.mutate (.appendParquet [.external "/in/a.parquet"])).Admissible plain σ.w.fs := by
    intro p hp g hg
    simp only [List.mem_singleton] at hp
    subst hp
    have : σ.w.fs.parquet (.external "/in/a.parquet") = some [[prow 2 "b"]] := by
      decide +kernel
    rw [this] at hg
    cases hg
    decide
  let σ' := calling env σ 0 (.mutate (.appendParquet [.external "/in/a.parquet"]))
  obtain ⟨sl, -, h1, h2⟩ := slot_of (σ := σ') (i := 0)
    (f := fun sl => match tableDiff env sl.h σ'.w 16 (.id 1) (.id 2) with
      | .error (.other "FileNotFoundError") => true
      | _ => false) (x := true) (by decide +kernel)
  refine ⟨σ, σ', .call hr (calling_step hadm (by decide +kernel)), reads_all (by decide +kernel),
    reads_all (by decide +kernel), sl, h1, ?_⟩
  split at h2
  · assumption
  · cases h2

/-! ## C19 -/

/-- Applying reported changes to rows: deletes by key, additions at the end. -/
def replay (s : Schema) (rows : List Row) : List ChangeData → List Row
  | [] => rows
  | c :: cs =>
    match c.type with
    | .delete => replay s (rows.filter (fun r => decide (s.pks.map r.val ∉ keysOf s c.data))) cs
    | .add => replay s (rows ++ c.data) cs

theorem replay_append (s : Schema) : ∀ (rows : List Row) (xs ys : List ChangeData),
    replay s rows (xs ++ ys) = replay s (replay s rows xs) ys
  | _, [], _ => rfl
  | rows, c :: xs, ys => by
    rw [List.cons_append, replay, replay.eq_2 s rows c xs]
    cases c.type with
    | delete => exact replay_append s _ xs ys
    | add => exact replay_append s _ xs ys

theorem replay_adds (s : Schema) (n : Nat) : ∀ (rows : List Row) (as : List (List Row)),
    replay s rows (as.map (ChangeData.mk n .add)) = rows ++ as.flatten
  | rows, [] => by simp [replay]
  | rows, a :: as => by
    simp only [List.map_cons, replay]
    rw [replay_adds s n _ as, List.flatten_cons, List.append_assoc]

theorem replay_dels (s : Schema) (n : Nat) : ∀ (rows : List Row) (ds : List (List Row)),
    replay s rows (ds.map (ChangeData.mk n .delete)) =
      rows.filter (fun r => decide (s.pks.map r.val ∉ keysOf s ds.flatten))
  | rows, [] => by
    rw [List.filter_eq_self.mpr (by simp [keysOf])]
    rfl
  | rows, a :: as => by
    simp only [List.map_cons, replay]
    rw [replay_dels s n _ as, List.filter_filter]
    refine List.filter_congr fun r _ => ?_
    simp only [keysOf, List.flatten_cons, List.map_append, List.mem_append, not_or, Bool.decide_and]
    exact Bool.and_comm _ _

theorem replay_perm (s : Schema) : ∀ {rows rows' : List Row} (cs : List ChangeData), rows ~ rows' →
    replay s rows cs ~ replay s rows' cs
  | _, _, [], h => h
  | _, _, c :: cs, h => by
    unfold replay
    cases c.type with
    | delete => exact replay_perm s cs (h.filter _)
    | add => exact replay_perm s cs (h.append_right _)

/-- Replaying one reported commit. -/
theorem replay_reports {fs : FS} {s : Schema} (hk : KeySchema s) {n : Nat} {cur snap : Snapshot} {c : List ChangeData}
    (hl : Logged fs s cur snap []) (h : Reports fs s n snap c) (hu : (keysOf s (snapRows fs s cur)).Nodup) :
    replay s ((snapRows fs s cur).map (·.select s.writeNames)) c ~ (snapRows fs s snap).map (·.select s.writeNames) := by
  obtain ⟨cl, kept, h1, -, h2, h3⟩ := hl
  obtain ⟨cl', ds, as, h4, rfl, h5, h6⟩ := h
  rw [h1] at h4
  cases h4
  rw [List.append_nil] at h2
  rw [replay_append, replay_adds, replay_dels, h6]
  refine Perm.trans ?_ (h3.map _).symm
  rw [List.map_append]
  refine Perm.append_right _ ?_
  have hkeys : keysOf s ds.flatten = keysOf s (loggedRows fs s cl.deleted) := by
    rw [h5]
    unfold keysOf
    rw [List.map_map]
    exact List.map_congr_left fun r _ => List.map_congr_left fun k hk => select_val hk
  rw [hkeys]
  refine ((h2.map _).filter _).trans ?_
  have hu' : (keysOf s (kept ++ loggedRows fs s cl.deleted)).Nodup := (h2.map _).nodup_iff.mp hu
  simp only [keysOf, List.map_append, List.nodup_append] at hu'
  rw [List.map_append, List.filter_append, List.filter_eq_self.mpr, List.filter_eq_nil_iff.mpr, List.append_nil]
  · intro r hr
    obtain ⟨r', hr', rfl⟩ := List.mem_map.mp hr
    simp only [decide_not, Bool.not_eq_true, Bool.not_eq_false', decide_eq_true_eq]
    exact List.mem_map.mpr ⟨r', hr', (keyOf_select hk r').symm⟩
  · intro r hr
    obtain ⟨r', hr', rfl⟩ := List.mem_map.mp hr
    simp only [decide_not, Bool.not_eq_true', decide_eq_false_iff_not]
    intro hm
    have e : s.pks.map (r'.select s.writeNames).val = s.pks.map r'.val := keyOf_select hk r'
    rw [e] at hm
    exact hu'.2.2 _ (List.mem_map.mpr ⟨r', hr', rfl⟩) _ hm rfl

/-- Calm steps in which mutations lose no file, no `append_parquet` lands, and only
reachable snapshots are tagged. -/
def faithful (E : Env) (s : Schema) (σ : Sys) (ev : Event) : Prop :=
  keeping E s σ ev ∧ noRevive σ ev ∧ ∀ i files, ¬ Lands σ ev i (.appendParquet files)

theorem replay_chain {E : Env} {s : Schema} (hk : KeySchema s) {σ : Sys} (h : Reach E s (faithful E s) σ)
    {md : Metadata} (hmd : σ.w.stored = some md) {batch a n : Nat} {ids : List Nat}
    (hids : Commits md a n ids) : Live md n → ∀ {cura curn : Snapshot} {cs : List ChangeData},
    md.snaps.get? a = some cura → md.snaps.get? n = some curn →
    (∀ k snap, Anc md n k → Anc md k a → md.snaps.get? k = some snap → (keysOf s (snapRows σ.w.fs s snap)).Nodup) →
    readChangeIds E σ.w.fs md batch ids = .ok cs →
    replay s ((snapRows σ.w.fs s cura).map (·.select s.writeNames)) cs ~
      (snapRows σ.w.fs s curn).map (·.select s.writeNames) := by
  obtain ⟨md', hok⟩ := reach_ok hk.names (h.imp anyStep_of)
  have := stored_of hok hmd
  subst this
  induction hids with
  | here =>
    intro _ cura curn cs ha hb _ hr
    rw [ha] at hb
    cases hb
    obtain ⟨css, h1, h2⟩ := readChangeIds_ok.mp hr
    cases css with
    | nil => subst h2; exact Perm.refl _
    | cons c css => cases h1
  | @next p n ids snap hc hs hp ih =>
    intro hl cura curn cs ha hb hu hr
    rw [hs] at hb
    cases hb
    obtain ⟨x, y, h1, h2, rfl⟩ := readChangeIds_append.mp hr
    obtain ⟨cur, hcur⟩ := Option.isSome_iff_exists.mp (hok.wok.ok.parents _ _ _ hs hp).2
    have h3 := ih (.parent hl hs hp) ha hcur (fun k sn a1 a2 a3 => hu k sn (Anc.trans (.parent .self hs hp) a1) a2 a3) h1
    rw [replay_append]
    refine (replay_perm s y h3).trans ?_
    have hgood : Logged σ.w.fs s cur snap [] := by
      refine chain_invariant hk.names (P := faithful E s) (fun h => ⟨h.1.1, h.2.1⟩)
        (Good := fun fs cur snap => Logged fs s cur snap []) ?_ ?_ h hmd hl hs hp hcur
      · intro fs fs' cur snap hf h1 h2 h3
        exact h3.mono hf h1 h2
      · intro σ σ' ev i m sl sl' w h1 w1 p cur snap hp hl hl'
        have := hp.1.2 i m sl hl hl'.slot
        rw [hl'.layout] at this
        obtain ⟨lost, h4, h5⟩ := hl'.succ.logged hk.names (fun files hm => hp.2.2 i files (hm ▸ hl)) (fun _ _ => this)
        rw [h5 this] at h4
        exact h4
    obtain ⟨css, h4, h5⟩ := readChangeIds_ok.mp h2
    cases css with
    | nil => cases h4
    | cons c css =>
      simp only [List.map_cons, List.map_nil, List.cons.injEq, List.map_eq_nil_iff] at h4
      obtain ⟨h6, rfl⟩ := h4
      simp only [List.flatten_cons, List.flatten_nil, List.append_nil] at h5
      subst h5
      obtain ⟨sn, cl, h7, h8⟩ := readChanges_log h6.symm
      rw [hs] at h7
      cases h7
      obtain ⟨c', h9, h10⟩ := reports_of (E := E) (batch := batch)
        (hok.wok.schema ▸ fun k h => ⟨hk.keys k h, hk.plain k h⟩) hok.wok.ok hs h8
      rw [← h6] at h9
      cases h9
      exact replay_reports hk hgood (hok.wok.schema ▸ h10) (hu p cur (.parent .self hs hp) hc.anc hcur)

/-- C19 for calm histories in which mutations lose no file, no `append_parquet` lands, and
only reachable snapshots are tagged; for `b` reachable from a branch or tag, and versions
from `a` to `b` at each of which no two rows read share a key: applying the diff from `a`
to `b` to the rows read at `a` gives the rows read at `b`, up to order.  Missing: shared
keys, see `C19_violated_keys`; lost files, see `C19_violated_loss`. -/
theorem C19_partial {E : Env} {s : Schema} (hk : KeySchema s) {σ : Sys} (h : Reach E s (faithful E s) σ)
    {sl : Slot} (hsl : sl ∈ σ.slots) {md : Metadata} (hmd : σ.w.stored = some md) {a b : Version} {ia ib : Nat}
    (ha : md.versionId a = .ok ia) (hb : md.versionId b = .ok ib) (hlt : ia < ib) (hanc : Anc md ib ia)
    (hl : Live md ib)
    (hu : ∀ k rows, Anc md ib k → Anc md k ia → tableRead E sl.h σ.w {} (some (.id k)) = .ok rows →
      (keysOf s rows).Nodup) (batch : Nat) :
    ∃ ra cs rb, tableRead E sl.h σ.w {} (some a) = .ok ra ∧ tableDiff E sl.h σ.w batch a b = .ok cs ∧
      tableRead E sl.h σ.w {} (some b) = .ok rb ∧ replay s ra cs ~ rb := by
  obtain ⟨md', hok⟩ := reach_ok hk.names (h.imp anyStep_of)
  have := stored_of hok hmd
  subst this
  have hpk : PlainKeys s := fun k h => ⟨hk.keys k h, hk.plain k h⟩
  obtain ⟨cs, hcs⟩ := C21_partial hk.names hpk (h.imp fun σ ev hp => ⟨hp.1.1, hp.2.2⟩) hsl hmd ha hb hlt hanc batch
  obtain ⟨ia', ib', ids, h1, h2, -, h3, h4⟩ := (tableDiff_ok hok.wok (hok.slot hsl)).mp hcs
  rw [ha] at h1
  rw [hb] at h2
  cases h1
  cases h2
  obtain ⟨curb, hcb⟩ := Option.isSome_iff_exists.mp (hl.isSome hok.wok.ok)
  obtain ⟨cura, hca⟩ := Option.isSome_iff_exists.mp ((hanc.live hl).isSome hok.wok.ok)
  have hread : ∀ (v : Version) k snap, md.versionId v = .ok k → md.snaps.get? k = some snap →
      tableRead E sl.h σ.w {} (some v) = .ok ((snapRows σ.w.fs s snap).map (·.select s.writeNames)) := by
    intro v k snap h5 h6
    rw [tableRead_full hok.wok (hok.slots sl hsl).1]
    simp [Metadata.target, h5, Metadata.snapshot, h6]
  refine ⟨_, cs, _, hread a ia cura ha hca, hcs, hread b ib curb hb hcb, ?_⟩
  refine replay_chain hk h hmd h3 hl hca hcb ?_ h4
  intro k snap h5 h6 h7
  have := hu k _ h5 h6 (hread (.id k) k snap rfl h7)
  rwa [keysOf_select hk] at this

/-- The side condition on keys holds if all mutations are inserts, upserts and deletes, of rows
without NaN in their keys. -/
theorem C19_keyed_partial {E : Env} {s : Schema} (hk : KeySchema s) {σ : Sys}
    (h : Reach E s (fun σ ev => faithful E s σ ev ∧ ∀ i m, Lands σ ev i m →
      m.keyed ∧ ∀ mode rows, m.inserts = some (mode, rows) → KeysNum s rows) σ)
    {sl : Slot} (hsl : sl ∈ σ.slots) {md : Metadata} (hmd : σ.w.stored = some md) {a b : Version} {ia ib : Nat}
    (ha : md.versionId a = .ok ia) (hb : md.versionId b = .ok ib) (hlt : ia < ib) (hanc : Anc md ib ia)
    (hl : Live md ib) (batch : Nat) :
    ∃ ra cs rb, tableRead E sl.h σ.w {} (some a) = .ok ra ∧ tableDiff E sl.h σ.w batch a b = .ok cs ∧
      tableRead E sl.h σ.w {} (some b) = .ok rb ∧ replay s ra cs ~ rb := by
  refine C19_partial hk (h.imp fun _ _ hp => hp.1) hsl hmd ha hb hlt hanc hl ?_ batch
  intro k rows h1 _ hr
  obtain ⟨md', hok⟩ := reach_ok hk.names (h.imp anyStep_of)
  have := stored_of hok hmd
  subst this
  obtain ⟨snap, hs⟩ := Option.isSome_iff_exists.mp ((h1.live hl).isSome hok.wok.ok)
  rw [tableRead_full hok.wok (hok.slots sl hsl).1] at hr
  simp only [Metadata.target, Metadata.versionId, Metadata.snapshot, hs, Except.ok.injEq] at hr
  subst hr
  rw [keysOf_select hk]
  refine snaps_invariant hk.names (P := fun σ ev => faithful E s σ ev ∧ ∀ i m, Lands σ ev i m →
      m.keyed ∧ ∀ mode rows, m.inserts = some (mode, rows) → KeysNum s rows)
    (fun h => h.1.1.1) (Good := fun fs snap => (keysOf s (snapRows fs s snap)).Nodup) ?_ ?_ ?_ h hmd hs
  · intro fs fs' snap hf hs hg
    rwa [snapRows_mono hf hs]
  · intro fs
    simp [keysOf, snapRows, physRows]
  · intro σ σ' ev i m sl sl' w h1 w1 p cur snap hp hl hl' hg
    refine hl'.succ.distinct hk (hp.2 i m hl).1 (hp.2 i m hl).2 ?_
    rw [← snapRows_mono hl'.succ.earlier hl'.succ.curOK]
    exact hg

/-- No tag on a snapshot given by id. -/
def Demo.noReviveB : Event → Bool
  | .call _ (.addTag _ (some _)) _ => false
  | _ => true

theorem Demo.noReviveB_noRevive {σ : Sys} {ev : Event} (h : noReviveB ev = true) : noRevive σ ev := by
  rintro i name id r md rfl _
  cases h

/-- Decides `faithful`. -/
def Demo.faithfulB (σ : Sys) (ev : Event) : Bool :=
  keepingB σ ev && noReviveB ev && logsE σ ev

theorem Demo.faithfulB_faithful (σ : Sys) (ev : Event) (h : faithfulB σ ev = true) : faithful env schema σ ev := by
  simp only [faithfulB, Bool.and_eq_true] at h
  exact ⟨keepingB_keeping _ _ h.1.1, noReviveB_noRevive h.1.2, logsB_lands h.2⟩

/-- The rows replayed from `a` to `b`, and those read at `b`. -/
def Demo.replays (w : World) (h : Handle) (a b : Nat) : List (List Row) :=
  match tableRead env h w {} (some (.id a)), tableDiff env h w 16 (.id a) (.id b),
      tableRead env h w {} (some (.id b)) with
  | .ok ra, .ok cs, .ok rb => [replay schema ra cs, rb]
  | _, _, _ => []

theorem Demo.replays_eq {w : World} {h : Handle} {a b : Nat} {x y : List Row} (hr : replays w h a b = [x, y]) :
    ∃ ra cs rb, tableRead env h w {} (some (.id a)) = .ok ra ∧ tableDiff env h w 16 (.id a) (.id b) = .ok cs ∧
      tableRead env h w {} (some (.id b)) = .ok rb ∧ replay schema ra cs = x ∧ rb = y := by
  unfold replays at hr
  split at hr
  · cases hr
    exact ⟨_, _, _, by assumption, by assumption, by assumption, rfl, rfl⟩
  · cases hr

/-- Two rows with one key, and a delete by another column. -/
def Demo.sharedKeys : List Act := [.call 0 (.mutate (.append [[row 1 "a" [], row 1 "b" []]])),
  .call 0 (.mutate (.delete (.bin "equal" (.sel "txt") (.lit (.str "a")))))]

/-- A delete that loses a file. -/
def Demo.lossy : List Act := [.call 0 (.mutate (.append [[row 1 "a" [1], row 2 "b" [2], row 3 "c" [3], row 4 "d" [4]],
  [row 5 "e" [5]]])), .call 0 (.mutate (.delete (idIs "gt" 4)))]

/-- C19 is false if keys are shared: a delete by another column removes one of two rows
with the same key; replaying its diff by key removes both. -/
theorem C19_violated_keys : ∃ σ sl ra cs rb, Reach env schema (faithful env schema) σ ∧ sl ∈ σ.slots ∧
    tableRead env sl.h σ.w {} (some (.id 1)) = .ok ra ∧ tableDiff env sl.h σ.w 16 (.id 1) (.id 2) = .ok cs ∧
    tableRead env sl.h σ.w {} (some (.id 2)) = .ok rb ∧ ¬ replay schema ra cs ~ rb := by
  obtain ⟨sl, -, h1, h2⟩ := slot_of (σ := after env faithfulB schema sharedKeys) (i := 0)
    (f := fun sl => replays (after env faithfulB schema sharedKeys).w sl.h 1 2)
    (x := [[], [row 1 "b" []]]) (by decide +kernel)
  obtain ⟨ra, cs, rb, h3, h4, h5, h6, h7⟩ := replays_eq h2
  refine ⟨_, sl, ra, cs, rb, after_reach faithfulB_faithful _, h1, h3, h4, h5, ?_⟩
  rw [h6, h7]
  decide

/-- C19 is false if a delete loses a file: it is not in the diff. -/
theorem C19_violated_loss : ∃ σ sl ra cs rb, Reach env schema calm σ ∧ sl ∈ σ.slots ∧
    tableRead env sl.h σ.w {} (some (.id 1)) = .ok ra ∧ (keysOf schema ra).Nodup ∧
    tableDiff env sl.h σ.w 16 (.id 1) (.id 2) = .ok cs ∧
    tableRead env sl.h σ.w {} (some (.id 2)) = .ok rb ∧ ¬ replay schema ra cs ~ rb := by
  obtain ⟨sl, -, h1, h2⟩ := slot_of (σ := after env calmB schema lossy) (i := 0)
    (f := fun sl => (replays (after env calmB schema lossy).w sl.h 1 2,
      match tableRead env sl.h (after env calmB schema lossy).w {} (some (.id 1)) with
      | .ok ra => decide (keysOf schema ra).Nodup
      | .error _ => false))
    (x := ([[row 1 "a" [1], row 2 "b" [2], row 3 "c" [3], row 4 "d" [4]], []], true)) (by decide +kernel)
  simp only [Prod.mk.injEq] at h2
  obtain ⟨h2, h8⟩ := h2
  obtain ⟨ra, cs, rb, h3, h4, h5, h6, h7⟩ := replays_eq h2
  rw [h3] at h8
  refine ⟨_, sl, ra, cs, rb, after_reach calmB_calm _, h1, h3, by simpa using h8, h4, h5, ?_⟩
  rw [h6, h7]
  decide

/-- Inserts, an upsert and a delete, and a branch. -/
example : ∃ σ sl md, Reach env schema (fun σ ev => faithful env schema σ ev ∧ ∀ i m, Lands σ ev i m → m.keyed) σ ∧
    sl ∈ σ.slots ∧ σ.w.stored = some md ∧ md.versionId (.name "x") = .ok 3 ∧ Anc md 3 1 ∧ Live md 3 ∧
    replays σ.w sl.h 1 3 = [[row 3 "c" [], row 2 "B" [2]], [row 3 "c" [], row 2 "B" [2]]] := by
  let ok := fun σ ev => faithfulB σ ev && keyedOnlyB σ ev
  let σ := after env ok schema [.call 0 (.mutate (.insert [row 2 "b" [2], row 3 "c" []])),
    .call 0 (.addBranch "x"), .call 0 (.setBranch "x"),
    .call 0 (.mutate (.upsert [row 1 "a" [], row 2 "B" [2]])), .call 0 (.mutate (.delete (idIs "lt" 2))),
    .call 0 (.setBranch "main"), .call 0 (.mutate (.insert [row 5 "e" []]))]
  obtain ⟨sl, -, h1, h2⟩ := slot_of (σ := σ) (i := 0) (f := fun sl => replays σ.w sl.h 1 3)
    (x := [[row 3 "c" [], row 2 "B" [2]], [row 3 "c" [], row 2 "B" [2]]]) (by decide +kernel)
  obtain ⟨md, h3, h4⟩ := stored_of_map (w := σ.w) (f := fun md => ((md.refs.get? "x").map (·.id),
      [2, 3].map (fun n => (md.snaps.get? n).map (·.parent))))
    (x := (some 3, [some (some 1), some (some 2)])) (by decide +kernel)
  simp only [List.map_cons, List.map_nil, List.cons.injEq, Option.map_eq_some_iff, and_true, Prod.mk.injEq] at h4
  obtain ⟨⟨r, h5, h6⟩, ⟨s2, a2, b2⟩, ⟨s3, a3, b3⟩⟩ := h4
  refine ⟨σ, sl, md, after_reach ?_ _, h1, h3, ?_, .parent (.parent .self a3 b3) a2 b2, h6 ▸ .ref h5, h2⟩
  · intro σ ev h
    simp only [ok, Bool.and_eq_true] at h
    exact ⟨faithfulB_faithful _ _ h.1, (keyedOnlyB_keyedOnly _ _ h.2).2⟩
  · simp [Metadata.versionId, Metadata.lookupRef, h5, h6, Except.map]

end Space
