import Verif.Props.Diff

/-!
# C19 for shared keys and lost files: what a diff says about the numbers of rows
-/

set_option autoImplicit false

namespace Space

open Demo List

/-- The number of rows with the key. -/
def keyCount (s : Schema) (k : List Val) (rows : List Row) : Nat := (keysOf s rows).count k

/-- Rows `a` before and `b` after the changes `cs`.  No row comes from elsewhere: it is in `b` at most
as often as in `a` and among the added rows together.  And of each key there are at most as many rows
in `b` as in `a`, plus those added, minus those deleted. -/
structure AtMost (s : Schema) (a : List Row) (cs : List ChangeData) (b : List Row) : Prop where
  row : ∀ r, b.count r ≤ a.count r + (addedRows cs).count r
  key : ∀ k, keyCount s k b + (deletedKeys s cs).count k ≤ keyCount s k a + keyCount s k (addedRows cs)

/-- Of each key there are exactly as many rows in `b` as in `a`, plus those added, minus those
deleted; and each row is in `b` as often as in `a` and among the added rows, except for as many
as deletes were reported of its key. -/
structure Exactly (s : Schema) (a : List Row) (cs : List ChangeData) (b : List Row) : Prop where
  key : ∀ k, keyCount s k b + (deletedKeys s cs).count k = keyCount s k a + keyCount s k (addedRows cs)
  row : ∀ r, a.count r + (addedRows cs).count r ≤ b.count r + (deletedKeys s cs).count (s.pks.map r.val)

theorem keysOf_append (s : Schema) (a b : List Row) : keysOf s (a ++ b) = keysOf s a ++ keysOf s b := by
  simp [keysOf]

theorem keyCount_append (s : Schema) (k : List Val) (a b : List Row) :
    keyCount s k (a ++ b) = keyCount s k a + keyCount s k b := by
  unfold keyCount
  rw [keysOf_append, List.count_append]

theorem keyCount_perm {s : Schema} {k : List Val} {a b : List Row} (h : a ~ b) : keyCount s k a = keyCount s k b :=
  (h.map _).count_eq k

theorem count_le_key (s : Schema) (r : Row) (rows : List Row) :
    rows.count r ≤ (keysOf s rows).count (s.pks.map r.val) :=
  List.count_le_count_map (f := fun r : Row => s.pks.map r.val)

theorem deletedKeys_append (s : Schema) (x y : List ChangeData) :
    deletedKeys s (x ++ y) = deletedKeys s x ++ deletedKeys s y := by
  simp [deletedKeys, keysOf]

theorem addedRows_append (x y : List ChangeData) : addedRows (x ++ y) = addedRows x ++ addedRows y := by
  simp [addedRows]

theorem AtMost.nil {s : Schema} (a : List Row) : AtMost s a [] a :=
  ⟨fun r => by simp [addedRows], fun k => by simp [addedRows, deletedKeys, keysOf, keyCount]⟩

theorem Exactly.nil {s : Schema} (a : List Row) : Exactly s a [] a :=
  ⟨fun k => by simp [addedRows, deletedKeys, keysOf, keyCount], fun r => by simp [addedRows]⟩

theorem AtMost.append {s : Schema} {a b c : List Row} {x y : List ChangeData} (h1 : AtMost s a x b)
    (h2 : AtMost s b y c) : AtMost s a (x ++ y) c := by
  refine ⟨fun r => ?_, fun k => ?_⟩
  · have := h1.row r
    have := h2.row r
    rw [addedRows_append, List.count_append]
    omega
  · have := h1.key k
    have := h2.key k
    rw [addedRows_append, deletedKeys_append, keyCount_append, List.count_append]
    omega

theorem Exactly.append {s : Schema} {a b c : List Row} {x y : List ChangeData} (h1 : Exactly s a x b)
    (h2 : Exactly s b y c) : Exactly s a (x ++ y) c := by
  refine ⟨fun k => ?_, fun r => ?_⟩
  · have := h1.key k
    have := h2.key k
    rw [addedRows_append, deletedKeys_append, keyCount_append, List.count_append]
    omega
  · have := h1.row r
    have := h2.row r
    rw [addedRows_append, deletedKeys_append, List.count_append, List.count_append]
    omega

/-- One reported commit. -/
theorem count_reports {fs : FS} {s : Schema} (hk : KeySchema s) {n : Nat} {cur snap : Snapshot} {c : List ChangeData}
    {lost : List Row} (hl : Logged fs s cur snap lost) (h : Reports fs s n snap c) :
    AtMost s ((snapRows fs s cur).map (·.select s.writeNames)) c ((snapRows fs s snap).map (·.select s.writeNames)) ∧
    (lost = [] →
      Exactly s ((snapRows fs s cur).map (·.select s.writeNames)) c ((snapRows fs s snap).map (·.select s.writeNames))) := by
  obtain ⟨cl, kept, h1, -, h2, h3⟩ := hl
  obtain ⟨hd, ha⟩ := deletedKeys_reports h1 h
  have h2' := h2.map (·.select s.writeNames)
  have h3' := h3.map (·.select s.writeNames)
  rw [List.map_append, List.map_append] at h2'
  rw [List.map_append, ← ha] at h3'
  rw [← keysOf_select hk] at hd
  have hrow := fun r => And.intro (h2'.count_eq r) (h3'.count_eq r)
  have hkey := fun k => And.intro (keyCount_perm (s := s) (k := k) h2') (keyCount_perm (s := s) (k := k) h3')
  simp only [List.count_append, keyCount_append] at hrow hkey
  refine ⟨⟨fun r => ?_, fun k => ?_⟩, fun hlost => ⟨fun k => ?_, fun r => ?_⟩⟩
  · have := hrow r
    omega
  · have := hkey k
    rw [hd]
    unfold keyCount at *
    omega
  · have := hkey k
    subst hlost
    rw [hd]
    simp only [keyCount, keysOf, List.map_nil, List.count_nil] at *
    omega
  · have := hrow r
    subst hlost
    have h4 := count_le_key s r ((loggedRows fs s cl.deleted).map (·.select s.writeNames))
    rw [hd]
    simp only [List.map_nil, List.count_nil] at this
    omega

/-- Calm steps in which no `append_parquet` lands, only reachable snapshots are tagged, and deletes by
Ray find layouts on which they do no harm. -/
def recording (E : Env) (s : Schema) (σ : Sys) (ev : Event) : Prop :=
  calm σ ev ∧ noRevive σ ev ∧ (∀ i files, ¬ Lands σ ev i (.appendParquet files)) ∧
    ∀ i e sl, Lands σ ev i (.rayDelete e) → σ.slots[i]? = some sl →
      (Mutation.rayDelete e).Keeps E.I s (headLayout s sl.h σ.w)

/-- A relation between the rows of consecutive versions and the reported changes carries over to all
versions of a history. -/
theorem count_chain {E : Env} {s : Schema} (hk : KeySchema s) {σ : Sys} {md : Metadata}
    (hok : SysOK E s σ md) {R : List Row → List ChangeData → List Row → Prop} (hnil : ∀ a, R a [] a)
    (happ : ∀ {a b c x y}, R a x b → R b y c → R a (x ++ y) c)
    (hone : ∀ {n q cur snap c}, Live md n → md.snaps.get? n = some snap → snap.parent = some q →
      md.snaps.get? q = some cur → Reports σ.w.fs s n snap c →
      R ((snapRows σ.w.fs s cur).map (·.select s.writeNames)) c ((snapRows σ.w.fs s snap).map (·.select s.writeNames)))
    {batch a n : Nat} {ids : List Nat}
    (hids : Commits md a n ids) : Live md n → ∀ {cura curn : Snapshot} {cs : List ChangeData},
    md.snaps.get? a = some cura → md.snaps.get? n = some curn →
    readChangeIds E σ.w.fs md batch ids = .ok cs →
    R ((snapRows σ.w.fs s cura).map (·.select s.writeNames)) cs
      ((snapRows σ.w.fs s curn).map (·.select s.writeNames)) := by
  induction hids with
  | here =>
    intro _ cura curn cs ha hb hr
    rw [ha] at hb
    cases hb
    obtain ⟨css, h1, h2⟩ := readChangeIds_ok.mp hr
    cases css with
    | nil => subst h2; exact hnil _
    | cons c css => cases h1
  | @next p n ids snap hc hs hp ih =>
    intro hl cura curn cs ha hb hr
    rw [hs] at hb
    cases hb
    obtain ⟨x, y, h1, h2, rfl⟩ := readChangeIds_append.mp hr
    obtain ⟨cur, hcur⟩ := Option.isSome_iff_exists.mp (hok.wok.ok.parents _ _ _ hs hp).2
    refine happ (ih (.parent hl hs hp) ha hcur h1) ?_
    obtain ⟨css, h4, h5⟩ := readChangeIds_ok.mp h2
    cases css with
    | nil => cases h4
    | cons c css =>
      simp only [List.map_cons, List.map_nil, List.cons.injEq, List.map_eq_nil_iff] at h4
      obtain ⟨h6, rfl⟩ := h4
      simp only [List.flatten_cons, List.flatten_nil, List.append_nil] at h5
      subst h5
      obtain ⟨sn, cl, h7, h8⟩ := readChanges_log h6.symm
      rw [hs] at h7
      cases h7
      obtain ⟨c', h9, h10⟩ := reports_of (E := E) (batch := batch)
        (hok.wok.schema ▸ fun k h => ⟨hk.keys k h, hk.plain k h⟩) hok.wok.ok hs h8
      rw [← h6] at h9
      cases h9
      exact hone hl hs hp hcur (hok.wok.schema ▸ h10)

/-- Reading two versions and the diff between them. -/
theorem count_diff {E : Env} {s : Schema} (hk : KeySchema s) {σ : Sys} {md : Metadata} (hok : SysOK E s σ md)
    (h : Reach E s logging σ) {R : List Row → List ChangeData → List Row → Prop} (hnil : ∀ a, R a [] a)
    (happ : ∀ {a b c x y}, R a x b → R b y c → R a (x ++ y) c)
    (hone : ∀ {n q cur snap c}, Live md n → md.snaps.get? n = some snap → snap.parent = some q →
      md.snaps.get? q = some cur → Reports σ.w.fs s n snap c →
      R ((snapRows σ.w.fs s cur).map (·.select s.writeNames)) c ((snapRows σ.w.fs s snap).map (·.select s.writeNames)))
    {sl : Slot} (hsl : sl ∈ σ.slots) {a b : Version} {ia ib : Nat}
    (ha : md.versionId a = .ok ia) (hb : md.versionId b = .ok ib) (hlt : ia < ib) (hanc : Anc md ib ia)
    (hl : Live md ib) (batch : Nat) :
    ∃ ra cs rb, tableRead E sl.h σ.w {} (some a) = .ok ra ∧ tableDiff E sl.h σ.w batch a b = .ok cs ∧
      tableRead E sl.h σ.w {} (some b) = .ok rb ∧ R ra cs rb := by
  have hpk : PlainKeys s := fun k h => ⟨hk.keys k h, hk.plain k h⟩
  obtain ⟨cs, hcs⟩ := C21_partial hk.names hpk h hsl hok.wok.storedEq ha hb hlt hanc batch
  obtain ⟨ia', ib', ids, h1, h2, -, h3, h4⟩ := (tableDiff_ok hok.wok (hok.slot hsl)).mp hcs
  rw [ha] at h1
  rw [hb] at h2
  cases h1
  cases h2
  obtain ⟨curb, hcb⟩ := Option.isSome_iff_exists.mp (hl.isSome hok.wok.ok)
  obtain ⟨cura, hca⟩ := Option.isSome_iff_exists.mp ((hanc.live hl).isSome hok.wok.ok)
  have hread : ∀ (v : Version) k snap, md.versionId v = .ok k → md.snaps.get? k = some snap →
      tableRead E sl.h σ.w {} (some v) = .ok ((snapRows σ.w.fs s snap).map (·.select s.writeNames)) := by
    intro v k snap h5 h6
    rw [tableRead_full hok.wok (hok.slots sl hsl).1]
    simp [Metadata.target, h5, Metadata.snapshot, h6]
  exact ⟨_, cs, _, hread a ia cura ha hca, hcs, hread b ib curb hb hcb,
    count_chain hk hok hnil happ hone h3 hl hca hcb h4⟩

/-- C19 without a condition on keys, for calm histories in which mutations lose no file, no
`append_parquet` lands, and only reachable snapshots are tagged, and for `b` reachable from a branch
or tag: of every key, the rows read at `b` are as many as those read at `a`, plus those the diff
adds, minus those it deletes; and of every row, as many as at `a` and added, except for as many as
deletes of its key.  Missing: that rows that share a key are told apart, see `C19_violated_keys`;
lost files, for which see `C19_bound`. -/
theorem C19_count_partial {E : Env} {s : Schema} (hk : KeySchema s) {σ : Sys} (h : Reach E s (faithful E s) σ)
    {sl : Slot} (hsl : sl ∈ σ.slots) {md : Metadata} (hmd : σ.w.stored = some md) {a b : Version} {ia ib : Nat}
    (ha : md.versionId a = .ok ia) (hb : md.versionId b = .ok ib) (hlt : ia < ib) (hanc : Anc md ib ia)
    (hl : Live md ib) (batch : Nat) :
    ∃ ra cs rb, tableRead E sl.h σ.w {} (some a) = .ok ra ∧ tableDiff E sl.h σ.w batch a b = .ok cs ∧
      tableRead E sl.h σ.w {} (some b) = .ok rb ∧ AtMost s ra cs rb ∧ Exactly s ra cs rb := by
  obtain ⟨md', hok⟩ := reach_ok hk.names (h.imp anyStep_of)
  have := stored_of hok hmd
  subst this
  refine count_diff hk hok (h.imp fun σ ev hp => ⟨hp.1.1, hp.2.2⟩)
    (R := fun a cs b => AtMost s a cs b ∧ Exactly s a cs b) (fun a => ⟨.nil a, .nil a⟩)
    (fun h1 h2 => ⟨h1.1.append h2.1, h1.2.append h2.2⟩) ?_ hsl ha hb hlt hanc hl batch
  intro n q cur snap c hlive hs hp hcur hrep
  have hgood : Logged σ.w.fs s cur snap [] := by
    refine chain_invariant hk.names (P := faithful E s) (fun h => ⟨h.1.1, h.2.1⟩)
      (Good := fun fs cur snap => Logged fs s cur snap []) ?_ ?_ h hmd hlive hs hp hcur
    · intro fs fs' cur snap hf h1 h2 h3
      exact h3.mono hf h1 h2
    · intro σ σ' ev i m sl sl' w h1 w1 p cur snap hp hl hl'
      have := hp.1.2 i m sl hl hl'.slot
      rw [hl'.layout] at this
      obtain ⟨lost, h4, h5⟩ := hl'.succ.logged hk.names (fun files hm => hp.2.2 i files (hm ▸ hl)) (fun _ _ => this)
      rw [h5 this] at h4
      exact h4
  obtain ⟨h1, h2⟩ := count_reports hk hgood hrep
  exact ⟨h1, h2 rfl⟩

/-- C19, what the code does also where deletes and upserts lose files: at `b` there is no row that was
not there at `a` or added, and of every key there are at most as many rows as at `a`, plus those
the diff adds, minus those it deletes. -/
theorem C19_bound {E : Env} {s : Schema} (hk : KeySchema s) {σ : Sys} (h : Reach E s (recording E s) σ)
    {sl : Slot} (hsl : sl ∈ σ.slots) {md : Metadata} (hmd : σ.w.stored = some md) {a b : Version} {ia ib : Nat}
    (ha : md.versionId a = .ok ia) (hb : md.versionId b = .ok ib) (hlt : ia < ib) (hanc : Anc md ib ia)
    (hl : Live md ib) (batch : Nat) :
    ∃ ra cs rb, tableRead E sl.h σ.w {} (some a) = .ok ra ∧ tableDiff E sl.h σ.w batch a b = .ok cs ∧
      tableRead E sl.h σ.w {} (some b) = .ok rb ∧ AtMost s ra cs rb := by
  obtain ⟨md', hok⟩ := reach_ok hk.names (h.imp anyStep_of)
  have := stored_of hok hmd
  subst this
  refine count_diff hk hok (h.imp fun σ ev hp => ⟨hp.1, hp.2.2.1⟩) (R := AtMost s) .nil
    (fun h1 h2 => h1.append h2) ?_ hsl ha hb hlt hanc hl batch
  intro n q cur snap c hlive hs hp hcur hrep
  have hgood : ∃ lost, Logged σ.w.fs s cur snap lost := by
    refine chain_invariant hk.names (P := recording E s) (fun h => ⟨h.1, h.2.1⟩)
      (Good := fun fs cur snap => ∃ lost, Logged fs s cur snap lost) ?_ ?_ h hmd hlive hs hp hcur
    · rintro fs fs' cur snap hf h1 h2 ⟨lost, h3⟩
      exact ⟨lost, h3.mono hf h1 h2⟩
    · intro σ σ' ev i m sl sl' w h1 w1 p cur snap hp hl hl'
      obtain ⟨lost, h4, -⟩ := hl'.succ.logged hk.names (fun files hm => hp.2.2.1 i files (hm ▸ hl)) (by
        rintro e rfl
        have := hp.2.2.2 i e sl hl hl'.slot
        rwa [hl'.layout] at this)
      exact ⟨lost, h4⟩
  obtain ⟨lost, hgood⟩ := hgood
  exact (count_reports hk hgood hrep).1

/-- Decides `recording`. -/
def Demo.recordingB (σ : Sys) (ev : Event) : Bool :=
  calmB σ ev && noReviveB ev && logsE σ ev &&
    landsB (fun sl m => match m with
      | .rayDelete e => keepsB env.I (headLayout schema sl.h σ.w) (.rayDelete e)
      | _ => true) σ ev

theorem Demo.recordingB_recording (σ : Sys) (ev : Event) (h : recordingB σ ev = true) :
    recording env schema σ ev := by
  simp only [recordingB, Bool.and_eq_true] at h
  refine ⟨calmB_calm _ _ h.1.1.1, noReviveB_noRevive h.1.1.2, logsB_lands h.1.2, ?_⟩
  intro i e sl hl hsl
  exact keepsB_keeps (landsB_lands h.2 hl hsl)

/-- Rows with the key at the first version, added, deleted, and at the last version. -/
def Demo.tallies (w : World) (h : Handle) (a b : Nat) (k : List Val) : List Nat :=
  match tableRead env h w {} (some (.id a)), tableDiff env h w 16 (.id a) (.id b),
      tableRead env h w {} (some (.id b)) with
  | .ok ra, .ok cs, .ok rb => [keyCount schema k ra, keyCount schema k (addedRows cs),
      (deletedKeys schema cs).count k, keyCount schema k rb]
  | _, _, _ => []

/-- Two rows of one key, of which one is deleted, and another appended twice: 2 + 2 - 1 = 3. -/
example : ∃ σ sl md, Reach env schema (faithful env schema) σ ∧ sl ∈ σ.slots ∧ σ.w.stored = some md ∧
    Anc md 3 1 ∧ Live md 3 ∧ tallies σ.w sl.h 1 3 [.sc (.int 1)] = [2, 2, 1, 3] := by
  let σ := after env faithfulB schema (sharedKeys ++
    [.call 0 (.mutate (.append [[row 1 "c" [], row 1 "c" []]]))])
  obtain ⟨sl, -, h1, h2⟩ := slot_of (σ := σ) (i := 0) (f := fun sl => tallies σ.w sl.h 1 3 [.sc (.int 1)])
    (x := [2, 2, 1, 3]) (by decide +kernel)
  obtain ⟨md, h3, h4⟩ := stored_of_map (w := σ.w) (f := fun md => (md.current,
      [2, 3].map (fun n => (md.snaps.get? n).map (·.parent))))
    (x := (3, [some (some 1), some (some 2)])) (by decide +kernel)
  simp only [List.map_cons, List.map_nil, List.cons.injEq, Option.map_eq_some_iff, and_true, Prod.mk.injEq] at h4
  obtain ⟨hc, ⟨s2, a2, b2⟩, ⟨s3, a3, b3⟩⟩ := h4
  exact ⟨σ, sl, md, after_reach faithfulB_faithful _, h1, h3, .parent (.parent .self a3 b3) a2 b2, hc ▸ .main, h2⟩

/-- A delete of id 5 that loses the file with id 1: 1 + 0 - 0 > 0. -/
example : ∃ σ sl md, Reach env schema (recording env schema) σ ∧ sl ∈ σ.slots ∧ σ.w.stored = some md ∧
    Anc md 2 1 ∧ Live md 2 ∧ tallies σ.w sl.h 1 2 [.sc (.int 1)] = [1, 0, 0, 0] ∧
    tallies σ.w sl.h 1 2 [.sc (.int 5)] = [1, 0, 1, 0] := by
  let σ := after env recordingB schema lossy
  obtain ⟨sl, -, h1, h2⟩ := slot_of (σ := σ) (i := 0)
    (f := fun sl => (tallies σ.w sl.h 1 2 [.sc (.int 1)], tallies σ.w sl.h 1 2 [.sc (.int 5)]))
    (x := ([1, 0, 0, 0], [1, 0, 1, 0])) (by decide +kernel)
  obtain ⟨md, h3, h4⟩ := stored_of_map (w := σ.w) (f := fun md => (md.current, (md.snaps.get? 2).map (·.parent)))
    (x := (2, some (some 1))) (by decide +kernel)
  simp only [Option.map_eq_some_iff, Prod.mk.injEq] at h4 h2
  obtain ⟨hc, s2, a2, b2⟩ := h4
  exact ⟨σ, sl, md, after_reach recordingB_recording _, h1, h3, .parent .self a2 b2, hc ▸ .main, h2.1, h2.2⟩

end Space
