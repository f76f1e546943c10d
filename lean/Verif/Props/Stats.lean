import Verif.StatsInv
import Verif.Props.Keys

/-!
# C35, C36: statistics of snapshots
-/

set_option autoImplicit false

namespace Space

open Demo List

/-- Calm steps in which every delete and upsert that lands finds a layout on which it
loses no file. -/
def keeping (E : Env) (s : Schema) (σ : Sys) (ev : Event) : Prop :=
  calm σ ev ∧ ∀ i m sl, Lands σ ev i m → σ.slots[i]? = some sl → m.Keeps E.I s (headLayout s sl.h σ.w)

/-- Calm steps in which every delete and upsert that lands changes all files of the
manifests it looks into. -/
def tight (E : Env) (s : Schema) (σ : Sys) (ev : Event) : Prop :=
  calm σ ev ∧ ∀ i m sl cur, Lands σ ev i m → σ.slots[i]? = some sl → headOf sl.h σ.w = some cur →
    m.Tight E.I s σ.w.fs cur.index

/-- A property of all stored snapshots that files written later do not change, that holds
of the empty snapshot, and that every mutation that lands passes on. -/
theorem snaps_invariant {E : Env} {s : Schema} (hn : s.names.Nodup) {P : Sys → Event → Prop}
    (hP : ∀ {σ ev}, P σ ev → calm σ ev) {Good : FS → Snapshot → Prop}
    (hmono : ∀ {fs fs' snap}, FSLe fs fs' → SnapOK fs s snap → Good fs snap → Good fs' snap)
    (hempty : ∀ fs, Good fs { id := 0 })
    (hland : ∀ {σ σ' ev i m sl sl' w h1 w1 p cur snap}, P σ ev → Lands σ ev i m →
      Landing E s m i σ σ' sl sl' w h1 w1 p cur snap → Good σ.w.fs cur → Good σ'.w.fs snap)
    {σ : Sys} (h : Reach E s P σ) {md : Metadata} (hmd : σ.w.stored = some md) {n : Nat} {snap : Snapshot}
    (hs : md.snaps.get? n = some snap) : Good σ.w.fs snap := by
  obtain ⟨σ0, hst, hrun⟩ := h
  have key : Reach E s calm σ ∧ ∀ md, σ.w.stored = some md → ∀ n snap, md.snaps.get? n = some snap → Good σ.w.fs snap := by
    refine Run.invariant (P := P) (I := fun σ => Reach E s calm σ ∧ ∀ md, σ.w.stored = some md →
      ∀ n snap, md.snaps.get? n = some snap → Good σ.w.fs snap) ?_ ⟨⟨σ0, hst, .refl _⟩, ?_⟩ hrun
    · rintro σ σ' ev ⟨hr, hi⟩ hp hs
      refine ⟨hr.step (hP hp) hs, ?_⟩
      obtain ⟨md, hok⟩ := reach_ok hn (hr.imp anyStep_of)
      obtain ⟨md', hmd', hle, hch⟩ := snaps_step hn hr hok.wok.storedEq (hP hp) hs
      intro md2 hmd2 n snap hget
      rw [hmd'] at hmd2
      cases hmd2
      have hold : ∀ n snap, md.snaps.get? n = some snap → Good σ'.w.fs snap := by
        intro n snap hget
        refine hmono hle ?_ (hi md hok.wok.storedEq n snap hget)
        rw [← hok.wok.schema]
        exact hok.wok.ok.snaps n snap hget
      rcases hch with heq | ⟨i, m, k, k', sl, sl', w, h1, w1, p, cur, snap', hl, hl', hcur, heq⟩
      · rw [heq] at hget
        exact hold n snap hget
      · rw [heq] at hget
        by_cases hnk : n = k
        · subst hnk
          rw [AMap.get?_set_self] at hget
          cases hget
          exact hland hp hl hl' (hi md hok.wok.storedEq _ _ hcur)
        · rw [AMap.get?_set_ne _ _ hnk] at hget
          exact hold n snap hget
    · intro md hmd n snap hget
      rw [started_md hst] at hmd
      cases hmd
      simp only [AMap.get?] at hget
      split at hget
      · cases hget; exact hempty _
      · cases hget
  exact key.2 md hmd n snap hs

/-- C35 for calm histories in which no delete or upsert loses files: the row count in the
statistics of every stored snapshot is the number of rows every handle reads at that
snapshot.  Missing: histories with such a loss (`C35_violated`). -/
theorem C35_partial {E : Env} {s : Schema} (hn : s.names.Nodup) {σ : Sys} (h : Reach E s (keeping E s) σ)
    {md : Metadata} (hmd : σ.w.stored = some md) {n : Nat} {snap : Snapshot} (hs : md.snaps.get? n = some snap)
    {sl : Slot} (hsl : sl ∈ σ.slots) :
    ∃ rows, tableRead E sl.h σ.w {} (some (.id n)) = .ok rows ∧ snap.stats.rows = rows.length := by
  have key : snap.stats.rows = (snapRows σ.w.fs s snap).length := by
    refine snaps_invariant hn (P := keeping E s) (fun h => h.1)
      (Good := fun fs snap => snap.stats.rows = (snapRows fs s snap).length) ?_ ?_ ?_ h hmd hs
    · intro fs fs' snap hle hok hg
      rw [snapRows_mono hle hok]
      exact hg
    · intro fs
      rfl
    · intro σ σ' ev i m sl sl' w h1 w1 p cur snap hp hl hl' hg
      have := hp.2 i m sl hl hl'.slot
      rw [hl'.layout] at this
      have hc := hl'.succ.count hn this
      unfold Counted at hc
      rw [snapRows_mono hl'.succ.earlier hl'.succ.curOK] at hg
      omega
  obtain ⟨md0, hok⟩ := reach_ok hn (P := keeping E s) h
  have := stored_of hok hmd
  subst this
  refine ⟨(snapRows σ.w.fs s snap).map (·.select s.writeNames), ?_, ?_⟩
  · rw [tableRead_full hok.wok (hok.slots sl hsl).1]
    simp [Metadata.target, Metadata.versionId, Metadata.snapshot, hs]
  · simpa using key

/-- C36 for calm histories in which every delete and upsert changes all files of the
manifests it looks into (appends, inserts and loads are not restricted): the compressed
and uncompressed index bytes in the statistics of every stored snapshot are the sums
over the files listed by its manifests.  Missing: other deletes (`C36_violated`). -/
theorem C36_partial {E : Env} {s : Schema} (hn : s.names.Nodup) {σ : Sys} (h : Reach E s (tight E s) σ)
    {md : Metadata} (hmd : σ.w.stored = some md) {n : Nat} {snap : Snapshot} (hs : md.snaps.get? n = some snap) :
    snap.stats.icb = ((snapEntries σ.w.fs snap).map (fun m => (m.icb : Int))).sum ∧
    snap.stats.iub = ((snapEntries σ.w.fs snap).map (fun m => (m.iub : Int))).sum := by
  refine snaps_invariant hn (P := tight E s) (fun h => h.1)
    (Good := fun fs snap => snap.stats.icb = sumIcb (snapEntries fs snap) ∧
      snap.stats.iub = sumIub (snapEntries fs snap)) ?_ ?_ ?_ h hmd hs
  · intro fs fs' snap hle hok hg
    unfold snapEntries at *
    rw [entries_mono hle hok.manifests]
    exact hg
  · intro fs
    exact ⟨rfl, rfl⟩
  · intro σ σ' ev i m sl sl' w h1 w1 p cur snap hp hl hl' hg
    have ht := hp.2 i m sl cur hl hl'.slot hl'.succ.head
    have hb := hl'.succ.bytes hn (ht.mono hl'.succ.earlier hl'.succ.curOK)
    have hcur : snapEntries σ.w.fs cur = snapEntries w.fs cur := entries_mono hl'.succ.earlier hl'.succ.curOK.manifests
    rw [hcur] at hg
    unfold ByteExact at hb
    omega

/-- Decides `FilterFits` on flat schemas. -/
def Demo.fitsB (s : Schema) (e : Expr) : Bool :=
  s.flat && decide s.names.Nodup && decide (s.fields.map (·.fid)).Nodup && s.pks.all (fun k => !s.recs.contains k) &&
    e.pruneSafe s && e.cols.all (fun c => s.names.contains c && !s.recs.contains c)

theorem Demo.fitsB_fits {s : Schema} {e : Expr} (h : fitsB s e = true) : FilterFits s e := by
  simp only [fitsB, Bool.and_eq_true, decide_eq_true_eq, List.all_eq_true, Bool.not_eq_true',
    List.contains_eq_mem, decide_eq_false_iff_not] at h
  exact .of_flat h.1.1.1.1.1 h.1.1.1.1.2 h.1.1.1.2 h.1.1.2 h.1.2 h.2

/-- Decides `DeleteSafe`. -/
def Demo.safeB (truth : Row → Option Bool) (lay : List (List (List Row))) : Bool :=
  lay.any (fun man => man.any (fun file => file.any (fun r => truth r == some true) &&
    file.any (fun r => truth r == some false))) ||
  lay.all (fun man => !(man.any (fun file => file.any (fun r => truth r != some false))) ||
    man.all (fun file => file.any (fun r => truth r == some true)))

theorem Demo.safeB_safe {truth : Row → Option Bool} {lay : List (List (List Row))} (h : safeB truth lay = true) :
    DeleteSafe truth lay := by
  simp only [safeB, Bool.or_eq_true, List.any_eq_true, List.all_eq_true, Bool.and_eq_true, beq_iff_eq,
    Bool.not_eq_true'] at h
  rcases h with ⟨man, h1, file, h2, h3, h4⟩ | h
  · exact Or.inl ⟨man, h1, file, h2, h3, h4⟩
  · refine Or.inr fun man hm ⟨file, hf, r, hr, hx⟩ => ?_
    rcases h man hm with h' | h'
    · exfalso
      have : (man.any fun file => file.any fun r => truth r != some false) = true := by
        simp only [List.any_eq_true, bne_iff_ne]
        exact ⟨file, hf, r, hr, hx⟩
      rw [h'] at this
      cases this
    · exact h'

/-- Decides `KeysSet`. -/
def Demo.keysSetB (s : Schema) (rows : List Row) : Bool :=
  rows.all (fun r => s.pks.all (fun k => match r.val k with
    | .sc v => v != .nan
    | _ => false))

theorem Demo.keysSetB_set {s : Schema} {rows : List Row} (h : keysSetB s rows = true) : KeysSet s rows := by
  intro r hr k hk
  simp only [keysSetB, List.all_eq_true] at h
  have := h r hr k hk
  split at this
  · exact ⟨_, by assumption, by simpa using this⟩
  · cases this

/-- Decides `RaySafe`. -/
def Demo.raySafeB (truth : Row → Option Bool) (lay : List (List (List Row))) : Bool :=
  lay.all (fun man => (List.range man.length).all (fun i =>
    !((man[i]?.getD []).any (fun r => truth r != some false)) ||
      ((man.eraseIdx i).all (fun f => f.all (fun r => truth r == some false)) &&
        ((man[i]?.getD []).any (fun r => truth r == some false) || (man.eraseIdx i).isEmpty))))

theorem Demo.raySafeB_safe {truth : Row → Option Bool} {lay : List (List (List Row))} (h : raySafeB truth lay = true) :
    RaySafe truth lay := by
  rintro man hman pre file post rfl ⟨r, hr, hnf⟩
  simp only [raySafeB, List.all_eq_true] at h
  have h := h _ hman pre.length (by simp)
  have h1 : (pre ++ file :: post)[pre.length]?.getD [] = file := by simp
  have h2 : (pre ++ file :: post).eraseIdx pre.length = pre ++ post := by
    rw [List.eraseIdx_append_of_length_le (Nat.le_refl _)]
    simp
  rw [h1, h2] at h
  have h3 : file.any (fun r => truth r != some false) = true :=
    List.any_eq_true.mpr ⟨r, hr, by simpa using hnf⟩
  rw [h3] at h
  simp only [Bool.not_true, Bool.false_or, Bool.and_eq_true, Bool.or_eq_true, List.all_eq_true, List.any_eq_true,
    beq_iff_eq, List.isEmpty_iff] at h
  exact h

/-- Decides `Mutation.Keeps` for the demonstration schema. -/
def Demo.keepsB (I : Interp) (lay : List (List (List Row))) : Mutation → Bool
  | .delete e => fitsB schema e && safeB (e.truth I) lay
  | .upsert data => keysSetB schema lay.flatten.flatten &&
      safeB (fun r => some (decide (keyOf schema.pks r ∈ data.map (keyOf schema.pks)))) lay
  | .rayInsert .upsert _ _ _ => false
  | .rayDelete e => fitsB schema e && raySafeB (e.truth I) lay
  | .sync _ _ gone _ => gone.isEmpty
  | _ => true

theorem Demo.keepsB_keeps {I : Interp} {lay : List (List (List Row))} {m : Mutation} (h : keepsB I lay m = true) :
    m.Keeps I schema lay := by
  cases m with
  | delete e =>
    simp only [keepsB, Bool.and_eq_true] at h
    exact ⟨fitsB_fits h.1, safeB_safe h.2⟩
  | rayDelete e =>
    simp only [keepsB, Bool.and_eq_true] at h
    exact ⟨fitsB_fits h.1, raySafeB_safe h.2⟩
  | upsert data =>
    simp only [keepsB, Bool.and_eq_true] at h
    exact ⟨keys, keysSetB_set h.1, safeB_safe h.2⟩
  | sync n sched gone added =>
    simp only [keepsB, List.isEmpty_iff] at h
    exact fun hg => absurd h hg
  | rayInsert mode n sched data =>
    cases mode with
    | insert => trivial
    | upsert => cases h
  | _ => trivial

/-- A check of the mutation that lands in a step. -/
def Demo.landsB (f : Slot → Mutation → Bool) (σ : Sys) : Event → Bool
  | .call i (.mutate m) _ => (match σ.slots[i]? with
    | some sl => f sl m
    | none => true)
  | .commit i _ => (match σ.slots[i]? with
    | some ⟨h, .ready t m p⟩ => f ⟨h, .ready t m p⟩ m
    | _ => true)
  | _ => true

theorem Demo.landsB_lands {f : Slot → Mutation → Bool} {σ : Sys} {ev : Event} (h : landsB f σ ev = true)
    {i : Nat} {m : Mutation} {sl : Slot} (hl : Lands σ ev i m) (hsl : σ.slots[i]? = some sl) : f sl m = true := by
  rcases hl with rfl | ⟨rfl, sl', t, p, hsl', hph⟩
  · simpa [landsB, hsl] using h
  · rw [hsl] at hsl'
    cases hsl'
    obtain ⟨x, ph⟩ := sl
    simp only at hph
    subst hph
    simpa [landsB, hsl] using h

/-- Decides `keeping`. -/
def Demo.keepingB (σ : Sys) (ev : Event) : Bool :=
  calmB σ ev && landsB (fun sl m => keepsB env.I (headLayout schema sl.h σ.w) m) σ ev

theorem Demo.keepingB_keeping (σ : Sys) (ev : Event) (h : keepingB σ ev = true) : keeping env schema σ ev := by
  simp only [keepingB, Bool.and_eq_true] at h
  exact ⟨calmB_calm _ _ h.1, fun i m sl hl hsl => keepsB_keeps (landsB_lands h.2 hl hsl)⟩

/-- Appends, an upsert and deletes; five snapshots with their row counts. -/
example : ∃ σ md, Reach env schema (keeping env schema) σ ∧ σ.w.stored = some md ∧
    md.snaps.map (fun x => (x.1, x.2.stats.rows)) = [(0, 0), (1, 3), (2, 4), (3, 5), (4, 3)] := by
  let σ := after env keepingB schema [.call 0 (.mutate (.append [[row 1 "a" [1], row 2 "b" [2], row 3 "c" []]])),
    .call 0 (.mutate (.insert [row 4 "d" []])), .call 0 (.mutate (.upsert [row 2 "B" [], row 5 "e" []])),
    .call 0 (.mutate (.delete (idIs "lt" 3)))]
  obtain ⟨md, h1, h2⟩ := stored_of_map (w := σ.w)
    (f := fun md => md.snaps.map (fun x => (x.1, x.2.stats.rows))) (x := [(0, 0), (1, 3), (2, 4), (3, 5), (4, 3)]) (by decide +kernel)
  exact ⟨σ, md, after_reach keepingB_keeping _, h1, h2⟩

/-- Decides `DeleteTight`. -/
def Demo.delTightB (I : Interp) (s : Schema) (e : Expr) (fs : FS) (index : List Path) : Bool :=
  match manifestFilter s (some e) with
  | .error _ => true
  | .ok mf => index.all (fun q => (entriesOf fs q).all (fun m => !MExpr.keeps mf m.stats) ||
      (entriesOf fs q).all (fun m => MExpr.keeps mf m.stats && (fileRows fs m.file).any (fun r => e.truth I r != some false)))

theorem Demo.delTightB_tight {I : Interp} {s : Schema} {e : Expr} {fs : FS} {index : List Path}
    (h : delTightB I s e fs index = true) : DeleteTight I s e fs index := by
  intro mf hm q hq
  simp only [delTightB, hm, List.all_eq_true, Bool.or_eq_true, Bool.not_eq_true', Bool.and_eq_true,
    List.any_eq_true, bne_iff_ne] at h
  exact h q hq

/-- Decides `RayTight`. -/
def Demo.rayTightB (I : Interp) (s : Schema) (e : Expr) (fs : FS) (index : List Path) : Bool :=
  match manifestFilter s (some e) with
  | .error _ => true
  | .ok mf => index.all (fun q => (entriesOf fs q).all (fun m => !MExpr.keeps mf m.stats ||
      !(fileRows fs m.file).any (fun r => e.truth I r != some false) || decide (entriesOf fs q = [m])))

theorem Demo.rayTightB_tight {I : Interp} {s : Schema} {e : Expr} {fs : FS} {index : List Path}
    (h : rayTightB I s e fs index = true) : RayTight I s e fs index := by
  rintro mf hm q hq m hmq hk ⟨r, hr, hnf⟩
  simp only [rayTightB, hm, List.all_eq_true] at h
  have h := h q hq m hmq
  have h3 : (fileRows fs m.file).any (fun r => e.truth I r != some false) = true :=
    List.any_eq_true.mpr ⟨r, hr, by simpa using hnf⟩
  rw [hk, h3] at h
  simpa using h

/-- Decides `tight`, for histories without upserts. -/
def Demo.tightB (E : Env) (s : Schema) (σ : Sys) (ev : Event) : Bool :=
  calmB σ ev && landsB (fun sl m => match m with
    | .delete e => (match headOf sl.h σ.w with
      | some cur => delTightB E.I s e σ.w.fs cur.index
      | none => true)
    | .rayDelete e => (match headOf sl.h σ.w with
      | some cur => rayTightB E.I s e σ.w.fs cur.index
      | none => true)
    | .upsert _ => false
    | .rayInsert .upsert _ _ _ => false
    | .sync _ _ _ _ => false
    | _ => true) σ ev

theorem Demo.tightB_tight {E : Env} {s : Schema} (σ : Sys) (ev : Event) (h : tightB E s σ ev = true) : tight E s σ ev := by
  simp only [tightB, Bool.and_eq_true] at h
  refine ⟨calmB_calm _ _ h.1, fun i m sl cur hl hsl hc => ?_⟩
  have := landsB_lands h.2 hl hsl
  cases m with
  | delete e =>
    simp only [hc] at this
    exact delTightB_tight this
  | rayDelete e =>
    simp only [hc] at this
    exact rayTightB_tight this
  | upsert data => cases this
  | sync n sched gone added => cases this
  | rayInsert mode n sched data =>
    cases mode with
    | insert => trivial
    | upsert => cases this
  | _ => trivial

/-- Appends and deletes that meet the condition, and the index bytes of the snapshots. -/
example : ∃ σ md, Reach env schema (tight env schema) σ ∧ σ.w.stored = some md ∧
    md.snaps.map (fun x => (x.1, x.2.stats.icb)) = [(0, 0), (1, 3), (2, 4), (3, 3), (4, 2)] := by
  let σ := after env (tightB env schema) schema [.call 0 (.mutate (.append [[row 1 "a" [1], row 2 "b" [2], row 3 "c" []]])),
    .call 0 (.mutate (.insert [row 4 "d" []])), .call 0 (.mutate (.delete (idIs "lt" 2))),
    .call 0 (.mutate (.delete (idIs "gte" 4)))]
  obtain ⟨md, h1, h2⟩ := stored_of_map (w := σ.w)
    (f := fun md => md.snaps.map (fun x => (x.1, x.2.stats.icb))) (x := [(0, 0), (1, 3), (2, 4), (3, 3), (4, 2)]) (by decide +kernel)
  exact ⟨σ, md, after_reach tightB_tight _, h1, h2⟩

/-- C35 is false after a delete that loses a file: four rows are counted, none is read. -/
theorem C35_violated : ∃ σ md snap sl, Reach env schema solo σ ∧ σ.w.stored = some md ∧
    md.snaps.get? 2 = some snap ∧ sl ∈ σ.slots ∧
    tableRead env sl.h σ.w {} (some (.id 2)) = .ok [] ∧ snap.stats.rows = 4 := by
  let σ := after env soloB schema [.call 0 (.mutate (.append [[row 1 "a" [1], row 2 "b" [2], row 3 "c" [3], row 4 "d" [4]],
        [row 5 "e" [5]]])), .call 0 (.mutate (.delete (idIs "gt" 4)))]
  obtain ⟨md, h1, h2⟩ := stored_of_map (w := σ.w)
    (f := fun md => (md.snaps.get? 2).map (fun x => x.stats.rows)) (x := some 4) (by decide +kernel)
  obtain ⟨sl, -, h3, h4⟩ := slot_of (σ := σ) (i := 0) (f := fun sl => tableRead env sl.h σ.w {} (some (.id 2)))
    (x := .ok []) (by decide +kernel)
  rw [Option.map_eq_some_iff] at h2
  obtain ⟨snap, h5, h6⟩ := h2
  exact ⟨σ, md, snap, sl, after_reach soloB_solo _, h1, h5, h3, h4, h6⟩

/-- C36 is false after a delete that looks at a file in which nothing is to delete: its
bytes are subtracted, although it stays. -/
theorem C36_violated : ∃ σ md snap, Reach env schema solo σ ∧ σ.w.stored = some md ∧
    md.snaps.get? 3 = some snap ∧
    snap.stats.icb ≠ ((snapEntries σ.w.fs snap).map (fun m => (m.icb : Int))).sum := by
  let σ := after env soloB schema [.call 0 (.mutate (.append [[row 1 "a" [1], row 2 "b" [2]]])),
    .call 0 (.mutate (.append [[row 3 "c" []]])), .call 0 (.mutate (.delete (.bin "equal" (.sel "txt") (.lit (.str "a")))))]
  obtain ⟨md, h1, h2⟩ := stored_of_map (w := σ.w)
    (f := fun md => (md.snaps.get? 3).map (fun x => decide (x.stats.icb ≠ ((snapEntries σ.w.fs x).map (fun m => (m.icb : Int))).sum)))
    (x := some true) (by decide +kernel)
  rw [Option.map_eq_some_iff] at h2
  obtain ⟨snap, h5, h6⟩ := h2
  exact ⟨σ, md, snap, after_reach soloB_solo _, h1, h5, by simpa using h6⟩

end Space
