import Verif.Landing

/-!
# Row counts and byte counts of new snapshots
-/

namespace Space

open List

section
variable {E : Env} {s : Schema} {m : Mutation} {h h' h1 : Handle} {wb w w' w1 : World} {p : Patch}
  {cur snap : Snapshot}

/-- The entries of the manifests of a snapshot. -/
def snapEntries (fs : FS) (snap : Snapshot) : List ManifestRow := snap.index.flatMap (entriesOf fs)

theorem entries_mono {fs fs' : FS} {s : Schema} (hle : FSLe fs fs') {index : List Path}
    (hok : ∀ q ∈ index, ManifestOK fs s q) :
    index.flatMap (entriesOf fs') = index.flatMap (entriesOf fs) := by
  refine flatMap_congr' fun q hq => ?_
  obtain ⟨rows, hr, -⟩ := hok q hq
  simp [entriesOf, hr, hle.imanifest hr]

/-- Rows left and counted by the delete part of a mutation. -/
theorem DeleteOut.count {e : Expr} {index : List Path} {mf : Option MExpr} {dp : Option Patch}
    (hn : s.names.Nodup) (hi : index.Nodup) (hok : ∀ q ∈ index, ManifestOK w.fs s q) (hg : Grows w w1)
    (h : DeleteOut E s e w w1 index mf dp) :
    ∃ lost : Nat, ((physRows w1.fs (index.filter (fun q => !((dp.map (·.delIdx)).getD []).contains q) ++
        (dp.map (·.addIdx)).getD [])).length : Int) + lost =
      (physRows w.fs index).length + (dp.map (·.stats.rows)).getD 0 ∧
      (NoLoss E.I e w.fs mf index → lost = 0) := by
  rcases h.out with ⟨rfl, -⟩ | ⟨q, dms, carried, mf', rmf, rp, rfl, hd⟩
  · refine ⟨0, ?_, fun _ => rfl⟩
    simp only [Option.map_none, Option.getD_none, List.append_nil, filter_none]
    rw [physRows_mono hg.le hok]
    simp
  · obtain ⟨lost, hperm, hno⟩ := hd.rowsLost hn hi hok hg
    refine ⟨lost.length, ?_, fun hl => by rw [hno hl]; rfl⟩
    have := hperm.length_eq
    rw [List.length_append] at this
    simp only [Option.map_some, Option.getD_some, hd.rowCount hok]
    omega

theorem DeleteOut.manifests {e : Expr} {index : List Path} {mf : Option MExpr} {dp : Option Patch}
    (hn : s.names.Nodup) (hok : ∀ q ∈ index, ManifestOK w.fs s q) (hg : Grows w w1)
    (h : DeleteOut E s e w w1 index mf dp) :
    ∀ q ∈ index.filter (fun q => !((dp.map (·.delIdx)).getD []).contains q) ++ (dp.map (·.addIdx)).getD [],
      ManifestOK w1.fs s q := by
  intro q hq
  rcases List.mem_append.mp hq with hq | hq
  · exact (hok q (List.mem_filter.mp hq).1).mono hg.le
  · rcases h.out with ⟨rfl, -⟩ | ⟨dq, dms, carried, mf', rmf, rp, rfl, hd⟩
    · simp at hq
    · exact (hd.patchOK hn hok hg).idx q hq

theorem merge_rows {a b : Option Patch} {p : Patch} (h : some p = mergePatches [a, b]) :
    p.stats.rows = (a.map (·.stats.rows)).getD 0 + (b.map (·.stats.rows)).getD 0 ∧
    p.stats.icb = (a.map (·.stats.icb)).getD 0 + (b.map (·.stats.icb)).getD 0 ∧
    p.stats.iub = (a.map (·.stats.iub)).getD 0 + (b.map (·.stats.iub)).getD 0 := by
  rw [merge_two] at h
  cases a <;> cases b <;> simp_all [SStats.addIndex, SStats.addRecord]

/-- What an append puts in the patch. -/
theorem Finished.counts {w0 : World} {rows : List Row} {mf : List ManifestRow} {rmf : List RecManifestRow}
    {q : Option Patch} (h : Finished E s w0 w1 rows [] mf rmf q) :
    ((physRows w1.fs ((q.map (·.addIdx)).getD [])).length : Int) = (q.map (·.stats.rows)).getD 0 ∧
    (q ≠ none → sumIcb (((q.map (·.addIdx)).getD []).flatMap (entriesOf w1.fs)) = (q.map (·.stats.icb)).getD 0 ∧
      sumIub (((q.map (·.addIdx)).getD []).flatMap (entriesOf w1.fs)) = (q.map (·.stats.iub)).getD 0) := by
  cases q with
  | none => simp [physRows]
  | some q =>
    obtain ⟨u, -, hi, hm⟩ := h.idx q rfl
    have hst := h.stats q rfl
    have he : [Path.indexManifest u].flatMap (entriesOf w1.fs) = mf := by
      simp [entriesOf, hm]
    refine ⟨?_, fun _ => ?_⟩
    · simp only [Option.map_some, Option.getD_some, hi, physRows_entries, he, hst]
      exact (sumRows_zero h.ents).symm
    · simp [hi, he, hst]

theorem Gathered.counts {w0 : World} {rows : List Row} {q : Option Patch} (h : Gathered E s w0 w1 rows q) :
    ((physRows w1.fs ((q.map (·.addIdx)).getD [])).length : Int) = (q.map (·.stats.rows)).getD 0 ∧
    sumIcb (((q.map (·.addIdx)).getD []).flatMap (entriesOf w1.fs)) = (q.map (·.stats.icb)).getD 0 ∧
    sumIub (((q.map (·.addIdx)).getD []).flatMap (entriesOf w1.fs)) = (q.map (·.stats.iub)).getD 0 := by
  cases q with
  | none => simp [physRows, sumIcb, sumIub]
  | some q =>
    have hst := h.stats q rfl
    refine ⟨?_, by simp [hst], by simp [hst]⟩
    simp only [Option.map_some, Option.getD_some, physRows_entries, hst]
    refine (sumRows_zero (s := s) (L := w1.fs.records) fun m hm => ?_).symm
    obtain ⟨x, hx, hmx⟩ := List.mem_flatMap.mp hm
    exact ((h.ok q rfl).idx x hx).entry hmx

/-- The rows counted for the new snapshot, of which `lost` are not read. -/
def Counted (w w' : World) (s : Schema) (cur snap : Snapshot) (lost : Nat) : Prop :=
  ((snapRows w'.fs s snap).length : Int) + lost - snap.stats.rows = (snapRows w.fs s cur).length - cur.stats.rows

theorem snapRows_length (fs : FS) (s : Schema) (snap : Snapshot) :
    (snapRows fs s snap).length = (physRows fs snap.index).length := by
  simp [snapRows]

theorem Success.counted (hs : Success E s m h wb w h' w' h1 w1 p cur snap) {lost : Nat}
    (hc : ((physRows w1.fs (cur.index.filter (fun m => !p.delIdx.contains m) ++ p.addIdx)).length : Int) + lost =
      (physRows w.fs cur.index).length + p.stats.rows) : Counted w w' s cur snap lost := by
  unfold Counted
  rw [hs.rows, List.length_map, snapRows_length]
  have : snap.stats.rows = cur.stats.rows + p.stats.rows := by
    rw [hs.stats]; simp [SStats.addIndex, SStats.addRecord]
  omega

/-- Mutations whose patch adds one or no manifest and drops none. -/
theorem Success.countAdds (hs : Success E s m h wb w h' w' h1 w1 p cur snap) (hd : p.delIdx = [])
    (ha : ((physRows w1.fs p.addIdx).length : Int) = p.stats.rows) : Counted w w' s cur snap 0 := by
  refine hs.counted ?_
  rw [hd, filter_none, physRows_append, physRows_mono hs.grows.le hs.curOK.manifests, List.length_append]
  omega

/-- Conditions on the layout of the branch under which an upsert loses no file. -/
def UpsertKeeps (s : Schema) (lay : List (List (List Row))) (data : List Row) : Prop :=
  KeySchema s ∧ KeysSet s lay.flatten.flatten ∧
    DeleteSafe (fun r => some (decide (keyOf s.pks r ∈ data.map (keyOf s.pks)))) lay

/-- Conditions on the layout of the branch under which a mutation loses no file. -/
def Mutation.Keeps (I : Interp) (s : Schema) (lay : List (List (List Row))) : Mutation → Prop
  | .delete e => FilterFits s e ∧ DeleteSafe (e.truth I) lay
  | .upsert data => UpsertKeeps s lay data
  | .rayInsert .upsert _ _ data => UpsertKeeps s lay data
  | .rayDelete e => FilterFits s e ∧ RaySafe (e.truth I) lay
  | .sync _ _ gone _ => gone ≠ [] → UpsertKeeps s lay gone
  | _ => True

theorem key_truth {data : List Row} {e : Expr} {I : Interp} {rows : List Row}
    (hk : KeySchema s) (he : primaryKeyFilter s.pks data = .ok (some e)) (hold : KeysSet s rows) :
    ∀ r ∈ rows, some (decide (keyOf s.pks r ∈ data.map (keyOf s.pks))) = e.truth I r := by
  obtain ⟨hke, hsem, hnd, hset, hne⟩ := primaryKeyFilter_sem he I
  intro r hr
  have h0 := hke.total I r (hold r hr)
  have h1 : e.truth I r = some true ↔ keyOf s.pks r ∈ data.map (keyOf s.pks) := by
    rw [hsem r, List.mem_map]
    exact ⟨fun ⟨d, a, b, _⟩ => ⟨d, a, b⟩, fun ⟨d, a, b⟩ => ⟨d, a, b, hold.num r hr⟩⟩
  cases ht : e.truth I r with
  | none => exact absurd ht h0
  | some b =>
    congr 1
    rw [ht] at h1
    cases b
    · simpa using h1
    · simpa using h1

theorem Mutation.Keeps.upsert {I : Interp} {lay : List (List (List Row))} {data : List Row} (h : m.Keeps I s lay)
    (hm : m.inserts = some (.upsert, data)) : UpsertKeeps s lay data := by
  cases m with
  | upsert d => cases hm; exact h
  | rayInsert mode n sched d => cases hm; exact h
  | _ => cases hm

/-- Row counts after an append, local or by Ray. -/
theorem Success.countAdded (hs : Success E s m h wb w h' w' h1 w1 p cur snap) {rows : List Row}
    (hm : m.added = some rows) : Counted w w' s cur snap 0 := by
  obtain ⟨P, hg, -⟩ := hs.addedG hm
  exact hs.countAdds (hg.del p rfl) (by simpa using hg.counts.1)

/-- Row counts after an insert or upsert, local or by Ray. -/
theorem Success.countInserted (hn : s.names.Nodup) (hs : Success E s m h wb w h' w' h1 w1 p cur snap)
    {mode : InsertMode} {data : List Row} (hm : m.inserts = some (mode, data)) :
    ∃ lost, Counted w w' s cur snap lost ∧ (m.Keeps E.I s (layout w.fs s cur) → lost = 0) := by
  obtain ⟨e, mf, hout⟩ := hs.insertedG hm
  obtain ⟨w0, dp, ap, P, g1, f1, g2, hp, hfin, hP, hins, hups, -⟩ := hout.out
  obtain ⟨hd, ha, -⟩ := merge_delIdx hp (fun q hq => hfin.del q hq)
  obtain ⟨hr, -⟩ := merge_rows hp
  cases mode with
  | insert =>
    obtain ⟨rfl, rfl, -⟩ := hins rfl
    refine ⟨0, hs.countAdds (by simpa using hd) ?_, fun _ => rfl⟩
    rw [ha, hr]
    simpa using hfin.counts.1
  | upsert =>
    have hdel := hups rfl
    obtain ⟨lost, hl, hno⟩ := hdel.count hn hs.curOK.nodup hs.curOK.manifests g1
    refine ⟨lost, hs.counted ?_, fun hkeep => hno ?_⟩
    · rw [hd, ha, hr, ← List.append_assoc, physRows_append,
        physRows_mono g2.le (hdel.manifests hn hs.curOK.manifests g1), List.length_append]
      have := hfin.counts.1
      omega
    · have hk := hkeep.upsert hm
      obtain ⟨hke, -⟩ := primaryKeyFilter_sem hout.key E.I
      have he := hk.1.fits hke
      refine noLoss_of_safe he.prune hout.filter he.plain hs.curOK.manifests (hk.2.2.congr ?_)
      exact key_truth hk.1 hout.key hk.2.1

theorem DelPart.manifests {gone : List Row} {index : List Path} {dp : Option Patch}
    (hn : s.names.Nodup) (hok : ∀ q ∈ index, ManifestOK w.fs s q) (hg : Grows w w1)
    (h : DelPart E s gone w w1 index dp) :
    ∀ q ∈ index.filter (fun q => !((dp.map (·.delIdx)).getD []).contains q) ++ (dp.map (·.addIdx)).getD [],
      ManifestOK w1.fs s q := by
  rcases h with ⟨-, rfl, rfl⟩ | ⟨e, mf, -, -, h⟩
  · intro q hq
    simp only [Option.map_none, Option.getD_none, filter_none, List.append_nil] at hq
    exact hok q hq
  · exact h.manifests hn hok hg

/-- Row counts after a transaction of a refresh. -/
theorem Success.countSync (hn : s.names.Nodup) {n : Nat} {sched : List Nat} {gone : List Row}
    {added : Option (List (List (List Row)))}
    (hs : Success E s (.sync n sched gone added) h wb w h' w' h1 w1 p cur snap) :
    ∃ lost, Counted w w' s cur snap lost ∧ ((gone ≠ [] → UpsertKeeps s (layout w.fs s cur) gone) → lost = 0) := by
  obtain ⟨w0, dp, ap, P, g1, f1, g2, hp, hfin, hP, hdp, -⟩ := hs.syncedG.out
  obtain ⟨hd, ha, -⟩ := merge_delIdx hp (fun q hq => hfin.del q hq)
  obtain ⟨hr, -⟩ := merge_rows hp
  have hman := hdp.manifests hn hs.curOK.manifests g1
  rcases hdp with ⟨-, rfl, rfl⟩ | ⟨e, mf, hkey, hmf, hdel⟩
  · refine ⟨0, hs.countAdds (by simpa using hd) ?_, fun _ => rfl⟩
    rw [ha, hr]
    simpa using hfin.counts.1
  · obtain ⟨hke, -, -, -, hne⟩ := primaryKeyFilter_sem hkey E.I
    obtain ⟨lost, hl, hno⟩ := hdel.count hn hs.curOK.nodup hs.curOK.manifests g1
    refine ⟨lost, hs.counted ?_, fun hkeep => hno ?_⟩
    · rw [hd, ha, hr, ← List.append_assoc, physRows_append, physRows_mono g2.le hman, List.length_append]
      have := hfin.counts.1
      omega
    · have hk := hkeep hne
      have he := hk.1.fits hke
      refine noLoss_of_safe he.prune hmf he.plain hs.curOK.manifests (hk.2.2.congr ?_)
      exact key_truth hk.1 hkey hk.2.1

/-- Row counts of the new snapshot, with the rows lost, but after a delete by Ray. -/
theorem Success.countLost (hn : s.names.Nodup) (hs : Success E s m h wb w h' w' h1 w1 p cur snap)
    (hray : ¬ ∃ e, m = .rayDelete e) :
    ∃ lost, Counted w w' s cur snap lost ∧ (m.Keeps E.I s (layout w.fs s cur) → lost = 0) := by
  cases m with
  | rayDelete e => exact absurd ⟨e, rfl⟩ hray
  | append tables => exact ⟨0, hs.countAdded rfl, fun _ => rfl⟩
  | rayAppend n sched rows => exact ⟨0, hs.countAdded rfl, fun _ => rfl⟩
  | rayAppendFrom n sched sources => exact ⟨0, hs.countAdded rfl, fun _ => rfl⟩
  | insert data => exact hs.countInserted hn rfl
  | upsert data => exact hs.countInserted hn rfl
  | rayInsert mode n sched data => exact hs.countInserted hn rfl
  | sync n sched gone added => exact hs.countSync hn
  | appendParquet files =>
    obtain ⟨-, hd, -, -, rows, he, -, hok, hst, -⟩ := hs.loadParquet
    refine ⟨0, hs.countAdds hd ?_, fun _ => rfl⟩
    rw [physRows_entries, he, hst]
    exact (sumRows_zero hok).symm
  | appendArrayRecord fn files =>
    obtain ⟨f, mf, rmf, p0, -, -, hf, ha, hd, -, hr, -⟩ := hs.loadRecords
    refine ⟨0, hs.countAdds hd ?_, fun _ => rfl⟩
    rw [ha, hr]
    simpa using hf.counts.1
  | delete e =>
    have hb := hs.body
    simp only [Mutation.body] at hb
    obtain ⟨-, -, cur', mf, hc, hm, hout⟩ := Post.elim (deleteBody_post (E := E) (e := e) hs.fresh hs.handle) hb
    rw [hs.base] at hc
    cases hc
    obtain ⟨lost, hl, hno⟩ := hout.count hn hs.curOK.nodup hs.curOK.manifests hs.grows
    refine ⟨lost, hs.counted (by simpa using hl), fun hk => hno ?_⟩
    exact noLoss_of_safe hk.1.prune hm hk.1.plain hs.curOK.manifests hk.2

/-- Row counts of the new snapshot. -/
theorem Success.count (hn : s.names.Nodup) (hs : Success E s m h wb w h' w' h1 w1 p cur snap)
    (hkeep : m.Keeps E.I s (layout w.fs s cur)) : Counted w w' s cur snap 0 := by
  by_cases hray : ∃ e, m = .rayDelete e
  · obtain ⟨e, rfl⟩ := hray
    obtain ⟨mf, hm, hd⟩ := hs.rayDeleted hn
    have hperm := hd.rowsPerm hs.curOK.manifests hs.grows
      (rayNoLoss_of_safe hkeep.1.plain hs.curOK.manifests hkeep.2)
    refine hs.counted ?_
    have := hperm.length_eq
    have := hd.rowCount hs.curOK.manifests
    omega
  · obtain ⟨lost, hc, hno⟩ := hs.countLost hn hray
    rwa [hno hkeep] at hc

/-- The files a delete looks at are all changed, and so are all files of the manifests
that list them: in each manifest, either the statistics rule out every file, or every
file is looked at and has a row on which the filter is not false. -/
def DeleteTight (I : Interp) (s : Schema) (e : Expr) (fs : FS) (index : List Path) : Prop :=
  ∀ mf, manifestFilter s (some e) = .ok mf → ∀ q ∈ index,
    (∀ m ∈ entriesOf fs q, MExpr.keeps mf m.stats = false) ∨
    ∀ m ∈ entriesOf fs q, MExpr.keeps mf m.stats = true ∧ ∃ r ∈ fileRows fs m.file, e.truth I r ≠ some false

theorem visited_sums {fs : FS} {mf : Option MExpr} (index : List Path) :
    (((visited fs mf index).files.map (·.stats.icb)).sum = sumIcb (index.flatMap (keptEntries fs mf))) ∧
    (((visited fs mf index).files.map (·.stats.iub)).sum = sumIub (index.flatMap (keptEntries fs mf))) := by
  have key : ∀ (g : DataFile → Int) (g' : ManifestRow → Int), (∀ n m, g (toDataFile n m) = g' m) →
      ((visited fs mf index).files.map g).sum = ((index.flatMap (keptEntries fs mf)).map g').sum := by
    intro g g' hg
    have hmap : ∀ {α : Type} (f : α → Int) (l : List α), l.map f = l.flatMap (fun a => [f a]) := by
      intro α f l
      induction l with
      | nil => rfl
      | cons a l ih => simp [ih]
    rw [hmap g, packFiles_flatMap (fun f => [g f]) (fun m => [g' m]) (fun n m => by rw [hg]),
      flatMap_filter_nil _ _ (by
        intro q hq
        have : keptEntries fs mf q = [] := by simpa using hq
        rw [this]; rfl), hmap g', List.flatMap_assoc]
  exact ⟨key _ _ fun _ _ => rfl, key _ _ fun _ _ => rfl⟩

theorem perm_sum {a b : List Int} (h : a ~ b) : a.sum = b.sum := by
  induction h with
  | nil => rfl
  | cons x _ ih => simp [ih]
  | swap x y l => simp only [List.sum_cons]; omega
  | trans _ _ h1 h2 => exact h1.trans h2

theorem sumIcb_perm {a b : List ManifestRow} (h : a ~ b) : sumIcb a = sumIcb b := by
  unfold sumIcb
  exact perm_sum (h.map _)

theorem sumIub_perm {a b : List ManifestRow} (h : a ~ b) : sumIub a = sumIub b := by
  unfold sumIub
  exact perm_sum (h.map _)

theorem DeleteOut.bytes {e : Expr} {index : List Path} {mf : Option MExpr} {dp : Option Patch}
    (hi : index.Nodup) (hok : ∀ q ∈ index, ManifestOK w.fs s q) (hg : Grows w w1)
    (h : DeleteOut E s e w w1 index mf dp) (hm : manifestFilter s (some e) = .ok mf)
    (ht : DeleteTight E.I s e w.fs index) :
    sumIcb ((index.filter (fun q => !((dp.map (·.delIdx)).getD []).contains q) ++
        (dp.map (·.addIdx)).getD []).flatMap (entriesOf w1.fs)) =
      sumIcb (index.flatMap (entriesOf w.fs)) + (dp.map (·.stats.icb)).getD 0 ∧
    sumIub ((index.filter (fun q => !((dp.map (·.delIdx)).getD []).contains q) ++
        (dp.map (·.addIdx)).getD []).flatMap (entriesOf w1.fs)) =
      sumIub (index.flatMap (entriesOf w.fs)) + (dp.map (·.stats.iub)).getD 0 := by
  rcases h.out with ⟨rfl, -⟩ | ⟨q, dms, carried, mf', rmf, rp, rfl, hd⟩
  · simp only [Option.map_none, Option.getD_none, List.append_nil, filter_none]
    rw [entries_mono hg.le hok]
    simp
  · have hmod : ∀ q ∈ index, ∀ m ∈ entriesOf w.fs q, MExpr.keeps mf m.stats = true →
        modEntry E.I e w.fs mf m = true := by
      intro q hq m hmq hk
      rcases ht mf hm q hq with h' | h'
      · rw [h' m hmq] at hk; cases hk
      · obtain ⟨-, r, hr, hnf⟩ := h' m hmq
        have hlen := ((hok q hq).entry hmq).length
        simp only [modEntry, hk, Bool.true_and, decide_eq_true_eq]
        rw [← hlen, survRows]
        intro hc
        rw [List.length_filter_eq_length_iff] at hc
        have := hc r hr
        have := fails_iff.mp this
        exact hnf this
    have hcar : carried = [] := by
      rw [hd.carried_eq hok, List.flatMap_eq_nil_iff]
      intro q hq
      obtain ⟨hqi, hmq⟩ := (hd.mem_dms q).mp hq
      rw [List.filter_eq_nil_iff]
      intro m hmm
      simp only [hasMod, List.any_eq_true] at hmq
      obtain ⟨m0, h0, h1⟩ := hmq
      rcases ht mf hm q hqi with h' | h'
      · simp [modEntry, h' m0 h0] at h1
      · simp [hmod q hqi m hmm (h' m hmm).1]
    have hkept : index.flatMap (keptEntries w.fs mf) =
        (index.filter (hasMod E.I e w.fs mf)).flatMap (entriesOf w.fs) := by
      rw [flatMap_filter_ite]
      refine flatMap_congr' fun q hq => ?_
      rcases ht mf hm q hq with h' | h'
      · have : hasMod E.I e w.fs mf q = false := by
          simp only [hasMod, List.any_eq_false]
          intro m hmm
          simp [modEntry, h' m hmm]
        rw [this]
        simp only [keptEntries]
        rw [List.filter_eq_nil_iff.mpr (fun m hmm => by simp [h' m hmm])]
        rfl
      · have hall : keptEntries w.fs mf q = entriesOf w.fs q :=
          List.filter_eq_self.mpr fun m hmm => (h' m hmm).1
        rw [hall]
        by_cases hem : entriesOf w.fs q = []
        · simp [hem]
        · obtain ⟨m, hmm⟩ := List.exists_mem_of_ne_nil _ hem
          have : hasMod E.I e w.fs mf q = true := by
            simp only [hasMod, List.any_eq_true]
            exact ⟨m, hmm, hmod q hq m hmm (h' m hmm).1⟩
          simp [this]
    have hdel : index.filter (fun x => !dms.contains x) = index.filter (fun x => !hasMod E.I e w.fs mf x) := by
      refine List.filter_congr fun x hx => ?_
      congr 1
      rw [Bool.eq_iff_iff, List.contains_iff_mem, hd.mem_dms]
      simp [hx]
    have hperm := split_perm (hasMod E.I e w.fs mf) (entriesOf w.fs) index
    have h1 := sumIcb_perm hperm
    have h2 := sumIub_perm hperm
    rw [sumIcb_append] at h1
    rw [sumIub_append] at h2
    obtain ⟨v1, v2⟩ := visited_sums (fs := w.fs) (mf := mf) index
    rw [hkept] at v1 v2
    have i1 := hd.icb
    have i2 := hd.iub
    rw [v1, hcar] at i1
    rw [v2, hcar] at i2
    have hfin := hd.fin
    rw [hcar] at hfin
    obtain ⟨-, hb⟩ := hfin.counts
    have hadd : sumIcb (((rp.map (·.addIdx)).getD []).flatMap (entriesOf w1.fs)) = (rp.map (·.stats.icb)).getD 0 ∧
        sumIub (((rp.map (·.addIdx)).getD []).flatMap (entriesOf w1.fs)) = (rp.map (·.stats.iub)).getD 0 := by
      cases rp with
      | none => simp [sumIcb, sumIub]
      | some r => exact hb (by simp)
    simp only [Option.map_some, Option.getD_some, hd.delIdx, hd.addIdx, hdel, List.flatMap_append,
      sumIcb_append, sumIub_append, hadd.1, hadd.2]
    rw [entries_mono hg.le fun q hq => hok q (List.mem_filter.mp hq).1]
    have z1 : sumIcb [] = 0 := rfl
    have z2 : sumIub [] = 0 := rfl
    omega

/-- The byte counts added for the new snapshot. -/
def ByteExact (w w' : World) (cur snap : Snapshot) : Prop :=
  sumIcb (snapEntries w'.fs snap) - snap.stats.icb = sumIcb (snapEntries w.fs cur) - cur.stats.icb ∧
  sumIub (snapEntries w'.fs snap) - snap.stats.iub = sumIub (snapEntries w.fs cur) - cur.stats.iub

theorem Success.byteExact (hs : Success E s m h wb w h' w' h1 w1 p cur snap)
    (h1 : sumIcb ((cur.index.filter (fun m => !p.delIdx.contains m) ++ p.addIdx).flatMap (entriesOf w1.fs)) =
      sumIcb (cur.index.flatMap (entriesOf w.fs)) + p.stats.icb)
    (h2 : sumIub ((cur.index.filter (fun m => !p.delIdx.contains m) ++ p.addIdx).flatMap (entriesOf w1.fs)) =
      sumIub (cur.index.flatMap (entriesOf w.fs)) + p.stats.iub) : ByteExact w w' cur snap := by
  have hm : ∀ q ∈ snap.index, ManifestOK w1.fs s q := by
    intro q hq
    rw [hs.index] at hq
    rcases List.mem_append.mp hq with hq | hq
    · exact (hs.curOK.manifests q (List.mem_filter.mp hq).1).mono hs.grows.le
    · exact hs.patch.idx q hq
  unfold ByteExact snapEntries
  rw [entries_mono hs.le hm, hs.index, h1, h2, hs.stats]
  simp only [SStats.addIndex, SStats.addRecord]
  omega

theorem Success.bytesAdds (hs : Success E s m h wb w h' w' h1 w1 p cur snap) (hd : p.delIdx = [])
    (ha : sumIcb (p.addIdx.flatMap (entriesOf w1.fs)) = p.stats.icb ∧
      sumIub (p.addIdx.flatMap (entriesOf w1.fs)) = p.stats.iub) : ByteExact w w' cur snap := by
  refine hs.byteExact ?_ ?_
  · rw [hd, filter_none, List.flatMap_append, entries_mono hs.grows.le hs.curOK.manifests, sumIcb_append, ha.1]
  · rw [hd, filter_none, List.flatMap_append, entries_mono hs.grows.le hs.curOK.manifests, sumIub_append, ha.2]

/-- The files a delete by Ray changes are alone in their manifests. -/
def RayTight (I : Interp) (s : Schema) (e : Expr) (fs : FS) (index : List Path) : Prop :=
  ∀ mf, manifestFilter s (some e) = .ok mf → ∀ q ∈ index,
    ∀ m ∈ entriesOf fs q, MExpr.keeps mf m.stats = true → (∃ r ∈ fileRows fs m.file, e.truth I r ≠ some false) →
      entriesOf fs q = [m]

/-- Conditions under which the byte counts of a mutation are right. -/
def Mutation.Tight (I : Interp) (s : Schema) (fs : FS) (index : List Path) : Mutation → Prop
  | .delete e => DeleteTight I s e fs index
  | .upsert data => ∀ e, primaryKeyFilter s.pks data = .ok (some e) → DeleteTight I s e fs index
  | .rayInsert .upsert _ _ data => ∀ e, primaryKeyFilter s.pks data = .ok (some e) → DeleteTight I s e fs index
  | .rayDelete e => RayTight I s e fs index
  | .sync _ _ gone _ => ∀ e, primaryKeyFilter s.pks gone = .ok (some e) → DeleteTight I s e fs index
  | _ => True

theorem Mutation.Tight.upsert {I : Interp} {fs : FS} {index : List Path} {data : List Row} (h : m.Tight I s fs index)
    (hm : m.inserts = some (.upsert, data)) :
    ∀ e, primaryKeyFilter s.pks data = .ok (some e) → DeleteTight I s e fs index := by
  cases m with
  | upsert d => cases hm; exact h
  | rayInsert mode n sched d => cases hm; exact h
  | _ => cases hm

/-- Byte counts after an append, local or by Ray. -/
theorem Success.bytesAdded (hs : Success E s m h wb w h' w' h1 w1 p cur snap) {rows : List Row}
    (hm : m.added = some rows) : ByteExact w w' cur snap := by
  obtain ⟨P, hg, -⟩ := hs.addedG hm
  exact hs.bytesAdds (hg.del p rfl) (by simpa using hg.counts.2)

/-- Byte counts after an insert or upsert, local or by Ray. -/
theorem Success.bytesInserted (hn : s.names.Nodup) (hs : Success E s m h wb w h' w' h1 w1 p cur snap)
    (ht : m.Tight E.I s w.fs cur.index) {mode : InsertMode} {data : List Row}
    (hm : m.inserts = some (mode, data)) : ByteExact w w' cur snap := by
  obtain ⟨e, mf, hout⟩ := hs.insertedG hm
  obtain ⟨w0, dp, ap, P, g1, f1, g2, hp, hfin, hP, hins, hups, -⟩ := hout.out
  obtain ⟨hd, ha, -⟩ := merge_delIdx hp (fun q hq => hfin.del q hq)
  obtain ⟨-, r1, r2⟩ := merge_rows hp
  cases mode with
  | insert =>
    obtain ⟨rfl, rfl, -⟩ := hins rfl
    refine hs.bytesAdds (by simpa using hd) ?_
    rw [ha, r1, r2]
    simpa using hfin.counts.2
  | upsert =>
    have hdel := hups rfl
    obtain ⟨h1, h2⟩ := hdel.bytes hs.curOK.nodup hs.curOK.manifests g1 hout.filter (ht.upsert hm e hout.key)
    have hap := hfin.counts.2
    refine hs.byteExact ?_ ?_
    · rw [hd, ha, r1, ← List.append_assoc, List.flatMap_append, sumIcb_append,
        entries_mono g2.le (hdel.manifests hn hs.curOK.manifests g1), h1, hap.1]
      omega
    · rw [hd, ha, r2, ← List.append_assoc, List.flatMap_append, sumIub_append,
        entries_mono g2.le (hdel.manifests hn hs.curOK.manifests g1), h2, hap.2]
      omega

/-- Byte counts after a transaction of a refresh. -/
theorem Success.bytesSync (hn : s.names.Nodup) {n : Nat} {sched : List Nat} {gone : List Row}
    {added : Option (List (List (List Row)))}
    (hs : Success E s (.sync n sched gone added) h wb w h' w' h1 w1 p cur snap)
    (ht : ∀ e, primaryKeyFilter s.pks gone = .ok (some e) → DeleteTight E.I s e w.fs cur.index) :
    ByteExact w w' cur snap := by
  obtain ⟨w0, dp, ap, P, g1, f1, g2, hp, hfin, hP, hdp, -⟩ := hs.syncedG.out
  obtain ⟨hd, ha, -⟩ := merge_delIdx hp (fun q hq => hfin.del q hq)
  obtain ⟨-, r1, r2⟩ := merge_rows hp
  rcases hdp with ⟨-, rfl, rfl⟩ | ⟨e, mf, hkey, hmf, hdel⟩
  · refine hs.bytesAdds (by simpa using hd) ?_
    rw [ha, r1, r2]
    simpa using hfin.counts.2
  · obtain ⟨h1, h2⟩ := hdel.bytes hs.curOK.nodup hs.curOK.manifests g1 hmf (ht e hkey)
    have hap := hfin.counts.2
    refine hs.byteExact ?_ ?_
    · rw [hd, ha, r1, ← List.append_assoc, List.flatMap_append, sumIcb_append,
        entries_mono g2.le (hdel.manifests hn hs.curOK.manifests g1), h1, hap.1]
      omega
    · rw [hd, ha, r2, ← List.append_assoc, List.flatMap_append, sumIub_append,
        entries_mono g2.le (hdel.manifests hn hs.curOK.manifests g1), h2, hap.2]
      omega

/-- Byte counts after a delete by Ray. -/
theorem Success.bytesRay (hn : s.names.Nodup) {e : Expr}
    (hs : Success E s (.rayDelete e) h wb w h' w' h1 w1 p cur snap)
    (ht : RayTight E.I s e w.fs cur.index) : ByteExact w w' cur snap := by
  obtain ⟨mf, hm, hd⟩ := hs.rayDeleted hn
  have hok := hs.curOK.manifests
  have hone : ∀ q ∈ cur.index, ∀ m ∈ entriesOf w.fs q, modEntry E.I e w.fs mf m = true → entriesOf w.fs q = [m] := by
    intro q hq m hmq hmod
    have hk : MExpr.keeps mf m.stats = true := by
      simp only [modEntry, Bool.and_eq_true] at hmod
      exact hmod.1
    exact ht mf hm q hq m hmq hk (not_false_of_mod ((hok q hq).entry hmq) hmod)
  have hb := hd.bytes (by
    intro f hf q hq
    obtain ⟨q', hq', m, hmq, hmod, hfe, hg⟩ := visited_mods f hf
    rw [hq] at hg
    cases hg
    unfold siblings
    rw [hone q hq' m hmq hmod, hfe]
    simp [toDataFile])
  have hsum : ∀ (g : DataFile → Int) (g' : ManifestRow → Int), (∀ n m, g (toDataFile n m) = g' m) →
      (((visited w.fs mf cur.index).files.filter (modFile E.I e w.fs)).map g).sum =
        (((cur.index.filter (hasMod E.I e w.fs mf)).flatMap (entriesOf w.fs)).map g').sum := by
    intro g g' hg
    have hmap : ∀ {α : Type} (f : α → Int) (l : List α), l.map f = l.flatMap (fun a => [f a]) := by
      intro α f l
      induction l with
      | nil => rfl
      | cons a l ih => simp [ih]
    have hfl : ((visited w.fs mf cur.index).files.filter (modFile E.I e w.fs)).flatMap (fun f => [g f]) =
        ((visited w.fs mf cur.index).files.filter (modFile E.I e w.fs)).flatMap
          (fun f => ((visited w.fs mf cur.index).manifests.get? f.mid).toList.flatMap (fun _ => [g f])) := by
      refine flatMap_congr' fun f hf => ?_
      obtain ⟨q', hq', m, hmq, hmod, hfe, hg⟩ := visited_mods f hf
      simp [hg]
    rw [hmap, hfl, mods_pairs (fun _ f => [g f]) (fun _ m => [g' m]) (fun n q m => by simp [hg]), hmap, List.flatMap_assoc,
      flatMap_filter_ite]
    congr 1
    refine flatMap_congr' fun q hq => ?_
    split
    · rename_i hmod
      simp only [hasMod, List.any_eq_true] at hmod
      obtain ⟨m, hmq, hmod⟩ := hmod
      rw [hone q hq m hmq hmod]
      simp [hmod]
    · rename_i hmod
      simp only [hasMod, Bool.not_eq_true, List.any_eq_false] at hmod
      rw [List.filter_eq_nil_iff.mpr fun m hm => by simp [hmod m hm]]
      rfl
  have hc := hsum (·.stats.icb) (fun m => (m.icb : Int)) (fun _ _ => rfl)
  have hu := hsum (·.stats.iub) (fun m => (m.iub : Int)) (fun _ _ => rfl)
  have hperm := split_perm (hasMod E.I e w.fs mf) (entriesOf w.fs) cur.index
  have h1 := sumIcb_perm hperm
  have h2 := sumIub_perm hperm
  rw [sumIcb_append] at h1
  rw [sumIub_append] at h2
  have hl := hd.left
  refine hs.byteExact ?_ ?_
  · rw [List.flatMap_append, sumIcb_append, hl, entries_mono hs.grows.le fun q hq => hok q (List.mem_filter.mp hq).1, hb.1,
      hc]
    unfold sumIcb at h1 ⊢
    omega
  · rw [List.flatMap_append, sumIub_append, hl, entries_mono hs.grows.le fun q hq => hok q (List.mem_filter.mp hq).1, hb.2,
      hu]
    unfold sumIub at h2 ⊢
    omega

/-- Byte counts of the new snapshot. -/
theorem Success.bytes (hn : s.names.Nodup) (hs : Success E s m h wb w h' w' h1 w1 p cur snap)
    (ht : m.Tight E.I s w.fs cur.index) : ByteExact w w' cur snap := by
  cases m with
  | rayDelete e => exact hs.bytesRay hn ht
  | append tables => exact hs.bytesAdded rfl
  | rayAppend n sched rows => exact hs.bytesAdded rfl
  | rayAppendFrom n sched sources => exact hs.bytesAdded rfl
  | insert data => exact hs.bytesInserted hn ht rfl
  | upsert data => exact hs.bytesInserted hn ht rfl
  | rayInsert mode n sched data => exact hs.bytesInserted hn ht rfl
  | sync n sched gone added => exact hs.bytesSync hn ht
  | appendParquet files =>
    obtain ⟨-, hd, -, -, rows, he, -, hok, hst, -⟩ := hs.loadParquet
    refine hs.bytesAdds hd ?_
    rw [he, hst]
    exact ⟨rfl, rfl⟩
  | appendArrayRecord fn files =>
    obtain ⟨f, mf, rmf, p0, -, -, hf, ha, hd, -, -, h1, h2, -⟩ := hs.loadRecords
    refine hs.bytesAdds hd ?_
    rw [ha, h1, h2]
    simpa using hf.counts.2
  | delete e =>
    have hb := hs.body
    simp only [Mutation.body] at hb
    obtain ⟨-, -, cur', mf, hc, hm, hout⟩ := Post.elim (deleteBody_post (E := E) (e := e) hs.fresh hs.handle) hb
    rw [hs.base] at hc
    cases hc
    obtain ⟨h1, h2⟩ := hout.bytes hs.curOK.nodup hs.curOK.manifests hs.grows hm ht
    exact hs.byteExact (by simpa using h1) (by simpa using h2)

theorem DeleteTight.mono {I : Interp} {e : Expr} {fs fs' : FS} (hle : FSLe fs fs') {index : List Path}
    (hok : ∀ q ∈ index, ManifestOK fs s q) (h : DeleteTight I s e fs' index) : DeleteTight I s e fs index := by
  intro mf hm q hq
  have := h mf hm q hq
  rw [entriesOf_mono hle (hok q hq)] at this
  refine this.imp_right fun h m hmm => ?_
  obtain ⟨h1, r, h2, h3⟩ := h m hmm
  rw [fileRows_mono hle ((hok q hq).entry hmm)] at h2
  exact ⟨h1, r, h2, h3⟩

theorem RayTight.mono {I : Interp} {e : Expr} {fs fs' : FS} (hle : FSLe fs fs') {index : List Path}
    (hok : ∀ q ∈ index, ManifestOK fs s q) (h : RayTight I s e fs' index) : RayTight I s e fs index := by
  intro mf hm q hq m hmq hk hr
  have := h mf hm q hq m
  rw [entriesOf_mono hle (hok q hq), fileRows_mono hle ((hok q hq).entry hmq)] at this
  exact this hmq hk hr

theorem Mutation.Tight.mono {I : Interp} {fs fs' : FS} (h : m.Tight I s fs' cur.index) (hle : FSLe fs fs')
    (hok : SnapOK fs s cur) : m.Tight I s fs cur.index := by
  cases m with
  | delete e => exact DeleteTight.mono hle hok.manifests h
  | rayDelete e => exact RayTight.mono hle hok.manifests h
  | upsert data => exact fun e he => (h e he).mono hle hok.manifests
  | sync n sched gone added => exact fun e he => DeleteTight.mono hle hok.manifests (h e he)
  | rayInsert mode n sched data =>
    cases mode with
    | insert => trivial
    | upsert => exact fun e he => DeleteTight.mono hle hok.manifests (h e he)
  | _ => trivial

end

end Space
