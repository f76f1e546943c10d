import Verif.StatsInv
import Verif.Landing
import Verif.ChangeData

/-!
# What change logs say, and what diffs read
-/

namespace Space

open List

/-- The rows a bitmap stands for. -/
def bitRows (fs : FS) (b : RowBitmap) : List Row :=
  if b.allRows then fileRows fs b.file
  else ((fileRows fs b.file).zipIdx.filter (fun x => b.bits.contains x.2)).map (·.1)

/-- The logical rows of bitmaps. -/
def loggedRows (fs : FS) (s : Schema) (bs : List RowBitmap) : List Row :=
  (bs.flatMap (bitRows fs)).map (deref fs.records s)

/-- The change log of a snapshot. -/
def logOf (fs : FS) (snap : Snapshot) : Option ChangeLog := snap.log.bind fs.log

theorem BitmapOK.fileRows_mono {fs fs' : FS} {s : Schema} {b : RowBitmap} (hf : FSLe fs fs')
    (h : BitmapOK fs s b) : fileRows fs' b.file = fileRows fs b.file := by
  obtain ⟨g, h1, -⟩ := h
  simp [fileRows, h1, hf.parquet h1]

theorem bitRows_mono {fs fs' : FS} {s : Schema} {b : RowBitmap} (hf : FSLe fs fs')
    (h : BitmapOK fs s b) : bitRows fs' b = bitRows fs b := by
  unfold bitRows
  rw [h.fileRows_mono hf]

theorem bitRows_sub (fs : FS) (b : RowBitmap) : (bitRows fs b).Sublist (fileRows fs b.file) := by
  unfold bitRows
  split
  · exact Sublist.refl _
  · have := (List.filter_sublist (l := (fileRows fs b.file).zipIdx) (p := fun x => b.bits.contains x.2)).map (·.1)
    simpa [List.zipIdx_map_fst] using this

theorem bitRows_ok {fs : FS} {s : Schema} {b : RowBitmap} (h : BitmapOK fs s b) :
    ∀ r ∈ bitRows fs b, RowOK fs.records s r := by
  intro r hr
  obtain ⟨g, h1, -, -, h4⟩ := h
  have := (bitRows_sub fs b).subset hr
  simp only [fileRows, h1, Option.getD_some] at this
  exact h4 r this

theorem loggedRows_mono {fs fs' : FS} {s : Schema} {bs : List RowBitmap} (hf : FSLe fs fs')
    (h : ∀ b ∈ bs, BitmapOK fs s b) : loggedRows fs' s bs = loggedRows fs s bs := by
  unfold loggedRows
  rw [flatMap_congr' (fun b hb => bitRows_mono hf (h b hb))]
  refine map_deref_mono hf.lookLe fun r hr => ?_
  obtain ⟨b, hb, hr⟩ := mem_flatMap.mp hr
  exact (bitRows_ok (h b hb) r hr).2

/-! ## Reading a change log -/

theorem visible_bitmap {E : Env} {fs : FS} {s : Schema} {b : RowBitmap} (h : BitmapOK fs s b) :
    visibleRows E fs none (bitmapFile b) = .ok (bitRows fs b) := by
  obtain ⟨g, h1, h2, h3, -⟩ := h
  simp only [visibleRows, filterRows, selectRows, bitmapFile]
  cases ha : b.allRows with
  | true => simp [bitRows, ha]
  | false =>
    simp only [Bool.false_eq_true, if_false, ha]
    rw [maskRows_eq, if_pos]
    · simp [bitRows, ha, maskSel]
    · simp only [maskSel, List.all_eq_true, decide_eq_true_eq]
      intro i hi
      simp only [fileRows, h1, Option.getD_some]
      rw [← h2]
      exact h3 i hi

theorem readBitmaps {E : Env} {fs : FS} {s : Schema} {o : ReadOpts} {bs : List RowBitmap}
    (hc : ∀ c ∈ o.cols s, c ∈ s.names) (hrr : o.refRead = false) (hfl : o.filter = none)
    (h : ∀ b ∈ bs, BitmapOK fs s b) :
    ∃ ts, readFiles E fs s o (bs.map bitmapFile) = .ok ts ∧
      ts.flatten = (bs.flatMap (bitRows fs)).map (outRow fs.records s (o.cols s)) := by
  have key : ∀ bs : List RowBitmap, (∀ b ∈ bs, BitmapOK fs s b) →
      ∃ ts, readFiles E fs s o (bs.map bitmapFile) = .ok ts ∧
        ts.flatten = (bs.flatMap (bitRows fs)).map (outRow fs.records s (o.cols s)) := by
    intro bs
    induction bs with
    | nil => intro _; exact ⟨[], rfl, rfl⟩
    | cons b bs ih =>
      intro h
      obtain ⟨ts, h1, h2⟩ := ih (fun x hx => h x (mem_cons_of_mem _ hx))
      have hb := h b (by simp)
      obtain ⟨us, h3, h4, -⟩ := readFile_eq (E := E) (fs := fs) (s := s) (o := o) (f := bitmapFile b)
        (rows := bitRows fs b) (by obtain ⟨g, hg, -⟩ := hb; simp [bitmapFile, hg])
        (by rw [hfl]; exact visible_bitmap hb) (bitRows_ok hb) hc hrr
      refine ⟨us ++ ts, ?_, ?_⟩
      · simp [readFiles, h3, h1]
      · simp [h4, h2]
  exact key bs h

/-- Reading the changes of one commit. -/
theorem readChanges_eq {E : Env} {fs : FS} {md : Metadata} {n : Nat} {snap : Snapshot} {cl : ChangeLog}
    (batch : Nat) (hpk : ∀ c ∈ md.schema.pks, c ∈ md.schema.names) (hs : md.snaps.get? n = some snap)
    (hl : logOf fs snap = some cl) (hok : LogOK fs md.schema cl) :
    ∃ ds as : List (List Row), readChanges E fs md batch n =
        .ok (ds.map (ChangeData.mk n .delete) ++ as.map (ChangeData.mk n .add)) ∧
      ds.flatten = (cl.deleted.flatMap (bitRows fs)).map (outRow fs.records md.schema md.schema.pks) ∧
      as.flatten = (loggedRows fs md.schema cl.added).map (·.select md.schema.writeNames) := by
  obtain ⟨ds, h1, h2⟩ := readBitmaps (E := E) (o := { fields := some md.schema.pks, batch := batch })
    (bs := cl.deleted) hpk rfl rfl (fun b hb => hok b (Or.inl hb))
  obtain ⟨as, h3, h4⟩ := readBitmaps (E := E) (o := { batch := batch })
    (bs := cl.added) (fun c hc => hc) rfl rfl (fun b hb => hok b (Or.inr hb))
  refine ⟨ds, as, ?_, h2, ?_⟩
  · unfold logOf at hl
    simp only [readChanges, hs, hl, h1, h3]
  · rw [h4, loggedRows, List.map_map, ← outCols_names]
    rfl

/-- Without a change log the changes of a commit cannot be read. -/
theorem readChanges_none {E : Env} {fs : FS} {md : Metadata} {n : Nat} {snap : Snapshot} (batch : Nat)
    (hs : md.snaps.get? n = some snap) (hl : logOf fs snap = none) :
    readChanges E fs md batch n = .error (.other "FileNotFoundError") := by
  unfold logOf at hl
  simp only [readChanges, hs, hl]

/-! ## What mutations log -/

theorem zipIdx_positions {α : Type} (q : α → Bool) : ∀ (l : List α) (k n : Nat), k + l.length ≤ n →
    ((l.zipIdx k).filter (fun x => ((List.range n).filter
      (fun i => !(((l.zipIdx k).filter (fun y => q y.1)).map (·.2)).contains i)).contains x.2)).map (·.1) =
      l.filter (fun a => !q a) := by
  intro l k n hn
  have : ∀ x ∈ l.zipIdx k, ((List.range n).filter
      (fun i => !(((l.zipIdx k).filter (fun y => q y.1)).map (·.2)).contains i)).contains x.2 = !q x.1 := by
    intro x hx
    obtain ⟨hk, hget⟩ := List.mem_zipIdx_iff_le_and_getElem?_sub.mp hx
    have hlt : x.2 < n := by
      have := (List.getElem?_eq_some_iff.mp hget).1
      omega
    cases hq : q x.1 with
    | true =>
      simp only [Bool.not_true, List.contains_eq_mem, List.mem_filter, decide_eq_false_iff_not, not_and,
        List.mem_map, Bool.not_eq_true', decide_eq_false_iff_not]
      intro _ hno
      exact hno ⟨x, ⟨hx, hq⟩, rfl⟩
    | false =>
      simp only [Bool.not_false, List.contains_eq_mem, List.mem_filter, decide_eq_true_eq,
        List.mem_map, Bool.not_eq_true', decide_eq_false_iff_not, List.mem_range]
      refine ⟨hlt, ?_⟩
      rintro ⟨y, ⟨hy, hqy⟩, he⟩
      obtain ⟨hk', hget'⟩ := List.mem_zipIdx_iff_le_and_getElem?_sub.mp hy
      rw [he, hget] at hget'
      have := Option.some.inj hget'
      rw [← this, hq] at hqy
      cases hqy
  rw [List.filter_congr this]
  exact filter_zipIdx_map (fun a => !q a) l k

/-- The bitmap of a modified file stands for the rows that are not written back. -/
theorem delBitmap_rows {I : Interp} {e : Expr} {fs : FS} {f : DataFile}
    (hl : f.stats.rows = ((fileRows fs f.path).length : Int)) :
    bitRows fs (delBitmap I e fs f) = (fileRows fs f.path).filter (fun r => !e.fails I r) := by
  unfold delBitmap buildBitmap bitRows
  cases hs : (survivors I e (fileRows fs f.path)).isEmpty with
  | true =>
    simp only [if_true]
    have h0 : (fileRows fs f.path).filter (fun r => e.fails I r) = [] := by
      rw [← survivors_map, List.isEmpty_iff.mp hs]
      rfl
    rw [List.filter_eq_nil_iff] at h0
    symm
    rw [List.filter_eq_self]
    intro r hr
    simpa using h0 r hr
  | false =>
    simp only [Bool.false_eq_true, if_false]
    exact zipIdx_positions (fun r => e.fails I r) (fileRows fs f.path) 0 f.stats.rows.toNat (by omega)

section
variable {E : Env} {s : Schema} {m : Mutation} {h h' h1 : Handle} {wb w w' w1 : World} {p : Patch}
  {cur snap : Snapshot}

theorem after_gone {I : Interp} {e : Expr} {fs : FS} {mf : Option MExpr} (m : ManifestRow) :
    afterRows I e fs mf m ++
      (if modEntry I e fs mf m then (fileRows fs m.file).filter (fun r => !e.fails I r) else []) ~
      fileRows fs m.file := by
  unfold afterRows
  split
  · have := split_perm (fun r => e.fails I r) (fun r => [r]) (fileRows fs m.file)
    rw [List.flatMap_singleton', List.flatMap_singleton', List.flatMap_singleton'] at this
    exact List.perm_append_comm.trans this
  · rw [List.append_nil]

/-- The rows that the bitmaps of the modified files stand for. -/
theorem delBitmaps_rows {e : Expr} {index : List Path} {mf : Option MExpr}
    (hok : ∀ q ∈ index, ManifestOK w.fs s q) (hg : Grows w w1) :
    (((visited w.fs mf index).files.filter (modFile E.I e w.fs)).map (delBitmap E.I e w.fs)).flatMap (bitRows w1.fs) =
      index.flatMap (fun q => ((entriesOf w.fs q).filter (modEntry E.I e w.fs mf)).flatMap
        (fun m => (fileRows w.fs m.file).filter (fun r => !e.fails E.I r))) := by
  rw [← mods_rows (fun q => (fileRows w.fs q).filter (fun r => !e.fails E.I r)), List.flatMap_map]
  refine flatMap_congr' fun f hf => ?_
  obtain ⟨q, hq, m, hm, -, hfe, -⟩ := visited_mods f hf
  have hfm : f.path = m.file := by rw [hfe]; rfl
  have hb : bitRows w1.fs (delBitmap E.I e w.fs f) = bitRows w.fs (delBitmap E.I e w.fs f) := by
    unfold bitRows
    rw [(delBitmap_lt E.I e w.fs f).1, hfm, fileRows_mono hg.le ((hok q hq).entry hm)]
  rw [hb]
  refine delBitmap_rows ?_
  rw [hfe]
  simp only [toDataFile, ManifestRow.sstats]
  rw [((hok q hq).entry hm).length]

/-- Rows left and rows marked deleted are the rows before. -/
theorem after_all {I : Interp} {e : Expr} {fs : FS} {mf : Option MExpr} (index : List Path) :
    physRows fs index ~ (index.flatMap (entriesOf fs)).flatMap (afterRows I e fs mf) ++
      index.flatMap (fun q => ((entriesOf fs q).filter (modEntry I e fs mf)).flatMap
        (fun m => (fileRows fs m.file).filter (fun r => !e.fails I r))) := by
  rw [physRows_entries, List.flatMap_assoc, List.flatMap_assoc]
  refine List.Perm.trans ?_ (flatMap_append_perm' _ _ _).symm
  refine flatMap_perm fun q _ => ?_
  rw [flatMap_filter_ite]
  refine List.Perm.trans ?_ (flatMap_append_perm' _ _ _).symm
  exact flatMap_perm fun m _ => (after_gone m).symm

/-- What a delete leaves, loses and logs. -/
theorem Deleted.logged {e : Expr} {index dms : List Path} {mf : Option MExpr} {carried mf' : List ManifestRow}
    {rmf : List RecManifestRow} {rp : Option Patch} (hn : s.names.Nodup) (hi : index.Nodup)
    (hok : ∀ q ∈ index, ManifestOK w.fs s q) (hg : Grows w w1)
    (h : Deleted E s e w w1 (visited w.fs mf index) dms carried mf' rmf rp p) :
    ∃ dels lost, p.log = some (ChangeLog.mk dels []) ∧
      physRows w.fs index ~
        (physRows w1.fs (index.filter (fun q => !p.delIdx.contains q) ++ p.addIdx) ++ lost) ++
          dels.flatMap (bitRows w1.fs) ∧
      (NoLoss E.I e w.fs mf index → lost = []) := by
  obtain ⟨lost, hperm, hno⟩ := h.rowsLost hn hi hok hg
  refine ⟨_, lost, h.log, ?_, hno⟩
  rw [delBitmaps_rows hok hg]
  exact (after_all index).trans (List.Perm.append_right _ hperm.symm)

/-- The rows of `cur` and `snap` and the change log of `snap`: some rows stayed, `lost` went
without a trace, the others were logged as deleted; the new rows were logged as added. -/
def Logged (fs : FS) (s : Schema) (cur snap : Snapshot) (lost : List Row) : Prop :=
  ∃ cl kept, logOf fs snap = some cl ∧ LogOK fs s cl ∧
    snapRows fs s cur ~ (kept ++ lost) ++ loggedRows fs s cl.deleted ∧
    snapRows fs s snap ~ kept ++ loggedRows fs s cl.added

theorem Logged.mono {fs fs' : FS} {lost : List Row} (hf : FSLe fs fs') (hc : SnapOK fs s cur)
    (hs : SnapOK fs s snap) (h : Logged fs s cur snap lost) : Logged fs' s cur snap lost := by
  obtain ⟨cl, kept, h1, h2, h3, h4⟩ := h
  refine ⟨cl, kept, ?_, h2.mono hf, ?_, ?_⟩
  · unfold logOf at h1 ⊢
    cases hl : snap.log with
    | none => rw [hl] at h1; cases h1
    | some q => rw [hl] at h1; exact hf.log h1
  · rw [snapRows_mono hf hc, loggedRows_mono hf (fun b hb => h2 b (Or.inl hb))]
    exact h3
  · rw [snapRows_mono hf hs, loggedRows_mono hf (fun b hb => h2 b (Or.inr hb))]
    exact h4

theorem Finished.addedRows {w0 : World} {P : List Row} {mf : List ManifestRow} {rmf : List RecManifestRow}
    {q : Patch} (hf : Finished E s w0 w1 P [] mf rmf (some q)) :
    ∃ as, q.log = some (ChangeLog.mk [] as) ∧ as.flatMap (bitRows w1.fs) = P := by
  refine ⟨_, hf.log q rfl, ?_⟩
  rw [List.flatMap_map, ← hf.rowsEq]
  rfl

/-- From the files present when the body ended to those present after the commit. -/
theorem Success.loggedOf (hs : Success E s m h wb w h' w' h1 w1 p cur snap) {ds as : List RowBitmap}
    {K lost : List Row} (hlog : p.log = some (ChangeLog.mk ds as))
    (hc : physRows w.fs cur.index ~ (K ++ lost) ++ ds.flatMap (bitRows w1.fs))
    (ha : physRows w1.fs (cur.index.filter (fun m => !p.delIdx.contains m) ++ p.addIdx) ~
      K ++ as.flatMap (bitRows w1.fs)) :
    Logged w'.fs s cur snap (lost.map (deref w1.fs.records s)) := by
  have hlok : LogOK w1.fs s ⟨ds, as⟩ := hs.patch.log _ hlog
  refine ⟨⟨ds, as⟩, K.map (deref w1.fs.records s), ?_, hlok.mono hs.le, ?_, ?_⟩
  · rcases hs.log with ⟨h0, -⟩ | ⟨cl, q, h1, h2, h3⟩
    · rw [hlog] at h0; cases h0
    · rw [hlog] at h1
      cases h1
      simp [logOf, h2, h3]
  · rw [loggedRows_mono hs.le (fun b hb => hlok b (Or.inl hb)), snapRows_mono hs.le (hs.curOK.mono hs.grows.le)]
    unfold snapRows loggedRows
    rw [physRows_mono hs.grows.le hs.curOK.manifests, ← List.map_append, ← List.map_append]
    exact hc.map _
  · rw [loggedRows_mono hs.le (fun b hb => hlok b (Or.inr hb)), hs.rows]
    unfold loggedRows
    rw [← List.map_append]
    exact ha.map _

/-- Patches without deletes. -/
theorem Success.loggedAdds (hs : Success E s m h wb w h' w' h1 w1 p cur snap) {as : List RowBitmap}
    (hlog : p.log = some (ChangeLog.mk [] as)) (hd : p.delIdx = [])
    (ha : physRows w1.fs p.addIdx = as.flatMap (bitRows w1.fs)) : Logged w'.fs s cur snap [] := by
  refine hs.loggedOf (K := physRows w.fs cur.index) (lost := []) hlog (by simp) ?_
  rw [hd, filter_none, physRows_append, physRows_mono hs.grows.le hs.curOK.manifests, ha]

theorem Finished.loggedIdx {w0 : World} {P : List Row} {mf : List ManifestRow} {rmf : List RecManifestRow}
    {q : Patch} (hf : Finished E s w0 w1 P [] mf rmf (some q)) : physRows w1.fs q.addIdx = P := by
  rcases hf.addRows with ⟨hx, -⟩ | ⟨q', hq, hr, -⟩
  · cases hx
  · cases hq; exact hr

theorem Gathered.addedRows {w0 : World} {P : List Row} {q : Patch} (hf : Gathered E s w0 w1 P (some q)) :
    ∃ as, q.log = some (ChangeLog.mk [] as) ∧ as.flatMap (bitRows w1.fs) = P := by
  refine ⟨_, hf.log q rfl, ?_⟩
  rw [List.flatMap_map, ← hf.phys q rfl, physRows_entries]
  rfl

/-- The log of an append, local or by Ray. -/
theorem Success.loggedAdded (hs : Success E s m h wb w h' w' h1 w1 p cur snap) {rows : List Row}
    (hm : m.added = some rows) : Logged w'.fs s cur snap [] := by
  obtain ⟨P, hg, -⟩ := hs.addedG hm
  obtain ⟨as, hl, ha⟩ := hg.addedRows
  exact hs.loggedAdds hl (hg.del p rfl) (by rw [ha]; exact hg.phys p rfl)

/-- The log of an insert or upsert, local or by Ray. -/
theorem Success.loggedInserted (hn : s.names.Nodup) (hs : Success E s m h wb w h' w' h1 w1 p cur snap)
    {mode : InsertMode} {data : List Row} (hm : m.inserts = some (mode, data)) :
    ∃ lost, Logged w'.fs s cur snap lost ∧ (m.Keeps E.I s (layout w.fs s cur) → lost = []) := by
  obtain ⟨e, mf, hout⟩ := hs.insertedG hm
  obtain ⟨w0, dp, ap, P, g1, f1, g2, hp, hfin, hP, hins, hups, -⟩ := hout.out
  cases mode with
  | insert =>
    obtain ⟨rfl, rfl, -⟩ := hins rfl
    rw [merge_two] at hp
    cases ap with
    | none => cases hp
    | some q =>
      cases hp
      obtain ⟨as, hl, ha⟩ := hfin.addedRows
      exact ⟨[], hs.loggedAdds hl (hfin.del q rfl) (by rw [ha]; exact hfin.phys q rfl), fun _ => rfl⟩
  | upsert =>
    have hdel := hups rfl
    have hne : data ≠ [] := (primaryKeyFilter_sem hout.key E.I).2.2.2.2
    obtain ⟨q, rfl, hq⟩ : ∃ q, ap = some q ∧ physRows w1.fs q.addIdx = P := by
      cases ap with
      | none =>
        rw [hfin.none_iff.mp rfl] at hP
        exact absurd (List.map_eq_nil_iff.mp (List.nil_perm.mp hP)) hne
      | some q => exact ⟨q, rfl, hfin.phys q rfl⟩
    obtain ⟨as, hal, ha⟩ := hfin.addedRows
    rcases hdel.out with ⟨hx, hmod⟩ | ⟨dq, dms, carried, mf2, rmf2, rp, hx, hd2⟩
    · subst hx
      rw [merge_two] at hp
      cases hp
      exact ⟨[], hs.loggedAdds hal (hfin.del q rfl) (by rw [ha]; exact hq), fun _ => rfl⟩
    · subst hx
      obtain ⟨ds, lost, hl, hperm, hno⟩ := hd2.logged hn hs.curOK.nodup hs.curOK.manifests g1
      have hman : ∀ q' ∈ cur.index.filter (fun q => !dq.delIdx.contains q) ++ dq.addIdx, ManifestOK w0.fs s q' := by
        intro q' hq'
        rcases List.mem_append.mp hq' with hq' | hq'
        · exact (hs.curOK.manifests q' (List.mem_filter.mp hq').1).mono g1.le
        · exact (hd2.patchOK hn hs.curOK.manifests g1).idx q' hq'
      obtain ⟨hd, hadd, -⟩ := merge_delIdx hp (fun q' hq' => hfin.del q' hq')
      have hlog : p.log = some (ChangeLog.mk ds as) := by
        rw [merge_two] at hp
        cases hp
        simp only [hl, hal, mergeLogs, List.append_nil, List.nil_append]
      have hlok : LogOK w0.fs s ⟨ds, []⟩ := hd2.logOK hs.curOK.manifests g1 _ hl
      refine ⟨_, hs.loggedOf (lost := lost)
        (K := physRows w0.fs (cur.index.filter (fun q => !dq.delIdx.contains q) ++ dq.addIdx)) hlog ?_ ?_, ?_⟩
      · rw [flatMap_congr' (f := bitRows w1.fs) (g := bitRows w0.fs) (fun b hb => bitRows_mono g2.le (hlok b (Or.inl hb)))]
        exact hperm
      · rw [hd, hadd, ← List.append_assoc, physRows_append]
        simp only [Option.map_some, Option.getD_some]
        rw [hq, physRows_mono g2.le hman, ha]
      · intro hkeep
        obtain ⟨hk, hold, hsafe⟩ := hkeep.upsert hm
        have he := hk.fits (primaryKeyFilter_sem hout.key E.I).1
        rw [hno (noLoss_of_safe he.prune hout.filter he.plain hs.curOK.manifests
          (hsafe.congr (key_truth hk hout.key hold)))]
        rfl

/-- The log of a transaction of a refresh. -/
theorem Success.loggedSync (hn : s.names.Nodup) {n : Nat} {sched : List Nat} {gone : List Row}
    {added : Option (List (List (List Row)))}
    (hs : Success E s (.sync n sched gone added) h wb w h' w' h1 w1 p cur snap) :
    ∃ lost, Logged w'.fs s cur snap lost ∧ ((gone ≠ [] → UpsertKeeps s (layout w.fs s cur) gone) → lost = []) := by
  obtain ⟨w0, dp, ap, P, g1, f1, g2, hp, hfin, hP, hdp, -⟩ := hs.syncedG.out
  have adds : dp = none → w0 = w → Logged w'.fs s cur snap [] := by
    rintro rfl rfl
    rw [merge_two] at hp
    cases ap with
    | none => cases hp
    | some q =>
      cases hp
      obtain ⟨as, hl, ha⟩ := hfin.addedRows
      exact hs.loggedAdds hl (hfin.del q rfl) (by rw [ha]; exact hfin.phys q rfl)
  rcases hdp with ⟨-, h1, h2⟩ | ⟨e, mf, hkey, hmf, hdel⟩
  · exact ⟨[], adds h1 h2, fun _ => rfl⟩
  obtain ⟨hke, -, -, -, hne⟩ := primaryKeyFilter_sem hkey E.I
  rcases hdel.out with ⟨hx, hmod⟩ | ⟨dq, dms, carried, mf2, rmf2, rp, hx, hd2⟩
  · subst hx
    rw [merge_two] at hp
    cases ap with
    | none => cases hp
    | some q =>
      cases hp
      obtain ⟨as, hl, ha⟩ := hfin.addedRows
      exact ⟨[], hs.loggedAdds hl (hfin.del q rfl) (by rw [ha]; exact hfin.phys q rfl), fun _ => rfl⟩
  · subst hx
    obtain ⟨ds, lost, hl, hperm, hno⟩ := hd2.logged hn hs.curOK.nodup hs.curOK.manifests g1
    have hman : ∀ q' ∈ cur.index.filter (fun q => !dq.delIdx.contains q) ++ dq.addIdx, ManifestOK w0.fs s q' := by
      intro q' hq'
      rcases List.mem_append.mp hq' with hq' | hq'
      · exact (hs.curOK.manifests q' (List.mem_filter.mp hq').1).mono g1.le
      · exact (hd2.patchOK hn hs.curOK.manifests g1).idx q' hq'
    obtain ⟨hd, hadd, -⟩ := merge_delIdx hp (fun q' hq' => hfin.del q' hq')
    obtain ⟨as, hlog, hq⟩ : ∃ as, p.log = some (ChangeLog.mk ds as) ∧
        physRows w1.fs ((ap.map (·.addIdx)).getD []) = as.flatMap (bitRows w1.fs) := by
      rw [merge_two] at hp
      cases ap with
      | none =>
        cases hp
        exact ⟨[], hl, rfl⟩
      | some q =>
        obtain ⟨as, hal, ha⟩ := hfin.addedRows
        cases hp
        exact ⟨as, by simp only [hl, hal, mergeLogs, List.append_nil, List.nil_append], by rw [ha]; exact hfin.phys q rfl⟩
    have hlok : LogOK w0.fs s ⟨ds, []⟩ := hd2.logOK hs.curOK.manifests g1 _ hl
    refine ⟨_, hs.loggedOf (lost := lost)
      (K := physRows w0.fs (cur.index.filter (fun q => !dq.delIdx.contains q) ++ dq.addIdx)) hlog ?_ ?_, ?_⟩
    · rw [flatMap_congr' (f := bitRows w1.fs) (g := bitRows w0.fs) (fun b hb => bitRows_mono g2.le (hlok b (Or.inl hb)))]
      exact hperm
    · rw [hd, hadd, ← List.append_assoc, physRows_append]
      simp only [Option.map_some, Option.getD_some]
      rw [hq, physRows_mono g2.le hman]
    · intro hkeep
      obtain ⟨hk, hold, hsafe⟩ := hkeep hne
      have he := hk.fits hke
      rw [hno (noLoss_of_safe he.prune hmf he.plain hs.curOK.manifests
        (hsafe.congr (key_truth hk hkey hold)))]
      rfl

/-- `append_parquet` logs nothing. -/
theorem Success.notLogged {files : List Path}
    (hs : Success E s (.appendParquet files) h wb w h' w' h1 w1 p cur snap) : logOf w'.fs snap = none := by
  obtain ⟨-, -, -, hl, -⟩ := hs.loadParquet
  rcases hs.log with ⟨-, h0⟩ | ⟨cl, q, h1, -⟩
  · simp [logOf, h0]
  · rw [hl] at h1; cases h1

/-- A delete by Ray logs the rows to delete, whatever it leaves. -/
theorem Success.rayLog (hn : s.names.Nodup) {e : Expr}
    (hs : Success E s (.rayDelete e) h wb w h' w' h1 w1 p cur snap) :
    ∃ ds, p.log = some (ChangeLog.mk ds []) ∧ (logOf w'.fs snap).isSome := by
  obtain ⟨mf, -, hd⟩ := hs.rayDeleted hn
  refine ⟨_, hd.log, ?_⟩
  rcases hs.log with ⟨h0, -⟩ | ⟨cl, q, h1, h2, h3⟩
  · rw [hd.log] at h0; cases h0
  · simp [logOf, h2, h3]

/-- Every mutation but `append_parquet` logs its changes.  The log of a delete by Ray
agrees with what it leaves on layouts that it does not spoil. -/
theorem Success.logged (hn : s.names.Nodup) (hs : Success E s m h wb w h' w' h1 w1 p cur snap)
    (hm : ∀ files, m ≠ .appendParquet files) (hr : ∀ e, m = .rayDelete e → m.Keeps E.I s (layout w.fs s cur)) :
    ∃ lost, Logged w'.fs s cur snap lost ∧ (m.Keeps E.I s (layout w.fs s cur) → lost = []) := by
  cases m with
  | rayDelete e =>
    have hkeep := hr e rfl
    obtain ⟨mf, hm, hd⟩ := hs.rayDeleted hn
    refine ⟨[], hs.loggedOf (lost := [])
      (K := physRows w1.fs (cur.index.filter (fun m => !p.delIdx.contains m) ++ p.addIdx)) hd.log ?_ (by simp), fun _ => rfl⟩
    rw [delBitmaps_rows hs.curOK.manifests hs.grows, List.append_nil]
    refine (after_all cur.index).trans (List.Perm.append_right _ ?_)
    exact (hd.rowsPerm hs.curOK.manifests hs.grows
      (rayNoLoss_of_safe hkeep.1.plain hs.curOK.manifests hkeep.2)).symm
  | append tables => exact ⟨[], hs.loggedAdded rfl, fun _ => rfl⟩
  | rayAppend n sched rows => exact ⟨[], hs.loggedAdded rfl, fun _ => rfl⟩
  | rayAppendFrom n sched sources => exact ⟨[], hs.loggedAdded rfl, fun _ => rfl⟩
  | insert data => exact hs.loggedInserted hn rfl
  | upsert data => exact hs.loggedInserted hn rfl
  | rayInsert mode n sched data => exact hs.loggedInserted hn rfl
  | sync n sched gone added => exact hs.loggedSync hn
  | appendParquet files => exact absurd rfl (hm files)
  | appendArrayRecord fn files =>
    obtain ⟨f, mf, rmf, p0, hrf, hrec, hf, hadd, hd, -, -, -, -, hlog⟩ := hs.loadRecords
    obtain ⟨as, hl, ha⟩ := hf.addedRows
    exact ⟨[], hs.loggedAdds (hlog.trans hl) hd (by rw [ha, hadd]; exact hf.loggedIdx), fun _ => rfl⟩
  | delete e =>
    have hb := hs.body
    simp only [Mutation.body] at hb
    obtain ⟨hg, -, cur', mf, hc, hmf, hout⟩ := Post.elim (deleteBody_post (E := E) (e := e) hs.fresh hs.handle) hb
    rw [hs.base] at hc
    cases hc
    rcases hout.out with ⟨hx, -⟩ | ⟨q, dms, carried, mf', rmf, rp, hx, hd⟩
    · cases hx
    cases hx
    obtain ⟨ds, lost, hl, hperm, hno⟩ := hd.logged hn hs.curOK.nodup hs.curOK.manifests hg
    refine ⟨_, hs.loggedOf hl hperm (by simp), ?_⟩
    rintro ⟨he, hsafe⟩
    rw [hno (noLoss_of_safe he.prune hmf he.plain hs.curOK.manifests hsafe)]
    rfl

/-- Every mutation but `append_parquet` writes a change log. -/
theorem Success.hasLog (hn : s.names.Nodup) (hs : Success E s m h wb w h' w' h1 w1 p cur snap)
    (hm : ∀ files, m ≠ .appendParquet files) : (logOf w'.fs snap).isSome := by
  by_cases hray : ∃ e, m = .rayDelete e
  · obtain ⟨e, rfl⟩ := hray
    exact (hs.rayLog hn).choose_spec.2
  · obtain ⟨lost, ⟨cl, kept, h5, -⟩, -⟩ := hs.logged hn hm (fun e he => absurd ⟨e, he⟩ hray)
    rw [h5]
    rfl

end

end Space
