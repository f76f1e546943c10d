import Verif.Props.Orphans
import Verif.Props.Keys
import Verif.Props.Stats

/-! # C80: deletes and upserts on layouts on which no file is lost -/

set_option autoImplicit false

namespace Space

section
variable {E : Env} {s : Schema} {e : Expr} {mf : Option MExpr} {index : List Path}

/-- A manifest put in place by a delete is left unused only if the patch adds no manifest while entries of the dropped
manifests are of files that were not changed. -/
theorem deleteFiles_left {w : World} {fset : FileSet}
    (hf : w.Fresh) (hfiles : ∀ f ∈ fset.files, FileOK w.fs s f)
    (hman : ∀ n q, fset.manifests.get? n = some q → ManifestOK w.fs s q) :
    Post (deleteFiles E s fset e w) (fun p w' => p ≠ none → CleanAll (∃ pt, p = some pt ∧ pt.addIdx = [] ∧
      (pt.delIdx.flatMap (entriesOf w.fs)).filter
        (fun m => !((fset.files.filter (modFile E.I e w.fs)).map (·.path)).contains m.file) ≠ []) w [p] w')
      (fun _ => True) := by
  unfold deleteFiles
  split
  · exact Post.raise trivial
  refine Post.bind ((Keeps.deleteLoop (w0 := w) fset.files (Keeps.init w true) rfl).and
    (deleteLoop_post fset.files (DelInv.init hf) hfiles) |>.imp (fun _ _ h => h) (fun _ _ => trivial)) ?_
  rintro d w1 ⟨⟨hk, ha⟩, hd⟩
  rw [List.nil_append] at hd
  split
  · exact Post.pure fun h => absurd rfl h
  refine Post.bind (Q := fun a w' => deletedManifests fset.manifests (E.setOrder d.mids) = .ok a ∧ w1 = w')
    (Post.lift (fun a ha => ⟨ha, rfl⟩) trivial) ?_
  rintro dms b ⟨hdms, hb⟩
  subst hb
  refine Post.bind (Post.get (Q := fun a b => w1 = a ∧ w1 = b) ⟨rfl, rfl⟩) ?_
  rintro a b ⟨hb, hb'⟩
  subst hb
  subst hb'
  have hmOK : ∀ q ∈ dms, ManifestOK w.fs s q := by
    intro q hq
    have : some q ∈ dms.map some := List.mem_map_of_mem hq
    rw [deletedManifests_ok hdms, List.mem_map] at this
    obtain ⟨n, -, hn⟩ := this
    exact hman n q hn
  have hmr : manifestRows w1.fs dms = .ok (dms.flatMap (entriesOf w.fs)) := by
    rw [manifestRows_eq]
    · congr 1
      rw [List.flatMap_def, List.flatMap_def]
      congr 1
      exact List.map_congr_left fun q hq => entriesOf_mono hd.op.grows.le (hmOK q hq)
    · intro q hq
      obtain ⟨rows, h1, _⟩ := (hmOK q hq).mono hd.op.grows.le
      simp [h1]
  refine Post.bind (Q := fun a w' => a = dms.flatMap (entriesOf w.fs) ∧ w1 = w') ?_ ?_
  · rw [hmr]; exact ⟨rfl, rfl⟩
  rintro _ b ⟨rfl, hb⟩
  subst hb
  refine Post.bind (finish_puts ?_ w1) ?_
  · exact hk.used.imp (fun hb => ⟨hb.iw, hb.rws, hb.cache, hb.mf, hb.rmf, hb.rows⟩) (fun h => h)
  rintro rp w2 ⟨ops, hl, hrec, hq⟩
  refine Post.pure fun _ => ?_
  obtain ⟨o1, l1, c1⟩ := hk.ops
  refine ⟨o1 ++ ops, by rw [hl, l1, List.append_assoc], fun x hx => ⟨_, List.mem_singleton.mpr rfl, ?_⟩⟩
  have hx' : d.op.Lists x.1 ∨ x.1 ∈ ops.map (·.1) :=
    (List.mem_append.mp hx).imp (c1 x) (fun h => List.mem_map.mpr ⟨x, h, rfl⟩)
  rcases hq x.1 hx' with ⟨pt, rfl, hu⟩ | ⟨rfl, hc, hu⟩
  · refine Or.inl (hu.mono (fun y hy => List.mem_append_right _ hy) (fun _ h => h) ?_)
    rw [hrec (hk.recs ha).1 (hk.recs ha).2 pt rfl]
    exact fun _ h => absurd h (by simp)
  · refine Or.inr ⟨⟨_, rfl, rfl, ?_⟩, hu⟩
    simp only [hd.carried, hd.files, List.nil_append] at hc
    exact hc

/-- The delete over the files of a version. -/
theorem deleteSet_left {w : World} (hn : s.names.Nodup) (hf : w.Fresh) (hok : ∀ q ∈ index, ManifestOK w.fs s q) :
    Post (deleteFiles E s (visited w.fs mf index) e w)
      (fun p w' => CleanAll (¬ NoLoss E.I e w.fs mf index) w [p] w') (fun _ => True) := by
  have hfiles : ∀ f ∈ (visited w.fs mf index).files, FileOK w.fs s f := by
    intro f hfm
    obtain ⟨q, hq, m, hm, n, rfl, -, -⟩ := packFiles_mem hfm
    exact ((hok q (List.mem_filter.mp hq).1).entry (List.mem_filter.mp hm).1).fileOK n
  have hman : ∀ n q, (visited w.fs mf index).manifests.get? n = some q → ManifestOK w.fs s q := by
    intro n q hq
    exact hok q (List.mem_filter.mp (packFiles_manifest_mem hq)).1
  by_cases hidle : ∀ f ∈ (visited w.fs mf index).files, modFile E.I e w.fs f = false
  · unfold deleteFiles
    split
    · exact Post.raise trivial
    refine Post.bind (deleteLoop_idle _ hidle) ?_
    rintro d w' ⟨rfl, hd⟩
    have hd : d.deleted = 0 := hd
    simp only [hd, if_true]
    exact Post.pure (CleanAll.refl rfl _)
  refine ((deleteFiles_left hf hfiles hman).and (deleteFiles_post hf hfiles hman)).imp ?_ (fun _ _ => trivial)
  rintro p w' ⟨h1, h2, h3, h4⟩
  rcases h4 with ⟨-, h4⟩ | ⟨q, dms, carried, mf', rmf, rp, rfl, hd⟩
  · exact absurd h4 hidle
  refine (h1 (by simp)).weaken ?_
  rintro ⟨pt, hpt, hadd, hne⟩ hno
  cases hpt
  have hrp : rp = none := by
    cases rp with
    | none => rfl
    | some r =>
      obtain ⟨u, -, hu, -⟩ := hd.fin.idx r rfl
      rw [hd.addIdx] at hadd
      simp [hu] at hadd
  have h0 := hd.fin.none_iff.mp hrp
  rw [sumRows_zero hd.fin.ents] at h0
  have hw0 : mf'.flatMap (fun m => fileRows w'.fs m.file) = [] := List.length_eq_zero_iff.mp (by omega)
  rw [hd.delIdx, ← hd.carriedEq, hd.carried_eq hok] at hne
  refine hne ?_
  rcases hno with ⟨q, hq, m, hm, hmod, hs⟩ | hall
  · rw [hd.written hn hok] at hw0
    have := List.flatMap_eq_nil_iff.mp hw0 q hq
    have := List.flatMap_eq_nil_iff.mp this m (List.mem_filter.mpr ⟨hm, hmod⟩)
    exact absurd this hs
  · rw [List.flatMap_eq_nil_iff]
    intro q hq
    rw [List.filter_eq_nil_iff]
    intro m hm
    have hq := (hd.mem_dms q).mp hq
    simp [hall q hq.1 hq.2 m hm]

theorem deleteBody_left {w : World} {h : Handle} {cur : Snapshot} (hn : s.names.Nodup) (hf : w.Fresh) (hh : HandleOK s w h)
    (hc : h.snapshot none = .ok cur) :
    Post (deleteBody E h e w) (fun p w' => CleanAll (∃ mf, manifestFilter s (some e) = .ok mf ∧
      ¬ NoLoss E.I e w.fs mf cur.index) w [p] w') (fun _ => True) := by
  unfold deleteBody
  refine Post.bind (Q := fun a b => w = a ∧ w = b) (Post.get ⟨rfl, rfl⟩) ?_
  rintro a b ⟨rfl, hb⟩
  subst hb
  refine Post.bind (Q := fun a b => dataFiles w.fs h (some e) none = .ok a ∧ w = b)
    (Post.lift (fun a ha => ⟨ha, rfl⟩) trivial) ?_
  rintro fset b ⟨hd, hb⟩
  subst hb
  obtain ⟨snap, mf, h1, h2, rfl⟩ := dataFiles_ok hh hd
  rw [hc] at h1
  cases h1
  rw [hh.schema]
  exact (deleteSet_left hn hf (snapshot_manifests hh hc).manifests).imp
    (fun _ _ h => h.weaken fun hx => ⟨mf, h2, hx⟩) (fun _ h => h)

theorem upsertBody_left {w : World} {h : Handle} {cur : Snapshot} {data : List Row} (hn : s.names.Nodup) (hf : w.Fresh)
    (hh : HandleOK s w h) (hc : h.snapshot none = .ok cur) :
    Post (insertBody E h .upsert data w) (fun p w' => CleanAll (∃ e mf, primaryKeyFilter s.pks data = .ok (some e) ∧
      manifestFilter s (some e) = .ok mf ∧ ¬ NoLoss E.I e w.fs mf cur.index) w [p] w') (fun _ => True) := by
  unfold insertBody
  split
  · exact Post.pure (CleanAll.refl rfl _)
  refine Post.bind (Q := fun a b => primaryKeyFilter s.pks data = .ok a ∧ w = b)
    (Post.lift (fun a ha => ⟨by rw [← hh.schema]; exact ha, rfl⟩) trivial) ?_
  rintro fe b ⟨hkey, rfl⟩
  cases fe with
  | none => exact Post.raise trivial
  | some e =>
    refine Post.bind (Q := fun a b => w = a ∧ w = b) (Post.get ⟨rfl, rfl⟩) ?_
    rintro a b ⟨rfl, hb⟩
    subst hb
    refine Post.bind (Q := fun a b => dataFiles w.fs h (some e) none = .ok a ∧ w = b)
      (Post.lift (fun a ha => ⟨ha, rfl⟩) trivial) ?_
    rintro fset b ⟨hd, hb⟩
    subst hb
    obtain ⟨snap, mf, h1, h2, rfl⟩ := dataFiles_ok hh hd
    rw [hc] at h1
    cases h1
    refine Post.bind (Q := fun p w' => CleanAll (¬ NoLoss E.I e w.fs mf cur.index) w [p] w') ?_ ?_
    · split
      · exact Post.pure (CleanAll.refl rfl _)
      · rw [hh.schema]
        exact deleteSet_left hn hf (snapshot_manifests hh hc).manifests
    · intro dp w1 c1
      refine Post.bind ((Keeps.init w1 false).write data) ?_
      rintro op w2 ⟨hk, -⟩
      refine Post.bind hk.finish ?_
      intro ap w3 c2
      exact Post.pure ((c1.append (c2.weaken False.elim)).merge.weaken fun hx => ⟨e, mf, hkey, h2, hx⟩)

/-- What a mutation put in place is in use, unless it left manifests unused. -/
theorem Landing.inUse {m : Mutation} {i : Nat} {σ σ' : Sys} {sl sl' : Slot} {w : World} {h1 : Handle} {w1 : World}
    {p : Patch} {cur snap : Snapshot} {ex : Prop} (hl : Landing E s m i σ σ' sl sl' w h1 w1 p cur snap)
    (hc : CleanAll ex w [some p] w1) (hex : ¬ ex) {q : Path} (hq0 : AMap.get? w.fs q = none)
    (hq : AMap.get? w1.fs q ≠ none) : InUse σ'.w.fs snap q := by
  have hs := hl.succ
  obtain ⟨ops, hlog, hu⟩ := hc
  obtain ⟨x, hx, rfl⟩ := traced_put hs.grows.trace hlog hq0 hq
  obtain ⟨pt, hpt, hux⟩ := hu x hx
  simp only [List.mem_singleton, Option.some.injEq] at hpt
  subst hpt
  rcases hux with hu | ⟨hno, -⟩
  · refine hu.inUse hlog hs.grows hs.le ?_ ?_
    · intro q hq
      rw [hs.index]
      exact List.mem_append_right _ hq
    · intro q hq
      rw [hs.recs]
      exact List.mem_append_right _ hq
  · exact absurd hno hex

/-- C80 for deletes, on layouts on which the delete loses no file: each file that the delete put in place before its
commit (it ran from `w` to `w1`) is in use by the new version.  On other layouts: `C80_violated`. -/
theorem C80_delete_partial (hn : s.names.Nodup) (he : FilterFits s e) {i : Nat} {σ σ' : Sys}
    (h : Done E s i (.delete e) σ σ') :
    ∃ sl sl' snap h1 w p w1, σ.slots[i]? = some sl ∧ σ'.slots[i]? = some sl' ∧ headOf sl'.h σ'.w = some snap ∧
      (Mutation.delete e).body E h1 w = (.ok (some p), w1) ∧ FSLe w.fs σ.w.fs ∧ FSLe w1.fs σ'.w.fs ∧
      (DeleteSafe (e.truth E.I) (headLayout s sl.h σ.w) →
        ∀ q, AMap.get? w.fs q = none → AMap.get? w1.fs q ≠ none → InUse σ'.w.fs snap q) := by
  obtain ⟨sl, sl', w, h1, w1, p, cur, snap, hl, -, -⟩ := h.landing hn
  have hs := hl.succ
  refine ⟨sl, sl', snap, h1, w, p, w1, hl.slot, hl.slot', hs.head', hs.body, hs.earlier, hs.le, fun hsafe q hq0 hq => ?_⟩
  rw [hl.layout] at hsafe
  have hb := hs.body
  simp only [Mutation.body] at hb
  have hc := Post.elim (deleteBody_left (E := E) hn hs.fresh hs.handle hs.base) hb
  refine hl.inUse hc ?_ hq0 hq
  rintro ⟨mf, hmf, hno⟩
  exact hno (noLoss_of_safe he.prune hmf he.plain hs.curOK.manifests hsafe)

/-- One delete per file. -/
theorem rayDeleteLoop_left {w0 : World} {man : AMap Nat Path} (hn : s.names.Nodup)
    (hok : ∀ q ∈ index, ManifestOK w0.fs s q) (hman : ∀ n q, man.get? n = some q → q ∈ index)
    (hinj : ∀ n n' q, man.get? n = some q → man.get? n' = some q → n' = n) :
    ∀ (files : List DataFile) {w : World}, w.Fresh → Grows w0 w →
    (∀ f ∈ files, ∃ q, ∃ m ∈ entriesOf w0.fs q, f = toDataFile f.mid m ∧ man.get? f.mid = some q ∧
      MExpr.keeps mf m.stats = true) →
    Post (rayDeleteLoop E s man e files w) (fun ps w' => CleanAll (¬ RayNoLoss E.I e w0.fs mf index) w ps w')
      (fun _ => True)
  | [], w, hf, hg, hfs => Post.pure (CleanAll.refl rfl _)
  | f :: files, w, hf, hg, hfs => by
    unfold rayDeleteLoop
    obtain ⟨q, m, hm, hfe, hq, hkeep⟩ := hfs f (by simp)
    have hqi := hman _ _ hq
    have hq0 := hok q hqi
    have hm' : m ∈ entriesOf w.fs q := by rw [entriesOf_mono hg.le hq0]; exact hm
    have hfiles : ∀ g ∈ ({ files := [f], manifests := man } : FileSet).files, FileOK w.fs s g := by
      intro g hgm
      rw [List.mem_singleton] at hgm
      subst hgm
      rw [hfe]
      exact ((hq0.mono hg.le).entry hm').fileOK _
    have hmans : ∀ n q', man.get? n = some q' → ManifestOK w.fs s q' := fun n q' hq' => (hok q' (hman _ _ hq')).mono hg.le
    refine Post.bind (Q := fun p w1 => CleanAll (¬ RayNoLoss E.I e w0.fs mf index) w [p] w1 ∧ Grows w w1 ∧ w1.Fresh) ?_ ?_
    · by_cases hidle : modFile E.I e w.fs f = false
      · unfold deleteFiles
        split
        · exact Post.raise trivial
        refine Post.bind (deleteLoop_idle _ (by simpa using hidle)) ?_
        rintro d w' ⟨rfl, hd⟩
        have hd : d.deleted = 0 := hd
        simp only [hd, if_true]
        exact Post.pure ⟨CleanAll.refl rfl _, Grows.refl _, hf⟩
      refine ((deleteFiles_left hf hfiles hmans).and (deleteFiles_post hf hfiles hmans)).imp ?_ (fun _ _ => trivial)
      rintro p w' ⟨h1, h2, h3, h4⟩
      refine ⟨?_, h2, h3⟩
      rcases h4 with ⟨-, h4⟩ | ⟨p', dms, carried, mf', rmf, rp, rfl, hd⟩
      · exact absurd (h4 f (by simp)) hidle
      refine (h1 (by simp)).weaken ?_
      rintro ⟨pt, hpt, hadd, hne⟩ hno
      cases hpt
      have hdel := hd
      rw [hfe] at hdel
      obtain ⟨one, -, -, -⟩ := Deleted.one hn hf h2 (hq0.mono hg.le) hm' hq (fun n' h' => hinj _ _ q hq h') hdel
      have hmod : modEntry E.I e w0.fs mf m = true := by
        have : modFile E.I e w.fs f = true := by simpa using hidle
        rw [hfe, modFile_toDataFile, survRows_mono hg.le (hq0.entry hm)] at this
        unfold modEntry
        rw [hkeep, this]
        rfl
      obtain ⟨-, hall⟩ := hno q hqi m hm hmod
      have hphys := one.phys
      rw [hadd] at hphys
      have hs0 : survRows E.I e w.fs m.file = [] := by
        unfold fileAfter at hphys
        split at hphys
        · assumption
        · have := List.append_eq_nil_iff.mp hphys.symm
          exact this.2
      rw [survRows_mono hg.le (hq0.entry hm)] at hs0
      rw [one.delIdx] at hne
      refine hne ?_
      simp only [List.flatMap_cons, List.flatMap_nil, List.append_nil]
      rw [entriesOf_mono hg.le hq0, hall hs0]
      have hx : [f].filter (modFile E.I e w.fs) = [f] := by simp [hidle]
      rw [hx]
      have : f.path = m.file := by rw [hfe]; rfl
      simp [this]
    · rintro p w1 ⟨c1, g1, f1⟩
      refine Post.bind (rayDeleteLoop_left hn hok hman hinj files f1 (hg.trans g1)
        (fun g hgm => hfs g (List.mem_cons_of_mem _ hgm))) ?_
      intro ps w2 c2
      exact Post.pure (c1.append c2)

theorem rayDeleteBody_left {w : World} {h : Handle} {cur : Snapshot} (hn : s.names.Nodup) (hf : w.Fresh) (hh : HandleOK s w h)
    (hc : h.snapshot none = .ok cur) :
    Post (rayDeleteBody E h e w) (fun p w' => CleanAll (∃ mf, manifestFilter s (some e) = .ok mf ∧
      ¬ RayNoLoss E.I e w.fs mf cur.index) w [p] w') (fun _ => True) := by
  unfold rayDeleteBody
  refine Post.bind (Q := fun a b => w = a ∧ w = b) (Post.get ⟨rfl, rfl⟩) ?_
  rintro a b ⟨rfl, hb⟩
  subst hb
  refine Post.bind (Q := fun a b => dataFiles w.fs h (some e) none = .ok a ∧ w = b)
    (Post.lift (fun a ha => ⟨ha, rfl⟩) trivial) ?_
  rintro fset b ⟨hd, hb⟩
  subst hb
  obtain ⟨snap, mf, h1, h2, rfl⟩ := dataFiles_ok hh hd
  rw [hc] at h1
  cases h1
  rw [hh.schema]
  have hok := snapshot_manifests hh hc
  refine Post.bind (rayDeleteLoop_left (w0 := w) (index := cur.index) (mf := mf) hn hok.manifests ?_ ?_ _ hf
    (Grows.refl w) ?_) ?_
  · intro n q hq
    exact (List.mem_filter.mp (packFiles_manifest_mem hq)).1
  · intro n n' q hq hq'
    exact packFiles_inj (hok.nodup.filter _) hq' hq
  · intro f hfm
    obtain ⟨q, -, m, hm, n, rfl, -, hg⟩ := packFiles_mem hfm
    exact ⟨q, m, (List.mem_filter.mp hm).1, rfl, hg, (List.mem_filter.mp hm).2⟩
  · intro ps w' hc
    exact Post.pure (hc.merge.weaken fun hx => ⟨mf, h2, hx⟩)

theorem rayUpsertBody_left {w : World} {h : Handle} {cur : Snapshot} {n : Nat} {sched : List Nat} {data : List Row}
    (hn : s.names.Nodup) (hf : w.Fresh) (hh : HandleOK s w h) (hc : h.snapshot none = .ok cur) :
    Post (rayInsertBody E h .upsert n sched data w) (fun p w' => CleanAll (∃ e mf, primaryKeyFilter s.pks data = .ok (some e) ∧
      manifestFilter s (some e) = .ok mf ∧ ¬ NoLoss E.I e w.fs mf cur.index) w [p] w') (fun _ => True) := by
  unfold rayInsertBody
  split
  · exact Post.pure (CleanAll.refl rfl _)
  refine Post.bind (Q := fun a b => primaryKeyFilter s.pks data = .ok a ∧ w = b)
    (Post.lift (fun a ha => ⟨by rw [← hh.schema]; exact ha, rfl⟩) trivial) ?_
  rintro fe b ⟨hkey, rfl⟩
  cases fe with
  | none => exact Post.raise trivial
  | some e =>
    refine Post.bind (Q := fun a b => w = a ∧ w = b) (Post.get ⟨rfl, rfl⟩) ?_
    rintro a b ⟨rfl, hb⟩
    subst hb
    refine Post.bind (Q := fun a b => dataFiles w.fs h (some e) none = .ok a ∧ w = b)
      (Post.lift (fun a ha => ⟨ha, rfl⟩) trivial) ?_
    rintro fset b ⟨hd, hb⟩
    subst hb
    obtain ⟨snap, mf, h1, h2, rfl⟩ := dataFiles_ok hh hd
    rw [hc] at h1
    cases h1
    refine Post.bind (Q := fun p w' => CleanAll (¬ NoLoss E.I e w.fs mf cur.index) w [p] w') ?_ ?_
    · split
      · exact Post.pure (CleanAll.refl rfl _)
      · rw [hh.schema]
        exact deleteSet_left hn hf (snapshot_manifests hh hc).manifests
    · intro dp w1 c1
      refine Post.bind (rayAppendBody_clean n sched data w1) ?_
      intro ap w3 c2
      exact Post.pure ((c1.append (c2.weaken False.elim)).merge.weaken fun hx => ⟨e, mf, hkey, h2, hx⟩)

theorem syncBody_left {w : World} {h : Handle} {cur : Snapshot} {n : Nat} {sched : List Nat} {gone : List Row}
    {added : Option (List (List (List Row)))} (hn : s.names.Nodup) (hf : w.Fresh) (hh : HandleOK s w h)
    (hc : h.snapshot none = .ok cur) :
    Post (syncBody E h n sched gone added w) (fun p w' => CleanAll (∃ e mf, primaryKeyFilter s.pks gone = .ok (some e) ∧
      manifestFilter s (some e) = .ok mf ∧ ¬ NoLoss E.I e w.fs mf cur.index) w [p] w') (fun _ => True) := by
  unfold syncBody
  refine Post.bind (Q := fun p w' => CleanAll (∃ e mf, primaryKeyFilter s.pks gone = .ok (some e) ∧
      manifestFilter s (some e) = .ok mf ∧ ¬ NoLoss E.I e w.fs mf cur.index) w [p] w') ?_ ?_
  · split
    · exact Post.pure (CleanAll.refl rfl _)
    · unfold syncDelete
      refine Post.bind (Q := fun a b => primaryKeyFilter s.pks gone = .ok a ∧ w = b)
        (Post.lift (fun a ha => ⟨by rw [← hh.schema]; exact ha, rfl⟩) trivial) ?_
      rintro fe b ⟨hkey, rfl⟩
      cases fe with
      | none => exact Post.pure (CleanAll.refl rfl _)
      | some e =>
        exact (deleteBody_left hn hf hh hc).imp (fun _ _ h => h.weaken fun ⟨mf, a, b⟩ => ⟨e, mf, hkey, a, b⟩) (fun _ h => h)
  · intro dp w1 c1
    refine Post.bind (Q := fun p w' => CleanAll False w1 [p] w') ?_ ?_
    · cases added with
      | none => exact Post.pure (CleanAll.refl rfl _)
      | some sources => exact rayAppendFromAll_clean n sched sources w1
    · intro ap w2 c2
      exact Post.pure (c1.append (c2.weaken False.elim)).merge

/-- Deleting by keys loses no file where deleting the rows with these keys is safe. -/
theorem noLoss_of_keys {w : World} {cur : Snapshot} {rows : List Row} (hk : KeySchema s)
    (hkey : primaryKeyFilter s.pks rows = .ok (some e)) (hmf : manifestFilter s (some e) = .ok mf)
    (hok : SnapOK w.fs s cur)
    (hset : KeysSet s ((snapRows w.fs s cur).map (·.select s.writeNames)))
    (hsafe : DeleteSafe (fun r => some (decide (s.pks.map r.val ∈ keysOf s rows))) (layout w.fs s cur)) :
    NoLoss E.I e w.fs mf cur.index := by
  have hset' : KeysSet s (snapRows w.fs s cur) := by
    intro r hr k hkk
    have := hset _ (List.mem_map_of_mem hr) k hkk
    rw [select_val (writeNames_sub.mpr (hk.keys k hkk))] at this
    exact this
  obtain ⟨hke, hsem, -, -, -⟩ := primaryKeyFilter_sem hkey E.I
  have htr : ∀ r ∈ snapRows w.fs s cur, e.truth E.I r = some (decide (s.pks.map r.val ∈ keysOf s rows)) := by
    intro r hr
    cases ht : e.truth E.I r with
    | none => exact absurd ht (hke.total E.I r (hset' r hr))
    | some b =>
      congr 1
      rw [Bool.eq_iff_iff, decide_eq_true_eq]
      constructor
      · rintro rfl
        obtain ⟨d, h1, h2, -⟩ := (hsem r).mp ht
        exact List.mem_map.mpr ⟨d, h1, h2⟩
      · intro hx
        obtain ⟨d, h1, h2⟩ := List.mem_map.mp hx
        have := (hsem r).mpr ⟨d, h1, h2, hset'.num r hr⟩
        rw [ht] at this
        exact Option.some.inj this
  have hfit := hk.fits hke
  exact noLoss_of_safe hfit.prune hmf hfit.plain hok.manifests
    (hsafe.congr fun r hr => by rw [layout_flatten] at hr; exact (htr r hr).symm)

/-- The same for deletes of the Ray runner, on layouts on which C23 holds. -/
theorem C80_ray_partial (hn : s.names.Nodup) (he : FilterFits s e) {i : Nat} {σ σ' : Sys}
    (h : Done E s i (.rayDelete e) σ σ') :
    ∃ sl sl' snap h1 w p w1, σ.slots[i]? = some sl ∧ σ'.slots[i]? = some sl' ∧ headOf sl'.h σ'.w = some snap ∧
      (Mutation.rayDelete e).body E h1 w = (.ok (some p), w1) ∧ FSLe w.fs σ.w.fs ∧ FSLe w1.fs σ'.w.fs ∧
      (RaySafe (e.truth E.I) (headLayout s sl.h σ.w) →
        ∀ q, AMap.get? w.fs q = none → AMap.get? w1.fs q ≠ none → InUse σ'.w.fs snap q) := by
  obtain ⟨sl, sl', w, h1, w1, p, cur, snap, hl, -, -⟩ := h.landing hn
  have hs := hl.succ
  refine ⟨sl, sl', snap, h1, w, p, w1, hl.slot, hl.slot', hs.head', hs.body, hs.earlier, hs.le, fun hsafe q hq0 hq => ?_⟩
  rw [hl.layout] at hsafe
  have hb := hs.body
  simp only [Mutation.body] at hb
  have hc := Post.elim (rayDeleteBody_left (E := E) hn hs.fresh hs.handle hs.base) hb
  refine hl.inUse hc ?_ hq0 hq
  rintro ⟨mf, -, hno⟩
  exact hno (rayNoLoss_of_safe he.plain hs.curOK.manifests hsafe)

/-- The same for upserts, local and Ray, on layouts on which C08 holds. -/
theorem C80_upsert_partial (hk : KeySchema s) {m : Mutation} {rows : List Row} (hmi : m.inserts = some (.upsert, rows))
    {i : Nat} {σ σ' : Sys} (h : Done E s i m σ σ') :
    ∃ sl sl' old snap h1 w p w1, σ.slots[i]? = some sl ∧ σ'.slots[i]? = some sl' ∧ headOf sl'.h σ'.w = some snap ∧
      Reads E σ sl.h.branch old ∧
      m.body E h1 w = (.ok (some p), w1) ∧ FSLe w.fs σ.w.fs ∧ FSLe w1.fs σ'.w.fs ∧
      (KeysSet s old → DeleteSafe (fun r => some (decide (s.pks.map r.val ∈ keysOf s rows))) (headLayout s sl.h σ.w) →
        ∀ q, AMap.get? w.fs q = none → AMap.get? w1.fs q ≠ none → InUse σ'.w.fs snap q) := by
  obtain ⟨sl, sl', w, h1, w1, p, cur, snap, hl, hr, -⟩ := h.landing hk.names
  have hs := hl.succ
  refine ⟨sl, sl', _, snap, h1, w, p, w1, hl.slot, hl.slot', hs.head', hr, hs.body, hs.earlier, hs.le,
    fun hset hsafe q hq0 hq => ?_⟩
  rw [hl.layout] at hsafe
  have hb := hs.body
  have hc : CleanAll (∃ e mf, primaryKeyFilter s.pks rows = .ok (some e) ∧
      manifestFilter s (some e) = .ok mf ∧ ¬ NoLoss E.I e w.fs mf cur.index) w [some p] w1 := by
    cases m with
    | upsert data =>
      cases hmi
      have := Post.elim (upsertBody_left (E := E) hk.names hs.fresh hs.handle hs.base) hb
      exact this
    | rayInsert mode n sched data =>
      cases hmi
      have := Post.elim (rayUpsertBody_left (E := E) hk.names hs.fresh hs.handle hs.base) hb
      exact this
    | _ => cases hmi
  refine hl.inUse hc ?_ hq0 hq
  rintro ⟨e, mf, hkey, hmf, hno⟩
  exact hno (noLoss_of_keys hk hkey hmf hs.curOK hset hsafe)

/-- The same for the transactions of a refresh, which delete the rows with given keys. -/
theorem C80_refresh_partial (hk : KeySchema s) {n : Nat} {sched : List Nat} {gone : List Row}
    {added : Option (List (List (List Row)))} {i : Nat} {σ σ' : Sys} (h : Done E s i (.sync n sched gone added) σ σ') :
    ∃ sl sl' old snap h1 w p w1, σ.slots[i]? = some sl ∧ σ'.slots[i]? = some sl' ∧ headOf sl'.h σ'.w = some snap ∧
      Reads E σ sl.h.branch old ∧
      (Mutation.sync n sched gone added).body E h1 w = (.ok (some p), w1) ∧ FSLe w.fs σ.w.fs ∧ FSLe w1.fs σ'.w.fs ∧
      (KeysSet s old → DeleteSafe (fun r => some (decide (s.pks.map r.val ∈ keysOf s gone))) (headLayout s sl.h σ.w) →
        ∀ q, AMap.get? w.fs q = none → AMap.get? w1.fs q ≠ none → InUse σ'.w.fs snap q) := by
  obtain ⟨sl, sl', w, h1, w1, p, cur, snap, hl, hr, -⟩ := h.landing hk.names
  have hs := hl.succ
  refine ⟨sl, sl', _, snap, h1, w, p, w1, hl.slot, hl.slot', hs.head', hr, hs.body, hs.earlier, hs.le,
    fun hset hsafe q hq0 hq => ?_⟩
  rw [hl.layout] at hsafe
  have hb := hs.body
  simp only [Mutation.body] at hb
  have hc := Post.elim (syncBody_left (E := E) hk.names hs.fresh hs.handle hs.base) hb
  refine hl.inUse hc ?_ hq0 hq
  rintro ⟨e, mf, hkey, hmf, hno⟩
  exact hno (noLoss_of_keys hk hkey hmf hs.curOK hset hsafe)

end

open Demo

/-- A delete and an upsert that change one file of a manifest with two, and write a manifest that lists the other one
too: all new files are in use. -/
example : ∃ σ σ' σ'' sl, Done env schema 0 (.delete (idIs "lt" 2)) σ σ' ∧
    Done env schema 0 (.upsert [row 1 "A" [1], row 7 "g" []]) σ σ'' ∧ σ.slots[0]? = some sl ∧
    FilterFits schema (idIs "lt" 2) ∧ DeleteSafe ((idIs "lt" 2).truth env.I) (headLayout schema sl.h σ.w) ∧
    DeleteSafe (fun r => some (decide (schema.pks.map r.val ∈ keysOf schema [row 1 "A" [1], row 7 "g" []])))
      (headLayout schema sl.h σ.w) ∧
    (newPaths σ σ').map (·.2) = [true, true, true, true] ∧
    (newPaths σ σ'').all (·.2) = true := by
  let as : List Act := [.call 0 (.mutate (.append
    [[row 1 "a" [1], row 2 "b" [2], row 3 "c" [3], row 4 "d" [4]], [row 5 "e" [5]]]))]
  have hr : Reach env schema anyStep (after env anyB schema as) := after_reach (fun _ _ _ => trivial) _
  obtain ⟨-, hst⟩ := doing_step (E := env) (s := schema) (σ := after env anyB schema as)
    (a := .call 0 (.mutate (.delete (idIs "lt" 2)))) (o := .res (.job .succeeded)) (by decide +kernel)
  obtain ⟨-, hst'⟩ := doing_step (E := env) (s := schema) (σ := after env anyB schema as)
    (a := .call 0 (.mutate (.upsert [row 1 "A" [1], row 7 "g" []]))) (o := .res (.job .succeeded)) (by decide +kernel)
  obtain ⟨sl, h1, -, h2⟩ := slot_of (σ := after env anyB schema as) (i := 0)
    (f := fun sl => safeB ((idIs "lt" 2).truth env.I) (headLayout schema sl.h (after env anyB schema as).w) &&
      safeB (fun r => some (decide (schema.pks.map r.val ∈ keysOf schema [row 1 "A" [1], row 7 "g" []])))
        (headLayout schema sl.h (after env anyB schema as).w)) (x := true) (by decide +kernel)
  rw [Bool.and_eq_true] at h2
  exact ⟨_, _, _, sl, .call hr hst, .call hr hst', h1,
    FilterFits.of_flat (by decide) (by decide) (by decide) (by decide) (by decide) (by decide), safeB_safe h2.1,
    safeB_safe h2.2, by decide +kernel, by decide +kernel⟩

/-- The same by Ray, and a transaction of a refresh that deletes two rows and adds two from two sources. -/
example : ∃ σ σ' σ'' σ3 sl, Done env schema 0 (.rayDelete (idIs "lt" 2)) σ σ' ∧
    Done env schema 0 (.rayInsert .upsert 2 [1, 0] [row 1 "A" [1], row 5 "g" []]) σ σ'' ∧
    Done env schema 0 (.sync 2 [1, 0] [row 1 "A" [1], row 5 "g" []] (some [[[row 7 "g" []]], [[row 8 "h" []]]])) σ σ3 ∧
    σ.slots[0]? = some sl ∧
    FilterFits schema (idIs "lt" 2) ∧ RaySafe ((idIs "lt" 2).truth env.I) (headLayout schema sl.h σ.w) ∧
    DeleteSafe (fun r => some (decide (schema.pks.map r.val ∈ keysOf schema [row 1 "A" [1], row 5 "g" []])))
      (headLayout schema sl.h σ.w) ∧
    (newPaths σ σ').map (·.2) = [true, true, true, true] ∧
    (newPaths σ σ'').all (·.2) = true ∧ (newPaths σ σ3).all (·.2) = true := by
  let as : List Act := [.call 0 (.mutate (.append
    [[row 1 "a" [1], row 2 "b" [2], row 3 "c" [3], row 4 "d" [4]], [row 5 "e" [5]]]))]
  have hr : Reach env schema anyStep (after env anyB schema as) := after_reach (fun _ _ _ => trivial) _
  obtain ⟨-, hst⟩ := doing_step (E := env) (s := schema) (σ := after env anyB schema as)
    (a := .call 0 (.mutate (.rayDelete (idIs "lt" 2)))) (o := .res (.job .succeeded)) (by decide +kernel)
  obtain ⟨-, hst'⟩ := doing_step (E := env) (s := schema) (σ := after env anyB schema as)
    (a := .call 0 (.mutate (.rayInsert .upsert 2 [1, 0] [row 1 "A" [1], row 5 "g" []])))
    (o := .res (.job .succeeded)) (by decide +kernel)
  obtain ⟨-, hst3⟩ := doing_step (E := env) (s := schema) (σ := after env anyB schema as)
    (a := .call 0 (.mutate (.sync 2 [1, 0] [row 1 "A" [1], row 5 "g" []] (some [[[row 7 "g" []]], [[row 8 "h" []]]]))))
    (o := .res (.job .succeeded)) (by decide +kernel)
  obtain ⟨sl, h1, -, h2⟩ := slot_of (σ := after env anyB schema as) (i := 0)
    (f := fun sl => raySafeB ((idIs "lt" 2).truth env.I) (headLayout schema sl.h (after env anyB schema as).w) &&
      safeB (fun r => some (decide (schema.pks.map r.val ∈ keysOf schema [row 1 "A" [1], row 5 "g" []])))
        (headLayout schema sl.h (after env anyB schema as).w)) (x := true) (by decide +kernel)
  rw [Bool.and_eq_true] at h2
  exact ⟨_, _, _, _, sl, .call hr hst, .call hr hst', .call hr hst3, h1,
    FilterFits.of_flat (by decide) (by decide) (by decide) (by decide) (by decide) (by decide), raySafeB_safe h2.1,
    safeB_safe h2.2, by decide +kernel, by decide +kernel, by decide +kernel⟩

end Space
