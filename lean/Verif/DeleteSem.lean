import Verif.DeleteLemmas

/-! # Rows left by a delete -/

namespace Space

open List

/-! ## Permutations -/

theorem flatMap_append_perm' {α β : Type} (f g : α → List β) : ∀ l : List α,
    l.flatMap f ++ l.flatMap g ~ l.flatMap (fun x => f x ++ g x)
  | [] => .refl _
  | a :: l => by
    simp only [List.flatMap_cons]
    have ih := flatMap_append_perm' f g l
    calc f a ++ l.flatMap f ++ (g a ++ l.flatMap g)
        ~ f a ++ (l.flatMap f ++ (g a ++ l.flatMap g)) := by rw [List.append_assoc]
      _ ~ f a ++ (g a ++ (l.flatMap f ++ l.flatMap g)) := by
          refine Perm.append_left _ ?_
          rw [← List.append_assoc, ← List.append_assoc]
          exact (perm_append_comm).append_right _
      _ ~ f a ++ (g a ++ l.flatMap (fun x => f x ++ g x)) := (ih.append_left _).append_left _
      _ ~ (f a ++ g a) ++ l.flatMap (fun x => f x ++ g x) := by rw [List.append_assoc]

theorem flatMap_perm {α β : Type} {f g : α → List β} : ∀ {l : List α},
    (∀ a ∈ l, f a ~ g a) → l.flatMap f ~ l.flatMap g
  | [], _ => .refl _
  | a :: l, h => by
    simp only [List.flatMap_cons]
    exact (h a (List.mem_cons_self ..)).append
      (flatMap_perm fun b hb => h b (List.mem_cons_of_mem _ hb))

theorem flatMap_congr' {α β : Type} {f g : α → List β} {l : List α}
    (h : ∀ a ∈ l, f a = g a) : l.flatMap f = l.flatMap g := by
  rw [List.flatMap_def, List.flatMap_def, List.map_congr_left h]

/-- Splitting a list by a predicate. -/
theorem split_perm {α β : Type} (p : α → Bool) (f : α → List β) (l : List α) :
    (l.filter (fun a => !p a)).flatMap f ++ (l.filter p).flatMap f ~ l.flatMap f := by
  rw [← List.flatMap_append]
  exact Perm.flatMap_right f (perm_append_comm.trans (List.filter_append_perm p l))

theorem flatMap_filter_ite {α β : Type} (p : α → Bool) (f : α → List β) : ∀ l : List α,
    (l.filter p).flatMap f = l.flatMap (fun a => if p a then f a else [])
  | [] => rfl
  | a :: l => by
    simp only [List.filter_cons, List.flatMap_cons]
    split <;> simp [*, flatMap_filter_ite p f l]

theorem filter_flatMap' {α β : Type} (p : β → Bool) (f : α → List β) (l : List α) :
    (l.flatMap f).filter p = l.flatMap (fun a => (f a).filter p) := by
  induction l with
  | nil => rfl
  | cons a l ih => simp [List.flatMap_cons, ih]

/-! ## The file set of a snapshot -/

theorem packFiles_get {fs : FS} {mf : Option MExpr} : ∀ {ps : List Path} {mid n : Nat} {p : Path},
    (packFiles fs mf ps mid).manifests.get? n = some p → mid ≤ n ∧ ps[n - mid]? = some p
  | [], _, _, _, h => by simp [packFiles, AMap.get?] at h
  | q :: ps, mid, n, p, h => by
    simp only [packFiles, AMap.get?] at h
    split at h
    · rename_i he
      cases h
      subst he
      simp
    · rename_i he
      obtain ⟨h1, h2⟩ := packFiles_get h
      refine ⟨by omega, ?_⟩
      have : n - mid = (n - (mid + 1)) + 1 := by omega
      rw [this, List.getElem?_cons_succ]
      exact h2

theorem packFiles_manifest_mem {fs : FS} {mf : Option MExpr} {ps : List Path} {mid n : Nat} {p : Path}
    (h : (packFiles fs mf ps mid).manifests.get? n = some p) : p ∈ ps :=
  List.mem_of_getElem? (packFiles_get h).2

theorem packFiles_inj {fs : FS} {mf : Option MExpr} {ps : List Path} {mid n n' : Nat} {p : Path}
    (hn : ps.Nodup) (h : (packFiles fs mf ps mid).manifests.get? n = some p)
    (h' : (packFiles fs mf ps mid).manifests.get? n' = some p) : n = n' := by
  obtain ⟨h1, h2⟩ := packFiles_get h
  obtain ⟨h1', h2'⟩ := packFiles_get h'
  have hlt := (List.getElem?_eq_some_iff.mp h2).1
  have hlt' := (List.getElem?_eq_some_iff.mp h2').1
  have e1 := (List.getElem?_eq_some_iff.mp h2).2
  have e2 := (List.getElem?_eq_some_iff.mp h2').2
  have : n - mid = n' - mid := (List.getElem_inj hn).mp (e1.trans e2.symm)
  omega

theorem packFiles_of_mem {fs : FS} {mf : Option MExpr} : ∀ {ps : List Path} {mid : Nat} {p : Path}
    {m : ManifestRow}, p ∈ ps → m ∈ keptEntries fs mf p →
    ∃ n, toDataFile n m ∈ (packFiles fs mf ps mid).files ∧ mid ≤ n ∧
      (packFiles fs mf ps mid).manifests.get? n = some p
  | [], _, _, _, h, _ => by simp at h
  | q :: ps, mid, p, m, hp, hm => by
    simp only [packFiles, List.mem_append, List.mem_map, AMap.get?]
    by_cases he : q = p
    · subst he
      exact ⟨mid, Or.inl ⟨m, hm, rfl⟩, Nat.le_refl _, by simp⟩
    · rcases List.mem_cons.mp hp with rfl | hp
      · exact absurd rfl he
      · obtain ⟨n, h1, h2, h3⟩ := packFiles_of_mem (mid := mid + 1) hp hm
        refine ⟨n, Or.inr h1, by omega, ?_⟩
        rw [if_neg (by omega)]
        exact h3

/-! ## Entries -/

/-- The delete changes the file of a manifest entry: the entry is not pruned and
some row does not survive. -/
def modEntry (I : Interp) (e : Expr) (fs : FS) (mf : Option MExpr) (m : ManifestRow) : Bool :=
  MExpr.keeps mf m.stats && decide ((survRows I e fs m.file).length ≠ m.numRows)

/-- Rows left of the file of an entry. -/
def afterRows (I : Interp) (e : Expr) (fs : FS) (mf : Option MExpr) (m : ManifestRow) : List Row :=
  if modEntry I e fs mf m then survRows I e fs m.file else fileRows fs m.file

theorem modFile_toDataFile (I : Interp) (e : Expr) (fs : FS) (n : Nat) (m : ManifestRow) :
    modFile I e fs (toDataFile n m) = decide ((survRows I e fs m.file).length ≠ m.numRows) := by
  simp only [modFile, toDataFile, ManifestRow.sstats]
  congr 1
  simp only [ne_eq, eq_iff_iff]
  omega

/-- Entries of one file are alike. -/
theorem modEntry_file {I : Interp} {e : Expr} {fs : FS} {mf : Option MExpr} {L : Look} {s : Schema}
    {m m' : ManifestRow} (h : EntryOK fs L s m) (h' : EntryOK fs L s m') (hf : m.file = m'.file) :
    modEntry I e fs mf m = modEntry I e fs mf m' := by
  obtain ⟨g, h1, h2, h3, -⟩ := h
  obtain ⟨g', h1', h2', h3', -⟩ := h'
  rw [hf, h1'] at h1
  cases h1
  rw [h3] at h3'
  have : m.stats = m'.stats := Except.ok.inj h3'
  unfold modEntry
  rw [this, hf, h2, h2']

theorem ManifestOK.entry {fs : FS} {s : Schema} {p : Path} (h : ManifestOK fs s p) {m : ManifestRow}
    (hm : m ∈ entriesOf fs p) : EntryOK fs fs.records s m := by
  obtain ⟨rows, h1, -, h3⟩ := h
  exact h3 m (by simpa [entriesOf, h1] using hm)

theorem EntryOK.fileOK {fs : FS} {s : Schema} {m : ManifestRow} (h : EntryOK fs fs.records s m)
    (n : Nat) : FileOK fs s (toDataFile n m) := by
  obtain ⟨g, h1, h2, -, h4⟩ := h
  exact ⟨g, h1, by simp [toDataFile, ManifestRow.sstats, h2], h4⟩

theorem EntryOK.length {fs : FS} {L : Look} {s : Schema} {m : ManifestRow} (h : EntryOK fs L s m) :
    (fileRows fs m.file).length = m.numRows := by
  obtain ⟨g, h1, h2, -⟩ := h
  simp [fileRows, h1, h2]

/-- Writing rows that already fit does not change them. -/
theorem written_self {s : Schema} (hn : s.names.Nodup) {rows : List Row}
    (h1 : ∀ r ∈ rows, s.conforms r = true)
    (h2 : ∀ r ∈ rows.map (·.select s.writeNames), s.conforms r = true) :
    rows.map (·.select s.writeNames) = rows := by
  cases hr : rows with
  | nil => rfl
  | cons a l =>
    have ha : (a.select s.writeNames).cols = s.names :=
      conforms_cols (h2 _ (by rw [hr]; exact List.mem_map.mpr ⟨a, List.mem_cons_self .., rfl⟩))
    have hw : s.writeNames = s.names := by
      rw [← ha]
      simp [Row.cols, Row.select, Function.comp_def]
    rw [← hr]
    refine (List.map_congr_left fun r hrm => ?_).trans (List.map_id rows)
    have hc := conforms_cols (h1 r hrm)
    rw [hw, ← hc]
    exact select_self (by rw [hc]; exact hn)

theorem sumRows_zero {fs : FS} {L : Look} {s : Schema} : ∀ {mf : List ManifestRow},
    (∀ m ∈ mf, EntryOK fs L s m) →
    (sumRows mf = ((mf.flatMap (fun m => fileRows fs m.file)).length : Int))
  | [], _ => rfl
  | m :: mf, h => by
    have ih := sumRows_zero (mf := mf) fun x hx => h x (List.mem_cons_of_mem _ hx)
    have h1 := (h m (List.mem_cons_self ..)).length
    simp only [sumRows, List.map_cons, List.sum_cons, List.flatMap_cons, List.length_append] at ih ⊢
    rw [ih]
    omega

/-! ## The result -/

section
variable {E : Env} {s : Schema} {e : Expr} {w w' : World} {index : List Path} {mf : Option MExpr}
  {dms : List Path} {carried mf' : List ManifestRow} {rmf : List RecManifestRow}
  {rp : Option Patch} {p : Patch}

/-- The files a delete looks at. -/
abbrev visited (fs : FS) (mf : Option MExpr) (index : List Path) : FileSet :=
  packFiles fs mf (index.filter (fun p => decide (keptEntries fs mf p ≠ []))) 1

/-- A manifest with a modified file. -/
def hasMod (I : Interp) (e : Expr) (fs : FS) (mf : Option MExpr) (q : Path) : Bool :=
  (entriesOf fs q).any (modEntry I e fs mf)

theorem visited_mods : ∀ f, f ∈ (visited w.fs mf index).files.filter (modFile E.I e w.fs) →
    ∃ q ∈ index, ∃ m ∈ entriesOf w.fs q, modEntry E.I e w.fs mf m = true ∧
      f = toDataFile f.mid m ∧ (visited w.fs mf index).manifests.get? f.mid = some q := by
  intro f hf
  obtain ⟨hf, hmod⟩ := List.mem_filter.mp hf
  obtain ⟨q, hq, m, hm, n, rfl, -, hg⟩ := packFiles_mem hf
  obtain ⟨hm, hk⟩ := List.mem_filter.mp hm
  refine ⟨q, (List.mem_filter.mp hq).1, m, hm, ?_, rfl, hg⟩
  rw [modFile_toDataFile] at hmod
  simp only [modEntry, hk, hmod, Bool.and_self]

theorem mods_visited {q : Path} (hq : q ∈ index) {m : ManifestRow} (hm : m ∈ entriesOf w.fs q)
    (hmod : modEntry E.I e w.fs mf m = true) :
    ∃ n, toDataFile n m ∈ (visited w.fs mf index).files.filter (modFile E.I e w.fs) ∧
      (visited w.fs mf index).manifests.get? n = some q := by
  simp only [modEntry, Bool.and_eq_true] at hmod
  have hke : m ∈ keptEntries w.fs mf q := List.mem_filter.mpr ⟨hm, hmod.1⟩
  have hq' : q ∈ index.filter (fun p => decide (keptEntries w.fs mf p ≠ [])) := by
    refine List.mem_filter.mpr ⟨hq, ?_⟩
    simp only [ne_eq, decide_eq_true_eq]
    intro hc
    rw [hc] at hke
    simp at hke
  obtain ⟨n, h1, -, h3⟩ := packFiles_of_mem (mid := 1) hq' hke
  refine ⟨n, List.mem_filter.mpr ⟨h1, ?_⟩, h3⟩
  rw [modFile_toDataFile]
  exact hmod.2

theorem mods_rows {β : Type} (g : Path → List β) :
    ((visited w.fs mf index).files.filter (modFile E.I e w.fs)).flatMap (fun f => g f.path) =
      index.flatMap (fun q => ((entriesOf w.fs q).filter (modEntry E.I e w.fs mf)).flatMap
        (fun m => g m.file)) := by
  rw [flatMap_filter_ite, packFiles_flatMap _
    (fun m => if decide ((survRows E.I e w.fs m.file).length ≠ m.numRows) then g m.file else [])
    (fun n m => by rw [modFile_toDataFile]; rfl)]
  rw [flatMap_filter_nil _ _ (by
    intro q hq
    have : keptEntries w.fs mf q = [] := by simpa using hq
    rw [this]; rfl)]
  refine flatMap_congr' fun q _ => ?_
  rw [flatMap_filter_ite]
  unfold keptEntries
  rw [flatMap_filter_ite]
  refine flatMap_congr' fun m _ => ?_
  unfold modEntry
  cases MExpr.keeps mf m.stats <;> simp

theorem Deleted.mem_dms (h : Deleted E s e w w' (visited w.fs mf index) dms carried mf' rmf rp p)
    (q : Path) : q ∈ dms ↔ q ∈ index ∧ hasMod E.I e w.fs mf q = true := by
  rw [h.dmsMem]
  simp only [hasMod, List.any_eq_true]
  constructor
  · rintro ⟨f, hf, hg⟩
    obtain ⟨q', hq', m, hm, hmod, -, hg'⟩ := visited_mods f hf
    rw [hg] at hg'
    cases hg'
    exact ⟨hq', m, hm, hmod⟩
  · rintro ⟨hq, m, hm, hmod⟩
    obtain ⟨n, h1, h2⟩ := mods_visited hq hm hmod
    exact ⟨_, h1, h2⟩

theorem Deleted.nodup_dms (hi : index.Nodup)
    (h : Deleted E s e w w' (visited w.fs mf index) dms carried mf' rmf rp p) : dms.Nodup := by
  obtain ⟨ns, hns, heq⟩ := h.dmsEq
  have : ∀ {ns : List Nat} {ds : List Path}, ns.Nodup →
      ds.map some = ns.map (visited w.fs mf index).manifests.get? → ds.Nodup := by
    intro ns
    induction ns with
    | nil => intro ds _ h; have : ds = [] := by simpa using h
             subst this; exact List.nodup_nil
    | cons n ns ih =>
      intro ds hns h
      cases ds with
      | nil => simp at h
      | cons d ds =>
        simp only [List.map_cons, List.cons.injEq] at h
        have hns := List.nodup_cons.mp hns
        refine List.nodup_cons.mpr ⟨?_, ih hns.2 h.2⟩
        intro hd
        have : some d ∈ ds.map some := List.mem_map.mpr ⟨d, hd, rfl⟩
        rw [h.2] at this
        obtain ⟨n', hn', he⟩ := List.mem_map.mp this
        have := packFiles_inj (hi.filter _) he h.1.symm
        subst this
        exact hns.1 hn'
  exact this hns heq

theorem Deleted.dms_perm (hi : index.Nodup)
    (h : Deleted E s e w w' (visited w.fs mf index) dms carried mf' rmf rp p) :
    dms ~ index.filter (hasMod E.I e w.fs mf) := by
  rw [List.perm_ext_iff_of_nodup (h.nodup_dms hi) (hi.filter _)]
  intro q
  rw [h.mem_dms, List.mem_filter]

theorem Deleted.carried_eq (hok : ∀ q ∈ index, ManifestOK w.fs s q)
    (h : Deleted E s e w w' (visited w.fs mf index) dms carried mf' rmf rp p) :
    carried = dms.flatMap (fun q => (entriesOf w.fs q).filter
      (fun m => !modEntry E.I e w.fs mf m)) := by
  rw [h.carriedEq, filter_flatMap']
  refine flatMap_congr' fun q hq => ?_
  refine List.filter_congr fun m hm => ?_
  have hqi := ((h.mem_dms q).mp hq).1
  have hme := (hok q hqi).entry hm
  congr 1
  rw [Bool.eq_iff_iff]
  simp only [List.contains_eq_mem, decide_eq_true_eq, List.mem_map]
  constructor
  · rintro ⟨f, hf, hp⟩
    obtain ⟨q', hq', m', hm', hmod, hfe, -⟩ := visited_mods f hf
    rw [← modEntry_file ((hok q' hq').entry hm') hme (by rw [← hp, hfe]; rfl)]
    exact hmod
  · intro hmod
    obtain ⟨n, h1, -⟩ := mods_visited hqi hm hmod
    exact ⟨_, h1, rfl⟩

/-- The rows written back are the surviving rows of the modified files. -/
theorem Deleted.written (hn : s.names.Nodup) (hok : ∀ q ∈ index, ManifestOK w.fs s q)
    (h : Deleted E s e w w' (visited w.fs mf index) dms carried mf' rmf rp p) :
    mf'.flatMap (fun m => fileRows w'.fs m.file) =
      index.flatMap (fun q => ((entriesOf w.fs q).filter (modEntry E.I e w.fs mf)).flatMap
        (fun m => survRows E.I e w.fs m.file)) := by
  have hr := h.fin.rowsEq
  rw [mods_rows (fun q => survRows E.I e w.fs q)] at hr
  rw [hr]
  refine written_self hn ?_ ?_
  · intro r hr
    simp only [List.mem_flatMap, List.mem_filter] at hr
    obtain ⟨q, hq, m, ⟨hm, -⟩, hr⟩ := hr
    exact (fileRows_mem ((hok q hq).entry hm) r (List.mem_filter.mp hr).1).1
  · intro r hrm
    rw [← hr] at hrm
    obtain ⟨m, hm, hrm⟩ := List.mem_flatMap.mp hrm
    exact (fileRows_mem (h.fin.ents m hm) r hrm).1

/-- No file is lost: either some row of a modified file survives, or the manifests
of modified files list modified files only. -/
def NoLoss (I : Interp) (e : Expr) (fs : FS) (mf : Option MExpr) (index : List Path) : Prop :=
  (∃ q ∈ index, ∃ m ∈ entriesOf fs q, modEntry I e fs mf m = true ∧ survRows I e fs m.file ≠ []) ∨
    ∀ q ∈ index, hasMod I e fs mf q = true → ∀ m ∈ entriesOf fs q, modEntry I e fs mf m = true

/-- Row ids of a delete bitmap are row ids of the file. -/
theorem delBitmap_lt (I : Interp) (e : Expr) (fs : FS) (f : DataFile) :
    (delBitmap I e fs f).file = f.path ∧ (delBitmap I e fs f).numRows = f.stats.rows.toNat ∧
      ∀ i ∈ (delBitmap I e fs f).bits, i < f.stats.rows.toNat := by
  unfold delBitmap buildBitmap
  split
  · exact ⟨rfl, rfl, by simp⟩
  · refine ⟨rfl, rfl, fun i hi => ?_⟩
    exact List.mem_range.mp (List.mem_filter.mp hi).1

theorem Deleted.logOK (hok : ∀ q ∈ index, ManifestOK w.fs s q) (hg : Grows w w')
    (h : Deleted E s e w w' (visited w.fs mf index) dms carried mf' rmf rp p) :
    ∀ cl, p.log = some cl → LogOK w'.fs s cl := by
  intro cl hcl
  rw [h.log] at hcl
  cases hcl
  rintro b (hb | hb)
  · obtain ⟨f, hf, rfl⟩ := List.mem_map.mp hb
    obtain ⟨q, hq, m, hm, -, hfe, -⟩ := visited_mods f hf
    obtain ⟨g, h1, h2, -, h4⟩ := (hok q hq).entry hm
    obtain ⟨e1, e2, e3⟩ := delBitmap_lt E.I e w.fs f
    have hr : f.stats.rows.toNat = m.numRows := by rw [hfe]; simp [toDataFile, ManifestRow.sstats]
    refine BitmapOK.mono hg.le ⟨g, ?_, ?_, ?_, h4⟩
    · rw [e1, hfe]; exact h1
    · rw [e2, hr, h2]
    · intro i hi
      rw [e2]
      exact e3 i hi
  · cases hb

theorem Deleted.patchOK (hn : s.names.Nodup) (hok : ∀ q ∈ index, ManifestOK w.fs s q)
    (hg : Grows w w')
    (h : Deleted E s e w w' (visited w.fs mf index) dms carried mf' rmf rp p) :
    PatchOK w'.fs s p := by
  refine ⟨?_, by rw [h.addRec]; simp, h.logOK hok hg⟩
  intro q hq
  rw [h.addIdx] at hq
  cases hrp : rp with
  | none => rw [hrp] at hq; simp at hq
  | some r =>
    rw [hrp] at hq
    obtain ⟨u, -, hu, him⟩ := h.fin.idx r hrp
    simp only [Option.map_some, Option.getD_some, hu, List.mem_singleton] at hq
    subst hq
    refine ⟨_, him, ?_, ?_⟩
    · intro hc
      have hs : sumRows mf' ≠ 0 := fun h0 => by
        have := h.fin.none_iff.mpr h0
        rw [hrp] at this; cases this
      rw [(List.append_eq_nil_iff.mp hc).2] at hs
      exact hs rfl
    · intro m hm
      rcases List.mem_append.mp hm with hm | hm
      · rw [h.carried_eq hok] at hm
        simp only [List.mem_flatMap, List.mem_filter] at hm
        obtain ⟨q, hq, hm, -⟩ := hm
        exact ((hok q ((h.mem_dms q).mp hq).1).entry hm).mono hg.le hg.le.lookLe
      · exact h.fin.ents m hm

/-- Rows of the new snapshot, and of files that got lost. -/
theorem Deleted.rowsLost (hn : s.names.Nodup) (hi : index.Nodup)
    (hok : ∀ q ∈ index, ManifestOK w.fs s q) (hg : Grows w w')
    (h : Deleted E s e w w' (visited w.fs mf index) dms carried mf' rmf rp p) :
    ∃ lost, physRows w'.fs (index.filter (fun q => !p.delIdx.contains q) ++ p.addIdx) ++ lost ~
      (index.flatMap (entriesOf w.fs)).flatMap (afterRows E.I e w.fs mf) ∧
      (NoLoss E.I e w.fs mf index → lost = []) := by
  have hdel : index.filter (fun q => !p.delIdx.contains q) =
      index.filter (fun q => !hasMod E.I e w.fs mf q) := by
    refine List.filter_congr fun q hq => ?_
    congr 1
    rw [h.delIdx, Bool.eq_iff_iff]
    simp only [List.contains_eq_mem, decide_eq_true_eq, h.mem_dms, hq, true_and]
  have hkeep : physRows w'.fs (index.filter (fun q => !hasMod E.I e w.fs mf q)) =
      (index.filter (fun q => !hasMod E.I e w.fs mf q)).flatMap
        (fun q => (entriesOf w.fs q).flatMap (afterRows E.I e w.fs mf)) := by
    rw [physRows_mono hg.le fun q hq => hok q (List.mem_filter.mp hq).1]
    unfold physRows
    refine flatMap_congr' fun q hq => flatMap_congr' fun m hm => ?_
    have := (List.mem_filter.mp hq).2
    have hm0 : modEntry E.I e w.fs mf m = false := by
      simp only [hasMod, Bool.not_eq_true', List.any_eq_false] at this
      simpa using this m hm
    simp [afterRows, hm0]
  have hnew : ∃ lost, physRows w'.fs p.addIdx ++ lost ~
      (index.filter (hasMod E.I e w.fs mf)).flatMap
        (fun q => (entriesOf w.fs q).flatMap (afterRows E.I e w.fs mf)) ∧
      (NoLoss E.I e w.fs mf index → lost = []) := by
    have hmain : carried.flatMap (fun m => fileRows w.fs m.file) ++
        mf'.flatMap (fun m => fileRows w'.fs m.file) ~
        (index.filter (hasMod E.I e w.fs mf)).flatMap
        (fun q => (entriesOf w.fs q).flatMap (afterRows E.I e w.fs mf)) := by
      rw [h.carried_eq hok, h.written hn hok, List.flatMap_assoc]
      have e2 : index.flatMap (fun q => ((entriesOf w.fs q).filter (modEntry E.I e w.fs mf)).flatMap
          (fun m => survRows E.I e w.fs m.file)) =
          (index.filter (hasMod E.I e w.fs mf)).flatMap (fun q =>
            ((entriesOf w.fs q).filter (modEntry E.I e w.fs mf)).flatMap
              (fun m => survRows E.I e w.fs m.file)) := by
        rw [flatMap_filter_nil]
        intro q hq
        simp only [hasMod, List.any_eq_false] at hq
        rw [List.filter_eq_nil_iff.mpr hq]
        rfl
      rw [e2]
      refine ((h.dms_perm hi).flatMap_right _ |>.append_right _).trans ?_
      refine (flatMap_append_perm' _ _ _).trans ?_
      refine flatMap_perm fun q hq => ?_
      refine Perm.trans ?_ (split_perm (modEntry E.I e w.fs mf) _ _)
      refine Perm.append ?_ ?_
      · refine Perm.of_eq (flatMap_congr' fun m hm => ?_)
        have := (List.mem_filter.mp hm).2
        simp only [Bool.not_eq_true'] at this
        simp [afterRows, this]
      · refine Perm.of_eq (flatMap_congr' fun m hm => ?_)
        have := (List.mem_filter.mp hm).2
        simp [afterRows, this]
    rw [h.addIdx]
    cases hrp : rp with
    | some r =>
      refine ⟨[], ?_, fun _ => rfl⟩
      rw [List.append_nil]
      refine Perm.trans ?_ hmain
      obtain ⟨u, -, hu, him⟩ := h.fin.idx r hrp
      simp only [Option.map_some, Option.getD_some, hu]
      refine Perm.of_eq ?_
      simp only [physRows, List.flatMap_cons, List.flatMap_nil, List.append_nil, entriesOf, him,
        Option.getD_some, List.flatMap_append]
      congr 1
      refine flatMap_congr' fun m hm => ?_
      rw [h.carried_eq hok] at hm
      simp only [List.mem_flatMap, List.mem_filter] at hm
      obtain ⟨q, hq, hm, -⟩ := hm
      exact fileRows_mono hg.le ((hok q ((h.mem_dms q).mp hq).1).entry hm)
    | none =>
      have h0 := h.fin.none_iff.mp hrp
      rw [sumRows_zero h.fin.ents] at h0
      have hw0 : mf'.flatMap (fun m => fileRows w'.fs m.file) = [] :=
        List.length_eq_zero_iff.mp (by omega)
      refine ⟨carried.flatMap (fun m => fileRows w.fs m.file), ?_, fun hloss => ?_⟩
      · rw [hw0, List.append_nil] at hmain
        exact hmain
      have hc : carried = [] := by
        rcases hloss with ⟨q, hq, m, hm, hmod, hs⟩ | hall
        · rw [h.written hn hok] at hw0
          have := List.flatMap_eq_nil_iff.mp hw0 q hq
          have := List.flatMap_eq_nil_iff.mp this m (List.mem_filter.mpr ⟨hm, hmod⟩)
          exact absurd this hs
        · rw [h.carried_eq hok, List.flatMap_eq_nil_iff]
          intro q hq
          rw [List.filter_eq_nil_iff]
          intro m hm
          have hq := (h.mem_dms q).mp hq
          simp [hall q hq.1 hq.2 m hm]
      rw [hc]
      rfl
  have happ : ∀ a b : List Path, physRows w'.fs (a ++ b) = physRows w'.fs a ++ physRows w'.fs b := by
    intro a b; simp [physRows, List.flatMap_append]
  obtain ⟨lost, h1, h2⟩ := hnew
  refine ⟨lost, ?_, h2⟩
  rw [hdel, happ, hkeep, List.flatMap_assoc, List.append_assoc]
  exact (h1.append_left _).trans (split_perm _ _ _)

/-- Rows of the new snapshot. -/
theorem Deleted.rowsPerm (hn : s.names.Nodup) (hi : index.Nodup)
    (hok : ∀ q ∈ index, ManifestOK w.fs s q) (hg : Grows w w')
    (h : Deleted E s e w w' (visited w.fs mf index) dms carried mf' rmf rp p)
    (hloss : NoLoss E.I e w.fs mf index) :
    physRows w'.fs (index.filter (fun q => !p.delIdx.contains q) ++ p.addIdx) ~
      (index.flatMap (entriesOf w.fs)).flatMap (afterRows E.I e w.fs mf) := by
  obtain ⟨lost, h1, h2⟩ := h.rowsLost hn hi hok hg
  rw [h2 hloss, List.append_nil] at h1
  exact h1

/-- If no row of a modified file survives, the manifests of modified files go and none
comes. -/
theorem Deleted.rowsGone (hn : s.names.Nodup)
    (hok : ∀ q ∈ index, ManifestOK w.fs s q) (hg : Grows w w')
    (h : Deleted E s e w w' (visited w.fs mf index) dms carried mf' rmf rp p)
    (hno : ∀ q ∈ index, ∀ m ∈ entriesOf w.fs q, modEntry E.I e w.fs mf m = true → survRows E.I e w.fs m.file = []) :
    physRows w'.fs (index.filter (fun q => !p.delIdx.contains q) ++ p.addIdx) =
      physRows w.fs (index.filter (fun q => !hasMod E.I e w.fs mf q)) := by
  have hdel : index.filter (fun q => !p.delIdx.contains q) =
      index.filter (fun q => !hasMod E.I e w.fs mf q) := by
    refine List.filter_congr fun q hq => ?_
    congr 1
    rw [h.delIdx, Bool.eq_iff_iff]
    simp only [List.contains_eq_mem, decide_eq_true_eq, h.mem_dms, hq, true_and]
  have hw0 : mf'.flatMap (fun m => fileRows w'.fs m.file) = [] := by
    rw [h.written hn hok]
    refine List.flatMap_eq_nil_iff.mpr fun q hq => List.flatMap_eq_nil_iff.mpr fun m hm => ?_
    exact hno q hq m (List.mem_filter.mp hm).1 (List.mem_filter.mp hm).2
  have hrp : rp = none := by
    refine h.fin.none_iff.mpr ?_
    rw [sumRows_zero h.fin.ents, hw0]
    rfl
  rw [hdel, h.addIdx, hrp]
  simp only [Option.map_none, Option.getD_none, List.append_nil]
  exact physRows_mono hg.le fun q hq => hok q (List.mem_filter.mp hq).1

/-- Rows removed from the modified files. -/
theorem mods_rowSum (hok : ∀ q ∈ index, ManifestOK w.fs s q) :
    (((visited w.fs mf index).files.filter (modFile E.I e w.fs)).map
      (fun f => f.stats.rows - ((survRows E.I e w.fs f.path).length : Int))).sum =
      ((physRows w.fs index).length : Int) -
      (((index.flatMap (entriesOf w.fs)).flatMap (afterRows E.I e w.fs mf)).length : Int) := by
  have hsum : ∀ (f : DataFile), f ∈ (visited w.fs mf index).files.filter (modFile E.I e w.fs) →
      f.stats.rows - ((survRows E.I e w.fs f.path).length : Int) =
        ((fileRows w.fs f.path).length : Int) - ((survRows E.I e w.fs f.path).length : Int) := by
    intro f hf
    obtain ⟨q, hq, m, hm, -, hfe, -⟩ := visited_mods f hf
    have := ((hok q hq).entry hm).length
    rw [hfe]
    simp only [toDataFile, ManifestRow.sstats, this]
  rw [List.map_congr_left hsum]
  have e2 : ∀ l : List DataFile, (l.map (fun f => ((fileRows w.fs f.path).length : Int) -
      ((survRows E.I e w.fs f.path).length : Int))).sum =
      ((l.flatMap (fun f => fileRows w.fs f.path)).length : Int) -
      ((l.flatMap (fun f => survRows E.I e w.fs f.path)).length : Int) := by
    intro l
    induction l with
    | nil => rfl
    | cons a l ih =>
      simp only [List.map_cons, List.sum_cons, List.flatMap_cons, List.length_append, ih]
      omega
  rw [e2, mods_rows (fun q => fileRows w.fs q), mods_rows (fun q => survRows E.I e w.fs q)]
  unfold physRows
  rw [List.flatMap_assoc]
  have e3 : ∀ l : List ManifestRow,
      (((l.filter (modEntry E.I e w.fs mf)).flatMap (fun m => fileRows w.fs m.file)).length : Int) -
      (((l.filter (modEntry E.I e w.fs mf)).flatMap (fun m => survRows E.I e w.fs m.file)).length : Int)
      = ((l.flatMap (fun m => fileRows w.fs m.file)).length : Int) -
        ((l.flatMap (afterRows E.I e w.fs mf)).length : Int) := by
    intro l
    induction l with
    | nil => rfl
    | cons a l ih =>
      simp only [List.filter_cons]
      split
      · rename_i ha
        simp only [List.flatMap_cons, List.length_append, afterRows, ha, ite_true]
        omega
      · rename_i ha
        have ha : modEntry E.I e w.fs mf a = false := by simpa using ha
        have hb : afterRows E.I e w.fs mf a = fileRows w.fs a.file := by simp [afterRows, ha]
        simp only [List.flatMap_cons, List.length_append, hb]
        omega
  clear hsum e2 hok
  induction index with
  | nil => rfl
  | cons a l ih =>
    simp only [List.flatMap_cons, List.length_append]
    have := e3 (entriesOf w.fs a)
    omega

/-- The row count of the patch. -/
theorem Deleted.rowCount (hok : ∀ q ∈ index, ManifestOK w.fs s q)
    (h : Deleted E s e w w' (visited w.fs mf index) dms carried mf' rmf rp p) :
    p.stats.rows = (((index.flatMap (entriesOf w.fs)).flatMap (afterRows E.I e w.fs mf)).length : Int)
      - ((physRows w.fs index).length : Int) := by
  have := mods_rowSum (E := E) (e := e) (mf := mf) hok
  have := h.rows
  omega

end

end Space
