import Verif.DeletePacking

/-!
# The files of a delete of the Ray runner
-/

set_option autoImplicit false

namespace Space

/-- Contents of the files in manifests `idx` that are not in `fs0`. -/
def newOf (fs0 fs1 : FS) (idx : List Path) : List (Option (List (List Row))) :=
  ((idx.flatMap (entriesOf fs1)).filter (fun m => !hasFile fs0 m)).map (fun m => fs1.parquet m.file)

/-- Contents of the file that the delete of one file writes. -/
def oneFile (E : Env) (e : Expr) (fs : FS) (p : Path) : List (Option (List (List Row))) :=
  if survRows E.I e fs p = [] then [] else [some (E.rgSplit (survRows E.I e fs p))]

section
variable {E : Env} {s : Schema} {e : Expr} {w0 w w1 : World}

theorem newOf_append (fs0 fs1 : FS) (a b : List Path) : newOf fs0 fs1 (a ++ b) = newOf fs0 fs1 a ++ newOf fs0 fs1 b := by
  simp [newOf]

theorem newOf_mono {fs0 fs1 fs2 : FS} {idx : List Path} (hle : FSLe fs1 fs2) (h : ∀ q ∈ idx, ManifestOK fs1 s q) :
    newOf fs0 fs2 idx = newOf fs0 fs1 idx := by
  unfold newOf
  rw [flatMap_congr' fun q hq => entriesOf_mono hle (h q hq)]
  refine List.map_congr_left fun m hm => ?_
  obtain ⟨q, hq, hm⟩ := List.mem_flatMap.mp (List.mem_filter.mp hm).1
  obtain ⟨g, hg, -⟩ := (h q hq).entry hm
  rw [hg]
  exact hle.parquet hg

theorem deleteOne_packed {index : List Path} {man : AMap Nat Path} {f : DataFile} {q : Path} {m : ManifestRow}
    (hn : s.names.Nodup) (hok : ∀ q ∈ index, ManifestOK w0.fs s q) (hman : ∀ n q, man.get? n = some q → q ∈ index)
    (hinj : ∀ n n' q, man.get? n = some q → man.get? n' = some q → n' = n) (hf : w.Fresh) (hg : Grows w0 w)
    (hm : m ∈ entriesOf w0.fs q) (hfe : f = toDataFile f.mid m) (hq : man.get? f.mid = some q) :
    Post (deleteFiles E s { files := [f], manifests := man } e w)
      (fun p w' => Grows w w' ∧ w'.Fresh ∧ (p = none → modFile E.I e w0.fs f = false) ∧
        ∀ a, p = some a → modFile E.I e w0.fs f = true ∧ PatchOK w'.fs s a ∧
          newOf w0.fs w'.fs a.addIdx = oneFile E e w0.fs f.path) (fun _ => True) := by
  have hq0 := hok q (hman _ _ hq)
  have hm' : m ∈ entriesOf w.fs q := by rw [entriesOf_mono hg.le hq0]; exact hm
  have hme := hq0.entry hm
  have hpath : f.path = m.file := by rw [hfe]; rfl
  have hsurv : survRows E.I e w.fs f.path = survRows E.I e w0.fs f.path := by
    rw [hpath, survRows_mono hg.le hme]
  have hmod : modFile E.I e w.fs f = modFile E.I e w0.fs f := by
    unfold modFile
    rw [hsurv]
  have hfiles : ∀ g ∈ [f], FileOK w.fs s g := by
    intro g hgm
    rw [List.mem_singleton] at hgm
    subst hgm
    rw [hfe]
    exact ((hq0.mono hg.le).entry hm').fileOK _
  have hmans : ∀ n q', man.get? n = some q' → ManifestOK w.fs s q' := fun n q' hq' => (hok q' (hman _ _ hq')).mono hg.le
  refine ((deleteFiles_post (E := E) (e := e) hf (fset := { files := [f], manifests := man }) hfiles hmans).and
    (deleteFiles_fill (E := E) (e := e) hf (fset := { files := [f], manifests := man }) hfiles hmans)).imp ?_ (fun _ _ => trivial)
  rintro p w' ⟨⟨g1, f1, hp⟩, hfill⟩
  refine ⟨g1, f1, ?_, ?_⟩
  · rintro rfl
    rcases hp with ⟨-, hno⟩ | ⟨p', dms, carried, mf, rmf, rp, hx, -⟩
    · rw [← hmod]; exact hno f (by simp)
    · cases hx
  · rintro a rfl
    rcases hp with ⟨hx, -⟩ | ⟨p', dms, carried, mf, rmf, rp, hx, hdel⟩
    · cases hx
    cases hx
    have hmodt : modFile E.I e w.fs f = true := by
      have := hdel.nonempty
      cases hc : modFile E.I e w.fs f with
      | true => rfl
      | false => simp [hc] at this
    have hone : (([f] : List DataFile).filter (modFile E.I e w.fs)) = [f] := by simp [hmodt]
    have hpatch : PatchOK w'.fs s a := by
      have hdel' := hdel
      rw [hfe] at hdel'
      exact (Deleted.one hn hf g1 (hq0.mono hg.le) hm' hq (fun n' h' => hinj _ _ q hq h') hdel').2.1
    refine ⟨by rw [← hmod]; exact hmodt, hpatch, ?_⟩
    have hrows := hdel.fin.rowsEq
    simp only [hone, List.flatMap_cons, List.flatMap_nil, List.append_nil, hsurv] at hrows
    have hself : (survRows E.I e w0.fs f.path).map (·.select s.writeNames) = survRows E.I e w0.fs f.path := by
      refine written_self hn (fun r hr => ?_) ?_
      · rw [hpath] at hr
        exact (fileRows_mem hme r (List.mem_filter.mp hr).1).1
      · intro r hr
        rw [← hrows] at hr
        obtain ⟨x, hx, hr⟩ := List.mem_flatMap.mp hr
        exact (fileRows_mem (hdel.fin.ents x hx) r hr).1
    rw [hself] at hrows
    unfold oneFile
    cases rp with
    | none =>
      have h0 := hdel.fin.none_iff.mp rfl
      rw [sumRows_zero hdel.fin.ents, hrows] at h0
      have h0 := List.length_eq_zero_iff.mp (Int.ofNat_eq_zero.mp h0)
      rw [if_pos h0]
      simp [newOf, hdel.addIdx]
    | some r =>
      have hne : survRows E.I e w0.fs f.path ≠ [] := by
        intro h0
        have := hdel.fin.none_iff.mpr (by rw [sumRows_zero hdel.fin.ents, hrows, h0]; rfl)
        cases this
      have h1 := hdel.fin.entries
      have h2 := hdel.addIdx
      simp only [Option.map_some, Option.getD_some] at h1 h2
      have hadd : a.addIdx ≠ [] := by
        intro h0
        rw [← h2, h0] at h1
        have h3 := (List.append_eq_nil_iff.mp h1.symm).2
        rw [h3] at hrows
        exact hne hrows.symm
      obtain ⟨files, p1, p2, p3⟩ := hfill a rfl hadd
      have hleft : leftTables E.I e w.fs [f] = [survRows E.I e w0.fs f.path] := by
        unfold leftTables
        rw [hone]
        simp [hsurv, hne]
      simp only [hleft, List.map_cons, List.map_nil, hself] at p2
      have hsing := p1.single p2
      subst hsing
      rw [hdel.delIdx, ← hdel.carriedEq, h2, h1, List.drop_left] at p3
      have c1 : carried.filter (fun m => !hasFile w0.fs m) = [] := by
        rw [List.filter_eq_nil_iff, hdel.carriedEq]
        intro x hx
        obtain ⟨y, hy, hx⟩ := List.mem_flatMap.mp (List.mem_filter.mp hx).1
        obtain ⟨f', -, hy⟩ := (hdel.dmsMem y).mp hy
        have hy0 := hok y (hman _ _ hy)
        rw [entriesOf_mono hg.le hy0] at hx
        simp [(hy0.entry hx).hasFile]
      have c2 : mf.filter (fun m => !hasFile w0.fs m) = mf := by
        refine List.filter_eq_self.mpr fun x hx => ?_
        have := hdel.fin.notThere hf x hx
        cases hc : hasFile w0.fs x with
        | false => rfl
        | true => rw [hasFile_mono hg.le hc] at this; cases this
      rw [if_neg hne]
      unfold newOf
      rw [h2, h1, List.filter_append, c1, c2, List.nil_append, p3]
      simp [stored]

theorem rayDeleteLoop_packed {index : List Path} {man : AMap Nat Path} (hn : s.names.Nodup)
    (hok : ∀ q ∈ index, ManifestOK w0.fs s q) (hman : ∀ n q, man.get? n = some q → q ∈ index)
    (hinj : ∀ n n' q, man.get? n = some q → man.get? n' = some q → n' = n) :
    ∀ (files : List DataFile) {w : World}, w.Fresh → Grows w0 w →
    (∀ f ∈ files, ∃ q, ∃ m ∈ entriesOf w0.fs q, f = toDataFile f.mid m ∧ man.get? f.mid = some q) →
    Post (rayDeleteLoop E s man e files w)
      (fun ps w' => Grows w w' ∧ newOf w0.fs w'.fs (((mergePatches ps).map (·.addIdx)).getD []) =
        (files.filter (modFile E.I e w0.fs)).flatMap (fun f => oneFile E e w0.fs f.path)) (fun _ => True)
  | [], w, hf, hg, hfs => by
    unfold rayDeleteLoop
    exact Post.pure ⟨Grows.refl w, rfl⟩
  | f :: files, w, hf, hg, hfs => by
    unfold rayDeleteLoop
    obtain ⟨q, m, hm, hfe, hq⟩ := hfs f (by simp)
    refine Post.bind (deleteOne_packed hn hok hman hinj hf hg hm hfe hq) ?_
    rintro p w1 ⟨g1, f1, hnone, hsome⟩
    refine Post.bind (rayDeleteLoop_packed hn hok hman hinj files f1 (hg.trans g1)
      (fun g hgm => hfs g (List.mem_cons_of_mem _ hgm))) ?_
    rintro ps w2 ⟨g2, hps⟩
    refine Post.pure ⟨g1.trans g2, ?_⟩
    rw [mergePatches_cons]
    cases p with
    | none =>
      rw [List.filter_cons_of_neg (by simp [hnone rfl])]
      exact hps
    | some a =>
      obtain ⟨h1, h2, h3⟩ := hsome a rfl
      rw [List.filter_cons_of_pos h1, List.flatMap_cons, ← h3, ← hps, ← newOf_mono g2.le h2.idx]
      cases mergePatches ps with
      | none => simp [joinOpt, newOf]
      | some b => exact newOf_append _ _ _ _

theorem rayDeleteBody_packed {h : Handle} (hf : w.Fresh) (hn : s.names.Nodup) (hh : HandleOK s w h) :
    Post (rayDeleteBody E h e w)
      (fun p w' => ∃ snap mf, h.snapshot none = .ok snap ∧ manifestFilter s (some e) = .ok mf ∧
        newOf w.fs w'.fs ((p.map (·.addIdx)).getD []) =
          ((snap.index.flatMap (entriesOf w.fs)).filter (modEntry E.I e w.fs mf)).flatMap
            (fun m => oneFile E e w.fs m.file)) (fun _ => True) := by
  unfold rayDeleteBody
  refine Post.bind (Q := fun a b => w = a ∧ w = b) (Post.get ⟨rfl, rfl⟩) ?_
  rintro a b ⟨rfl, hb⟩
  subst hb
  refine Post.bind (Q := fun a b => dataFiles w.fs h (some e) none = .ok a ∧ w = b)
    (Post.lift (fun a ha => ⟨ha, rfl⟩) trivial) ?_
  rintro fset b ⟨hd, hb⟩
  subst hb
  obtain ⟨snap, mf, h1, h2, rfl⟩ := dataFiles_ok hh hd
  rw [hh.schema]
  have hok := snapshot_manifests hh h1
  refine Post.bind (rayDeleteLoop_packed (w0 := w) (index := snap.index) hn hok.manifests ?_ ?_ _ hf (Grows.refl w) ?_) ?_
  · intro n q hq
    exact (List.mem_filter.mp (packFiles_manifest_mem hq)).1
  · intro n n' q hq hq'
    exact packFiles_inj (hok.nodup.filter _) hq' hq
  · intro f hfm
    obtain ⟨q, -, m, hm, n, rfl, -, hg⟩ := packFiles_mem hfm
    exact ⟨q, m, (List.mem_filter.mp hm).1, rfl, hg⟩
  · rintro ps w' ⟨-, hps⟩
    refine Post.pure ⟨snap, mf, h1, h2, ?_⟩
    rw [hps, mods_rows (oneFile E e w.fs), filter_flatMap', List.flatMap_assoc]

end

end Space
