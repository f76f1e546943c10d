import Verif.Listed

/-!
# Which files a delete rewrites
-/

set_option autoImplicit false

namespace Space

open List (Perm)
open scoped List

section
variable {E : Env} {s : Schema} {h h' h1 : Handle} {wb w w' w1 : World} {p : Patch}
  {cur snap : Snapshot} {e : Expr}

/-- The entries of new files in the manifests that a patch adds. -/
def newEntries (w w1 : World) (dp : Option Patch) : List ManifestRow :=
  (((dp.map (·.addIdx)).getD []).flatMap (entriesOf w1.fs)).filter (fun m => !hasFile w.fs m)

theorem Deleted.new_eq {index : List Path} {mf : Option MExpr} {dms : List Path} {carried mf' : List ManifestRow}
    {rmf : List RecManifestRow} {r q : Patch} (hf : w.Fresh) (hok : ∀ q ∈ index, ManifestOK w.fs s q)
    (hd : Deleted E s e w w1 (visited w.fs mf index) dms carried mf' rmf (some r) q) :
    newEntries w w1 (some q) = mf' := by
  have h1 : carried.filter (fun m => !hasFile w.fs m) = [] := by
    rw [List.filter_eq_nil_iff, hd.carried_eq hok]
    intro m hm
    obtain ⟨x, hx, hm⟩ := List.mem_flatMap.mp hm
    simp [((hok x ((hd.mem_dms x).mp hx).1).entry (List.mem_filter.mp hm).1).hasFile]
  have h2 : mf'.filter (fun m => !hasFile w.fs m) = mf' :=
    List.filter_eq_self.mpr fun m hm => by simp [hd.fin.notThere hf m hm]
  simp only [newEntries, Option.map_some, Option.getD_some, hd.addIdx, hd.fin.entries, List.filter_append, h1, h2,
    List.nil_append]

/-- The entries that a delete leaves: those of files it does not modify, but for some it loses, and those of the
files it writes, which hold what is left of the files it modifies. -/
theorem DeleteOut.touched {index : List Path} {mf : Option MExpr} {dp : Option Patch} (hn : s.names.Nodup)
    (hf : w.Fresh) (hi : index.Nodup) (hok : ∀ q ∈ index, ManifestOK w.fs s q) (hg : Grows w w1)
    (h : DeleteOut E s e w w1 index mf dp) :
    ∃ made lost, (index.filter (fun q => !((dp.map (·.delIdx)).getD []).contains q) ++
        (dp.map (·.addIdx)).getD []).flatMap (entriesOf w1.fs) ++ lost ~
        (index.flatMap (entriesOf w.fs)).filter (fun m => !modEntry E.I e w.fs mf m) ++ made ∧
      (NoLoss E.I e w.fs mf index → lost = []) ∧
      (made.map (·.file)).Nodup ∧ (∀ m ∈ made, hasFile w.fs m = false ∧ EntryOK w1.fs w1.fs.records s m) ∧
      made.flatMap (fun m => fileRows w1.fs m.file) =
        ((index.flatMap (entriesOf w.fs)).filter (modEntry E.I e w.fs mf)).flatMap
          (fun m => survRows E.I e w.fs m.file) ∧
      made = newEntries w w1 dp := by
  have mono : ∀ l : List Path, (∀ q ∈ l, q ∈ index) → l.flatMap (entriesOf w1.fs) = l.flatMap (entriesOf w.fs) :=
    fun l hl => flatMap_congr' fun q hq => entriesOf_mono hg.le (hok q (hl q hq))
  have unmod : ∀ q, hasMod E.I e w.fs mf q = false →
      (entriesOf w.fs q).filter (fun m => !modEntry E.I e w.fs mf m) = entriesOf w.fs q := by
    intro q hq
    simp only [hasMod, List.any_eq_false] at hq
    exact List.filter_eq_self.mpr fun m hm => by simp [hq m hm]
  rcases h.out with ⟨rfl, hno⟩ | ⟨q, dms, carried, mf', rmf, rp, rfl, hd⟩
  · refine ⟨[], [], ?_, fun _ => rfl, by simp, by simp, ?_, rfl⟩
    · simp only [Option.map_none, Option.getD_none, filter_none, List.append_nil]
      rw [mono _ fun _ h => h, filter_flatMap']
      exact Perm.of_eq (flatMap_congr' fun q hq => (unmod q (hno q hq)).symm)
    · rw [List.filter_eq_nil_iff.mpr]
      · rfl
      · intro m hm
        obtain ⟨q, hq, hm⟩ := List.mem_flatMap.mp hm
        have := hno q hq
        simp only [hasMod, List.any_eq_false] at this
        exact this m hm
  · have hdel : index.filter (fun x => !q.delIdx.contains x) = index.filter (fun x => !hasMod E.I e w.fs mf x) := by
      refine List.filter_congr fun x hx => ?_
      congr 1
      rw [hd.delIdx, Bool.eq_iff_iff]
      simp only [List.contains_eq_mem, decide_eq_true_eq, hd.mem_dms, hx, true_and]
    simp only [Option.map_some, Option.getD_some]
    rw [List.flatMap_append, hdel, mono _ fun x hx => (List.mem_filter.mp hx).1, hd.addIdx]
    have hwritten := hd.written hn hok
    have hgone : ((index.flatMap (entriesOf w.fs)).filter (modEntry E.I e w.fs mf)).flatMap
        (fun m => survRows E.I e w.fs m.file) =
        index.flatMap (fun q => ((entriesOf w.fs q).filter (modEntry E.I e w.fs mf)).flatMap
          (fun m => survRows E.I e w.fs m.file)) := by
      rw [filter_flatMap', List.flatMap_assoc]
    have hkept : (index.filter (fun x => !hasMod E.I e w.fs mf x)).flatMap (entriesOf w.fs) ++ carried ~
        (index.flatMap (entriesOf w.fs)).filter (fun m => !modEntry E.I e w.fs mf m) := by
      rw [filter_flatMap', hd.carried_eq hok]
      refine (Perm.append_left _ ((hd.dms_perm hi).flatMap_right _)).trans ?_
      refine Perm.trans (Perm.of_eq ?_) (split_perm (hasMod E.I e w.fs mf) _ index)
      congr 1
      refine flatMap_congr' fun x hx => (unmod x ?_).symm
      simpa using (List.mem_filter.mp hx).2
    cases rp with
    | none =>
      have h0 := hd.fin.none_iff.mp rfl
      rw [sumRows_zero hd.fin.ents] at h0
      have hw0 : mf'.flatMap (fun m => fileRows w1.fs m.file) = [] := List.length_eq_zero_iff.mp (by omega)
      refine ⟨[], carried, ?_, fun hloss => ?_, by simp, by simp, ?_, by simp [newEntries, hd.addIdx]⟩
      · simp only [Option.map_none, Option.getD_none, List.flatMap_nil, List.append_nil]
        exact hkept
      · rw [hwritten] at hw0
        rcases hloss with ⟨q, hq, m, hm, hmod, hs⟩ | hall
        · have := List.flatMap_eq_nil_iff.mp hw0 q hq
          have := List.flatMap_eq_nil_iff.mp this m (List.mem_filter.mpr ⟨hm, hmod⟩)
          exact absurd this hs
        · rw [hd.carried_eq hok, List.flatMap_eq_nil_iff]
          intro q hq
          rw [List.filter_eq_nil_iff]
          intro m hm
          have hq := (hd.mem_dms q).mp hq
          simp [hall q hq.1 hq.2 m hm]
      · rw [hgone, ← hwritten, hw0]
        rfl
    | some r =>
      refine ⟨mf', [], ?_, fun _ => rfl, hd.fin.entsNodup,
        fun m hm => ⟨hd.fin.notThere hf m hm, hd.fin.ents m hm⟩, by rw [hgone, hwritten], (hd.new_eq hf hok).symm⟩
      simp only [Option.map_some, Option.getD_some]
      rw [hd.fin.entries, List.append_nil, ← List.append_assoc]
      exact hkept.append_right _

/-- The entries that the per-file deletes of the Ray runner leave, on layouts on which they lose no file. -/
theorem RayMerged.touched {index : List Path} {mf : Option MExpr} (hok : ∀ q ∈ index, ManifestOK w.fs s q) (hg : Grows w w1)
    (hpatch : ∀ q ∈ p.addIdx, ManifestOK w1.fs s q) (hd : RayDeleted E s e w w1 index mf p) (ho : NewOnce w w w1 p)
    (hloss : RayNoLoss E.I e w.fs mf index) :
    ∃ made, (index.filter (fun q => !p.delIdx.contains q) ++ p.addIdx).flatMap (entriesOf w1.fs) ~
        (index.flatMap (entriesOf w.fs)).filter (fun m => !modEntry E.I e w.fs mf m) ++ made ∧
      (made.map (·.file)).Nodup ∧ (∀ m ∈ made, hasFile w.fs m = false ∧ EntryOK w1.fs w1.fs.records s m) ∧
      made.flatMap (fun m => fileRows w1.fs m.file) ~
        ((index.flatMap (entriesOf w.fs)).filter (modEntry E.I e w.fs mf)).flatMap
          (fun m => survRows E.I e w.fs m.file) := by
  have hleft : (index.filter (fun x => !hasMod E.I e w.fs mf x)).flatMap (entriesOf w1.fs) =
      (index.filter (fun x => !hasMod E.I e w.fs mf x)).flatMap (entriesOf w.fs) :=
    flatMap_congr' fun q hq => entriesOf_mono hg.le (hok q (List.mem_filter.mp hq).1)
  have hsib : ∀ q ∈ index, ∀ m ∈ entriesOf w.fs q, modEntry E.I e w.fs mf m = true →
      siblings w.fs q m.file = (entriesOf w.fs q).filter (fun x => !modEntry E.I e w.fs mf x) := by
    intro q hq m hm hmod
    obtain ⟨h1, -⟩ := hloss q hq m hm hmod
    unfold siblings
    refine List.filter_congr fun x hx => ?_
    congr 1
    rw [Bool.eq_iff_iff, decide_eq_true_eq]
    constructor
    · intro hf
      rw [modEntry_file ((hok q hq).entry hx) ((hok q hq).entry hm) hf]
      exact hmod
    · intro hx'
      have : x ∈ (entriesOf w.fs q).filter (modEntry E.I e w.fs mf) := List.mem_filter.mpr ⟨hx, hx'⟩
      rw [h1, List.mem_singleton] at this
      rw [this]
  have hkept := hd.olds
  rw [mods_pairs (g := fun q f => fileKept E.I e w.fs q f.path) (g' := fun q m => fileKept E.I e w.fs q m.file)
    (fun _ _ _ => rfl)] at hkept
  have hk : index.flatMap (fun q => ((entriesOf w.fs q).filter (modEntry E.I e w.fs mf)).flatMap
      (fun m => fileKept E.I e w.fs q m.file)) =
      (index.filter (hasMod E.I e w.fs mf)).flatMap
        (fun q => (entriesOf w.fs q).filter (fun m => !modEntry E.I e w.fs mf m)) := by
    rw [flatMap_filter_ite]
    refine flatMap_congr' fun q hq => ?_
    split
    · rename_i hmod
      simp only [hasMod, List.any_eq_true] at hmod
      obtain ⟨m, hm, hmod⟩ := hmod
      obtain ⟨h1, h2⟩ := hloss q hq m hm hmod
      rw [h1]
      simp only [List.flatMap_cons, List.flatMap_nil, List.append_nil, fileKept]
      split
      · rename_i h0
        rw [h2 h0]
        simp [hmod]
      · exact hsib q hq m hm hmod
    · rename_i hmod
      simp only [hasMod, Bool.not_eq_true, List.any_eq_false] at hmod
      rw [List.filter_eq_nil_iff.mpr fun m hm => by simp [hmod m hm]]
      rfl
  have hin : ∀ m ∈ p.addIdx.flatMap (entriesOf w1.fs), EntryOK w1.fs w1.fs.records s m := by
    intro m hm
    obtain ⟨q, hq, hm⟩ := List.mem_flatMap.mp hm
    exact (hpatch q hq).entry hm
  have hsplit := List.filter_append_perm (hasFile w.fs) (p.addIdx.flatMap (entriesOf w1.fs))
  refine ⟨(p.addIdx.flatMap (entriesOf w1.fs)).filter (fun x => !hasFile w.fs x), ?_, ho.once, fun m hm => ?_, ?_⟩
  · rw [List.flatMap_append, hd.left, hleft]
    refine (Perm.append_left _ hsplit.symm).trans ?_
    rw [← List.append_assoc, hkept, hk]
    refine Perm.append_right _ ?_
    rw [filter_flatMap']
    refine Perm.trans (Perm.of_eq ?_) (split_perm (hasMod E.I e w.fs mf) _ index)
    congr 1
    refine flatMap_congr' fun q hq => (List.filter_eq_self.mpr fun m hm => ?_).symm
    have := (List.mem_filter.mp hq).2
    simp only [hasMod, Bool.not_eq_true', List.any_eq_false] at this
    simp [this m hm]
  · obtain ⟨h1, h2⟩ := List.mem_filter.mp hm
    exact ⟨by simpa using h2, hin m h1⟩
  · have hrows : physRows w1.fs p.addIdx ~
        ((p.addIdx.flatMap (entriesOf w1.fs)).filter (hasFile w.fs)).flatMap (fun m => fileRows w1.fs m.file) ++
          ((p.addIdx.flatMap (entriesOf w1.fs)).filter (fun x => !hasFile w.fs x)).flatMap
            (fun m => fileRows w1.fs m.file) := by
      rw [← List.flatMap_append, physRows_entries]
      exact Perm.flatMap_right _ hsplit.symm
    have hold : ((p.addIdx.flatMap (entriesOf w1.fs)).filter (hasFile w.fs)).flatMap (fun m => fileRows w1.fs m.file) =
        (index.filter (hasMod E.I e w.fs mf)).flatMap
          (fun q => ((entriesOf w.fs q).filter (fun m => !modEntry E.I e w.fs mf m)).flatMap
            (fun m => fileRows w.fs m.file)) := by
      rw [hkept, hk, List.flatMap_assoc]
      refine flatMap_congr' fun q hq => flatMap_congr' fun m hm => ?_
      exact fileRows_mono hg.le ((hok q (List.mem_filter.mp hq).1).entry (List.mem_filter.mp hm).1)
    have htot : physRows w1.fs p.addIdx ~
        (index.filter (hasMod E.I e w.fs mf)).flatMap
          (fun q => ((entriesOf w.fs q).filter (fun m => !modEntry E.I e w.fs mf m)).flatMap
            (fun m => fileRows w.fs m.file)) ++
        ((index.flatMap (entriesOf w.fs)).filter (modEntry E.I e w.fs mf)).flatMap
          (fun m => survRows E.I e w.fs m.file) := by
      have hg' : ((index.flatMap (entriesOf w.fs)).filter (modEntry E.I e w.fs mf)).flatMap
          (fun m => survRows E.I e w.fs m.file) =
          (index.filter (hasMod E.I e w.fs mf)).flatMap (fun q =>
            ((entriesOf w.fs q).filter (modEntry E.I e w.fs mf)).flatMap (fun m => survRows E.I e w.fs m.file)) := by
        rw [filter_flatMap', List.flatMap_assoc, flatMap_filter_nil]
        intro q hq
        simp only [hasMod, List.any_eq_false] at hq
        rw [List.filter_eq_nil_iff.mpr hq]
        rfl
      rw [hd.added, hg']
      refine Perm.trans (Perm.of_eq ?_) (flatMap_append_perm' _ _ _).symm
      rw [flatMap_filter_ite]
      refine flatMap_congr' fun q hq => ?_
      split
      · rename_i hmod
        simp only [hasMod, List.any_eq_true] at hmod
        obtain ⟨m, hm, hmod⟩ := hmod
        obtain ⟨h1, h2⟩ := hloss q hq m hm hmod
        rw [h1]
        simp only [List.flatMap_cons, List.flatMap_nil, List.append_nil, fileAfter]
        split
        · rename_i h0
          rw [h2 h0]
          simp [hmod, h0]
        · rw [hsib q hq m hm hmod]
      · rename_i hmod
        simp only [hasMod, Bool.not_eq_true, List.any_eq_false] at hmod
        rw [List.filter_eq_nil_iff.mpr fun m hm => by simp [hmod m hm]]
        rfl
    have := hrows.symm.trans htot
    rw [hold] at this
    exact (List.perm_append_left_iff _).mp this

end

end Space
