import Verif.RayProgress
import Verif.Props.Stats

/-!
# C23: deletes by Ray
-/

set_option autoImplicit false

namespace Space

open Demo List

/-- What a delete leaves, seen from a later state. -/
theorem left_mono {I : Interp} {s : Schema} {e : Expr} {fs fs' : FS} (mf : Option MExpr) {cur : Snapshot}
    (hok : SnapOK fs s cur) (hle : FSLe fs fs') :
    (cur.index.flatMap (entriesOf fs')).flatMap (afterRows I e fs' mf) =
      (cur.index.flatMap (entriesOf fs)).flatMap (afterRows I e fs mf) := by
  simp only [List.flatMap_assoc]
  refine flatMap_congr' fun q hq => ?_
  rw [entriesOf_mono hle (hok.manifests q hq)]
  refine flatMap_congr' fun m hm => ?_
  have he := (hok.manifests q hq).entry hm
  unfold afterRows modEntry
  rw [survRows_mono hle he, fileRows_mono hle he]

theorem left_ok {I : Interp} {s : Schema} {e : Expr} {fs : FS} {mf : Option MExpr} {cur : Snapshot}
    (hok : SnapOK fs s cur) {r : Row} (hr : r ∈ (cur.index.flatMap (entriesOf fs)).flatMap (afterRows I e fs mf)) :
    r ∈ physRows fs cur.index := by
  rw [physRows_entries]
  obtain ⟨m, hm, hr⟩ := List.mem_flatMap.mp hr
  exact List.mem_flatMap.mpr ⟨m, hm, (afterRows_sub m).subset hr⟩

/-- The rows a delete leaves in this state of the files, if it loses none. -/
def leftRows (I : Interp) (s : Schema) (e : Expr) (fs : FS) (mf : Option MExpr) (cur : Snapshot) : List Row :=
  ((cur.index.flatMap (entriesOf fs)).flatMap (afterRows I e fs mf)).map (deref fs.records s)

theorem leftRows_mono {I : Interp} {s : Schema} {e : Expr} {fs fs' : FS} (mf : Option MExpr) {cur : Snapshot}
    (hok : SnapOK fs s cur) (hle : FSLe fs fs') : leftRows I s e fs' mf cur = leftRows I s e fs mf cur := by
  unfold leftRows
  rw [left_mono mf hok hle]
  exact map_deref_mono hle.lookLe fun r hr => (physRows_ok hok.manifests r (left_ok hok hr)).2

section
variable {E : Env} {s : Schema} {h h' h1 : Handle} {wb w w' w1 : World} {p : Patch} {cur snap : Snapshot} {e : Expr}

theorem Success.ray_left (hn : s.names.Nodup)
    (hs : Success E s (.rayDelete e) h wb w h' w' h1 w1 p cur snap) (hplain : ∀ c ∈ e.cols, c ∉ s.recs)
    (hsafe : RaySafe (e.truth E.I) (layout w.fs s cur)) :
    ∃ mf, manifestFilter s (some e) = .ok mf ∧ snapRows w'.fs s snap ~ leftRows E.I s e wb.fs mf cur := by
  obtain ⟨mf, hm, hd⟩ := hs.rayDeleted hn
  refine ⟨mf, hm, ?_⟩
  rw [leftRows_mono mf hs.curOK hs.earlier, hs.rows]
  have := (hd.rowsPerm hs.curOK.manifests hs.grows (rayNoLoss_of_safe hplain hs.curOK.manifests hsafe)).map
    (deref w1.fs.records s)
  refine this.trans (Perm.of_eq ?_)
  exact map_deref_mono hs.grows.le.lookLe fun r hr => (physRows_ok hs.curOK.manifests r (left_ok hs.curOK hr)).2

theorem Success.local_left (hn : s.names.Nodup)
    (hs : Success E s (.delete e) h wb w h' w' h1 w1 p cur snap) (hplain : ∀ c ∈ e.cols, c ∉ s.recs)
    (hsafe : RaySafe (e.truth E.I) (layout w.fs s cur)) :
    ∃ mf, manifestFilter s (some e) = .ok mf ∧ snapRows w'.fs s snap ~ leftRows E.I s e wb.fs mf cur := by
  have hb := hs.body
  simp only [Mutation.body] at hb
  obtain ⟨hg, -, snap', mf, hsn, hm, hout⟩ := Post.elim (deleteBody_post hs.fresh hs.handle) hb
  rw [hs.base] at hsn
  cases hsn
  rcases hout.out with ⟨hx, -⟩ | ⟨q, dms, carried, mf', rmf, rp, hx, hd⟩
  · cases hx
  cases hx
  obtain ⟨lost, hperm, hno⟩ := hd.rowsLost hn hs.curOK.nodup hs.curOK.manifests hg
  rw [hno (rayNoLoss_of_safe hplain hs.curOK.manifests hsafe).noLoss, List.append_nil] at hperm
  refine ⟨mf, hm, ?_⟩
  rw [leftRows_mono mf hs.curOK hs.earlier, hs.rows]
  refine (hperm.map _).trans (Perm.of_eq ?_)
  exact map_deref_mono hs.grows.le.lookLe fun r hr => (physRows_ok hs.curOK.manifests r (left_ok hs.curOK hr)).2

end

/-! ## What the Ray delete leaves on every layout -/

/-- The files of a snapshot with their names, by manifest. -/
def namedLayout (fs : FS) (s : Schema) (snap : Snapshot) : List (List (Path × List Row)) :=
  snap.index.map (fun p => (entriesOf fs p).map
    (fun m => (m.file, (fileRows fs m.file).map (deref fs.records s))))

/-- The files of the branch of a handle with their names, by manifest. -/
def headFiles (s : Schema) (h : Handle) (w : World) : List (List (Path × List Row)) :=
  match headOf h w with
  | some cur => namedLayout w.fs s cur
  | none => []

/-- What the deletes of the files of one manifest leave, for a filter that is null on no
row.  Without a row to delete the manifest stays.  Otherwise each file with a row to delete
and a row to keep leaves its rows to keep and, whole, all files of other names; a file
with rows to delete only leaves nothing. -/
def rayLeft (truth : Row → Option Bool) (man : List (Path × List Row)) : List Row :=
  if man.any (fun f => f.2.any fun r => truth r == some true) then
    (man.filter fun f => f.2.any (fun r => truth r == some true) && f.2.any (fun r => truth r == some false)).flatMap
      fun f => (man.filter (fun g => g.1 != f.1)).flatMap (·.2) ++ f.2.filter (fun r => truth r == some false)
  else man.flatMap (·.2)

/-- Layouts on which the Ray delete leaves exactly the rows to keep, if no row is stored
twice: in a manifest with rows to delete all rows are to be deleted, or one file has all rows to
delete and rows to keep. -/
def RaySpared (truth : Row → Option Bool) (lay : List (List (List Row))) : Prop :=
  ∀ man ∈ lay, (∀ file ∈ man, ∀ r ∈ file, truth r ≠ some true) ∨ (∀ file ∈ man, ∀ r ∈ file, truth r = some true) ∨
    ∃ pre file post, man = pre ++ file :: post ∧ (∃ r ∈ file, truth r = some true) ∧
      (∃ r ∈ file, truth r = some false) ∧ ∀ other ∈ pre ++ post, ∀ r ∈ other, truth r ≠ some true

theorem namedLayout_mono {fs fs' : FS} {s : Schema} {cur : Snapshot} (hf : FSLe fs fs') (hok : SnapOK fs s cur) :
    namedLayout fs' s cur = namedLayout fs s cur := by
  unfold namedLayout
  refine List.map_congr_left fun q hq => ?_
  rw [entriesOf_mono hf (hok.manifests q hq)]
  refine List.map_congr_left fun m hm => ?_
  have he := (hok.manifests q hq).entry hm
  rw [fileRows_mono hf he, map_deref_mono hf.lookLe fun r hr => (fileRows_mem he r hr).2]

theorem layout_named (fs : FS) (s : Schema) (snap : Snapshot) :
    (namedLayout fs s snap).map (·.map (·.2)) = layout fs s snap := by
  simp [namedLayout, layout, Function.comp_def]

theorem headLayout_named (s : Schema) (h : Handle) (w : World) :
    (headFiles s h w).map (·.map (·.2)) = headLayout s h w := by
  unfold headFiles headLayout
  cases headOf h w with
  | none => rfl
  | some cur => exact layout_named ..

theorem Landing.files {E : Env} {s : Schema} {m : Mutation} {i : Nat} {σ σ' : Sys} {sl sl' : Slot}
    {w : World} {h1 : Handle} {w1 : World} {p : Patch} {cur snap : Snapshot}
    (hl : Landing E s m i σ σ' sl sl' w h1 w1 p cur snap) :
    headFiles s sl.h σ.w = namedLayout w.fs s cur := by
  unfold headFiles
  rw [hl.succ.head]
  exact namedLayout_mono hl.succ.earlier hl.succ.curOK

section
variable {I : Interp} {s : Schema} {e : Expr} {fs : FS} {mf : Option MExpr}

/-- For a filter that is null on no row, the changed entries are those with a row to delete. -/
theorem modEntry_iff (hp : PruneOK s (some e)) (hm : manifestFilter s (some e) = .ok mf)
    (hplain : ∀ c ∈ e.cols, c ∉ s.recs) {q : Path} (hok : ManifestOK fs s q)
    (hnull : ∀ m ∈ entriesOf fs q, ∀ r ∈ fileRows fs m.file, e.truth I r ≠ none) {m : ManifestRow}
    (hmem : m ∈ entriesOf fs q) :
    modEntry I e fs mf m = ((fileRows fs m.file).map (deref fs.records s)).any (fun r => e.truth I r == some true) := by
  rw [Bool.eq_iff_iff]
  simp only [List.any_eq_true, List.mem_map, beq_iff_eq]
  constructor
  · intro hmod
    obtain ⟨y, hy, hty⟩ := not_false_of_mod (hok.entry hmem) hmod
    refine ⟨_, ⟨y, hy, rfl⟩, ?_⟩
    rw [truth_deref hplain]
    have := hnull m hmem y hy
    rcases h : e.truth I y with _ | _ | _ <;> simp_all
  · rintro ⟨_, ⟨y, hy, rfl⟩, ht⟩
    rw [truth_deref hplain] at ht
    exact modEntry_of_true hp hm (hok.entry hmem) hy ht

end

/-- The rows the Ray delete leaves, for a filter that is null on no row. -/
theorem RayMerged.effect {E : Env} {s : Schema} {e : Expr} {w w' : World} {mf : Option MExpr} {p : Patch}
    {snap : Snapshot} (hcur : SnapOK w.fs s snap) (hg : Grows w w') (he : FilterFits s e)
    (hm : manifestFilter s (some e) = .ok mf) (hd : RayDeleted E s e w w' snap.index mf p)
    (hnull : ∀ r ∈ snapRows w.fs s snap, e.truth E.I r ≠ none) :
    (physRows w'.fs (snap.index.filter (fun q => !p.delIdx.contains q) ++ p.addIdx)).map (deref w'.fs.records s) ~
      (namedLayout w.fs s snap).flatMap (rayLeft (e.truth E.I)) := by
  have hsub := hd.sub hcur.manifests hg
  rw [map_deref_mono hg.le.lookLe fun r hr => (physRows_ok hcur.manifests r (hsub r hr)).2]
  rw [physRows_append, hd.added, hd.left, physRows_mono hg.le (fun q hq => hcur.manifests q (List.mem_filter.mp hq).1)]
  have hperm : physRows w.fs (snap.index.filter (fun q => !hasMod E.I e w.fs mf q)) ++
      snap.index.flatMap (fun q => ((entriesOf w.fs q).filter (modEntry E.I e w.fs mf)).flatMap
        (fun m => fileAfter E.I e w.fs q m.file)) ~
      snap.index.flatMap (fun q => if hasMod E.I e w.fs mf q then
        ((entriesOf w.fs q).filter (modEntry E.I e w.fs mf)).flatMap (fun m => fileAfter E.I e w.fs q m.file)
        else (entriesOf w.fs q).flatMap (fun m => fileRows w.fs m.file)) := by
    refine Perm.trans ?_ (split_perm (hasMod E.I e w.fs mf) _ snap.index)
    refine Perm.append ?_ ?_
    · unfold physRows
      refine Perm.of_eq (flatMap_congr' fun q hq => ?_)
      have := (List.mem_filter.mp hq).2
      rw [Bool.not_eq_true'] at this
      rw [this]
      rfl
    · rw [flatMap_filter_ite]
      refine Perm.of_eq (flatMap_congr' fun q hq => ?_)
      split
      · rfl
      · rename_i hmod
        simp only [hasMod, Bool.not_eq_true, List.any_eq_false] at hmod
        rw [List.filter_eq_nil_iff.mpr fun m hm => by simp [hmod m hm]]
        rfl
  refine (hperm.map _).trans (Perm.of_eq ?_)
  unfold namedLayout
  rw [List.map_flatMap, List.flatMap_map]
  refine flatMap_congr' fun q hq => ?_
  have hok := hcur.manifests q hq
  have hnl := layout_null he.plain hnull hq
  rw [hasMod_iff he.prune hm he.plain hok hnl]
  unfold rayLeft
  simp only [List.any_map, Function.comp_def]
  split
  · rw [List.map_flatMap, List.filter_map, List.flatMap_map]
    have hsplit : ∀ l : List ManifestRow, (∀ m ∈ l, m ∈ entriesOf w.fs q) →
        (l.filter (modEntry E.I e w.fs mf)).flatMap
          (fun m => (fileAfter E.I e w.fs q m.file).map (deref w.fs.records s)) =
        (l.filter ((fun f : Path × List Row => f.2.any (fun r => e.truth E.I r == some true) &&
          f.2.any (fun r => e.truth E.I r == some false)) ∘
          fun m => (m.file, (fileRows w.fs m.file).map (deref w.fs.records s)))).flatMap
          (fun m => (((entriesOf w.fs q).map fun m => (m.file, (fileRows w.fs m.file).map (deref w.fs.records s))).filter
              (fun g => g.1 != m.file)).flatMap (·.2) ++
            ((fileRows w.fs m.file).map (deref w.fs.records s)).filter (fun r => e.truth E.I r == some false)) := by
      intro l
      induction l with
      | nil => intro _; rfl
      | cons m l ih =>
        intro hsub
        have i1 := ih fun x hx => hsub x (List.mem_cons_of_mem _ hx)
        have hmm := modEntry_iff he.prune hm he.plain hok hnl (hsub m List.mem_cons_self)
        have hsr := survRows_rows (I := E.I) (fs := w.fs) he.plain m.file
        rw [List.filter_cons, List.filter_cons, hmm]
        simp only [Function.comp_apply]
        rcases Bool.eq_false_or_eq_true
          (((fileRows w.fs m.file).map (deref w.fs.records s)).any (fun r => e.truth E.I r == some true)) with h1 | h1
        rotate_left
        · simp only [h1, Bool.false_and, Bool.false_eq_true, if_false]
          exact i1
        · simp only [h1, Bool.true_and, if_true, List.flatMap_cons]
          have hnil : survRows E.I e w.fs m.file = [] ↔
              ((fileRows w.fs m.file).map (deref w.fs.records s)).any (fun r => e.truth E.I r == some false) = false := by
            rw [← List.map_eq_nil_iff (f := deref w.fs.records s), hsr, List.filter_eq_nil_iff, List.any_eq_false]
          rcases Bool.eq_false_or_eq_true
            (((fileRows w.fs m.file).map (deref w.fs.records s)).any (fun r => e.truth E.I r == some false)) with h2 | h2
          rotate_left
          · simp only [h2, Bool.false_eq_true, if_false, fileAfter, hnil.mpr h2, if_true, List.map_nil, List.nil_append]
            exact i1
          · have h0 : survRows E.I e w.fs m.file ≠ [] := fun hc => by
              rw [hnil.mp hc] at h2
              cases h2
            simp only [h2, if_true, List.flatMap_cons]
            rw [i1]
            congr 1
            simp only [fileAfter, h0, if_false, List.map_append, hsr]
            congr 1
            rw [List.filter_map, List.flatMap_map, List.map_flatMap]
            congr 1
    exact hsplit _ fun _ h => h
  · rw [List.map_flatMap, List.flatMap_map]

/-- The delete of the Ray runner by a filter that is null on no row. -/
theorem Success.rayDelete_effect {E : Env} {s : Schema} {h h' h1 : Handle} {wb w w' w1 : World} {p : Patch}
    {cur snap : Snapshot} {e : Expr} (hn : s.names.Nodup)
    (hs : Success E s (.rayDelete e) h wb w h' w' h1 w1 p cur snap) (he : FilterFits s e)
    (hnull : ∀ r ∈ snapRows w.fs s cur, e.truth E.I r ≠ none) :
    snapRows w'.fs s snap ~ (namedLayout w.fs s cur).flatMap (rayLeft (e.truth E.I)) := by
  obtain ⟨mf, hm, hd⟩ := hs.rayDeleted hn
  rw [hs.rows]
  exact hd.effect hs.curOK hs.grows he hm hnull

section
variable {truth : Row → Option Bool}

theorem rayLeft_sub {man : List (Path × List Row)} {r : Row} (h : r ∈ rayLeft truth man) : r ∈ man.flatMap (·.2) := by
  unfold rayLeft at h
  split at h
  · obtain ⟨f, hf, h⟩ := List.mem_flatMap.mp h
    rcases List.mem_append.mp h with h | h
    · obtain ⟨g, hg, h⟩ := List.mem_flatMap.mp h
      exact List.mem_flatMap.mpr ⟨g, (List.mem_filter.mp hg).1, h⟩
    · exact List.mem_flatMap.mpr ⟨f, (List.mem_filter.mp hf).1, (List.mem_filter.mp h).1⟩
  · exact h

theorem rayLeft_spared {man : List (Path × List Row)} (hnull : ∀ f ∈ man, ∀ r ∈ f.2, truth r ≠ none)
    (hsame : ∀ f ∈ man, ∀ g ∈ man, f.1 = g.1 → f.2 = g.2) (h : RaySpared truth [man.map (·.2)]) :
    rayLeft truth man ~ (man.flatMap (·.2)).filter (fun r => truth r != some true) := by
  rcases h _ List.mem_cons_self with h | h | ⟨pre, file, post, hsp, h1, h2, h3⟩
  · have hno : man.any (fun f => f.2.any fun r => truth r == some true) = false := by
      simp only [List.any_eq_false]
      intro f hf hc
      obtain ⟨r, hr, ht⟩ := List.any_eq_true.mp hc
      exact h _ (List.mem_map_of_mem hf) r hr (by simpa using ht)
    unfold rayLeft
    rw [hno]
    simp only [Bool.false_eq_true, if_false]
    refine Perm.of_eq (List.filter_eq_self.mpr fun r hr => ?_).symm
    obtain ⟨f, hf, hr⟩ := List.mem_flatMap.mp hr
    simpa using h _ (List.mem_map_of_mem hf) r hr
  · have h0 : (man.flatMap (·.2)).filter (fun r => truth r != some true) = [] := by
      refine List.filter_eq_nil_iff.mpr fun r hr => ?_
      obtain ⟨f, hf, hr⟩ := List.mem_flatMap.mp hr
      simp [h _ (List.mem_map_of_mem hf) r hr]
    rw [h0]
    refine Perm.of_eq (List.eq_nil_iff_forall_not_mem.mpr fun r hr => ?_)
    unfold rayLeft at hr
    split at hr
    · obtain ⟨f, hf, -⟩ := List.mem_flatMap.mp hr
      obtain ⟨hf, hc⟩ := List.mem_filter.mp hf
      simp only [Bool.and_eq_true, List.any_eq_true, beq_iff_eq] at hc
      obtain ⟨-, x, hx, hxf⟩ := hc
      rw [h _ (List.mem_map_of_mem hf) x hx] at hxf
      cases hxf
    · rename_i hc
      obtain ⟨f, hf, hr⟩ := List.mem_flatMap.mp hr
      refine hc (List.any_eq_true.mpr ⟨f, hf, List.any_eq_true.mpr ⟨r, hr, ?_⟩⟩)
      simp [h _ (List.mem_map_of_mem hf) r hr]
  · obtain ⟨a, b, rfl, rfl, hb⟩ := List.map_eq_append_iff.mp hsp
    obtain ⟨f, c, rfl, rfl, rfl⟩ := List.map_eq_cons_iff.mp hb
    rw [← List.map_append] at h3
    have hno : ∀ g ∈ a ++ c, ∀ r ∈ g.2, truth r ≠ some true := fun g hg => h3 _ (List.mem_map_of_mem hg)
    obtain ⟨x, hx, hxt⟩ := h1
    obtain ⟨y, hy, hyf⟩ := h2
    have hmem : ∀ g, g ∈ a ++ c → g ∈ a ++ f :: c := fun g hg => by
      rcases List.mem_append.mp hg with hg | hg
      · exact List.mem_append_left _ hg
      · exact List.mem_append_right _ (List.mem_cons_of_mem _ hg)
    have hf : f ∈ a ++ f :: c := List.mem_append_right _ List.mem_cons_self
    have hname : ∀ g ∈ a ++ c, (g.1 != f.1) = true := by
      intro g hg
      rw [bne_iff_ne]
      intro hc
      have := hsame _ (hmem g hg) _ hf hc
      exact hno g hg x (by rw [this]; exact hx) hxt
    have hboth : ∀ g ∈ a ++ c, (g.2.any (fun r => truth r == some true) && g.2.any (fun r => truth r == some false)) = false := by
      intro g hg
      rw [Bool.and_eq_false_iff]
      refine Or.inl ?_
      simp only [List.any_eq_false]
      intro r hr hc
      exact hno g hg r hr (by simpa using hc)
    have hfb : (f.2.any (fun r => truth r == some true) && f.2.any (fun r => truth r == some false)) = true := by
      simp only [Bool.and_eq_true, List.any_eq_true, beq_iff_eq]
      exact ⟨⟨x, hx, hxt⟩, y, hy, hyf⟩
    have hany : (a ++ f :: c).any (fun f => f.2.any fun r => truth r == some true) = true :=
      List.any_eq_true.mpr ⟨f, hf, List.any_eq_true.mpr ⟨x, hx, by simp [hxt]⟩⟩
    unfold rayLeft
    rw [hany]
    simp only [if_true]
    have e1 : (a ++ f :: c).filter (fun f => f.2.any (fun r => truth r == some true) &&
        f.2.any (fun r => truth r == some false)) = [f] := by
      have k1 : a.filter (fun f => f.2.any (fun r => truth r == some true) &&
          f.2.any (fun r => truth r == some false)) = [] :=
        List.filter_eq_nil_iff.mpr fun g hg => by rw [hboth g (List.mem_append_left _ hg)]; decide
      have k2 : c.filter (fun f => f.2.any (fun r => truth r == some true) &&
          f.2.any (fun r => truth r == some false)) = [] :=
        List.filter_eq_nil_iff.mpr fun g hg => by rw [hboth g (List.mem_append_right _ hg)]; decide
      rw [List.filter_append, List.filter_cons, k1, k2, if_pos hfb]
      rfl
    have e2 : (a ++ f :: c).filter (fun g => g.1 != f.1) = a ++ c := by
      rw [List.filter_append, List.filter_cons_of_neg (by simp),
        List.filter_eq_self.mpr fun g hg => hname g (List.mem_append_left _ hg),
        List.filter_eq_self.mpr fun g hg => hname g (List.mem_append_right _ hg)]
    rw [e1, List.flatMap_cons, List.flatMap_nil, List.append_nil, e2]
    simp only [List.flatMap_append, List.flatMap_cons, List.filter_append]
    have e3 : ∀ l : List (Path × List Row), (∀ g ∈ l, g ∈ a ++ c) →
        (l.flatMap (·.2)).filter (fun r => truth r != some true) = l.flatMap (·.2) := by
      intro l hl
      refine List.filter_eq_self.mpr fun r hr => ?_
      obtain ⟨g, hg, hr⟩ := List.mem_flatMap.mp hr
      simpa using hno g (hl g hg) r hr
    rw [e3 a fun g hg => List.mem_append_left _ hg, e3 c fun g hg => List.mem_append_right _ hg]
    have e4 : f.2.filter (fun r => truth r == some false) = f.2.filter (fun r => truth r != some true) := by
      refine List.filter_congr fun r hr => ?_
      have := hnull f hf r hr
      rcases h : truth r with _ | _ | _ <;> simp_all
    rw [e4, List.append_assoc]
    exact Perm.append_left _ List.perm_append_comm

theorem rayLeft_all {L : List (List (Path × List Row))} (hnull : ∀ man ∈ L, ∀ f ∈ man, ∀ r ∈ f.2, truth r ≠ none)
    (hsame : ∀ man ∈ L, ∀ f ∈ man, ∀ g ∈ man, f.1 = g.1 → f.2 = g.2)
    (h : RaySpared truth (L.map (·.map (·.2)))) :
    L.flatMap (rayLeft truth) ~ (L.flatMap (·.flatMap (·.2))).filter (fun r => truth r != some true) := by
  rw [List.filter_flatMap]
  refine flatMap_perm fun man hman => rayLeft_spared (hnull man hman) (hsame man hman) ?_
  intro m hm
  rw [List.mem_singleton] at hm
  subst hm
  exact h _ (List.mem_map_of_mem hman)

/-- If all rows to keep are left and no others, and no row is there twice, the layout is one
of the good ones. -/
theorem spared_of_left {L : List (List (Path × List Row))} (hnull : ∀ man ∈ L, ∀ f ∈ man, ∀ r ∈ f.2, truth r ≠ none)
    (hsame : ∀ man ∈ L, ∀ f ∈ man, ∀ g ∈ man, f.1 = g.1 → f.2 = g.2)
    (hnd : (L.flatMap (·.flatMap (·.2))).Nodup)
    (h1 : ∀ r ∈ L.flatMap (rayLeft truth), truth r ≠ some true)
    (h2 : ∀ r ∈ L.flatMap (·.flatMap (·.2)), truth r = some false → r ∈ L.flatMap (rayLeft truth)) :
    RaySpared truth (L.map (·.map (·.2))) := by
  intro m hm
  obtain ⟨man, hman, rfl⟩ := List.mem_map.mp hm
  obtain ⟨la, lb, rfl⟩ := List.append_of_mem hman
  rw [List.flatMap_append, List.flatMap_cons, List.nodup_append] at hnd
  obtain ⟨-, hnd1, hnd2⟩ := hnd
  rw [List.nodup_append] at hnd1
  obtain ⟨hndm, -, hnd3⟩ := hnd1
  by_cases ht : ∃ f ∈ man, ∃ r ∈ f.2, truth r = some true
  rotate_left
  · refine Or.inl ?_
    intro file hf r hr hc
    obtain ⟨f, hf', rfl⟩ := List.mem_map.mp hf
    exact ht ⟨f, hf', r, hr, hc⟩
  have hany : man.any (fun f => f.2.any fun r => truth r == some true) = true := by
    obtain ⟨f, hf, r, hr, ht⟩ := ht
    exact List.any_eq_true.mpr ⟨f, hf, List.any_eq_true.mpr ⟨r, hr, by simp [ht]⟩⟩
  by_cases hb : ∃ g ∈ man, (∃ r ∈ g.2, truth r = some true) ∧ ∃ r ∈ g.2, truth r = some false
  · obtain ⟨g, hg, hgt, hgf⟩ := hb
    obtain ⟨a, b, rfl⟩ := List.append_of_mem hg
    refine Or.inr (Or.inr ⟨a.map (·.2), g.2, b.map (·.2), by simp, hgt, hgf, ?_⟩)
    rw [← List.map_append]
    intro other hot r hr hrt
    obtain ⟨o, ho, rfl⟩ := List.mem_map.mp hot
    have hom : o ∈ a ++ g :: b := by
      rcases List.mem_append.mp ho with ho | ho
      · exact List.mem_append_left _ ho
      · exact List.mem_append_right _ (List.mem_cons_of_mem _ ho)
    by_cases hname : o.1 = g.1
    · have := hsame _ hman _ hom _ hg hname
      rw [List.flatMap_append, List.flatMap_cons, List.nodup_append] at hndm
      obtain ⟨-, k1, k2⟩ := hndm
      rw [List.nodup_append] at k1
      have hrg : r ∈ g.2 := by rw [← this]; exact hr
      rcases List.mem_append.mp ho with ho | ho
      · exact k2 r (List.mem_flatMap.mpr ⟨o, ho, hr⟩) r (List.mem_append_left _ hrg) rfl
      · exact k1.2.2 r hrg r (List.mem_flatMap.mpr ⟨o, ho, hr⟩) rfl
    · refine h1 r (List.mem_flatMap.mpr ⟨_, hman, ?_⟩) hrt
      unfold rayLeft
      rw [hany]
      simp only [if_true]
      refine List.mem_flatMap.mpr ⟨g, List.mem_filter.mpr ⟨hg, ?_⟩, List.mem_append_left _
        (List.mem_flatMap.mpr ⟨o, List.mem_filter.mpr ⟨hom, by simpa using hname⟩, hr⟩)⟩
      simp only [Bool.and_eq_true, List.any_eq_true, beq_iff_eq]
      exact ⟨hgt, hgf⟩
  · refine Or.inr (Or.inl ?_)
    have hnone : rayLeft truth man = [] := by
      unfold rayLeft
      rw [hany]
      simp only [if_true]
      rw [List.filter_eq_nil_iff.mpr]
      · rfl
      · intro g hg hc
        simp only [Bool.and_eq_true, List.any_eq_true, beq_iff_eq] at hc
        exact hb ⟨g, hg, hc⟩
    intro file hfl r hr
    obtain ⟨f, hf, rfl⟩ := List.mem_map.mp hfl
    have hrm : r ∈ man.flatMap (·.2) := List.mem_flatMap.mpr ⟨f, hf, hr⟩
    have hnn := hnull man hman f hf r hr
    rcases h : truth r with _ | _ | _
    · exact absurd h hnn
    · have := h2 r (List.mem_flatMap.mpr ⟨man, hman, hrm⟩) h
      obtain ⟨man', hman', hr'⟩ := List.mem_flatMap.mp this
      rcases List.mem_append.mp hman' with hm' | hm'
      · exact absurd rfl (hnd2 r (List.mem_flatMap.mpr ⟨man', hm', rayLeft_sub hr'⟩) r (List.mem_append_left _ hrm))
      · rcases List.mem_cons.mp hm' with rfl | hm'
        · rw [hnone] at hr'
          cases hr'
        · exact absurd rfl (hnd3 r hrm r (List.mem_flatMap.mpr ⟨man', hm', rayLeft_sub hr'⟩))
    · rfl

end

/-- C23, exactly what a Ray delete does on every layout, for filters that fit the schema and
are null on no row: `rayLeft` says which rows the deletes of the files of a manifest leave.
If no row is stored twice, they are all rows on which the filter is not true if and only if
in every manifest with rows to delete, all rows are to be deleted, or one file has all of these
and also rows to keep. -/
theorem C23_effect {E : Env} {s : Schema} (hn : s.names.Nodup) {i : Nat} {e : Expr} (he : FilterFits s e)
    {σ σ' : Sys} (h : Done E s i (.rayDelete e) σ σ') :
    ∃ sl old new, σ.slots[i]? = some sl ∧ Reads E σ sl.h.branch old ∧ Reads E σ' sl.h.branch new ∧
      ((∀ r ∈ old, e.truth E.I r ≠ none) →
        new ~ ((headFiles s sl.h σ.w).flatMap (rayLeft (e.truth E.I))).map (·.select s.writeNames) ∧
        (RaySpared (e.truth E.I) (headLayout s sl.h σ.w) → new ~ old.filter (fun r => e.truth E.I r != some true)) ∧
        (old.Nodup → new ~ old.filter (fun r => e.truth E.I r != some true) →
          RaySpared (e.truth E.I) (headLayout s sl.h σ.w))) := by
  obtain ⟨sl, sl', w, h1, w1, p, cur, snap, hl, hr, hr'⟩ := h.landing hn
  refine ⟨sl, _, _, hl.slot, hr, hr', fun hnull => ?_⟩
  have hnull' : ∀ r ∈ snapRows w.fs s cur, e.truth E.I r ≠ none := by
    intro r hm
    have := hnull _ (List.mem_map_of_mem hm)
    rwa [truth_select he] at this
  have hflat : (namedLayout w.fs s cur).flatMap (·.flatMap (·.2)) = snapRows w.fs s cur := by
    rw [← layout_flatten, ← layout_named]
    simp only [List.flatMap, List.flatten_flatten, List.map_map, Function.comp_def]
  have hnl : ∀ man ∈ namedLayout w.fs s cur, ∀ f ∈ man, ∀ r ∈ f.2, e.truth E.I r ≠ none := by
    intro man hman f hf r hr
    refine hnull' r ?_
    rw [← hflat]
    exact List.mem_flatMap.mpr ⟨man, hman, List.mem_flatMap.mpr ⟨f, hf, hr⟩⟩
  have hsame : ∀ man ∈ namedLayout w.fs s cur, ∀ f ∈ man, ∀ g ∈ man, f.1 = g.1 → f.2 = g.2 := by
    intro man hman f hf g hg hfg
    obtain ⟨q, -, rfl⟩ := List.mem_map.mp hman
    obtain ⟨a, -, rfl⟩ := List.mem_map.mp hf
    obtain ⟨b, -, rfl⟩ := List.mem_map.mp hg
    simp only at hfg ⊢
    rw [hfg]
  have heff := (hl.succ.rayDelete_effect hn he hnull').map (·.select s.writeNames)
  have hfil : ((snapRows w.fs s cur).map (·.select s.writeNames)).filter (fun r => e.truth E.I r != some true) =
      ((snapRows w.fs s cur).filter (fun r => e.truth E.I r != some true)).map (·.select s.writeNames) := by
    rw [List.filter_map]
    congr 1
    refine List.filter_congr fun r _ => ?_
    simp only [Function.comp_apply, truth_select he]
  rw [hl.files, hl.layout, ← layout_named]
  refine ⟨heff, fun hsp => ?_, fun hnd hp => ?_⟩
  · rw [hfil, ← hflat]
    exact heff.trans ((rayLeft_all hnl hsame hsp).map _)
  · have hp' := heff.symm.trans hp
    refine spared_of_left hnl hsame (by
      rw [hflat]
      exact List.Pairwise.of_map _ (fun _ _ hne heq => hne (by rw [heq])) hnd) ?_ ?_
    · intro r hm ht
      have := hp'.mem_iff.mp (List.mem_map_of_mem hm)
      obtain ⟨-, this⟩ := List.mem_filter.mp this
      rw [truth_select he, ht] at this
      cases this
    · intro r hm hf
      rw [hflat] at hm
      have : r.select s.writeNames ∈ ((snapRows w.fs s cur).map (·.select s.writeNames)).filter
          (fun r => e.truth E.I r != some true) :=
        List.mem_filter.mpr ⟨List.mem_map_of_mem hm, by rw [truth_select he, hf]; rfl⟩
      obtain ⟨x, hx, hxe⟩ := List.mem_map.mp (hp'.mem_iff.mpr this)
      have hxs : x ∈ snapRows w.fs s cur := by
        rw [← hflat]
        obtain ⟨man, hman, hx⟩ := List.mem_flatMap.mp hx
        exact List.mem_flatMap.mpr ⟨man, hman, rayLeft_sub hx⟩
      rw [← inj_of_nodup_map hnd hxs hm hxe]
      exact hx

/-- C23, for filters that do not name record fields, on layouts in which every manifest
has at most one file with rows that the filter does not keep, and that file keeps a row or
is alone: from one state a local delete and a Ray delete leave the same rows, up to order.
The two may be whole calls, or the ends of mutations started earlier while other handles
write.  Missing: other layouts (`C23_violated`, `C23_violated_loss`). -/
theorem C23_partial {E : Env} {s : Schema} (hn : s.names.Nodup) {i : Nat} {e : Expr}
    (hplain : ∀ c ∈ e.cols, c ∉ s.recs) {σ σ1 σ2 : Sys} (h1 : Done E s i (.delete e) σ σ1)
    (h2 : Done E s i (.rayDelete e) σ σ2) :
    ∃ sl, σ.slots[i]? = some sl ∧
      (RaySafe (e.truth E.I) (headLayout s sl.h σ.w) →
        ∃ r1 r2, Reads E σ1 sl.h.branch r1 ∧ Reads E σ2 sl.h.branch r2 ∧ r1 ~ r2) := by
  obtain ⟨sl, sl', w, g1, w1, p, cur, snap, hl, hr, hr'⟩ := h1.landing hn
  obtain ⟨sl2, sl2', w2, g2, w12, p2, cur2, snap2, hl2, hr2, hr2'⟩ := h2.landing hn
  have hsl := hl.slot
  rw [hl2.slot] at hsl
  cases hsl
  refine ⟨sl, hl.slot, fun hsafe => ⟨_, _, hr', hr2', ?_⟩⟩
  have hcur := hl.succ.head
  rw [hl2.succ.head] at hcur
  cases hcur
  obtain ⟨mf, k1, k2⟩ := hl.succ.local_left hn hplain (by rw [← hl.layout]; exact hsafe)
  obtain ⟨mf', k3, k4⟩ := hl2.succ.ray_left hn hplain (by rw [← hl2.layout]; exact hsafe)
  rw [k1] at k3
  cases k3
  exact (k2.trans k4.symm).map _

/-- The claim of C04 for the Ray runner, under the same conditions and for filters that
fit the schema. -/
theorem C23_rows_partial {E : Env} {s : Schema} (hn : s.names.Nodup) {i : Nat} {e : Expr} (he : FilterFits s e)
    {σ σ' : Sys} (h : Done E s i (.rayDelete e) σ σ') :
    ∃ sl old, σ.slots[i]? = some sl ∧ Reads E σ sl.h.branch old ∧
      (RaySafe (e.truth E.I) (headLayout s sl.h σ.w) →
        ∃ new nulls, Reads E σ' sl.h.branch new ∧
          nulls.Sublist (old.filter (fun r => e.truth E.I r == none)) ∧
          new ~ old.filter (fun r => e.truth E.I r == some false) ++ nulls) := by
  obtain ⟨sl, sl', w, h1, w1, p, cur, snap, hl, hr, hr'⟩ := h.landing hn
  refine ⟨sl, _, hl.slot, hr, fun hsafe => ?_⟩
  rw [hl.layout] at hsafe
  obtain ⟨-, nulls, -, -, k1, k2⟩ := hl.succ.rayDelete hn he hsafe
  refine ⟨_, nulls.map (·.select s.writeNames), hr', ?_, ?_⟩
  · rw [← filter_select he]
    exact k1.map _
  · rw [← filter_select he, ← List.map_append]
    exact k2.map _

/-- That both take effect: in any state, on a branch that exists, with key columns that
are set and files that have rows, both calls return normally and report the same status,
except that where the statistics leave no file to look at the local runner fails and Ray
skips. -/
theorem C23_status {E : Env} {s : Schema} (hk : KeySchema s) (hlast : s.writeNames = s.names)
    {σ : Sys} (hr : Reach E s anyStep σ) {i : Nat} {sl : Slot} (hsl : σ.slots[i]? = some sl)
    (hi : sl.phase = .idle) (hb : branchIn sl.h.branch σ) {e : Expr} (he : FilterFits s e)
    (hset : KeysSet s (headLayout s sl.h σ.w).flatten.flatten)
    (hfull : ∀ man ∈ headLayout s sl.h σ.w, ∀ file ∈ man, file ≠ []) :
    ∃ j1 j2 σ1 σ2, Step E s σ (.call i (.mutate (.delete e)) (.job j1)) σ1 ∧
      Step E s σ (.call i (.mutate (.rayDelete e)) (.job j2)) σ2 ∧
      (j1 = j2 ∨ (j1 = .failed ∧ j2 = .skipped)) ∧ (j2 = .succeeded ∨ j2 = .skipped) ∧
      ((∃ r ∈ (headLayout s sl.h σ.w).flatten.flatten, e.truth E.I r = some true) → j1 = .succeeded) := by
  obtain ⟨md, hok⟩ := reach_ok hk.names hr
  have hh := (hok.slots _ (List.mem_of_getElem? hsl)).1
  have hob := (branchIn_iff hok).mp hb
  obtain ⟨cur, hid, hget, -⟩ := hob.head hok.wok.ok
  have htar := target_head hid hget
  have hlay : headLayout s sl.h σ.w = layout σ.w.fs s cur := by
    simp [headLayout, headOf, hok.wok.storedEq, htar, Except.toOption]
  rw [hlay] at hset hfull ⊢
  rw [layout_flatten] at hset ⊢
  have hset' : KeysSet s (physRows σ.w.fs cur.index) := by
    intro x hx k hkk
    have := hset _ (List.mem_map_of_mem hx) k hkk
    rw [deref_val] at this
    simpa [hk.plain k hkk] using this
  have hfull' : ∀ q ∈ cur.index, ∀ m ∈ entriesOf σ.w.fs q, fileRows σ.w.fs m.file ≠ [] := by
    intro q hq m hm h0
    exact hfull _ (mem_layout hq) _ (List.mem_map.mpr ⟨m, hm, rfl⟩) (by rw [h0]; rfl)
  obtain ⟨mf, hmf⟩ := he.filter
  have hsnap : ∀ h1 : Handle, h1.md = md → h1.branch = sl.h.branch → h1.snapshot none = .ok cur := by
    intro h1 e1 e2
    rw [handle_snapshot, e1, e2]
    exact htar
  have hman : ∀ q ∈ cur.index, ManifestOK σ.w.fs s q := by
    have := hok.wok.ok.snaps _ _ hget
    rw [hok.wok.schema] at this
    exact this.manifests
  obtain ⟨p2, h2, w2, hp2, he2⟩ := exec_total (E := E) (m := .rayDelete e)
    (R := fun p => p.isSome = true ↔ ∃ q ∈ cur.index, hasMod E.I e σ.w.fs mf q = true)
    hk.names hok.wok hh trivial hob (fun h1 e1 e2 hh1 =>
      rayDeleteBody_total hk hlast hok.wok.fresh hh1 (hsnap h1 e1 e2) hmf hset' hfull')
  obtain ⟨σ2, hst2⟩ := call_of_exec (s := s) (c := .mutate (.rayDelete e)) hsl hi trivial he2
  have hj2 : (if p2.isSome then Job.succeeded else .skipped) = .succeeded ∨
      (if p2.isSome then Job.succeeded else .skipped) = .skipped := by cases p2 <;> simp
  have htrue : (∃ r ∈ snapRows σ.w.fs s cur, e.truth E.I r = some true) →
      ∃ q ∈ cur.index, hasMod E.I e σ.w.fs mf q = true := by
    rintro ⟨r, hr, ht⟩
    obtain ⟨x, hx, rfl⟩ := List.mem_map.mp hr
    rw [truth_deref he.plain] at ht
    obtain ⟨q, hq, hx⟩ := List.mem_flatMap.mp hx
    obtain ⟨m, hm, hx⟩ := List.mem_flatMap.mp hx
    exact ⟨q, hq, List.any_eq_true.mpr ⟨m, hm, modEntry_of_true he.prune hmf ((hman q hq).entry hm) hx ht⟩⟩
  by_cases hv : (visited σ.w.fs mf cur.index).files = []
  · obtain ⟨h1, w1, he1⟩ := exec_failed (E := E) (m := .delete e) (er := .runtime) hok.wok hh hob rfl
      (fun h1 e1 e2 hh1 => by
        rcases deleteBody_total (E := E) hk hlast hok.wok.fresh hh1 (hsnap h1 e1 e2) hmf hset' hfull' with ⟨-, h⟩ | ⟨h, -⟩
        · exact ⟨_, h⟩
        · exact absurd hv h)
    obtain ⟨σ1, hst1⟩ := call_of_exec (s := s) (c := .mutate (.delete e)) hsl hi trivial he1
    have hno : ¬ ∃ q ∈ cur.index, hasMod E.I e σ.w.fs mf q = true := by
      rintro ⟨q, hq, hm⟩
      obtain ⟨m, hm, hmod⟩ := List.any_eq_true.mp hm
      obtain ⟨n, hx, -⟩ := mods_visited hq hm hmod
      rw [hv] at hx
      cases hx
    have : p2.isSome = false := by
      cases h : p2.isSome with
      | false => rfl
      | true => exact absurd (hp2.mp h) hno
    refine ⟨_, _, σ1, σ2, hst1, hst2, Or.inr ⟨rfl, by simp [this]⟩, hj2, fun ht => absurd (htrue ht) hno⟩
  · obtain ⟨p1, h1, w1, hp1, he1⟩ := exec_total (E := E) (m := .delete e)
      (R := fun p => p.isSome = true ↔ ∃ q ∈ cur.index, hasMod E.I e σ.w.fs mf q = true)
      hk.names hok.wok hh trivial hob (fun h1 e1 e2 hh1 => by
        rcases deleteBody_total (E := E) hk hlast hok.wok.fresh hh1 (hsnap h1 e1 e2) hmf hset' hfull' with ⟨h, -⟩ | ⟨-, h⟩
        · exact absurd h hv
        · exact h)
    obtain ⟨σ1, hst1⟩ := call_of_exec (s := s) (c := .mutate (.delete e)) hsl hi trivial he1
    have heq : p1.isSome = p2.isSome := by
      rw [Bool.eq_iff_iff, hp1, hp2]
    refine ⟨_, _, σ1, σ2, hst1, hst2, Or.inl (by rw [heq]), hj2, fun ht => by simp [hp1.mpr (htrue ht)]⟩

/-- C04, that it succeeds: in any state, on a branch that exists, with key columns that are
set and files that have rows, a delete whose filter is true on some row succeeds. -/
theorem C04_succeeds {E : Env} {s : Schema} (hk : KeySchema s) (hlast : s.writeNames = s.names)
    {σ : Sys} (hr : Reach E s anyStep σ) {i : Nat} {sl : Slot} (hsl : σ.slots[i]? = some sl)
    (hi : sl.phase = .idle) (hb : branchIn sl.h.branch σ) {e : Expr} (he : FilterFits s e)
    (hset : KeysSet s (headLayout s sl.h σ.w).flatten.flatten)
    (hfull : ∀ man ∈ headLayout s sl.h σ.w, ∀ file ∈ man, file ≠ [])
    (ht : ∃ r ∈ (headLayout s sl.h σ.w).flatten.flatten, e.truth E.I r = some true) :
    ∃ σ', Step E s σ (.call i (.mutate (.delete e)) (.job .succeeded)) σ' := by
  obtain ⟨j1, j2, σ1, σ2, h1, -, -, -, h2⟩ := C23_status hk hlast hr hsl hi hb he hset hfull
  rw [h2 ht] at h1
  exact ⟨σ1, h1⟩

/-- Rows before, after the local and after the Ray delete, by the only process there is. -/
def Demo.Both (E : Env) (s : Schema) (e : Expr) (old r1 r2 : List Row) : Prop :=
  ∃ σ σ1 σ2 sl, Done E s 0 (.delete e) σ σ1 ∧ Done E s 0 (.rayDelete e) σ σ2 ∧ Reach E s solo σ ∧
    σ.slots[0]? = some sl ∧ sl.h.branch = mainBranch ∧ Reads E σ mainBranch old ∧ Reads E σ1 mainBranch r1 ∧
    Reads E σ2 mainBranch r2

/-- All slots on the main branch read these rows. -/
def Demo.readsB (E : Env) (σ : Sys) (rows : List Row) : Bool :=
  σ.slots.all (fun sl => sl.h.branch != mainBranch || decide (tableRead E sl.h σ.w {} none = .ok rows))

theorem Demo.both_of {E : Env} {s : Schema} (as : List Act) {e : Expr} {old r1 r2 : List Row}
    (h1 : (act E (after E soloB s as) (.call 0 (.mutate (.delete e)))).map (fun x => outOf x.1) =
      some (.res (.job .succeeded)))
    (h2 : (act E (after E soloB s as) (.call 0 (.mutate (.rayDelete e)))).map (fun x => outOf x.1) =
      some (.res (.job .succeeded)))
    (h3 : readsB E (after E soloB s as) old = true)
    (h4 : readsB E (doing E (after E soloB s as) (.call 0 (.mutate (.delete e)))) r1 = true)
    (h5 : readsB E (doing E (after E soloB s as) (.call 0 (.mutate (.rayDelete e)))) r2 = true)
    (h6 : ((after E soloB s as).slots[0]?).map (fun sl => sl.h.branch) = some mainBranch) :
    Both E s e old r1 r2 := by
  obtain ⟨-, hs1⟩ := doing_step (E := E) (s := s) h1
  obtain ⟨-, hs2⟩ := doing_step (E := E) (s := s) h2
  obtain ⟨sl, h0, -, h7⟩ := slot_of h6
  have hr : Reach E s solo (after E soloB s as) := after_reach soloB_solo _
  have hr' := hr.imp (Q := anyStep) (fun _ _ _ => trivial)
  exact ⟨_, _, _, sl, .call hr' hs1, .call hr' hs2, hr, h0, h7, reads_of h3, reads_of h4, reads_of h5⟩

/-- Keys above `a` and below `b`. -/
def Demo.idIn (a b : Int) : Expr := .bin "and" (idIs "gt" a) (idIs "lt" b)

/-- C23 is false for manifests with several files to cut: each of the two single-file
deletes carries the other file over as it was, so that deleted rows are back (4 and 5) and
all others of the manifest are there twice. -/
theorem C23_violated : ∃ e old r1 r2, FilterFits schema e ∧ Both env schema e old r1 r2 ∧
    (keysOf schema old).Nodup ∧ (∃ r ∈ r2, e.truth env.I r = some true) ∧ ¬ (keysOf schema r2).Nodup ∧
    Deletes env.I e old r1 ∧ ¬ r1 ~ r2 := by
  refine ⟨idIn 3 6, [row 1 "a" [1], row 2 "b" [2], row 3 "c" [3], row 4 "d" [4], row 5 "e" [5], row 6 "f" [6]],
    [row 1 "a" [1], row 2 "b" [2], row 3 "c" [3], row 6 "f" [6]],
    [row 5 "e" [5], row 6 "f" [6], row 1 "a" [1], row 2 "b" [2], row 3 "c" [3],
      row 1 "a" [1], row 2 "b" [2], row 3 "c" [3], row 4 "d" [4], row 6 "f" [6]], ?_,
    both_of [.call 0 (.mutate (.append [[row 1 "a" [1], row 2 "b" [2], row 3 "c" [3], row 4 "d" [4]],
      [row 5 "e" [5], row 6 "f" [6]]]))] ?_ ?_ ?_ ?_ ?_ ?_, ?_, ?_, ?_, ?_, ?_⟩
  · exact FilterFits.of_flat (by decide) (by decide) (by decide) (by decide) (by decide) (by decide)
  · decide +kernel
  · decide +kernel
  · decide +kernel
  · decide +kernel
  · decide +kernel
  · decide +kernel
  · decide
  · exact ⟨row 5 "e" [5], by simp, by decide⟩
  · decide
  · unfold Deletes
    exact Perm.of_eq (by decide)
  · intro h
    have := h.length_eq
    revert this
    decide

/-- C23 is false for files that lose all rows next to files that are not touched: the
local delete reinserts a row of another manifest, writes a new manifest with it and keeps
the untouched file; Ray deletes file by file and drops it. -/
theorem C23_violated_loss : ∃ e old r1 r2, FilterFits schema e ∧ Both env schema e old r1 r2 ∧
    Deletes env.I e old r1 ∧ ¬ r1 ~ r2 := by
  refine ⟨idIn 4 8, [row 1 "a" [1], row 2 "b" [2], row 3 "c" [3], row 4 "d" [4], row 5 "e" [5], row 6 "f" [6],
      row 7 "g" [7], row 8 "h" [8]],
    [row 1 "a" [1], row 2 "b" [2], row 3 "c" [3], row 4 "d" [4], row 8 "h" [8]], [row 8 "h" [8]], ?_,
    both_of [.call 0 (.mutate (.append [[row 1 "a" [1], row 2 "b" [2], row 3 "c" [3], row 4 "d" [4]],
      [row 5 "e" [5], row 6 "f" [6]]])), .call 0 (.mutate (.append [[row 7 "g" [7], row 8 "h" [8]]]))]
      ?_ ?_ ?_ ?_ ?_ ?_, ?_, ?_⟩
  · exact FilterFits.of_flat (by decide) (by decide) (by decide) (by decide) (by decide) (by decide)
  · decide +kernel
  · decide +kernel
  · decide +kernel
  · decide +kernel
  · decide +kernel
  · decide +kernel
  · unfold Deletes
    exact Perm.of_eq (by decide)
  · intro h
    have := h.length_eq
    revert this
    decide

/-- Two manifests, the first with two files: one file is cut in the first manifest, the
file of the second goes; both deletes leave the same four rows. -/
example : ∃ σ σ1 σ2 sl, FilterFits schema (idIn 5 8) ∧ Done env schema 0 (.delete (idIn 5 8)) σ σ1 ∧
    Done env schema 0 (.rayDelete (idIn 5 8)) σ σ2 ∧ σ.slots[0]? = some sl ∧
    RaySafe ((idIn 5 8).truth env.I) (headLayout schema sl.h σ.w) ∧ sl.h.branch = mainBranch ∧
    Reads env σ mainBranch [row 1 "a" [1], row 2 "b" [2], row 3 "c" [3], row 4 "d" [4], row 5 "e" [5], row 6 "f" [6],
      row 7 "g" [7]] ∧
    Reads env σ1 mainBranch [row 1 "a" [1], row 2 "b" [2], row 3 "c" [3], row 4 "d" [4], row 5 "e" [5]] ∧
    Reads env σ2 mainBranch [row 1 "a" [1], row 2 "b" [2], row 3 "c" [3], row 4 "d" [4], row 5 "e" [5]] := by
  let σ := after env anyB schema [.call 0 (.mutate (.append [[row 1 "a" [1], row 2 "b" [2], row 3 "c" [3], row 4 "d" [4]],
      [row 5 "e" [5], row 6 "f" [6]]])), .call 0 (.mutate (.append [[row 7 "g" [7]]]))]
  obtain ⟨-, hs1⟩ := doing_step (E := env) (s := schema) (σ := σ) (a := .call 0 (.mutate (.delete (idIn 5 8))))
    (o := .res (.job .succeeded)) (by decide +kernel)
  obtain ⟨-, hs2⟩ := doing_step (E := env) (s := schema) (σ := σ) (a := .call 0 (.mutate (.rayDelete (idIn 5 8))))
    (o := .res (.job .succeeded)) (by decide +kernel)
  obtain ⟨sl, h0, -, h1⟩ := slot_of (σ := σ) (i := 0)
    (f := fun sl => (raySafeB ((idIn 5 8).truth env.I) (headLayout schema sl.h σ.w), sl.h.branch))
    (x := (true, mainBranch)) (by decide +kernel)
  simp only [Prod.mk.injEq] at h1
  have hr : Reach env schema anyStep σ := after_reach (fun _ _ _ => trivial) _
  refine ⟨σ, _, _, sl, ?_, .call hr hs1, .call hr hs2, h0, raySafeB_safe h1.1, h1.2, ?_, ?_, ?_⟩
  · exact FilterFits.of_flat (by decide) (by decide) (by decide) (by decide) (by decide) (by decide)
  · exact reads_of (by decide +kernel)
  · exact reads_of (by decide +kernel)
  · exact reads_of (by decide +kernel)

/-- A Ray delete that touches both files of a manifest: rows that should go are back, those
of the untouched manifest stay as they are. -/
example : ∃ σ σ' sl, FilterFits schema (idIn 3 6) ∧ Done env schema 0 (.rayDelete (idIn 3 6)) σ σ' ∧
    σ.slots[0]? = some sl ∧ sl.h.branch = mainBranch ∧
    Reads env σ mainBranch [row 1 "a" [1], row 2 "b" [2], row 3 "c" [3], row 4 "d" [4], row 5 "e" [5], row 6 "f" [6],
      row 7 "g" [7]] ∧
    (∀ r ∈ [row 1 "a" [1], row 2 "b" [2], row 3 "c" [3], row 4 "d" [4], row 5 "e" [5], row 6 "f" [6],
      row 7 "g" [7]], (idIn 3 6).truth env.I r ≠ none) ∧
    (headFiles schema sl.h σ.w).flatMap (rayLeft ((idIn 3 6).truth env.I)) =
      [row 5 "e" [5], row 6 "f" [6], row 1 "a" [1], row 2 "b" [2], row 3 "c" [3],
        row 1 "a" [1], row 2 "b" [2], row 3 "c" [3], row 4 "d" [4], row 6 "f" [6], row 7 "g" [7]] := by
  let σ := after env anyB schema [.call 0 (.mutate (.append [[row 1 "a" [1], row 2 "b" [2], row 3 "c" [3], row 4 "d" [4]],
    [row 5 "e" [5], row 6 "f" [6]]])), .call 0 (.mutate (.append [[row 7 "g" [7]]]))]
  obtain ⟨-, hs⟩ := doing_step (E := env) (s := schema) (σ := σ) (a := .call 0 (.mutate (.rayDelete (idIn 3 6))))
    (o := .res (.job .succeeded)) (by decide +kernel)
  obtain ⟨sl, h0, -, h2⟩ := slot_of (σ := σ) (i := 0)
    (f := fun sl => ((headFiles schema sl.h σ.w).flatMap (rayLeft ((idIn 3 6).truth env.I)), sl.h.branch))
    (x := ([row 5 "e" [5], row 6 "f" [6], row 1 "a" [1], row 2 "b" [2], row 3 "c" [3],
      row 1 "a" [1], row 2 "b" [2], row 3 "c" [3], row 4 "d" [4], row 6 "f" [6], row 7 "g" [7]], mainBranch))
    (by decide +kernel)
  simp only [Prod.mk.injEq] at h2
  exact ⟨σ, _, sl, FilterFits.of_flat (by decide) (by decide) (by decide) (by decide) (by decide) (by decide),
    .call (after_reach (fun _ _ _ => trivial) _) hs, h0, h2.2, reads_of (by decide +kernel), by decide, h2.1⟩

/-- A filter that matches no file: the local delete fails, Ray skips. -/
example : ∃ σ σ1 σ2, Reach env schema anyStep σ ∧
    Step env schema σ (.call 0 (.mutate (.delete (idIs "gt" 9))) (.job .failed)) σ1 ∧
    Step env schema σ (.call 0 (.mutate (.rayDelete (idIs "gt" 9))) (.job .skipped)) σ2 := by
  let σ := after env anyB schema [.call 0 (.mutate (.append [[row 1 "a" [1]]]))]
  obtain ⟨-, hs1⟩ := doing_step (E := env) (s := schema) (σ := σ) (a := .call 0 (.mutate (.delete (idIs "gt" 9))))
    (o := .res (.job .failed)) (by decide +kernel)
  obtain ⟨-, hs2⟩ := doing_step (E := env) (s := schema) (σ := σ) (a := .call 0 (.mutate (.rayDelete (idIs "gt" 9))))
    (o := .res (.job .skipped)) (by decide +kernel)
  exact ⟨σ, _, _, after_reach (fun _ _ _ => trivial) _, hs1, hs2⟩

/-- A state that meets the hypotheses of `C23_status`. -/
example : ∃ σ sl, Reach env schema anyStep σ ∧ σ.slots[0]? = some sl ∧ sl.phase = .idle ∧
    branchIn sl.h.branch σ ∧ KeysSet schema (headLayout schema sl.h σ.w).flatten.flatten ∧
    (∀ man ∈ headLayout schema sl.h σ.w, ∀ file ∈ man, file ≠ []) ∧
    ∃ r ∈ (headLayout schema sl.h σ.w).flatten.flatten, (idIs "gt" 1).truth env.I r = some true := by
  let σ := after env anyB schema [.call 0 (.mutate (.append [[row 1 "a" [1], row 2 "b" [2]]]))]
  obtain ⟨sl, h0, -, h1⟩ := slot_of (σ := σ) (i := 0)
    (f := fun sl => (headLayout schema sl.h σ.w, sl.h.branch))
    (x := ([[[row 1 "a" [1], row 2 "b" [2]]]], mainBranch)) (by decide +kernel)
  obtain ⟨sl', h0', -, h2⟩ := slot_of (σ := σ) (i := 0)
    (f := fun sl => (match sl.phase with | .idle => true | _ => false)) (x := true) (by decide +kernel)
  rw [h0] at h0'
  cases h0'
  simp only [Prod.mk.injEq] at h1
  refine ⟨σ, sl, after_reach (fun _ _ _ => trivial) _, h0, ?_, Or.inl h1.2, ?_, ?_, ?_⟩
  · cases hp : sl.phase with
    | idle => rfl
    | _ => rw [hp] at h2; cases h2
  · rw [h1.1]
    exact keysSetB_set (by decide)
  · rw [h1.1]
    decide
  · rw [h1.1]
    exact ⟨row 2 "b" [2], by simp, by decide⟩

end Space
