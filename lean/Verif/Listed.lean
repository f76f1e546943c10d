import Verif.Distinct

/-!
# No version lists an index file twice
-/

set_option autoImplicit false

namespace Space

open List (Perm)
open scoped List

/-- The index files that the manifests of a version list. -/
def listedFiles (fs : FS) (index : List Path) : List Path := (index.flatMap (entriesOf fs)).map (·.file)

/-- Entries `new` are some of `old` and entries for files that were not there, each once. -/
def Renewed (fs : FS) (old new : List ManifestRow) : Prop :=
  ∃ kept made lost, new ~ kept ++ made ∧ kept ++ lost ~ old ∧ (made.map (·.file)).Nodup ∧
    ∀ x ∈ made, hasFile fs x = false

theorem Renewed.nodup {fs : FS} {old new : List ManifestRow} (h : Renewed fs old new)
    (hold : ∀ x ∈ old, hasFile fs x = true) (hn : (old.map (·.file)).Nodup) : (new.map (·.file)).Nodup := by
  obtain ⟨kept, made, lost, h1, h2, h3, h4⟩ := h
  rw [(h1.map _).nodup_iff, List.map_append]
  have hk := (h2.map (·.file)).nodup_iff.mpr hn
  rw [List.map_append] at hk
  refine List.nodup_append.mpr ⟨(List.nodup_append.mp hk).1, h3, ?_⟩
  rintro _ hx _ hy rfl
  obtain ⟨x, hx, hxe⟩ := List.mem_map.mp hx
  obtain ⟨y, hy, hye⟩ := List.mem_map.mp hy
  have a := hold x (h2.subset (List.mem_append_left _ hx))
  have b := h4 y hy
  unfold hasFile at a b
  rw [hxe, ← hye, b] at a
  cases a

section
variable {E : Env} {s : Schema} {w0 w w' : World} {op : AppendOp}

/-- The entries a patch adds are for files that were not there in `w`, each once. -/
def AddsNew (w w' : World) (p : Option Patch) : Prop :=
  ∀ q, p = some q → ((q.addIdx.flatMap (entriesOf w'.fs)).map (·.file)).Nodup ∧
    ∀ x ∈ q.addIdx.flatMap (entriesOf w'.fs), hasFile w.fs x = false

theorem Finished.entries {rows : List Row} {carried mf : List ManifestRow} {rmf : List RecManifestRow} {q : Patch}
    (h : Finished E s w0 w' rows carried mf rmf (some q)) : q.addIdx.flatMap (entriesOf w'.fs) = carried ++ mf := by
  obtain ⟨u, -, h1, h2⟩ := h.idx q rfl
  simp [h1, entriesOf, h2]

theorem Finished.notThere {rows : List Row} {carried mf : List ManifestRow} {rmf : List RecManifestRow} {p : Option Patch}
    (h : Finished E s w w' rows carried mf rmf p) (hf : w.Fresh) : ∀ x ∈ mf, hasFile w.fs x = false := by
  intro x hx
  obtain ⟨u, hu, hle⟩ := h.entsNew x hx
  simp [hasFile, FS.parquet, hf x.file u (by rw [hu]; rfl) hle]

theorem Finished.addsNew {rows : List Row} {mf : List ManifestRow} {rmf : List RecManifestRow} {p : Option Patch}
    (h : Finished E s w w' rows [] mf rmf p) (hf : w.Fresh) : AddsNew w w' p := by
  rintro q rfl
  rw [h.entries, List.nil_append]
  exact ⟨h.entsNodup, h.notThere hf⟩

theorem appendBody_new (hf : w.Fresh) (tables : List (List Row)) :
    Post (appendBody E s tables w) (fun p w' => AddsNew w w' p) anyEnd := by
  refine (appendBody_post (E := E) (s := s) hf tables).imp ?_ (fun _ _ => trivial)
  rintro p w' ⟨-, -, P, mf, rmf, h, -⟩
  exact h.addsNew hf

/-! ## Actors -/

/-- No file is listed by two actors. -/
def ActorsListed (as : List Actor) : Prop :=
  ∀ (i j : Nat) (a b : Actor), i ≠ j → as[i]? = some a → as[j]? = some b →
    ∀ x ∈ a.1.mf, ∀ y ∈ b.1.mf, x.file ≠ y.file

theorem hasFile_ne {fs : FS} {x y : ManifestRow} (hx : hasFile fs x = true) (hy : hasFile fs y = false) :
    x.file ≠ y.file := by
  intro h
  unfold hasFile at hx hy
  rw [h, hy] at hx
  cases hx

theorem hasFile_none {fs : FS} {x : ManifestRow} (h : fs.parquet x.file = none) : hasFile fs x = false := by
  simp [hasFile, h]

theorem actorStep_listed {n : Nat} {as : List Actor} {qs : List (List (List Row))}
    (h : ActorsOK E s n w as qs) (hb : ActorsListed as) (i : Nat) :
    Post (actorStep E s i as w) (fun as' _ => ActorsListed as') anyEnd := by
  unfold actorStep
  cases ha : as[i]? with
  | none => exact Post.pure hb
  | some a =>
    obtain ⟨op, q⟩ := a
    cases q with
    | nil => exact Post.pure hb
    | cons t ts =>
      obtain ⟨hop, haddr, -⟩ := h.ops i op _ ha
      have hlt : i < as.length := (List.getElem?_eq_some_iff.mp ha).1
      refine Post.bind ((write_post hop (data := t) (fun hc => by rw [haddr] at hc; cases hc)).imp (fun _ _ h => h) (fun _ _ => trivial)) ?_
      rintro op' w' ⟨-, hst, -⟩
      refine Post.pure ?_
      have mine : ∀ (k : Nat) (b : Actor), i ≠ k → as[k]? = some b → ∀ x ∈ op'.mf, ∀ y ∈ b.1.mf, x.file ≠ y.file := by
        intro k b hik hk x hx y hy
        rcases hst.files x hx with hx | hx
        · exact hb i k _ _ hik ha hk x hx y hy
        · exact (hasFile_ne ((h.ops k b.1 b.2 hk).1.mf y hy).hasFile (hasFile_none hx)).symm
      intro j k a b hjk hj hk
      by_cases hij : i = j
      · subst hij
        rw [List.getElem?_set_self hlt] at hj
        rw [List.getElem?_set_ne hjk] at hk
        cases hj
        exact mine k b hjk hk
      · rw [List.getElem?_set_ne hij] at hj
        by_cases hik : i = k
        · subst hik
          rw [List.getElem?_set_self hlt] at hk
          cases hk
          exact fun x hx y hy => (mine j a (Ne.symm hjk) hj y hy x hx).symm
        · rw [List.getElem?_set_ne hik] at hk
          exact hb j k a b hjk hj hk

theorem actorsRun_listed {n : Nat} : ∀ (sched : List Nat) {w : World} {as : List Actor}
    {qs : List (List (List Row))} (_ : ActorsOK E s n w as qs) (_ : ActorsListed as),
    Post (actorsRun E s sched as w) (fun as' w' => (Grows w w' ∧ ActorsOK E s n w' as' qs) ∧ ActorsListed as') anyEnd
  | [], w, as, qs, h, hb => Post.pure ⟨⟨Grows.refl w, h⟩, hb⟩
  | i :: sched, w, as, qs, h, hb => by
    unfold actorsRun
    refine Post.bind (((actorStep_post h i).and (actorStep_listed h hb i)).imp (fun _ _ h => h) (fun _ _ => trivial)) ?_
    rintro as1 w1 ⟨⟨g1, h1, -⟩, h3⟩
    refine (actorsRun_listed sched h1 h3).imp ?_ (fun _ _ => trivial)
    rintro as2 w2 ⟨⟨g2, h4⟩, h6⟩
    exact ⟨⟨g1.trans g2, h4⟩, h6⟩

/-- The files that finishing actors list: those they have listed and new ones, each once. -/
theorem finishActors_listed {n : Nat} : ∀ (as : List Actor) {w : World} {qs : List (List (List Row))}
    (_ : ActorsOK E s n w as qs) (_ : ActorsListed as),
    Post (finishActors E s as w) (fun ps w' => (Grows w w' ∧
      Gathered E s w w' (as.flatMap (fun a => a.1.rows w.fs)) (mergePatches ps)) ∧
      ∀ q, mergePatches ps = some q → ((q.addIdx.flatMap (entriesOf w'.fs)).map (·.file)).Nodup ∧
        ∀ x ∈ q.addIdx.flatMap (entriesOf w'.fs), (∃ a ∈ as, x ∈ a.1.mf) ∨ hasFile w.fs x = false) anyEnd
  | [], w, qs, h, _ => Post.pure ⟨⟨Grows.refl w, Gathered.nothing _ _ _ _⟩, fun q hq => by cases hq⟩
  | (op, q) :: as, w, qs, h, hb => by
    have hrows := finishActors_rows ((op, q) :: as) h
    refine (hrows.and (F' := anyEnd) ?_).imp (fun _ _ h => h) (fun _ _ => trivial)
    unfold finishActors
    obtain ⟨hop, haddr, hcar, done, hq, -⟩ := h.ops 0 op q rfl
    obtain ⟨q1, qs', rfl⟩ : ∃ a b, qs = a :: b := by
      cases qs with
      | nil => cases hq
      | cons a b => exact ⟨a, b, rfl⟩
    refine Post.bind (((finish_files hop).and (finish_sep (E := E) (s := s) (w := w) (op := op))).imp (fun _ _ h => h)
      (fun _ _ => trivial)) ?_
    rintro p w1 ⟨⟨-, g1, f1, hlook, mf, rmf, hfin, hmf⟩, ⟨op', hsep⟩, hlater⟩
    rw [hcar] at hfin
    have h1 : ActorsOK E s n w1 as qs' := h.tail g1 f1 hsep
    have hb1 : ActorsListed as := fun i j a b hij hi hj =>
      hb (i + 1) (j + 1) a b (by omega) (by simpa using hi) (by simpa using hj)
    refine Post.bind (finishActors_listed as h1 hb1) ?_
    rintro ps w2 ⟨⟨g2, hP⟩, hl⟩
    refine Post.pure fun r hr => ?_
    rw [mergePatches_cons] at hr
    have hmine : ∀ x ∈ mf, (∃ a ∈ ((op, q) :: as : List Actor), x ∈ a.1.mf) ∨ hasFile w.fs x = false := fun x hx =>
      (hmf x hx).imp (fun hx => ⟨_, List.mem_cons_self .., hx⟩) hasFile_none
    have hrest : ∀ x, (∃ a ∈ as, x ∈ a.1.mf) ∨ hasFile w1.fs x = false →
        (∃ a ∈ ((op, q) :: as : List Actor), x ∈ a.1.mf) ∨ hasFile w.fs x = false := by
      rintro x (⟨a, ha, hx⟩ | hx)
      · exact Or.inl ⟨a, List.mem_cons_of_mem _ ha, hx⟩
      · refine Or.inr ?_
        cases hc : hasFile w.fs x with
        | false => rfl
        | true => rw [hasFile_mono g1.le hc] at hx; cases hx
    cases p with
    | none =>
      have hr : mergePatches ps = some r := by simpa [joinOpt] using hr
      obtain ⟨a, b⟩ := hl r hr
      exact ⟨a, fun x hx => hrest x (b x hx)⟩
    | some p =>
      have hp : p.addIdx.flatMap (entriesOf w2.fs) = mf := by
        have hok := hfin.patchOK (by simp)
        rw [(hok.entries g2.le).1, hfin.entries, List.nil_append]
      cases hps : mergePatches ps with
      | none =>
        rw [hps] at hr
        cases hr
        rw [hp]
        exact ⟨hfin.entsNodup, hmine⟩
      | some p2 =>
        rw [hps] at hr
        cases hr
        obtain ⟨a, b⟩ := hl p2 hps
        simp only [joinPatch, List.flatMap_append, hp, List.map_append]
        refine ⟨List.nodup_append.mpr ⟨hfin.entsNodup, a, ?_⟩, fun x hx => ?_⟩
        · rintro _ hx _ hy rfl
          obtain ⟨x, hx, hxe⟩ := List.mem_map.mp hx
          obtain ⟨y, hy, hye⟩ := List.mem_map.mp hy
          have hxy : x.file = y.file := hxe.trans hye.symm
          rcases b y hy with ⟨c, hc, hyc⟩ | hy1
          · obtain ⟨j, hj⟩ := List.mem_iff_getElem?.mp hc
            rcases hmf x hx with hx | hx
            · exact hb 0 (j + 1) _ c (by omega) rfl (by simpa using hj) x hx y hyc hxy
            · exact hasFile_ne ((h.ops (j + 1) c.1 c.2 (by simpa using hj)).1.mf y hyc).hasFile (hasFile_none hx) hxy.symm
          · exact hasFile_ne (hfin.ents x hx).hasFile hy1 hxy
        · rcases List.mem_append.mp hx with hx | hx
          · exact hmine x hx
          · exact hrest x (b x hx)

theorem rayWrite_new (hf : w.Fresh) (sched : List Nat) (qs : List (List (List Row))) :
    Post (rayWrite E s sched qs w) (fun p w' => AddsNew w w' p) anyEnd := by
  unfold rayWrite
  refine Post.bind (actorsRun_listed sched (ActorsOK.init (E := E) (s := s) hf qs) ?_) ?_
  · intro i j a b _ hi _ x hx
    obtain ⟨q, -, rfl⟩ := List.mem_map.mp (List.mem_of_getElem? hi)
    cases hx
  rintro as1 w1 ⟨⟨g1, h1⟩, hb1⟩
  refine Post.bind (actorsRun_listed (drain as1) h1 hb1) ?_
  rintro as2 w2 ⟨⟨g2, h2⟩, hb2⟩
  refine Post.bind (finishActors_listed as2 h2 hb2) ?_
  rintro ps w3 ⟨-, h4⟩
  refine Post.pure fun q hq => ?_
  obtain ⟨a, b⟩ := h4 q hq
  refine ⟨a, fun x hx => ?_⟩
  rcases b x hx with ⟨c, hc, hxc⟩ | hx
  · obtain ⟨j, hj⟩ := List.mem_iff_getElem?.mp hc
    obtain ⟨u, hu, hle⟩ := (h2.ops j c.1 c.2 hj).1.mfNew x hxc
    simp [hasFile, FS.parquet, hf x.file u (by rw [hu]; rfl) hle]
  · cases hc : hasFile w.fs x with
    | false => rfl
    | true => rw [hasFile_mono (g1.trans g2).le hc] at hx; cases hx

theorem rayAppendBody_new (hf : w.Fresh) (n : Nat) (sched : List Nat) (rows : List Row) :
    Post (rayAppendBody E s n sched rows w) (fun p w' => AddsNew w w' p) anyEnd := by
  unfold rayAppendBody
  refine Post.bind (Q := fun _ w' => w = w') (Post.lift (fun _ _ => rfl) trivial) ?_
  rintro qs w' rfl
  exact rayWrite_new hf sched qs

theorem rayAppendFromAll_new (hf : w.Fresh) (n : Nat) (sched : List Nat) (sources : List (List (List Row))) :
    Post (rayAppendFromAll E s n sched sources w) (fun p w' => AddsNew w w' p) anyEnd := by
  unfold rayAppendFromAll
  refine Post.bind (Q := fun _ w' => w = w') (Post.lift (fun _ _ => rfl) trivial) ?_
  rintro qs w' rfl
  exact rayWrite_new hf sched qs

end

/-! ## Deletes -/

section
variable {E : Env} {s : Schema} {m : Mutation} {h h' h1 : Handle} {wb w w' w1 : World} {p : Patch}
  {cur snap : Snapshot} {e : Expr}

theorem DeleteOut.renewed {index : List Path} {mf : Option MExpr} {dp : Option Patch} (hf : w.Fresh)
    (hi : index.Nodup) (hok : ∀ q ∈ index, ManifestOK w.fs s q) (hg : Grows w w1)
    (h : DeleteOut E s e w w1 index mf dp) :
    Renewed w.fs (index.flatMap (entriesOf w.fs))
      ((index.filter (fun q => !((dp.map (·.delIdx)).getD []).contains q) ++
        (dp.map (·.addIdx)).getD []).flatMap (entriesOf w1.fs)) := by
  have mono : ∀ l : List Path, (∀ q ∈ l, q ∈ index) → l.flatMap (entriesOf w1.fs) = l.flatMap (entriesOf w.fs) :=
    fun l hl => flatMap_congr' fun q hq => entriesOf_mono hg.le (hok q (hl q hq))
  rcases h.out with ⟨rfl, -⟩ | ⟨q, dms, carried, mf', rmf, rp, rfl, hd⟩
  · refine ⟨index.flatMap (entriesOf w.fs), [], [], ?_, by simp, by simp, by simp⟩
    simp only [Option.map_none, Option.getD_none, filter_none, List.append_nil]
    rw [mono _ fun _ h => h]
  · have hdel : index.filter (fun x => !q.delIdx.contains x) = index.filter (fun x => !hasMod E.I e w.fs mf x) := by
      refine List.filter_congr fun x hx => ?_
      congr 1
      rw [hd.delIdx, Bool.eq_iff_iff]
      simp only [List.contains_eq_mem, decide_eq_true_eq, hd.mem_dms, hx, true_and]
    simp only [Option.map_some, Option.getD_some]
    rw [List.flatMap_append, hdel, mono _ fun x hx => (List.mem_filter.mp hx).1, hd.addIdx]
    have hsplit := split_perm (hasMod E.I e w.fs mf) (entriesOf w.fs) index
    cases rp with
    | none =>
      refine ⟨(index.filter (fun x => !hasMod E.I e w.fs mf x)).flatMap (entriesOf w.fs), [], _, by simp, hsplit, by simp, by simp⟩
    | some r =>
      have hsub : carried.Sublist (dms.flatMap (entriesOf w.fs)) := by
        rw [hd.carriedEq]; exact List.filter_sublist
      obtain ⟨lost, hl⟩ := hsub.exists_perm_append
      refine ⟨(index.filter (fun x => !hasMod E.I e w.fs mf x)).flatMap (entriesOf w.fs) ++ carried, mf', lost, ?_, ?_,
        hd.fin.entsNodup, hd.fin.notThere hf⟩
      · simp only [Option.map_some, Option.getD_some]
        rw [hd.fin.entries, List.append_assoc]
      · rw [List.append_assoc]
        exact (Perm.append_left _ (hl.symm.trans ((hd.dms_perm hi).flatMap_right _))).trans hsplit

/-- Entries of one manifest that Ray deletes of its files keep. -/
theorem kept_sub {q : Path} {mf : Option MExpr} (hok : ManifestOK w.fs s q) (hplain : ∀ c ∈ e.cols, c ∉ s.recs)
    (hone : ∀ pre file post, (entriesOf w.fs q).map (fun m => (fileRows w.fs m.file).map (deref w.fs.records s)) =
      pre ++ file :: post → Mixed (e.truth E.I) file → ∀ other ∈ pre ++ post, ¬ Mixed (e.truth E.I) other) :
    ∃ lost, ((entriesOf w.fs q).filter (modEntry E.I e w.fs mf)).flatMap (fun m => fileKept E.I e w.fs q m.file) ++ lost ~
      entriesOf w.fs q := by
  have mixed : ∀ m ∈ entriesOf w.fs q, modEntry E.I e w.fs mf m = true → survRows E.I e w.fs m.file ≠ [] →
      Mixed (e.truth E.I) ((fileRows w.fs m.file).map (deref w.fs.records s)) := by
    intro m hm hmod hs
    obtain ⟨y, hy, hty⟩ := not_false_of_mod (hok.entry hm) hmod
    obtain ⟨x, hx⟩ := List.exists_mem_of_ne_nil _ hs
    obtain ⟨hx1, hx2⟩ := List.mem_filter.mp hx
    exact ⟨⟨_, List.mem_map.mpr ⟨y, hy, rfl⟩, by rwa [truth_deref hplain]⟩,
      _, List.mem_map.mpr ⟨x, hx1, rfl⟩, by rw [truth_deref hplain]; exact fails_iff.mp hx2⟩
  by_cases hex : ∃ m ∈ entriesOf w.fs q, modEntry E.I e w.fs mf m = true ∧ survRows E.I e w.fs m.file ≠ []
  · obtain ⟨m, hm, hmod, hs⟩ := hex
    obtain ⟨pre, post, hsplit⟩ := List.append_of_mem hm
    have hno := hone (pre.map (fun m => (fileRows w.fs m.file).map (deref w.fs.records s)))
      ((fileRows w.fs m.file).map (deref w.fs.records s)) (post.map (fun m => (fileRows w.fs m.file).map (deref w.fs.records s)))
      (by rw [hsplit]; simp) (mixed m hm hmod hs)
    have hnil : ∀ x ∈ pre ++ post, modEntry E.I e w.fs mf x = true → fileKept E.I e w.fs q x.file = [] := by
      intro x hx hxm
      unfold fileKept
      split
      · rfl
      · rename_i hxs
        have hxe : x ∈ entriesOf w.fs q := by
          rw [hsplit]
          rcases List.mem_append.mp hx with hx | hx
          · exact List.mem_append_left _ hx
          · exact List.mem_append_right _ (List.mem_cons_of_mem _ hx)
        refine absurd (mixed x hxe hxm hxs) (hno _ ?_)
        rw [← List.map_append]
        exact List.mem_map.mpr ⟨x, hx, rfl⟩
    have hone : ((entriesOf w.fs q).filter (modEntry E.I e w.fs mf)).flatMap (fun m => fileKept E.I e w.fs q m.file) =
        fileKept E.I e w.fs q m.file := by
      rw [hsplit, List.filter_append, List.filter_cons_of_pos hmod, List.flatMap_append, List.flatMap_cons,
        List.flatMap_eq_nil_iff.mpr fun x hx => hnil x (List.mem_append_left _ (List.mem_filter.mp hx).1)
          (List.mem_filter.mp hx).2,
        List.flatMap_eq_nil_iff.mpr fun x hx => hnil x (List.mem_append_right _ (List.mem_filter.mp hx).1)
          (List.mem_filter.mp hx).2]
      simp
    rw [hone]
    unfold fileKept
    rw [if_neg hs]
    obtain ⟨l, hl⟩ := (List.filter_sublist (p := fun x => !decide (x.file = m.file)) (l := entriesOf w.fs q)).exists_perm_append
    exact ⟨l, hl.symm⟩
  · refine ⟨entriesOf w.fs q, ?_⟩
    rw [List.flatMap_eq_nil_iff.mpr fun m hm => ?_]
    · exact Perm.refl _
    · obtain ⟨h1, h2⟩ := List.mem_filter.mp hm
      unfold fileKept
      rw [if_pos]
      exact Classical.byContradiction fun hc => hex ⟨m, h1, h2, hc⟩

theorem RayMerged.renewed {mf : Option MExpr} (hok : ∀ q ∈ cur.index, ManifestOK w.fs s q) (hg : Grows w w1)
    (hd : RayDeleted E s e w w1 cur.index mf p) (ho : NewOnce w w w1 p) (hplain : ∀ c ∈ e.cols, c ∉ s.recs)
    (hone : MixedOnce (e.truth E.I) (layout w.fs s cur)) :
    Renewed w.fs (cur.index.flatMap (entriesOf w.fs))
      ((cur.index.filter (fun q => !p.delIdx.contains q) ++ p.addIdx).flatMap (entriesOf w1.fs)) := by
  have hdel : cur.index.filter (fun x => !p.delIdx.contains x) =
      cur.index.filter (fun x => !hasMod E.I e w.fs mf x) := by
    refine List.filter_congr fun x hx => ?_
    congr 1
    rw [Bool.eq_iff_iff]
    simp only [List.contains_eq_mem, decide_eq_true_eq, hd.mem_del, hx, true_and]
  have hleft : (cur.index.filter (fun x => !hasMod E.I e w.fs mf x)).flatMap (entriesOf w1.fs) =
      (cur.index.filter (fun x => !hasMod E.I e w.fs mf x)).flatMap (entriesOf w.fs) :=
    flatMap_congr' fun q hq => entriesOf_mono hg.le (hok q (List.mem_filter.mp hq).1)
  have hkept := hd.olds
  rw [mods_pairs (g := fun q f => fileKept E.I e w.fs q f.path) (g' := fun q m => fileKept E.I e w.fs q m.file)
    (fun _ _ _ => rfl)] at hkept
  have key : ∃ lost, cur.index.flatMap (fun q => ((entriesOf w.fs q).filter (modEntry E.I e w.fs mf)).flatMap
      (fun m => fileKept E.I e w.fs q m.file)) ++ lost ~ (cur.index.filter (hasMod E.I e w.fs mf)).flatMap (entriesOf w.fs) := by
    rw [flatMap_filter_ite]
    refine sub_flatMap fun q hq => ?_
    split
    · exact kept_sub (hok q hq) hplain (hone _ (mem_layout hq))
    · rename_i hmod
      simp only [hasMod, Bool.not_eq_true, List.any_eq_false] at hmod
      rw [List.filter_eq_nil_iff.mpr fun m hm => by simp [hmod m hm]]
      exact ⟨[], Perm.refl _⟩
  obtain ⟨lost, hl⟩ := key
  rw [← hkept] at hl
  refine ⟨(cur.index.filter (fun x => !hasMod E.I e w.fs mf x)).flatMap (entriesOf w.fs) ++
    (p.addIdx.flatMap (entriesOf w1.fs)).filter (hasFile w.fs),
    (p.addIdx.flatMap (entriesOf w1.fs)).filter (fun x => !hasFile w.fs x), lost, ?_, ?_, ho.once, ?_⟩
  · rw [List.flatMap_append, hdel, hleft, List.append_assoc]
    exact Perm.append_left _ (List.filter_append_perm _ _).symm
  · rw [List.append_assoc]
    exact (Perm.append_left _ hl).trans (split_perm (hasMod E.I e w.fs mf) _ _)
  · intro x hx
    simpa using (List.mem_filter.mp hx).2

/-- A Ray delete finds no manifest with two files that have both rows to delete and rows to keep; a
load of Parquet files is given no file twice and none that is listed. -/
def Mutation.ListsOnce (I : Interp) (s : Schema) (fs : FS) (cur : Snapshot) : Mutation → Prop
  | .rayDelete e => (∀ c ∈ e.cols, c ∉ s.recs) ∧ MixedOnce (e.truth I) (layout fs s cur)
  | .appendParquet files => files.Nodup ∧ ∀ q ∈ files, q ∉ listedFiles fs cur.index
  | _ => True

/-- A mutation that lists no file twice. -/
theorem Success.listed (hn : s.names.Nodup) (hs : Success E s m h wb w h' w' h1 w1 p cur snap)
    (hz : m.ListsOnce E.I s wb.fs cur) (hcur : (listedFiles wb.fs cur.index).Nodup) :
    (listedFiles w'.fs snap.index).Nodup := by
  have mono : ∀ {fs fs' : FS} {index : List Path}, FSLe fs fs' → (∀ q ∈ index, ManifestOK fs s q) →
      listedFiles fs' index = listedFiles fs index := fun hle hok => by
    unfold listedFiles
    rw [flatMap_congr' fun q hq => entriesOf_mono hle (hok q hq)]
  have there : ∀ {fs : FS} {index : List Path}, (∀ q ∈ index, ManifestOK fs s q) →
      ∀ x ∈ index.flatMap (entriesOf fs), hasFile fs x = true := by
    intro fs index hok x hx
    obtain ⟨q, hq, hx⟩ := List.mem_flatMap.mp hx
    exact ((hok q hq).entry hx).hasFile
  have hm : ∀ q ∈ snap.index, ManifestOK w1.fs s q := by
    intro q hq
    rw [hs.index] at hq
    rcases List.mem_append.mp hq with hq | hq
    · exact (hs.curOK.manifests q (List.mem_filter.mp hq).1).mono hs.grows.le
    · exact hs.patch.idx q hq
  rw [mono hs.earlier hs.curOK.manifests] at hcur
  rw [mono hs.le hm, hs.index]
  have adds : ∀ {wm : World} {index : List Path} {ap : Option Patch}, (∀ q ∈ index, ManifestOK wm.fs s q) →
      FSLe wm.fs w1.fs → (listedFiles wm.fs index).Nodup → AddsNew wm w1 ap →
      (listedFiles w1.fs (index ++ (ap.map (·.addIdx)).getD [])).Nodup := by
    intro wm index ap hok hle hnd ha
    cases ap with
    | none => simpa [mono hle hok] using hnd
    | some q =>
      obtain ⟨a, b⟩ := ha q rfl
      refine Renewed.nodup (fs := wm.fs) (old := index.flatMap (entriesOf wm.fs)) ⟨index.flatMap (entriesOf wm.fs),
        q.addIdx.flatMap (entriesOf w1.fs), [], ?_, ?_, a, b⟩ (there hok) hnd
      · simp only [Option.map_some, Option.getD_some, List.flatMap_append]
        rw [flatMap_congr' fun q hq => entriesOf_mono hle (hok q hq)]
      · simp
  have only : p.delIdx = [] → AddsNew w w1 (some p) →
      (listedFiles w1.fs (cur.index.filter (fun m => !p.delIdx.contains m) ++ p.addIdx)).Nodup := by
    intro hd ha
    rw [hd, filter_none]
    exact adds (ap := some p) hs.curOK.manifests hs.grows.le hcur ha
  have inserted : ∀ {mode : InsertMode} {data : List Row}, m.inserts = some (mode, data) →
      (∀ w0 : World, w0.Fresh → Post (m.writer E s w0) (fun p w' => AddsNew w0 w' p) anyEnd) →
      (listedFiles w1.fs (cur.index.filter (fun m => !p.delIdx.contains m) ++ p.addIdx)).Nodup := by
    intro mode data hmi hw
    obtain ⟨e, mf, hout⟩ := hs.insertedG hmi
    obtain ⟨w0, dp, ap, P, g1, f1, g2, hp, hfin, hP, hins, hups, hrun⟩ := hout.out
    obtain ⟨hd, ha, -⟩ := merge_delIdx hp (fun q hq => hfin.del q hq)
    have hnew := Post.elim (hw w0 f1) hrun
    rw [hd, ha, ← List.append_assoc]
    cases mode with
    | insert =>
      obtain ⟨rfl, rfl, -⟩ := hins rfl
      simp only [Option.map_none, Option.getD_none, filter_none, List.append_nil]
      exact adds hs.curOK.manifests g2.le hcur hnew
    | upsert =>
      have hdel := hups rfl
      exact adds (hdel.manifests hn hs.curOK.manifests g1) g2.le
        ((hdel.renewed hs.fresh hs.curOK.nodup hs.curOK.manifests g1).nodup (there hs.curOK.manifests) hcur) hnew
  cases m with
  | append tables =>
    obtain ⟨hd, -, P, mf, rmf, hf, -⟩ := hs.append
    exact only hd (hf.addsNew hs.fresh)
  | rayAppend n sched rows =>
    obtain ⟨P, hg, -⟩ := hs.addedG rfl
    have hb := hs.body
    simp only [Mutation.body, hs.schema] at hb
    have := Post.elim (rayAppendBody_new (w := w) (s := s) hs.fresh n sched rows) hb
    exact only (hg.del p rfl) this
  | rayAppendFrom n sched sources =>
    obtain ⟨P, hg, -⟩ := hs.addedG rfl
    have hb := hs.body
    simp only [Mutation.body, hs.schema] at hb
    have := Post.elim (rayAppendFromAll_new (w := w) (s := s) hs.fresh _ sched sources) hb
    exact only (hg.del p rfl) this
  | insert data => exact inserted rfl fun w0 hf => appendBody_new hf _
  | upsert data => exact inserted rfl fun w0 hf => appendBody_new hf _
  | rayInsert mode n sched data => exact inserted rfl fun w0 hf => rayAppendBody_new hf n sched data
  | appendParquet files =>
    obtain ⟨-, hd, -, -, rows, he, hfiles, -⟩ := hs.loadParquet
    obtain ⟨hnd, hnot⟩ := hz
    rw [mono hs.earlier hs.curOK.manifests] at hnot
    rw [hd, filter_none]
    unfold listedFiles
    rw [List.flatMap_append, List.map_append, he, hfiles]
    have := mono hs.grows.le hs.curOK.manifests
    unfold listedFiles at this
    rw [this]
    refine List.nodup_append.mpr ⟨hcur, hnd, ?_⟩
    rintro x hx _ hy rfl
    exact hnot x hy hx
  | appendArrayRecord fn files =>
    obtain ⟨f, mf, rmf, p0, hrf, hrec, hf, hadd, hd, -⟩ := hs.loadRecords
    refine only hd fun q hq => ?_
    cases hq
    have := hf.addsNew hs.fresh p0 rfl
    rwa [← hadd] at this
  | delete e =>
    have hb := hs.body
    simp only [Mutation.body] at hb
    obtain ⟨-, -, cur', mf, hc, hm, hout⟩ := Post.elim (deleteBody_post (E := E) (e := e) hs.fresh hs.handle) hb
    rw [hs.base] at hc
    cases hc
    exact (hout.renewed hs.fresh hs.curOK.nodup hs.curOK.manifests hs.grows).nodup (there hs.curOK.manifests) hcur
  | sync n sched gone added =>
    obtain ⟨w0, dp, ap, P, g1, f1, g2, hp, hfin, hP, hdp, hrun⟩ := hs.syncedG.out
    obtain ⟨hd, ha, -⟩ := merge_delIdx hp (fun q hq => hfin.del q hq)
    have hnew : AddsNew w0 w1 ap := by
      cases ap with
      | none => exact fun q hq => by cases hq
      | some q =>
        cases added with
        | none => cases hrun
        | some sources =>
          have := Post.elim (rayAppendFromAll_new (w := w0) (s := s) f1 n sched sources) hrun
          exact this
    rw [hd, ha, ← List.append_assoc]
    refine adds (hdp.manifests hn hs.curOK.manifests g1) g2.le ?_ hnew
    rcases hdp with ⟨-, rfl, rfl⟩ | ⟨e, mf, hkey, hmf, hdel⟩
    · simp only [Option.map_none, Option.getD_none, filter_none, List.append_nil]
      exact hcur
    · exact (hdel.renewed hs.fresh hs.curOK.nodup hs.curOK.manifests g1).nodup (there hs.curOK.manifests) hcur
  | rayDelete e =>
    obtain ⟨hplain, hone⟩ := hz
    have hb := hs.body
    simp only [Mutation.body] at hb
    obtain ⟨hg, -, snap', mf, hsn, -, hout⟩ := Post.elim (rayDeleteBody_post hs.fresh hn hs.handle) hb
    rw [hs.base] at hsn
    cases hsn
    rcases hout.out with ⟨hx, -⟩ | ⟨q, hx, -, -, -, hd⟩
    · cases hx
    cases hx
    rw [layout_mono hs.earlier hs.curOK] at hone
    exact (RayMerged.renewed hs.curOK.manifests hs.grows hd (hout.once _ rfl) hplain hone).nodup
      (there hs.curOK.manifests) hcur

end

end Space
