import Verif.RayDeletePacking
import Verif.Props.Touched
import Verif.Props.Packing

/-!
# C85 for deletes: what is left of the files of deleted rows fills new files up to the size limits
-/

set_option autoImplicit false

namespace Space

open Demo
open List (Perm)
open scoped List

/-- C85 for deletes.  The new files of a delete hold what is left of each file that it rewrites, as one table, with the
rows as they were stored, leaving out files of which nothing is left.  These tables are divided in order into row groups and
files as `Packed` says. -/
theorem C85_delete {E : Env} {s : Schema} (hn : s.names.Nodup) {i : Nat} {e : Expr} (he : FilterFits s e) {σ σ' : Sys}
    (h : Done E s i (.delete e) σ σ') :
    ∃ sl sl' cur snap lost kept gone new files, σ.slots[i]? = some sl ∧ σ'.slots[i]? = some sl' ∧
      headOf sl.h σ.w = some cur ∧ headOf sl'.h σ'.w = some snap ∧
      Rewrites σ.w.fs σ'.w.fs s (e.truth E.I) (listedFiles σ.w.fs cur.index) (listedFiles σ'.w.fs snap.index)
        lost kept gone new ∧
      Packed E files ∧
      files.flatten.flatten = (gone.map (fun f => (fileRows σ.w.fs f).filter
        (fun r => e.truth E.I r == some false))).filter (fun t => decide (t ≠ [])) ∧
      new.map σ'.w.fs.parquet = files.map (fun f => some (stored E f)) := by
  obtain ⟨sl, sl', w, h1, w1, p, cur, snap, hl, -⟩ := h.landing hn
  have hs := hl.succ
  have hb := hs.body
  simp only [Mutation.body] at hb
  have hc := Post.elim (deleteBody_packed (E := E) (e := e) hn hs.fresh hs.handle) hb
  obtain ⟨cur', mf, hc, hm, hout, hpack⟩ := hc
  rw [hs.base] at hc
  cases hc
  obtain ⟨lost, kept, gone, new, hr, -, -, hgone, hnew⟩ := hout.rewrites (fs := σ.w.fs) (fs' := σ'.w.fs) hn he hm hs.fresh
    hs.curOK.nodup hs.curOK.manifests hs.grows hs.earlier hs.le
  rw [← hl.before] at hr
  simp only [Option.map_some, Option.getD_some] at hr
  rw [← hl.after] at hr
  obtain ⟨files, p1, p2, p3⟩ := hpack (by simp)
  refine ⟨sl, sl', cur, snap, lost, kept, gone, new, files, hl.slot, hl.slot', hs.head, hs.head', hr, p1, ?_, ?_⟩
  · rw [p2, hgone, List.map_map]
    congr 1
    refine List.map_congr_left fun m hm => ?_
    obtain ⟨q, hq, hme⟩ := List.mem_flatMap.mp (List.mem_filter.mp hm).1
    obtain ⟨g, hg, -⟩ := (hs.curOK.manifests q hq).entry hme
    have hrows : fileRows σ.w.fs m.file = fileRows w.fs m.file := by
      unfold fileRows
      rw [hg, hs.earlier.parquet hg]
    simp only [Function.comp_apply, survRows, hrows]
    refine List.filter_congr fun r _ => ?_
    rw [Bool.eq_iff_iff, fails_iff]
    simp
  · rw [hnew, ← p3, List.map_map]
    refine List.map_congr_left fun m hm => ?_
    have : w1.fs.parquet m.file ∈ files.map (fun f => some (stored E f)) := by
      rw [← p3]; exact List.mem_map_of_mem (f := fun m => w1.fs.parquet m.file) hm
    obtain ⟨f, -, hf⟩ := List.mem_map.mp this
    simp only [Function.comp_apply]
    rw [← hf]
    exact hs.le.parquet hf.symm

/-- C85 for deletes of the Ray runner, which delete file by file: of each file rewritten of which rows are left, one new file
is made of what the Parquet writer makes of them as one table, on every layout.  `gone` are the files rewritten. -/
theorem C85_rayDelete {E : Env} {s : Schema} (hn : s.names.Nodup) {i : Nat} {e : Expr} (he : FilterFits s e) {σ σ' : Sys}
    (h : Done E s i (.rayDelete e) σ σ') :
    ∃ sl sl' cur snap, ∃ gone : List Path, σ.slots[i]? = some sl ∧ σ'.slots[i]? = some sl' ∧
      headOf sl.h σ.w = some cur ∧ headOf sl'.h σ'.w = some snap ∧
      List.Sublist gone (listedFiles σ.w.fs cur.index) ∧
      (∀ f ∈ listedFiles σ.w.fs cur.index, f ∉ gone → ∀ r ∈ filesRows σ.w.fs s [f], e.truth E.I r ≠ some true) ∧
      (∀ f ∈ gone, ∃ r ∈ filesRows σ.w.fs s [f], e.truth E.I r ≠ some false) ∧
      ((listedFiles σ'.w.fs snap.index).filter (fun f => !(listedFiles σ.w.fs cur.index).contains f)).map σ'.w.fs.parquet =
        ((gone.map (fun f => (fileRows σ.w.fs f).filter (fun r => e.truth E.I r == some false))).filter
          (fun t => decide (t ≠ []))).map (fun t => some (E.rgSplit t)) := by
  obtain ⟨sl, sl', w, h1, w1, p, cur, snap, hl, -⟩ := h.landing hn
  have hs := hl.succ
  have hb := hs.body
  simp only [Mutation.body] at hb
  obtain ⟨-, -, cur', mf, hc, hm, hout⟩ := Post.elim (rayDeleteBody_post hs.fresh hn hs.handle) hb
  rw [hs.base] at hc
  cases hc
  have hk := Post.elim (rayDeleteBody_packed (E := E) (e := e) hs.fresh hn hs.handle) hb
  obtain ⟨cur', mf', hc, hm', hnew⟩ := hk
  rw [hs.base] at hc
  cases hc
  rw [hm] at hm'
  cases hm'
  rcases hout.out with ⟨hx, -⟩ | ⟨q, hx, -, -, -, hd⟩
  · cases hx
  cases hx
  have hent : ∀ m ∈ cur.index.flatMap (entriesOf w.fs), EntryOK w.fs w.fs.records s m := by
    intro m hm
    obtain ⟨q, hq, hm⟩ := List.mem_flatMap.mp hm
    exact (hs.curOK.manifests q hq).entry hm
  refine ⟨sl, sl', cur, snap, ((cur.index.flatMap (entriesOf w.fs)).filter (modEntry E.I e w.fs mf)).map (·.file),
    hl.slot, hl.slot', hs.head, hs.head', ?_, ?_, ?_, ?_⟩
  · rw [hl.before]
    exact List.Sublist.map _ List.filter_sublist
  · rw [hl.before]
    intro f hf hg r hr ht
    obtain ⟨m, hme, rfl⟩ := List.mem_map.mp hf
    rw [filesRows_mono hs.earlier (hent m hme)] at hr
    obtain ⟨x, hx, rfl⟩ := mem_filesRows.mp hr
    rw [truth_logical he] at ht
    exact hg (List.mem_map_of_mem (List.mem_filter.mpr ⟨hme, modEntry_of_true he.prune hm (hent m hme) hx ht⟩))
  · intro f hf
    obtain ⟨m, hmem, rfl⟩ := List.mem_map.mp hf
    obtain ⟨hme, hmod⟩ := List.mem_filter.mp hmem
    obtain ⟨x, hx, hxt⟩ := not_false_of_mod (hent m hme) hmod
    refine ⟨_, ?_, (truth_logical (E := E) he x w.fs.records).symm ▸ hxt⟩
    rw [filesRows_mono hs.earlier (hent m hme)]
    exact mem_filesRows.mpr ⟨x, hx, rfl⟩
  · have hfil : (listedFiles σ'.w.fs snap.index).filter (fun f => !(listedFiles σ.w.fs cur.index).contains f) =
        ((p.addIdx.flatMap (entriesOf w1.fs)).filter (fun m => !hasFile w.fs m)).map (·.file) := by
      rw [hl.after, hl.before]
      unfold listedFiles
      rw [List.flatMap_append, List.map_append, List.filter_append, List.filter_map, List.filter_map]
      have a1 : ((cur.index.filter (fun q => !p.delIdx.contains q)).flatMap (entriesOf w1.fs)).filter
          ((fun f => !((cur.index.flatMap (entriesOf w.fs)).map (·.file)).contains f) ∘ (·.file)) = [] := by
        rw [List.filter_eq_nil_iff]
        intro m hm
        obtain ⟨q, hq, hm⟩ := List.mem_flatMap.mp hm
        have hq := (List.mem_filter.mp hq).1
        rw [entriesOf_mono hs.grows.le (hs.curOK.manifests q hq)] at hm
        simp only [Function.comp_apply, Bool.not_eq_true', Bool.not_eq_false]
        simp only [List.contains_eq_mem, decide_eq_true_eq]
        exact List.mem_map_of_mem (List.mem_flatMap.mpr ⟨q, hq, hm⟩)
      rw [a1, List.map_nil, List.nil_append]
      congr 1
      refine List.filter_congr fun m hm => ?_
      simp only [Function.comp_apply]
      congr 1
      rw [Bool.eq_iff_iff, List.contains_eq_mem, decide_eq_true_eq]
      constructor
      · intro hx
        obtain ⟨y, hy, hxy⟩ := List.mem_map.mp hx
        have := (hent y hy).hasFile
        unfold hasFile at this ⊢
        rw [← hxy]
        exact this
      · intro hx
        have : m ∈ (p.addIdx.flatMap (entriesOf w1.fs)).filter (hasFile w.fs) := List.mem_filter.mpr ⟨hm, hx⟩
        rw [hd.olds, mods_pairs (g := fun q f => fileKept E.I e w.fs q f.path)
          (g' := fun q m => fileKept E.I e w.fs q m.file) (fun _ _ _ => rfl)] at this
        obtain ⟨q, hq, this⟩ := List.mem_flatMap.mp this
        obtain ⟨y, -, this⟩ := List.mem_flatMap.mp this
        refine List.mem_map_of_mem (List.mem_flatMap.mpr ⟨q, hq, ?_⟩)
        unfold fileKept at this
        split at this
        · cases this
        · exact (List.mem_filter.mp this).1
    rw [hfil, List.map_map]
    have hmono : ((p.addIdx.flatMap (entriesOf w1.fs)).filter (fun m => !hasFile w.fs m)).map
        (σ'.w.fs.parquet ∘ (·.file)) = newOf w.fs w1.fs p.addIdx := by
      unfold newOf
      refine List.map_congr_left fun m hm => ?_
      obtain ⟨q, hq, hm⟩ := List.mem_flatMap.mp (List.mem_filter.mp hm).1
      obtain ⟨g, hg, -⟩ := (hs.patch.idx q hq).entry hm
      simp only [Function.comp_apply]
      rw [hg]
      exact hs.le.parquet hg
    simp only [Option.map_some, Option.getD_some] at hnew
    rw [hmono, hnew, List.map_map]
    have hrows : ∀ m ∈ (cur.index.flatMap (entriesOf w.fs)).filter (modEntry E.I e w.fs mf),
        (fileRows σ.w.fs m.file).filter (fun r => e.truth E.I r == some false) = survRows E.I e w.fs m.file := by
      intro m hm
      rw [fileRows_mono hs.earlier (hent m (List.mem_filter.mp hm).1)]
      unfold survRows
      refine List.filter_congr fun r _ => ?_
      rw [Bool.eq_iff_iff, fails_iff]
      simp
    refine Eq.trans ?_ (congrArg (fun l => (l.filter (fun t => decide (t ≠ []))).map (fun t => some (E.rgSplit t)))
      (List.map_congr_left (g := fun m => survRows E.I e w.fs m.file) (fun m hm => hrows m hm)).symm)
    clear hrows hmono hfil hnew
    generalize (cur.index.flatMap (entriesOf w.fs)).filter (modEntry E.I e w.fs mf) = l
    induction l with
    | nil => rfl
    | cons m l ih =>
      rw [List.flatMap_cons, ih, List.map_cons]
      unfold oneFile
      by_cases h0 : survRows E.I e w.fs m.file = [] <;> simp [h0]

/-- C85 for inserts and upserts: the rows given, however many, make one new file of what the Parquet writer makes of one
table, listed last; before it an insert leaves the files as they were. -/
theorem C85_insert {E : Env} {s : Schema} (hn : s.names.Nodup) {i : Nat} {m : Mutation} {rows : List Row}
    (hm : m = .insert rows ∨ m = .upsert rows) {σ σ' : Sys} (h : Done E s i m σ σ') :
    ∃ sl sl' cur snap now f t, σ.slots[i]? = some sl ∧ σ'.slots[i]? = some sl' ∧
      headOf sl.h σ.w = some cur ∧ headOf sl'.h σ'.w = some snap ∧
      listedFiles σ'.w.fs snap.index = now ++ [f] ∧ f ∉ listedFiles σ.w.fs cur.index ∧
      σ'.w.fs.parquet f = some (E.rgSplit t) ∧
      t.map (deref σ'.w.fs.records s) = rows.map (·.select s.writeNames) ∧
      (m = .insert rows → now = listedFiles σ.w.fs cur.index) := by
  obtain ⟨sl, sl', w, h1, w1, p, cur, snap, hl, -⟩ := h.landing hn
  have hs := hl.succ
  obtain ⟨mode, hmode, hbody⟩ : ∃ mode, (mode = .insert ↔ m = .insert rows) ∧
      m.body E h1 = insertBody E h1 mode rows := by
    rcases hm with rfl | rfl
    · exact ⟨.insert, by simp, rfl⟩
    · exact ⟨.upsert, by simp, rfl⟩
  obtain ⟨e, mf, hout⟩ := hs.inserted hbody
  obtain ⟨w0, dp, ap, P, mf', rmf, g1, f1, g2, hp, hfin, hP, hins, hups, happ⟩ := hout.out
  obtain ⟨-, -, -, -, hne⟩ := primaryKeyFilter_sem hout.key E.I
  have hpk := Post.elim (appendBody_packed (E := E) (s := s) f1 [rows]) happ
  obtain ⟨hd, ha, -⟩ := merge_delIdx hp (fun q hq => (hfin.gathered0 f1 (g2.fresh f1)).del q hq)
  cases hap : ap with
  | none =>
    subst hap
    have h0 := hfin.none_iff.mp rfl
    rw [sumRows_zero hfin.ents, hfin.rowsEq] at h0
    have h0 := List.length_eq_zero_iff.mp (Int.ofNat_eq_zero.mp h0)
    rw [h0] at hP
    exact absurd (List.map_eq_nil_iff.mp hP.symm) hne
  | some a =>
    subst hap
    obtain ⟨files, p1, p2, p3⟩ := hpk a rfl
    rw [List.filter_cons_of_pos (by simpa using hne)] at p2
    simp only [List.filter_nil, List.map_cons, List.map_nil] at p2
    obtain ⟨t, htab, ht⟩ : ∃ t, files.flatten.flatten = [t] ∧
        t.map (deref w1.fs.records s) = rows.map (·.select s.writeNames) := by
      generalize files.flatten.flatten = l at p2
      cases l with
      | nil => cases p2
      | cons t l =>
        simp only [List.map_cons, List.cons.injEq, List.map_eq_nil_iff] at p2
        exact ⟨t, by rw [p2.2], p2.1⟩
    have hfiles := p1.single htab
    subst hfiles
    have hents := hfin.entries
    simp only [List.nil_append] at hents
    rw [hents] at p3
    obtain ⟨x, rfl⟩ : ∃ x, mf' = [x] := by
      cases mf' with
      | nil => cases p3
      | cons x l =>
        cases l with
        | nil => exact ⟨x, rfl⟩
        | cons y l => simp at p3
    have hx : w1.fs.parquet x.file = some (E.rgSplit t) := by
      refine (List.head_eq_of_cons_eq p3).trans ?_
      simp [stored]
    refine ⟨sl, sl', cur, snap, listedFiles w1.fs (cur.index.filter (fun q => !p.delIdx.contains q) ++
      (dp.map (·.addIdx)).getD []), x.file, t, hl.slot, hl.slot', hs.head, hs.head', ?_, ?_, hs.le.parquet hx, ?_, ?_⟩
    · rw [hl.after, ha, ← List.append_assoc]
      unfold listedFiles
      rw [List.flatMap_append, List.map_append]
      simp only [Option.map_some, Option.getD_some, hents, List.map_cons, List.map_nil]
    · rw [hl.before]
      intro hmem
      obtain ⟨y, hy, hxy⟩ := List.mem_map.mp hmem
      obtain ⟨q, hq, hy⟩ := List.mem_flatMap.mp hy
      have b := hfin.notThere f1 x (by simp)
      have a := hasFile_mono g1.le ((hs.curOK.manifests q hq).entry hy).hasFile
      unfold hasFile at a b
      rw [hxy, b] at a
      cases a
    · rw [← ht]
      refine map_deref_mono hs.le.lookLe fun r hr => ?_
      refine (fileRows_mem (hfin.ents x (by simp)) r ?_).2
      unfold fileRows
      rw [hx, Option.getD_some, E.rgSplit_flatten]
      exact hr
    · intro hmi
      obtain ⟨rfl, rfl, -⟩ := hins (hmode.mpr hmi)
      have hd' : p.delIdx = [] := hd
      rw [hl.before, hd']
      have hkeep : cur.index.filter (fun q => !([] : List Path).contains q) = cur.index :=
        List.filter_eq_self.mpr fun _ _ => rfl
      rw [hkeep]
      unfold listedFiles
      simp only [Option.map_none, Option.getD_none, List.append_nil]
      rw [flatMap_congr' fun q hq => entriesOf_mono g2.le (hs.curOK.manifests q hq)]

/-- A delete that cuts three files: what is left of the first two fills a new file, what is left of the third goes to
another. -/
example : ∃ σ σ', FilterFits schema (idIs "equal" 1) ∧ Done env schema 0 (.delete (idIs "equal" 1)) σ σ' ∧
    filesNow σ = [some [.index 1, .index 3, .index 5]] ∧ filesNow σ' = [some [.index 11, .index 12]] ∧
    ((σ'.w.fs.parquet (.index 11)).map fun g => g.map (·.length)) = some [3, 3] ∧
    ((σ'.w.fs.parquet (.index 12)).map fun g => g.map (·.length)) = some [3] := by
  let σ := after env anyB schema [.call 0 (.mutate (.append [[row 1 "a" [1], row 2 "b" [2], row 3 "c" [3], row 4 "d" [4]],
    [row 1 "e" [5], row 6 "f" [6], row 7 "g" [7], row 8 "h" [8]], [row 1 "i" [9], row 9 "j" [9], row 10 "k" [9], row 11 "l" [9]]]))]
  obtain ⟨e, hst⟩ := doing_step (E := env) (s := schema) (σ := σ) (a := .call 0 (.mutate (.delete (idIs "equal" 1))))
    (o := .res (.job .succeeded)) (by decide +kernel)
  exact ⟨σ, _, fitsB_fits (by decide), .call (after_reach (fun _ _ _ => trivial) _) hst,
    by decide +kernel, by decide +kernel, by decide +kernel, by decide +kernel⟩

/-- An upsert of three rows, one of which is there: they make one file of one row group. -/
example : ∃ σ σ', Done env schema 0 (.upsert [row 2 "B" [5], row 11 "k" [], row 12 "l" []]) σ σ' ∧
    filesNow σ = [some [.index 1]] ∧ filesNow σ' = [some [.index 7, .index 9]] ∧
    ((σ'.w.fs.parquet (.index 9)).map fun g => g.map (·.length)) = some [3] := by
  let σ := after env anyB schema [.call 0 (.mutate (.append [[row 1 "a" [1], row 2 "b" [2]]]))]
  obtain ⟨e, hst⟩ := doing_step (E := env) (s := schema) (σ := σ)
    (a := .call 0 (.mutate (.upsert [row 2 "B" [5], row 11 "k" [], row 12 "l" []]))) (o := .res (.job .succeeded)) (by decide +kernel)
  exact ⟨σ, _, .call (after_reach (fun _ _ _ => trivial) _) hst, by decide +kernel, by decide +kernel, by decide +kernel⟩

/-- A delete of the Ray runner that cuts two files: each makes a file of its own. -/
example : ∃ σ σ', FilterFits schema (idIs "equal" 1) ∧ Done env schema 0 (.rayDelete (idIs "equal" 1)) σ σ' ∧
    filesNow σ = [some [.index 1, .index 7]] ∧ filesNow σ' = [some [.index 13, .index 15]] ∧
    ((σ'.w.fs.parquet (.index 13)).map fun g => g.map (·.length)) = some [3] ∧
    ((σ'.w.fs.parquet (.index 15)).map fun g => g.map (·.length)) = some [2] := by
  let σ := after env anyB schema [.call 0 (.mutate (.append [[row 1 "a" [1], row 2 "b" [2], row 3 "c" [3], row 4 "d" [4]]])),
    .call 0 (.mutate (.append [[row 1 "e" [5], row 6 "f" [6], row 7 "g" [7]]]))]
  obtain ⟨e, hst⟩ := doing_step (E := env) (s := schema) (σ := σ) (a := .call 0 (.mutate (.rayDelete (idIs "equal" 1))))
    (o := .res (.job .succeeded)) (by decide +kernel)
  exact ⟨σ, _, fitsB_fits (by decide), .call (after_reach (fun _ _ _ => trivial) _) hst,
    by decide +kernel, by decide +kernel, by decide +kernel, by decide +kernel⟩

end Space
