import Verif.Touched
import Verif.Props.IndexFiles
import Verif.Props.Delete
import Verif.Props.Keys
import Verif.Props.Stats

/-!
# C86: a delete rewrites only the files that hold rows to delete
-/

set_option autoImplicit false

namespace Space

open Demo
open List (Perm)
open scoped List

section
variable {fs fs' : FS} {s : Schema} {m : ManifestRow}

theorem filesRows_mono (hle : FSLe fs fs') (h : EntryOK fs fs.records s m) :
    filesRows fs' s [m.file] = filesRows fs s [m.file] := by
  simp only [filesRows, List.flatMap_cons, List.flatMap_nil, List.append_nil]
  show ((fileRows fs' m.file).map _).map _ = ((fileRows fs m.file).map _).map _
  rw [fileRows_mono hle h, map_deref_mono hle.lookLe fun r hr => (fileRows_mem h r hr).2]

theorem mem_filesRows {f : Path} {r : Row} :
    r ∈ filesRows fs s [f] ↔ ∃ x ∈ fileRows fs f, (deref fs.records s x).select s.writeNames = r := by
  simp only [filesRows, List.flatMap_cons, List.flatMap_nil, List.append_nil, List.map_map]
  exact List.mem_map

theorem filesRows_map (ms : List ManifestRow) :
    filesRows fs s (ms.map (·.file)) = ms.flatMap fun m => filesRows fs s [m.file] := by
  simp [filesRows, List.flatMap_map]

end

theorem filesRows_listed_mono {fs fs' : FS} {s : Schema} {index : List Path} (hle : FSLe fs fs')
    (hok : ∀ q ∈ index, ManifestOK fs s q) :
    filesRows fs' s (listedFiles fs index) = filesRows fs s (listedFiles fs index) := by
  unfold listedFiles
  rw [filesRows_map, filesRows_map]
  refine flatMap_congr' fun m hm => filesRows_mono hle ?_
  obtain ⟨q, hq, hm⟩ := List.mem_flatMap.mp hm
  exact (hok q hq).entry hm

/-- What C86 says of the files listed before a delete, of those listed after it and of those that it lost. -/
structure Rewrites (fs fs' : FS) (s : Schema) (truth : Row → Option Bool) (old now lost : List Path)
    (same torn new : List Path) : Prop where
  /-- A file of before is kept or gone. -/
  before : old ~ same ++ torn
  /-- What is listed after are the files kept, but for those lost, and new files. -/
  after : now ++ lost ~ same ++ new
  /-- A file with a row to delete is not kept. -/
  kept : ∀ f ∈ same, ∀ r ∈ filesRows fs s [f], truth r ≠ some true
  /-- A file all of whose rows are to be kept is not gone. -/
  gone : ∀ f ∈ torn, ∃ r ∈ filesRows fs s [f], truth r ≠ some false
  /-- The new files are different ones and were not listed. -/
  nodup : new.Nodup
  fresh : ∀ f ∈ new, f ∉ old
  /-- They hold what is to be kept of the files gone. -/
  rows : filesRows fs' s new ~ (filesRows fs s torn).filter (fun r => truth r == some false)

theorem mem_filesRows_of {fs : FS} {s : Schema} {f : Path} {l : List Path} (hf : f ∈ l) {r : Row}
    (hr : r ∈ filesRows fs s [f]) : r ∈ filesRows fs s l := by
  simp only [filesRows, List.flatMap_cons, List.flatMap_nil, List.append_nil] at hr
  exact List.mem_flatMap.mpr ⟨f, hf, hr⟩

theorem Rewrites.congr {fs fs' : FS} {s : Schema} {f g : Row → Option Bool} {old now lost kept gone new : List Path}
    (h : Rewrites fs fs' s f old now lost kept gone new) (hfg : ∀ r ∈ filesRows fs s old, f r = g r) :
    Rewrites fs fs' s g old now lost kept gone new := by
  refine { h with kept := ?_, gone := ?_, rows := ?_ }
  · intro x hx r hr
    rw [← hfg r (mem_filesRows_of (h.before.mem_iff.mpr (List.mem_append_left _ hx)) hr)]
    exact h.kept x hx r hr
  · intro x hx
    obtain ⟨r, hr, ht⟩ := h.gone x hx
    refine ⟨r, hr, ?_⟩
    rwa [← hfg r (mem_filesRows_of (h.before.mem_iff.mpr (List.mem_append_right _ hx)) hr)]
  · refine h.rows.trans (Perm.of_eq (List.filter_congr fun r hr => ?_))
    obtain ⟨x, hx, hr⟩ := List.mem_flatMap.mp hr
    rw [hfg r (List.mem_flatMap.mpr ⟨x, h.before.mem_iff.mpr (List.mem_append_right _ hx), hr⟩)]

section
variable {E : Env} {s : Schema} {e : Expr} {w w1 : World} {fs fs' : FS} {mf : Option MExpr}

theorem truth_logical (he : FilterFits s e) (x : Row) (L : Look) :
    e.truth E.I ((deref L s x).select s.writeNames) = e.truth E.I x := by
  rw [truth_select he, truth_deref he.plain]

/-- The rows of new files, as those of the files that they replace. -/
theorem made_rows {made : List ManifestRow} (hle' : FSLe w1.fs fs') (h : ∀ m ∈ made, EntryOK w1.fs w1.fs.records s m) :
    filesRows fs' s (made.map (·.file)) =
      (made.flatMap (fun m => fileRows w1.fs m.file)).map (fun x => (deref w1.fs.records s x).select s.writeNames) := by
  rw [filesRows_map, flatMap_congr' fun m hm => filesRows_mono hle' (h m hm), List.map_flatMap]
  refine flatMap_congr' fun m _ => ?_
  simp only [filesRows, List.flatMap_cons, List.flatMap_nil, List.append_nil, List.map_map]
  rfl

theorem gone_rows {gone : List ManifestRow} (he : FilterFits s e) (hg : Grows w w1) (hle : FSLe w.fs fs)
    (hent : ∀ m ∈ gone, EntryOK w.fs w.fs.records s m) :
    (filesRows fs s (gone.map (·.file))).filter (fun r => e.truth E.I r == some false) =
      (gone.flatMap (fun m => survRows E.I e w.fs m.file)).map
        (fun x => (deref w1.fs.records s x).select s.writeNames) := by
  rw [filesRows_map, flatMap_congr' fun m hm => filesRows_mono hle (hent m hm), filter_flatMap', List.map_flatMap]
  refine flatMap_congr' fun m hm => ?_
  have hone : filesRows w.fs s [m.file] =
      (fileRows w.fs m.file).map fun x => (deref w.fs.records s x).select s.writeNames := by
    simp only [filesRows, List.flatMap_cons, List.flatMap_nil, List.append_nil, List.map_map]
    rfl
  rw [hone, List.filter_map]
  have : ∀ x ∈ fileRows w.fs m.file, ((fun r => e.truth E.I r == some false) ∘
      fun x => (deref w.fs.records s x).select s.writeNames) x = e.fails E.I x := by
    intro x hx
    simp only [Function.comp_apply, truth_logical he]
    rw [Bool.eq_iff_iff, fails_iff]
    simp
  rw [List.filter_congr this]
  refine List.map_congr_left fun x hx => ?_
  rw [deref_mono hg.le.lookLe (fileRows_mem (hent m hm) x (List.mem_filter.mp hx).1).2]

theorem rewrites_of {index index' : List Path} {made lost : List ManifestRow} (he : FilterFits s e)
    (hm : manifestFilter s (some e) = .ok mf) (hok : ∀ q ∈ index, ManifestOK w.fs s q) (hg : Grows w w1)
    (hle : FSLe w.fs fs) (hle' : FSLe w1.fs fs')
    (t1 : index'.flatMap (entriesOf w1.fs) ++ lost ~
      (index.flatMap (entriesOf w.fs)).filter (fun m => !modEntry E.I e w.fs mf m) ++ made)
    (t3 : (made.map (·.file)).Nodup) (t4 : ∀ m ∈ made, hasFile w.fs m = false ∧ EntryOK w1.fs w1.fs.records s m)
    (t5 : made.flatMap (fun m => fileRows w1.fs m.file) ~
      ((index.flatMap (entriesOf w.fs)).filter (modEntry E.I e w.fs mf)).flatMap (fun m => survRows E.I e w.fs m.file)) :
    Rewrites fs fs' s (e.truth E.I) (listedFiles w.fs index) (listedFiles w1.fs index') (lost.map (·.file))
      (((index.flatMap (entriesOf w.fs)).filter (fun m => !modEntry E.I e w.fs mf m)).map (·.file))
      (((index.flatMap (entriesOf w.fs)).filter (modEntry E.I e w.fs mf)).map (·.file)) (made.map (·.file)) := by
  let ents := index.flatMap (entriesOf w.fs)
  have hent : ∀ m ∈ ents, EntryOK w.fs w.fs.records s m := by
    intro m hm
    obtain ⟨q, hq, hm⟩ := List.mem_flatMap.mp hm
    exact (hok q hq).entry hm
  constructor
  · show ents.map (·.file) ~ _
    rw [← List.map_append]
    exact ((List.filter_append_perm _ ents).symm.trans List.perm_append_comm).map _
  · unfold listedFiles
    rw [← List.map_append, ← List.map_append]
    exact t1.map _
  · intro f hf r hr ht
    obtain ⟨m, hmem, rfl⟩ := List.mem_map.mp hf
    obtain ⟨hme, hmod⟩ := List.mem_filter.mp hmem
    rw [filesRows_mono hle (hent m hme)] at hr
    obtain ⟨x, hx, rfl⟩ := mem_filesRows.mp hr
    rw [truth_logical he] at ht
    rw [modEntry_of_true he.prune hm (hent m hme) hx ht] at hmod
    cases hmod
  · intro f hf
    obtain ⟨m, hmem, rfl⟩ := List.mem_map.mp hf
    obtain ⟨hme, hmod⟩ := List.mem_filter.mp hmem
    obtain ⟨x, hx, hxt⟩ := not_false_of_mod (hent m hme) hmod
    refine ⟨_, ?_, (truth_logical (E := E) he x w.fs.records).symm ▸ hxt⟩
    rw [filesRows_mono hle (hent m hme)]
    exact mem_filesRows.mpr ⟨x, hx, rfl⟩
  · exact t3
  · intro f hf hmem
    obtain ⟨m, hm1, rfl⟩ := List.mem_map.mp hf
    obtain ⟨m', hm2, hmm⟩ := List.mem_map.mp hmem
    have a := (hent m' hm2).hasFile
    have b := (t4 m hm1).1
    unfold hasFile at a b
    rw [hmm, b] at a
    cases a
  · rw [made_rows hle' fun m hm => (t4 m hm).2, gone_rows he hg hle fun m hm => hent m (List.mem_filter.mp hm).1]
    exact t5.map _

end

theorem DeleteOut.rewrites {E : Env} {s : Schema} {e : Expr} {w w1 : World} {index : List Path} {mf : Option MExpr}
    {dp : Option Patch} {fs fs' : FS} (hn : s.names.Nodup) (he : FilterFits s e)
    (hm : manifestFilter s (some e) = .ok mf) (hf : w.Fresh) (hi : index.Nodup)
    (hok : ∀ q ∈ index, ManifestOK w.fs s q) (hg : Grows w w1) (h : DeleteOut E s e w w1 index mf dp)
    (hle : FSLe w.fs fs) (hle' : FSLe w1.fs fs') :
    ∃ lost kept gone new, Rewrites fs fs' s (e.truth E.I) (listedFiles w.fs index)
        (listedFiles w1.fs (index.filter (fun q => !((dp.map (·.delIdx)).getD []).contains q) ++
          (dp.map (·.addIdx)).getD [])) lost kept gone new ∧
      filesRows fs' s new = (filesRows fs s gone).filter (fun r => e.truth E.I r == some false) ∧
      (NoLoss E.I e w.fs mf index → lost = []) ∧
      gone = ((index.flatMap (entriesOf w.fs)).filter (modEntry E.I e w.fs mf)).map (·.file) ∧
      new = (newEntries w w1 dp).map (·.file) := by
  obtain ⟨made, lost, t1, t2, t3, t4, t5, t6⟩ := h.touched hn hf hi hok hg
  refine ⟨_, _, _, _, rewrites_of he hm hok hg hle hle' t1 t3 t4 (Perm.of_eq t5), ?_,
    fun hl => by rw [t2 hl]; rfl, rfl, by rw [t6]⟩
  rw [made_rows hle' fun m hm => (t4 m hm).2, gone_rows he hg hle fun m hm => ?_, t5]
  obtain ⟨q, hq, hm⟩ := List.mem_flatMap.mp (List.mem_filter.mp hm).1
  exact (hok q hq).entry hm

theorem Landing.before {E : Env} {s : Schema} {m : Mutation} {i : Nat} {σ σ' : Sys} {sl sl' : Slot}
    {w : World} {h1 : Handle} {w1 : World} {p : Patch} {cur snap : Snapshot}
    (hl : Landing E s m i σ σ' sl sl' w h1 w1 p cur snap) :
    listedFiles σ.w.fs cur.index = listedFiles w.fs cur.index := by
  unfold listedFiles
  rw [flatMap_congr' fun q hq => entriesOf_mono hl.succ.earlier (hl.succ.curOK.manifests q hq)]

theorem Landing.after {E : Env} {s : Schema} {m : Mutation} {i : Nat} {σ σ' : Sys} {sl sl' : Slot}
    {w : World} {h1 : Handle} {w1 : World} {p : Patch} {cur snap : Snapshot}
    (hl : Landing E s m i σ σ' sl sl' w h1 w1 p cur snap) :
    listedFiles σ'.w.fs snap.index =
      listedFiles w1.fs (cur.index.filter (fun q => !p.delIdx.contains q) ++ p.addIdx) := by
  have hs := hl.succ
  have hok : ∀ q ∈ snap.index, ManifestOK w1.fs s q := by
    intro q hq
    rw [hs.index] at hq
    rcases List.mem_append.mp hq with hq | hq
    · exact (hs.curOK.manifests q (List.mem_filter.mp hq).1).mono hs.grows.le
    · exact hs.patch.idx q hq
  unfold listedFiles
  rw [flatMap_congr' fun q hq => entriesOf_mono hs.le (hok q hq), hs.index]

/-- C86, on every layout: a delete by a filter that fits the schema leaves the files that have no row to delete, but for
some that it loses, and new files with the rows to keep of the others; it loses none where C04 holds.  Missing:
the files lost (`C86_violated`) and other filters. -/
theorem C86_partial {E : Env} {s : Schema} (hn : s.names.Nodup) {i : Nat} {e : Expr} (he : FilterFits s e) {σ σ' : Sys}
    (h : Done E s i (.delete e) σ σ') :
    ∃ sl sl' cur snap lost kept gone new, σ.slots[i]? = some sl ∧ σ'.slots[i]? = some sl' ∧
      headOf sl.h σ.w = some cur ∧ headOf sl'.h σ'.w = some snap ∧
      Rewrites σ.w.fs σ'.w.fs s (e.truth E.I) (listedFiles σ.w.fs cur.index) (listedFiles σ'.w.fs snap.index)
        lost kept gone new ∧
      filesRows σ'.w.fs s new = (filesRows σ.w.fs s gone).filter (fun r => e.truth E.I r == some false) ∧
      (DeleteSafe (e.truth E.I) (headLayout s sl.h σ.w) → lost = []) := by
  obtain ⟨sl, sl', w, h1, w1, p, cur, snap, hl, -⟩ := h.landing hn
  have hs := hl.succ
  have hb := hs.body
  simp only [Mutation.body] at hb
  obtain ⟨-, -, cur', mf, hc, hm, hout⟩ := Post.elim (deleteBody_post (E := E) (e := e) hs.fresh hs.handle) hb
  rw [hs.base] at hc
  cases hc
  obtain ⟨lost, kept, gone, new, hr, hrows, hno, -⟩ := hout.rewrites (fs := σ.w.fs) (fs' := σ'.w.fs) hn he hm hs.fresh hs.curOK.nodup
    hs.curOK.manifests hs.grows hs.earlier hs.le
  rw [← hl.before] at hr
  simp only [Option.map_some, Option.getD_some] at hr
  rw [← hl.after] at hr
  refine ⟨sl, sl', cur, snap, lost, kept, gone, new, hl.slot, hl.slot', hs.head, hs.head', hr, hrows, fun hsafe => ?_⟩
  rw [hl.layout] at hsafe
  exact hno (noLoss_of_safe he.prune hm he.plain hs.curOK.manifests hsafe)

/-- C86 for filters that are null on no row and layouts on which C04 holds: listed are now the files without a row to
delete and new files, which hold what is to be kept of the others. -/
theorem C86_exact_partial {E : Env} {s : Schema} (hn : s.names.Nodup) {i : Nat} {e : Expr} (he : FilterFits s e)
    {σ σ' : Sys} (h : Done E s i (.delete e) σ σ') :
    ∃ sl sl' cur snap, σ.slots[i]? = some sl ∧ σ'.slots[i]? = some sl' ∧
      headOf sl.h σ.w = some cur ∧ headOf sl'.h σ'.w = some snap ∧
      (DeleteSafe (e.truth E.I) (headLayout s sl.h σ.w) →
        (∀ r ∈ filesRows σ.w.fs s (listedFiles σ.w.fs cur.index), e.truth E.I r ≠ none) →
        ∃ new, listedFiles σ'.w.fs snap.index ~ (listedFiles σ.w.fs cur.index).filter
            (fun f => (filesRows σ.w.fs s [f]).all (fun r => e.truth E.I r == some false)) ++ new ∧
          new.Nodup ∧ (∀ f ∈ new, f ∉ listedFiles σ.w.fs cur.index) ∧
          filesRows σ'.w.fs s new ~ (filesRows σ.w.fs s ((listedFiles σ.w.fs cur.index).filter
            (fun f => (filesRows σ.w.fs s [f]).any (fun r => e.truth E.I r == some true)))).filter
              (fun r => e.truth E.I r == some false)) := by
  obtain ⟨sl, sl', cur, snap, lost, kept, gone, new, h1, h2, h3, h4, hr, hrows, hno⟩ := C86_partial hn he h
  refine ⟨sl, sl', cur, snap, h1, h2, h3, h4, fun hsafe hnull => ?_⟩
  have hl := hno hsafe
  subst hl
  have hk : ∀ f ∈ kept, (filesRows σ.w.fs s [f]).all (fun r => e.truth E.I r == some false) = true := by
    intro f hf
    refine List.all_eq_true.mpr fun r hrr => ?_
    have a := hr.kept f hf r hrr
    have b := hnull r (mem_filesRows_of (hr.before.mem_iff.mpr (List.mem_append_left _ hf)) hrr)
    cases ht : e.truth E.I r with
    | none => exact absurd ht b
    | some x => cases x with
      | false => rfl
      | true => exact absurd ht a
  have hg : ∀ f ∈ gone, (filesRows σ.w.fs s [f]).any (fun r => e.truth E.I r == some true) = true := by
    intro f hf
    obtain ⟨r, hrr, ht⟩ := hr.gone f hf
    refine List.any_eq_true.mpr ⟨r, hrr, ?_⟩
    have b := hnull r (mem_filesRows_of (hr.before.mem_iff.mpr (List.mem_append_right _ hf)) hrr)
    cases hx : e.truth E.I r with
    | none => exact absurd hx b
    | some x => cases x with
      | false => exact absurd hx ht
      | true => rfl
  have excl : ∀ f, (filesRows σ.w.fs s [f]).all (fun r => e.truth E.I r == some false) = true →
      (filesRows σ.w.fs s [f]).any (fun r => e.truth E.I r == some true) = true → False := by
    intro f ha hb
    obtain ⟨r, hrr, ht⟩ := List.any_eq_true.mp hb
    have := List.all_eq_true.mp ha r hrr
    simp only [beq_iff_eq] at ht this
    rw [this] at ht
    cases ht
  have f1 : (listedFiles σ.w.fs cur.index).filter
      (fun f => (filesRows σ.w.fs s [f]).all (fun r => e.truth E.I r == some false)) ~ kept := by
    refine (hr.before.filter _).trans ?_
    rw [List.filter_append, List.filter_eq_self.mpr hk,
      List.filter_eq_nil_iff.mpr fun f hf hx => excl f hx (hg f hf), List.append_nil]
  have f2 : (listedFiles σ.w.fs cur.index).filter
      (fun f => (filesRows σ.w.fs s [f]).any (fun r => e.truth E.I r == some true)) ~ gone := by
    refine (hr.before.filter _).trans ?_
    rw [List.filter_append, List.filter_eq_self.mpr hg,
      List.filter_eq_nil_iff.mpr fun f hf hx => excl f (hk f hf) hx, List.nil_append]
  refine ⟨new, ?_, hr.nodup, hr.fresh, ?_⟩
  · have := hr.after
    rw [List.append_nil] at this
    exact this.trans (f1.symm.append_right _)
  · rw [hrows]
    exact (Perm.flatMap_right _ f2.symm).filter _

/-- C86 for deletes of the Ray runner, which delete file by file, where C23 holds.  Missing: other layouts and filters, and the
order of the rows kept. -/
theorem C86_ray_partial {E : Env} {s : Schema} (hn : s.names.Nodup) {i : Nat} {e : Expr} (he : FilterFits s e) {σ σ' : Sys}
    (h : Done E s i (.rayDelete e) σ σ') :
    ∃ sl sl' cur snap, σ.slots[i]? = some sl ∧ σ'.slots[i]? = some sl' ∧
      headOf sl.h σ.w = some cur ∧ headOf sl'.h σ'.w = some snap ∧
      (RaySafe (e.truth E.I) (headLayout s sl.h σ.w) → ∃ kept gone new,
        Rewrites σ.w.fs σ'.w.fs s (e.truth E.I) (listedFiles σ.w.fs cur.index) (listedFiles σ'.w.fs snap.index)
          [] kept gone new) := by
  obtain ⟨sl, sl', w, h1, w1, p, cur, snap, hl, -⟩ := h.landing hn
  have hs := hl.succ
  have hb := hs.body
  simp only [Mutation.body] at hb
  obtain ⟨-, -, cur', mf, hc, hm, hout⟩ := Post.elim (rayDeleteBody_post hs.fresh hn hs.handle) hb
  rw [hs.base] at hc
  cases hc
  refine ⟨sl, sl', cur, snap, hl.slot, hl.slot', hs.head, hs.head', fun hsafe => ?_⟩
  rw [hl.layout] at hsafe
  rcases hout.out with ⟨hx, -⟩ | ⟨q, hx, -, -, -, hd⟩
  · cases hx
  cases hx
  obtain ⟨made, t1, t3, t4, t5⟩ := RayMerged.touched hs.curOK.manifests hs.grows hs.patch.idx hd (hout.once _ rfl)
    (rayNoLoss_of_safe he.plain hs.curOK.manifests hsafe)
  have := rewrites_of (E := E) (lost := []) he hm hs.curOK.manifests hs.grows hs.earlier hs.le
    (by rw [List.append_nil]; exact t1) t3 t4 t5
  rw [← hl.before, ← hl.after] at this
  exact ⟨_, _, _, this⟩

/-- C86 for upserts, of the local runner and of Ray: the files of the rows given follow, and of the others the same is
true as for a delete by the keys of the rows given, where C08 holds. -/
theorem C86_upsert_partial {E : Env} {s : Schema} (hk : KeySchema s) {i : Nat} {m : Mutation} {rows : List Row}
    (hmi : m.inserts = some (.upsert, rows)) {σ σ' : Sys} (h : Done E s i m σ σ') :
    ∃ sl sl' cur snap now added, σ.slots[i]? = some sl ∧ σ'.slots[i]? = some sl' ∧
      headOf sl.h σ.w = some cur ∧ headOf sl'.h σ'.w = some snap ∧
      listedFiles σ'.w.fs snap.index = now ++ added ∧
      filesRows σ'.w.fs s added ~ rows.map (·.select s.writeNames) ∧
      (KeysSet s (filesRows σ.w.fs s (listedFiles σ.w.fs cur.index)) →
        DeleteSafe (fun r => some (decide (s.pks.map r.val ∈ keysOf s rows))) (headLayout s sl.h σ.w) →
        ∃ kept gone new, Rewrites σ.w.fs σ'.w.fs s (fun r => some (decide (s.pks.map r.val ∈ keysOf s rows)))
          (listedFiles σ.w.fs cur.index) now [] kept gone new) := by
  obtain ⟨sl, sl', w, h1, w1, p, cur, snap, hl, -⟩ := h.landing hk.names
  have hs := hl.succ
  obtain ⟨e, mf, hout⟩ := hs.insertedG hmi
  obtain ⟨w0, dp, ap, P, g1, f1, g2, hp, hfin, hP, -, hups, -⟩ := hout.out
  obtain ⟨hd, ha, -⟩ := merge_delIdx hp (fun q hq => hfin.del q hq)
  obtain ⟨hke, hsem, hnd, hset, hne⟩ := primaryKeyFilter_sem hout.key E.I
  have he := hk.fits hke
  have hdel := hups rfl
  obtain ⟨lost, kept, gone, new, hr, -, hno, -⟩ := hdel.rewrites (fs := σ.w.fs) (fs' := σ'.w.fs) hk.names he hout.filter
    hs.fresh hs.curOK.nodup hs.curOK.manifests g1 hs.earlier (g2.le.trans hs.le)
  have hman := hdel.manifests hk.names hs.curOK.manifests g1
  have hadd : ∀ q ∈ (ap.map (·.addIdx)).getD [], ManifestOK w1.fs s q := by
    intro q hq
    cases ap with
    | none => cases hq
    | some a => exact (hfin.ok a rfl).idx q hq
  refine ⟨sl, sl', cur, snap, listedFiles w0.fs (cur.index.filter (fun q => !((dp.map (·.delIdx)).getD []).contains q) ++
      (dp.map (·.addIdx)).getD []), listedFiles w1.fs ((ap.map (·.addIdx)).getD []), hl.slot, hl.slot', hs.head, hs.head', ?_, ?_,
    fun hold hsafe => ⟨kept, gone, new, ?_⟩⟩
  · rw [hl.after, hd, ha, ← List.append_assoc]
    unfold listedFiles
    rw [List.flatMap_append, List.map_append, flatMap_congr' fun q hq => entriesOf_mono g2.le (hman q hq)]
  · have hq : physRows w1.fs ((ap.map (·.addIdx)).getD []) = P := by
      cases ap with
      | none => rw [hfin.none_iff.mp rfl]; rfl
      | some q => exact hfin.phys q rfl
    rw [filesRows_listed_mono hs.le hadd, filesRows_listed w1.fs s { id := 0, index := (ap.map (·.addIdx)).getD [] }]
    unfold snapRows
    rw [hq]
    refine (hP.map _).trans (Perm.of_eq ?_)
    rw [List.map_map]
    exact List.map_congr_left fun r _ => select_select fun c hc => hc
  · rw [hl.before, filesRows_listed_mono hs.earlier hs.curOK.manifests] at hold
    have hold' : KeysSet s (snapRows w.fs s cur) := by
      intro r hr k hkk
      rw [filesRows_listed] at hold
      have := hold _ (List.mem_map_of_mem hr) k hkk
      rw [select_val (writeNames_sub.mpr (hk.keys k hkk))] at this
      exact this
    have htr : ∀ r, (∀ k ∈ s.pks, ∃ v, r.val k = .sc v ∧ v ≠ .nan) →
        e.truth E.I r = some (decide (s.pks.map r.val ∈ keysOf s rows)) := by
      intro r hr
      have hset : KeysSet s [r] := fun x hx => by rw [List.mem_singleton.mp hx]; exact hr
      have h1 := hke.total E.I r (hset r (by simp))
      have h2 := hsem r
      cases ht : e.truth E.I r with
      | none => exact absurd ht h1
      | some b =>
        congr 1
        rw [Bool.eq_iff_iff, decide_eq_true_eq]
        constructor
        · rintro rfl
          obtain ⟨d, hd1, hd2, -⟩ := h2.mp ht
          exact List.mem_map.mpr ⟨d, hd1, hd2⟩
        · intro hx
          obtain ⟨d, hd1, hd2⟩ := List.mem_map.mp hx
          have := h2.mpr ⟨d, hd1, hd2, hset.num r (by simp)⟩
          rw [ht] at this
          exact Option.some.inj this
    have hsafe' : DeleteSafe (e.truth E.I) (layout w.fs s cur) := by
      rw [hl.layout] at hsafe
      exact hsafe.congr fun r hr => by rw [layout_flatten] at hr; exact (htr r (hold' r hr)).symm
    have hl0 := hno (noLoss_of_safe he.prune hout.filter he.plain hs.curOK.manifests hsafe')
    subst hl0
    rw [hl.before]
    refine hr.congr fun r hr => ?_
    rw [filesRows_listed_mono hs.earlier hs.curOK.manifests] at hr
    exact htr r (hold r hr)

/-- The files listed for the head of the branch of each handle. -/
def Demo.filesNow (σ : Sys) : List (Option (List Path)) :=
  σ.slots.map fun sl => (headOf sl.h σ.w).map fun cur => listedFiles σ.w.fs cur.index

/-- Four files in two manifests, and a delete that cuts two of them: all hypotheses of `C86_exact_partial` hold, two files stay
and one is new. -/
example : ∃ σ σ' sl cur, FilterFits schema (idIn 3 6) ∧ Done env schema 0 (.delete (idIn 3 6)) σ σ' ∧
    σ.slots[0]? = some sl ∧ headOf sl.h σ.w = some cur ∧
    DeleteSafe ((idIn 3 6).truth env.I) (headLayout schema sl.h σ.w) ∧
    (∀ r ∈ filesRows σ.w.fs schema (listedFiles σ.w.fs cur.index), (idIn 3 6).truth env.I r ≠ none) ∧
    filesNow σ = [some [.index 1, .index 3, .index 5, .index 11]] ∧
    filesNow σ' = [some [.index 11, .index 5, .index 17]] ∧
    filesRows σ'.w.fs schema [.index 17] = [row 1 "a" [1], row 2 "b" [2], row 3 "c" [3], row 6 "f" [6], row 7 "g" [7],
      row 8 "h" [8]] := by
  let σ := after env anyB schema [.call 0 (.mutate (.append [[row 1 "a" [1], row 2 "b" [2], row 3 "c" [3], row 4 "d" [4]],
    [row 5 "e" [5], row 6 "f" [6], row 7 "g" [7], row 8 "h" [8]], [row 9 "i" [9]]])),
    .call 0 (.mutate (.append [[row 10 "j" [1]]]))]
  obtain ⟨e, hst⟩ := doing_step (E := env) (s := schema) (σ := σ) (a := .call 0 (.mutate (.delete (idIn 3 6))))
    (o := .res (.job .succeeded)) (by decide +kernel)
  obtain ⟨sl, h0, -, h2⟩ := slot_of (σ := σ) (i := 0)
    (f := fun sl => (safeB ((idIn 3 6).truth env.I) (headLayout schema sl.h σ.w),
      (headOf sl.h σ.w).map fun cur => (filesRows σ.w.fs schema (listedFiles σ.w.fs cur.index)).all
        (fun r => (idIn 3 6).truth env.I r != none)))
    (x := (true, some true)) (by decide +kernel)
  simp only [Prod.mk.injEq] at h2
  obtain ⟨cur, hc, hall⟩ := Option.map_eq_some_iff.mp h2.2
  refine ⟨σ, _, sl, cur, fitsB_fits (by decide), .call (after_reach (fun _ _ _ => trivial) _) hst, h0, hc, safeB_safe h2.1, ?_,
    by decide +kernel, by decide +kernel, by decide +kernel⟩
  intro r hr
  simpa using List.all_eq_true.mp hall r hr

/-- An upsert of one row that is there and one that is not, on the same files: of the second file the other rows go to
a new file, the rows given to another. -/
example : ∃ σ σ' sl cur, KeySchema schema ∧ Done env schema 0 (.upsert [row 5 "E" [5], row 11 "k" []]) σ σ' ∧
    σ.slots[0]? = some sl ∧ headOf sl.h σ.w = some cur ∧
    KeysSet schema (filesRows σ.w.fs schema (listedFiles σ.w.fs cur.index)) ∧
    DeleteSafe (fun r => some (decide (schema.pks.map r.val ∈ keysOf schema [row 5 "E" [5], row 11 "k" []])))
      (headLayout schema sl.h σ.w) ∧
    filesNow σ = [some [.index 1, .index 3, .index 5, .index 11]] ∧
    filesNow σ' = [some [.index 11, .index 1, .index 5, .index 17, .index 19]] ∧
    filesRows σ'.w.fs schema [.index 17] = [row 6 "f" [6], row 7 "g" [7], row 8 "h" [8]] ∧
    filesRows σ'.w.fs schema [.index 19] = [row 5 "E" [5], row 11 "k" []] := by
  let σ := after env anyB schema [.call 0 (.mutate (.append [[row 1 "a" [1], row 2 "b" [2], row 3 "c" [3], row 4 "d" [4]],
    [row 5 "e" [5], row 6 "f" [6], row 7 "g" [7], row 8 "h" [8]], [row 9 "i" [9]]])),
    .call 0 (.mutate (.append [[row 10 "j" [1]]]))]
  obtain ⟨e, hst⟩ := doing_step (E := env) (s := schema) (σ := σ)
    (a := .call 0 (.mutate (.upsert [row 5 "E" [5], row 11 "k" []]))) (o := .res (.job .succeeded)) (by decide +kernel)
  obtain ⟨sl, h0, -, h2⟩ := slot_of (σ := σ) (i := 0)
    (f := fun sl => (safeB (fun r => some (decide (schema.pks.map r.val ∈ keysOf schema [row 5 "E" [5], row 11 "k" []])))
      (headLayout schema sl.h σ.w),
      (headOf sl.h σ.w).map fun cur => (filesRows σ.w.fs schema (listedFiles σ.w.fs cur.index)).all
        (fun r => schema.pks.all fun k => match r.val k with | .sc v => v != .nan | _ => false)))
    (x := (true, some true)) (by decide +kernel)
  simp only [Prod.mk.injEq] at h2
  obtain ⟨cur, hc, hall⟩ := Option.map_eq_some_iff.mp h2.2
  refine ⟨σ, _, sl, cur, keys, .call (after_reach (fun _ _ _ => trivial) _) hst, h0, hc, ?_, safeB_safe h2.1,
    by decide +kernel, by decide +kernel, by decide +kernel, by decide +kernel⟩
  intro r hr k hk
  have := List.all_eq_true.mp (List.all_eq_true.mp hall r hr) k hk
  split at this
  · rename_i v hv
    exact ⟨v, hv, by simpa using this⟩
  · cases this

/-- A delete of the Ray runner that cuts one file in each of two manifests. -/
example : ∃ σ σ' sl, FilterFits schema (idIs "gt" 7) ∧ Done env schema 0 (.rayDelete (idIs "gt" 7)) σ σ' ∧
    σ.slots[0]? = some sl ∧ RaySafe ((idIs "gt" 7).truth env.I) (headLayout schema sl.h σ.w) ∧
    filesNow σ = [some [.index 1, .index 3, .index 9]] ∧
    filesNow σ' = [some [.index 1, .index 15, .index 17]] ∧
    filesRows σ'.w.fs schema [.index 15] = [row 5 "e" [5], row 6 "f" [6], row 7 "g" [7]] := by
  let σ := after env anyB schema [.call 0 (.mutate (.append [[row 1 "a" [1], row 2 "b" [2], row 3 "c" [3], row 4 "d" [4]],
    [row 5 "e" [5], row 6 "f" [6], row 7 "g" [7], row 8 "h" [8]]])),
    .call 0 (.mutate (.append [[row 0 "z" [], row 10 "j" [1]]]))]
  obtain ⟨e, hst⟩ := doing_step (E := env) (s := schema) (σ := σ) (a := .call 0 (.mutate (.rayDelete (idIs "gt" 7))))
    (o := .res (.job .succeeded)) (by decide +kernel)
  obtain ⟨sl, h0, -, h2⟩ := slot_of (σ := σ) (i := 0)
    (f := fun sl => raySafeB ((idIs "gt" 7).truth env.I) (headLayout schema sl.h σ.w)) (x := true) (by decide +kernel)
  exact ⟨σ, _, sl, fitsB_fits (by decide), .call (after_reach (fun _ _ _ => trivial) _) hst, h0, raySafeB_safe h2,
    by decide +kernel, by decide +kernel, by decide +kernel⟩

/-- **C86 is violated** where a delete removes all rows of one file and cuts no other: a file of the same manifest, all
rows of which are to be kept, is not listed any more. -/
theorem C86_violated : ∃ σ σ' f, FilterFits schema (idIs "gt" 4) ∧ Done env schema 0 (.delete (idIs "gt" 4)) σ σ' ∧
    filesNow σ = [some [f, .index 3]] ∧ filesNow σ' = [some []] ∧ (filesRows σ.w.fs schema [f]).length = 4 ∧
    ∀ r ∈ filesRows σ.w.fs schema [f], (idIs "gt" 4).truth env.I r = some false := by
  let σ := after env anyB schema [.call 0 (.mutate (.append [[row 1 "a" [1], row 2 "b" [2], row 3 "c" [3], row 4 "d" [4]],
    [row 5 "e" [5]]]))]
  obtain ⟨e, hst⟩ := doing_step (E := env) (s := schema) (σ := σ) (a := .call 0 (.mutate (.delete (idIs "gt" 4))))
    (o := .res (.job .succeeded)) (by decide +kernel)
  exact ⟨σ, _, .index 1, fitsB_fits (by decide), .call (after_reach (fun _ _ _ => trivial) _) hst, by decide +kernel,
    by decide +kernel, by decide +kernel, by decide +kernel⟩

end Space
