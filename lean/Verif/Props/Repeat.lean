import Verif.Props.UpsertMarked
import Verif.Props.RayDelete

/-! # C81: repeating a mutation -/

set_option autoImplicit false

namespace Space

open List

section
variable {E : Env} {s : Schema} {e : Expr}

theorem modEntry_mono {I : Interp} {fs fs' : FS} {L : Look} {mf : Option MExpr} {m : ManifestRow} (hle : FSLe fs fs')
    (h : EntryOK fs L s m) : modEntry I e fs' mf m = modEntry I e fs mf m := by
  unfold modEntry
  rw [survRows_mono hle h]

theorem hasMod_mono {I : Interp} {fs fs' : FS} {mf : Option MExpr} {q : Path} (hle : FSLe fs fs')
    (h : ManifestOK fs s q) : hasMod I e fs' mf q = hasMod I e fs mf q := by
  unfold hasMod
  rw [entriesOf_mono hle h, Bool.eq_iff_iff]
  simp only [List.any_eq_true]
  constructor <;> rintro ⟨m, hm, hx⟩
  · exact ⟨m, hm, by rwa [modEntry_mono hle (h.entry hm)] at hx⟩
  · exact ⟨m, hm, by rwa [modEntry_mono hle (h.entry hm)]⟩

/-- A file of which each row is to stay is not changed. -/
theorem modEntry_of_fails {I : Interp} {fs : FS} {L : Look} {mf : Option MExpr} {m : ManifestRow} (h : EntryOK fs L s m)
    (hf : ∀ r ∈ fileRows fs m.file, e.fails I r = true) : modEntry I e fs mf m = false := by
  unfold modEntry survRows
  rw [List.filter_eq_self.mpr hf, h.length]
  simp

/-- After a delete no file has a row left that the same delete would take away. -/
theorem Deleted.settled {w w' : World} {index : List Path} {mf : Option MExpr} {dms : List Path}
    {carried mf' : List ManifestRow} {rmf : List RecManifestRow} {rp : Option Patch} {p : Patch}
    (hn : s.names.Nodup) (hok : ∀ q ∈ index, ManifestOK w.fs s q) (hg : Grows w w')
    (h : Deleted E s e w w' (visited w.fs mf index) dms carried mf' rmf rp p) :
    ∀ q ∈ index.filter (fun q => !p.delIdx.contains q) ++ p.addIdx, hasMod E.I e w'.fs mf q = false := by
  intro q hq
  rcases List.mem_append.mp hq with hq | hq
  · obtain ⟨hq, hd⟩ := List.mem_filter.mp hq
    rw [hasMod_mono hg.le (hok q hq)]
    rw [h.delIdx] at hd
    cases hc : hasMod E.I e w.fs mf q with
    | false => rfl
    | true => simp [(h.mem_dms q).mpr ⟨hq, hc⟩] at hd
  · rw [h.addIdx] at hq
    cases hrp : rp with
    | none => rw [hrp] at hq; simp at hq
    | some r =>
      rw [hrp] at hq
      obtain ⟨u, -, hu, him⟩ := h.fin.idx r hrp
      simp only [Option.map_some, Option.getD_some, hu, List.mem_singleton] at hq
      subst hq
      have hent : entriesOf w'.fs (.indexManifest u) = carried ++ mf' := by simp [entriesOf, him]
      unfold hasMod
      rw [hent, List.any_eq_false]
      intro m hm
      rw [Bool.not_eq_true]
      rcases List.mem_append.mp hm with hm | hm
      · rw [h.carried_eq hok] at hm
        simp only [List.mem_flatMap, List.mem_filter] at hm
        obtain ⟨q, hq, hm, hx⟩ := hm
        rw [modEntry_mono hg.le ((hok q ((h.mem_dms q).mp hq).1).entry hm)]
        simpa using hx
      · refine modEntry_of_fails (h.fin.ents m hm) fun x hx => ?_
        have h1 : ∀ y ∈ ((visited w.fs mf index).files.filter (modFile E.I e w.fs)).flatMap
            (fun f => survRows E.I e w.fs f.path), s.conforms y = true ∧ e.fails E.I y = true := by
          intro y hy
          obtain ⟨f, hf, hy⟩ := List.mem_flatMap.mp hy
          obtain ⟨hy, hfl⟩ := List.mem_filter.mp hy
          obtain ⟨q, hq, m', hm', -, hfe, -⟩ := visited_mods f hf
          obtain ⟨g, g1, g2, g3, g4⟩ := (hok q hq).entry hm'
          rw [hfe] at hy
          exact ⟨(g4 y (by simpa [fileRows, toDataFile, g1] using hy)).1, hfl⟩
        have hmem : x ∈ mf'.flatMap (fun m => fileRows w'.fs m.file) := List.mem_flatMap.mpr ⟨m, hm, hx⟩
        have hrows := h.fin.rowsEq
        rw [written_self hn (fun y hy => (h1 y hy).1) (by
          intro y hy
          rw [← hrows] at hy
          obtain ⟨m', hm', hy⟩ := List.mem_flatMap.mp hy
          obtain ⟨g, g1, g2, g3, g4⟩ := h.fin.ents m' hm'
          exact (g4 y (by simpa [fileRows, g1] using hy)).1)] at hrows
        rw [hrows] at hmem
        exact (h1 x hmem).2

/-- After a delete that took effect, no file of the branch has a row that the delete would take away. -/
theorem Success.settled {h h' h1 : Handle} {wb w w' w1 : World} {p : Patch} {cur snap : Snapshot} (hn : s.names.Nodup)
    (hs : Success E s (.delete e) h wb w h' w' h1 w1 p cur snap) :
    ∃ mf, manifestFilter s (some e) = .ok mf ∧ ∀ q ∈ snap.index, hasMod E.I e w'.fs mf q = false := by
  have hb := hs.body
  simp only [Mutation.body] at hb
  obtain ⟨hg, -, snap', mf, hsn, hm, hout⟩ := Post.elim (deleteBody_post hs.fresh hs.handle) hb
  rw [hs.base] at hsn
  cases hsn
  rcases hout.out with ⟨hx, -⟩ | ⟨q, dms, carried, mf', rmf, rp, hx, hd⟩
  · cases hx
  cases hx
  refine ⟨mf, hm, fun q hq => ?_⟩
  rw [hs.index] at hq
  have hok1 : ManifestOK w1.fs s q := by
    rcases List.mem_append.mp hq with hq | hq
    · exact (hs.curOK.manifests q (List.mem_filter.mp hq).1).mono hg.le
    · exact hs.patch.idx q hq
  rw [hasMod_mono hs.le hok1]
  exact hd.settled hn hs.curOK.manifests hg q hq

/-- A delete that takes effect changes a file. -/
theorem Success.unsettled {h h' h1 : Handle} {wb w w' w1 : World} {p : Patch} {cur snap : Snapshot} (hn : s.names.Nodup)
    {m : Mutation} (hm : m = .delete e ∨ m = .rayDelete e)
    (hs : Success E s m h wb w h' w' h1 w1 p cur snap) :
    ∃ mf, manifestFilter s (some e) = .ok mf ∧ ∃ q ∈ cur.index, hasMod E.I e w.fs mf q = true := by
  have key : ∃ mf, manifestFilter s (some e) = .ok mf ∧
      (visited w.fs mf cur.index).files.filter (modFile E.I e w.fs) ≠ [] := by
    have hb := hs.body
    rcases hm with rfl | rfl
    · simp only [Mutation.body] at hb
      obtain ⟨hg, -, snap', mf, hsn, hm, hout⟩ := Post.elim (deleteBody_post hs.fresh hs.handle) hb
      rw [hs.base] at hsn
      cases hsn
      rcases hout.out with ⟨hx, -⟩ | ⟨q, dms, carried, mf', rmf, rp, hx, hd⟩
      · cases hx
      exact ⟨mf, hm, hd.nonempty⟩
    · simp only [Mutation.body] at hb
      obtain ⟨hg, -, snap', mf, hsn, hm, hout⟩ := Post.elim (rayDeleteBody_post hs.fresh hn hs.handle) hb
      rw [hs.base] at hsn
      cases hsn
      rcases hout.out with ⟨hx, -⟩ | ⟨q, hx, -, -, hne, -⟩
      · cases hx
      exact ⟨mf, hm, hne⟩
  obtain ⟨mf, hmf, hne⟩ := key
  refine ⟨mf, hmf, ?_⟩
  cases hx : (visited w.fs mf cur.index).files.filter (modFile E.I e w.fs) with
  | nil => exact absurd hx hne
  | cons f l =>
    obtain ⟨q, hq, x, hxm, hmod, -, -⟩ := visited_mods f (by rw [hx]; exact List.mem_cons_self ..)
    exact ⟨q, hq, List.any_eq_true.mpr ⟨x, hxm, hmod⟩⟩

/-- The files of an upsert that took effect: in `base` nothing is left that the upsert would take away, the
given rows are in `added`. -/
theorem Success.upserted {h h' h1 : Handle} {wb w w' w1 : World} {p : Patch} {cur snap : Snapshot} {m : Mutation}
    {data : List Row} (hn : s.names.Nodup) (hs : Success E s m h wb w h' w' h1 w1 p cur snap)
    (hmi : m.inserts = some (.upsert, data)) :
    ∃ e mf base added, primaryKeyFilter s.pks data = .ok (some e) ∧ manifestFilter s (some e) = .ok mf ∧
      snap.index = base ++ added ∧ (∀ q ∈ base, hasMod E.I e w'.fs mf q = false) ∧
      (physRows w'.fs added).map (deref w'.fs.records s) ~ data.map (·.select s.writeNames) := by
  obtain ⟨e, mf, hout⟩ := hs.insertedG hmi
  obtain ⟨-, -, -, -, hne⟩ := primaryKeyFilter_sem hout.key E.I
  obtain ⟨w0, dp, ap, P, g1, f1, g2, hp, hfin, hP, -, hups, -⟩ := hout.out
  have hdel := hups rfl
  obtain ⟨hd, ha, -⟩ := merge_delIdx hp (fun q hq => hfin.del q hq)
  obtain ⟨a, rfl, hq⟩ : ∃ q, ap = some q ∧ physRows w1.fs q.addIdx = P := by
    cases ap with
    | none =>
      rw [hfin.none_iff.mp rfl] at hP
      exact absurd (List.map_eq_nil_iff.mp (List.nil_perm.mp hP)) hne
    | some q => exact ⟨q, rfl, hfin.phys q rfl⟩
  simp only [Option.map_some, Option.getD_some] at ha
  have hadd : ∀ x ∈ a.addIdx, ManifestOK w1.fs s x := fun x hx => hs.patch.idx x (by
    rw [ha]; exact List.mem_append_right _ hx)
  refine ⟨e, mf, cur.index.filter (fun q => !p.delIdx.contains q) ++ (dp.map (·.addIdx)).getD [], a.addIdx,
    hout.key, hout.filter, by rw [hs.index, ha, List.append_assoc], ?_, ?_⟩
  · rcases hdel.out with ⟨hx, hmod⟩ | ⟨dq, dms, carried, mf2, rmf2, rp, hx, hd2⟩
    · subst hx
      intro q hq
      simp only [Option.map_none, Option.getD_none, List.append_nil] at hq
      have hq := (List.mem_filter.mp hq).1
      rw [hasMod_mono ((g1.le.trans g2.le).trans hs.le) (hs.curOK.manifests q hq)]
      exact hmod q hq
    · subst hx
      simp only [Option.map_some, Option.getD_some] at hd ⊢
      intro q hq
      rw [hd] at hq
      have hok : ManifestOK w0.fs s q := by
        rcases List.mem_append.mp hq with hq | hq
        · exact (hs.curOK.manifests q (List.mem_filter.mp hq).1).mono g1.le
        · exact (hd2.patchOK hn hs.curOK.manifests g1).idx q hq
      rw [hasMod_mono (g2.le.trans hs.le) hok]
      exact hd2.settled hn hs.curOK.manifests g1 q hq
  · rw [physRows_mono hs.le hadd, map_deref_mono hs.le.lookLe fun r hr => (physRows_ok hadd r hr).2, hq]
    exact hP

/-- An upsert on the result of the same upsert replaces exactly the given rows. -/
theorem Success.upserted_again {h h' h1 : Handle} {wb w w' w1 : World} {p : Patch} {cur snap : Snapshot} {m : Mutation}
    {data : List Row} (hk : KeySchema s) (hs : Success E s m h wb w h' w' h1 w1 p cur snap)
    (hmi : m.inserts = some (.upsert, data)) (hnum : ∀ r ∈ data, KeyNum s.pks r)
    {e : Expr} {mf : Option MExpr} {base added : List Path} (hkey : primaryKeyFilter s.pks data = .ok (some e))
    (hmf : manifestFilter s (some e) = .ok mf) (hcur : cur.index = base ++ added)
    (hbase : ∀ q ∈ base, hasMod E.I e w.fs mf q = false)
    (hadded : (physRows w.fs added).map (deref w.fs.records s) ~ data.map (·.select s.writeNames)) :
    snapRows w'.fs s snap ~ snapRows w.fs s cur := by
  have hn := hk.names
  obtain ⟨e', mf', hout⟩ := hs.insertedG hmi
  have : e' = e := by have := hout.key.symm.trans hkey; cases this; rfl
  subst this
  have : mf' = mf := by have := hout.filter.symm.trans hmf; cases this; rfl
  subst this
  obtain ⟨hke, hsem, -, -, hne⟩ := primaryKeyFilter_sem hout.key E.I
  have he := hk.fits hke
  have hokA : ∀ q ∈ added, ManifestOK w.fs s q := fun q hq => hs.curOK.manifests q (by
    rw [hcur]; exact List.mem_append_right _ hq)
  have hokB : ∀ q ∈ base, ManifestOK w.fs s q := fun q hq => hs.curOK.manifests q (by
    rw [hcur]; exact List.mem_append_left _ hq)
  -- the key filter is true on each row of the added files
  have htrue : ∀ r ∈ physRows w.fs added, e'.truth E.I r = some true := by
    intro r hr
    rw [← truth_deref he.plain w.fs.records r]
    obtain ⟨d, hd, hde⟩ := List.mem_map.mp (hadded.mem_iff.mp (List.mem_map.mpr ⟨r, hr, rfl⟩))
    rw [← hde, truth_select he]
    exact (hsem d).mpr ⟨d, hd, rfl, hnum d hd⟩
  have hmodA : ∀ q ∈ added, ∀ x ∈ entriesOf w.fs q, ∀ r ∈ fileRows w.fs x.file,
      modEntry E.I e' w.fs mf' x = true := by
    intro q hq x hx r hr
    refine modEntry_of_true he.prune hmf ((hokA q hq).entry hx) hr (htrue r ?_)
    exact List.mem_flatMap.mpr ⟨q, hq, List.mem_flatMap.mpr ⟨x, hx, hr⟩⟩
  have hsurvA : ∀ q ∈ added, ∀ x ∈ entriesOf w.fs q, survRows E.I e' w.fs x.file = [] := by
    intro q hq x hx
    unfold survRows
    rw [List.filter_eq_nil_iff]
    intro r hr
    rw [fails_iff, htrue r (List.mem_flatMap.mpr ⟨q, hq, List.mem_flatMap.mpr ⟨x, hx, hr⟩⟩)]
    simp
  obtain ⟨w0, dp, ap, P, g1, f1, g2, hp, hfin, hP, -, hups, -⟩ := hout.out
  have hdel := hups rfl
  obtain ⟨hd, ha, -⟩ := merge_delIdx hp (fun q hq => hfin.del q hq)
  obtain ⟨a, rfl, hq⟩ : ∃ q, ap = some q ∧ physRows w1.fs q.addIdx = P := by
    cases ap with
    | none =>
      rw [hfin.none_iff.mp rfl] at hP
      exact absurd (List.map_eq_nil_iff.mp (List.nil_perm.mp hP)) hne
    | some q => exact ⟨q, rfl, hfin.phys q rfl⟩
  simp only [Option.map_some, Option.getD_some] at ha
  rcases hdel.out with ⟨hx, hmod⟩ | ⟨dq, dms, carried, mf2, rmf2, rp, hx, hd2⟩
  · exfalso
    cases hph : physRows w.fs added with
    | nil =>
      rw [hph] at hadded
      exact hne (List.map_eq_nil_iff.mp (List.nil_perm.mp hadded))
    | cons r l =>
      have hr : r ∈ physRows w.fs added := by rw [hph]; exact List.mem_cons_self ..
      obtain ⟨q, hq, hr⟩ := List.mem_flatMap.mp hr
      obtain ⟨x, hx, hr⟩ := List.mem_flatMap.mp hr
      have h1 := hmod q (by rw [hcur]; exact List.mem_append_right _ hq)
      have h2 : hasMod E.I e' w.fs mf' q = true := List.any_eq_true.mpr ⟨x, hx, hmodA q hq x hx r hr⟩
      rw [h1] at h2
      cases h2
  subst hx
  simp only [Option.map_some, Option.getD_some] at hd ha
  have hnone : rp = none := by
    rw [hd2.fin.none_iff, sumRows_zero hd2.fin.ents, hd2.fin.rowsEq, mods_rows (survRows E.I e' w.fs)]
    rw [List.flatMap_eq_nil_iff.mpr, List.map_nil, List.length_nil]
    · rfl
    intro q hq
    rw [List.flatMap_eq_nil_iff]
    intro x hx
    obtain ⟨hx, hxm⟩ := List.mem_filter.mp hx
    rw [hcur] at hq
    rcases List.mem_append.mp hq with hq | hq
    · have := hbase q hq
      rw [hasMod, List.any_eq_false] at this
      exact absurd hxm (this x hx)
    · exact hsurvA q hq x hx
  have hdadd : dq.addIdx = [] := by rw [hd2.addIdx, hnone]; rfl
  rw [hdadd, List.nil_append] at ha
  have hfilterB : base.filter (fun q => !p.delIdx.contains q) = base := by
    rw [List.filter_eq_self]
    intro q hq
    rw [hd, hd2.delIdx, Bool.not_eq_true', ← Bool.not_eq_true]
    intro hc
    have := ((hd2.mem_dms q).mp (by simpa using hc)).2
    rw [hbase q hq] at this
    cases this
  have hphysA : physRows w1.fs (added.filter (fun q => !p.delIdx.contains q)) = [] := by
    rw [physRows_mono (g1.le.trans g2.le) fun q hq => hokA q (List.mem_filter.mp hq).1]
    unfold physRows
    rw [List.flatMap_eq_nil_iff]
    intro q hq
    rw [List.flatMap_eq_nil_iff]
    intro x hx
    obtain ⟨hq, hqd⟩ := List.mem_filter.mp hq
    cases hrows : fileRows w.fs x.file with
    | nil => rfl
    | cons r l =>
      exfalso
      have h2 : hasMod E.I e' w.fs mf' q = true :=
        List.any_eq_true.mpr ⟨x, hx, hmodA q hq x hx r (by rw [hrows]; exact List.mem_cons_self ..)⟩
      have := (hd2.mem_dms q).mpr ⟨by rw [hcur]; exact List.mem_append_right _ hq, h2⟩
      rw [hd, hd2.delIdx] at hqd
      simp [this] at hqd
  rw [hs.rows, hcur, List.filter_append, hfilterB, ha, physRows_append, physRows_append, hphysA, List.append_nil, hq,
    List.map_append, snapRows, hcur, physRows_append, List.map_append, physRows_mono (g1.le.trans g2.le) hokB,
    map_deref_mono (g1.le.trans g2.le).lookLe fun r hr => (physRows_ok hokB r hr).2]
  exact List.Perm.append_left _ (hP.trans hadded.symm)

/-- In `σ2`, later than `σ1`, the branch of `sl2` is at the version at which that of `sl1` was in `σ1`. -/
def SameVersion (E : Env) (s : Schema) (σ1 : Sys) (sl1 : Slot) (σ2 : Sys) (sl2 : Slot) : Prop :=
  Run E s anyStep σ1 σ2 ∧ headOf sl2.h σ2.w = headOf sl1.h σ1.w

theorem SameVersion.le {σ1 σ2 : Sys} {sl1 sl2 : Slot} (hn : s.names.Nodup) (hr : Reach E s anyStep σ1)
    (h : SameVersion E s σ1 sl1 σ2 sl2) : FSLe σ1.w.fs σ2.w.fs ∧ Reach E s anyStep σ2 := by
  refine Run.invariant (I := fun σ => FSLe σ1.w.fs σ.w.fs ∧ Reach E s anyStep σ) ?_ ⟨FSLe.refl _, hr⟩ h.1
  rintro σ σ' ev ⟨h1, h2⟩ hp hs
  obtain ⟨md, hok⟩ := reach_ok hn h2
  obtain ⟨md', -, hle, -⟩ := step_full hn hok hs
  exact ⟨h1.trans hle, h2.step hp hs⟩

/-- What a mutation that does not take effect does: nothing. -/
theorem unchanged_of_not {m : Mutation} {σ σ' : Sys} {j : Nat} {r : Result} (hn : s.names.Nodup)
    (hr : Reach E s anyStep σ) (hno : ∀ σ', ¬ Done E s j m σ σ') (hst : Step E s σ (.call j (.mutate m) r) σ')
    {sl : Slot} (hsl : σ.slots[j]? = some sl) :
    r ≠ .job .succeeded ∧ σ'.w.stored = σ.w.stored ∧
      ∀ rows, Reads E σ sl.h.branch rows → Reads E σ' sl.h.branch rows := by
  have hne : r ≠ .job .succeeded := by
    rintro rfl
    exact hno _ (.call hr hst)
  obtain ⟨c1, c2⟩ := C14 hn hr hst (.mutation hne)
  refine ⟨hne, c1, fun rows hrows a ha hb => ?_⟩
  rw [c2 sl (List.mem_of_getElem? hsl) a ha {} none (fun _ => hb)]
  exact hrows sl (List.mem_of_getElem? hsl) rfl

/-- C81 for deletes, any filter, on any layout: after a delete took effect, the same delete on the version that
it left, by any handle, locally or by Ray, does not take effect, and changes nothing. -/
theorem C81_delete (hn : s.names.Nodup) {i j : Nat} {σ σ1 σ2 : Sys} {sl1 sl2 : Slot}
    (h : Done E s i (.delete e) σ σ1) (hi : σ1.slots[i]? = some sl1) (hj : σ2.slots[j]? = some sl2)
    (hv : SameVersion E s σ1 sl1 σ2 sl2) {m : Mutation} (hm : m = .delete e ∨ m = .rayDelete e) :
    (∀ σ3, ¬ Done E s j m σ2 σ3) ∧
    ∀ r σ3, Step E s σ2 (.call j (.mutate m) r) σ3 → r ≠ .job .succeeded ∧ σ3.w.stored = σ2.w.stored ∧
      ∀ rows, Reads E σ2 sl2.h.branch rows → Reads E σ3 sl2.h.branch rows := by
  obtain ⟨hr0, ev, hst0⟩ := h.reach
  obtain ⟨hle, hr2⟩ := hv.le hn (hr0.step trivial hst0)
  obtain ⟨sla, slb, w, h1, w1, p, cur, snap, hl, -, -⟩ := h.landing hn
  have := hl.slot'.symm.trans hi
  cases this
  have hno : ∀ σ3, ¬ Done E s j m σ2 σ3 := by
    intro σ3 h2
    obtain ⟨slc, sld, w2, h21, w21, p2, cur2, snap2, hl2, -, -⟩ := h2.landing hn
    have := hl2.slot.symm.trans hj
    cases this
    have hcur : cur2 = snap := by
      have h1 := hl2.succ.head
      rw [hv.2, hl.succ.head'] at h1
      exact (Option.some.inj h1).symm
    subst hcur
    obtain ⟨mf, hmf, hset⟩ := hl.succ.settled hn
    obtain ⟨mf', hmf', q, hq, hun⟩ := hl2.succ.unsettled hn hm
    have : mf' = mf := by have := hmf'.symm.trans hmf; cases this; rfl
    subst this
    have h3 := hset q hq
    rw [← hasMod_mono hle (hl.succ.snapOK.manifests q hq), hasMod_mono hl2.succ.earlier (hl2.succ.curOK.manifests q hq),
      hun] at h3
    cases h3
  exact ⟨hno, fun r σ3 hst => unchanged_of_not hn hr2 hno hst hj⟩

/-- C81 for inserts, local or by Ray: after an insert took effect, an insert of the same rows on the version that
it left does not take effect, and changes nothing.  Missing: inserts in which each row has NaN in its key, see
`C81_violated_nan`. -/
theorem C81_insert_partial (hk : KeySchema s) {i j : Nat} {σ σ1 σ2 : Sys} {sl1 sl2 : Slot} {rows : List Row}
    {m1 m2 : Mutation} (h1 : m1.inserts = some (.insert, rows)) (h2 : m2.inserts = some (.insert, rows))
    (hnum : ∃ r ∈ rows, ∀ k ∈ s.pks, r.val k ≠ .sc .nan)
    (h : Done E s i m1 σ σ1) (hi : σ1.slots[i]? = some sl1) (hj : σ2.slots[j]? = some sl2)
    (hv : SameVersion E s σ1 sl1 σ2 sl2) :
    (∀ σ3, ¬ Done E s j m2 σ2 σ3) ∧
    ∀ r σ3, Step E s σ2 (.call j (.mutate m2) r) σ3 → r ≠ .job .succeeded ∧ σ3.w.stored = σ2.w.stored ∧
      ∀ rows, Reads E σ2 sl2.h.branch rows → Reads E σ3 sl2.h.branch rows := by
  have hn := hk.names
  obtain ⟨hr0, ev, hst0⟩ := h.reach
  obtain ⟨hle, hr2⟩ := hv.le hn (hr0.step trivial hst0)
  obtain ⟨sla, slb, w, h1', w1, p, cur, snap, hl, -, -⟩ := h.landing hn
  have := hl.slot'.symm.trans hi
  cases this
  have hno : ∀ σ3, ¬ Done E s j m2 σ2 σ3 := by
    intro σ3 h3
    obtain ⟨slc, sld, w2, h21, w21, p2, cur2, snap2, hl2, -, -⟩ := h3.landing hn
    have := hl2.slot.symm.trans hj
    cases this
    have hcur : cur2 = snap := by
      have h1 := hl2.succ.head
      rw [hv.2, hl.succ.head'] at h1
      exact (Option.some.inj h1).symm
    subst hcur
    obtain ⟨-, -, -, hrows⟩ := hl.succ.insertG hk h1
    obtain ⟨-, -, hnew, -⟩ := hl2.succ.insertG hk h2
    have hsame : snapRows w2.fs s cur2 = snapRows σ1.w.fs s cur2 := by
      rw [← snapRows_mono hl2.succ.earlier hl2.succ.curOK, snapRows_mono hle hl.succ.snapOK]
    obtain ⟨r, hr, hnr⟩ := hnum
    have hmem : r.select s.writeNames ∈ snapRows w2.fs s cur2 := by
      rw [hsame]
      exact hrows.mem_iff.mpr (List.mem_append_right _ (List.mem_map_of_mem hr))
    refine hnew _ hmem ?_ ?_
    · intro k hk'
      rw [select_val (writeNames_sub.mpr (hk.keys k hk'))]
      exact hnr k hk'
    · rw [keyOf_select hk]
      exact List.mem_map_of_mem hr
  exact ⟨hno, fun r σ3 hst => unchanged_of_not hn hr2 hno hst hj⟩

/-- C81 for upserts, local or by Ray, on any layout: after an upsert took effect, an upsert of the same rows on the
version that it left leaves the same rows.  Missing: keys with NaN, see `C81_violated_upsert`. -/
theorem C81_upsert_partial (hk : KeySchema s) {i j : Nat} {σ σ1 σ2 σ3 : Sys} {sl1 sl2 : Slot} {rows : List Row}
    {m1 m2 : Mutation} (h1 : m1.inserts = some (.upsert, rows)) (h2 : m2.inserts = some (.upsert, rows))
    (hnum : ∀ r ∈ rows, ∀ k ∈ s.pks, r.val k ≠ .sc .nan)
    (h : Done E s i m1 σ σ1) (hi : σ1.slots[i]? = some sl1) (hj : σ2.slots[j]? = some sl2)
    (hv : SameVersion E s σ1 sl1 σ2 sl2) (h3 : Done E s j m2 σ2 σ3) :
    ∃ old new, Reads E σ2 sl2.h.branch old ∧ Reads E σ3 sl2.h.branch new ∧ new ~ old := by
  have hn := hk.names
  obtain ⟨hr0, ev, hst0⟩ := h.reach
  obtain ⟨hle, hr2⟩ := hv.le hn (hr0.step trivial hst0)
  obtain ⟨sla, slb, w, h1', w1, p, cur, snap, hl, -, -⟩ := h.landing hn
  have := hl.slot'.symm.trans hi
  cases this
  obtain ⟨slc, sld, w2, h21, w21, p2, cur2, snap2, hl2, hra, hrb⟩ := h3.landing hn
  have := hl2.slot.symm.trans hj
  cases this
  have hcur : cur2 = snap := by
    have h1 := hl2.succ.head
    rw [hv.2, hl.succ.head'] at h1
    exact (Option.some.inj h1).symm
  subst hcur
  obtain ⟨e, mf, base, added, k1, k2, k3, k4, k5⟩ := hl.succ.upserted hn h1
  have hokA : ∀ q ∈ added, q ∈ cur2.index := fun q hq => by rw [k3]; exact List.mem_append_right _ hq
  refine ⟨_, _, hra, hrb, List.Perm.map _ (hl2.succ.upserted_again hk h2 hnum k1 k2 k3 ?_ ?_)⟩
  · intro q hq
    have hq' : q ∈ cur2.index := by rw [k3]; exact List.mem_append_left _ hq
    rw [← hasMod_mono hl2.succ.earlier (hl2.succ.curOK.manifests q hq'), hasMod_mono hle (hl.succ.snapOK.manifests q hq')]
    exact k4 q hq
  · have e1 : ∀ {fs : FS}, FSLe fs σ2.w.fs → SnapOK fs s cur2 →
        (physRows σ2.w.fs added).map (deref σ2.w.fs.records s) = (physRows fs added).map (deref fs.records s) := by
      intro fs hf hok
      have hm : ∀ q ∈ added, ManifestOK fs s q := fun q hq => hok.manifests q (hokA q hq)
      rw [physRows_mono hf hm, map_deref_mono hf.lookLe fun r hr => (physRows_ok hm r hr).2]
    rw [← e1 hl2.succ.earlier hl2.succ.curOK, e1 hle hl.succ.snapOK]
    exact k5

end

/-! ## Witnesses -/

open Demo

/-- A mutation took effect by one handle, and another handle tried one on the version that it left: the rows of the
main branch before and after the second one. -/
def Demo.Twice (E : Env) (s : Schema) (m1 m2 : Mutation) (r : Result) (old new : List Row) : Prop :=
  ∃ σ σ1 σ2 σ3 sl1 sl2, Done E s 0 m1 σ σ1 ∧ σ1.slots[0]? = some sl1 ∧ σ2.slots[1]? = some sl2 ∧
    SameVersion E s σ1 sl1 σ2 sl2 ∧ sl2.h.branch = mainBranch ∧ Reach E s anyStep σ2 ∧
    Step E s σ2 (.call 1 (.mutate m2) r) σ3 ∧ Reads E σ2 mainBranch old ∧ Reads E σ3 mainBranch new

theorem Demo.twice_of {E : Env} {s : Schema} (as : List Act) {m1 m2 : Mutation} {r : Result} {old new : List Row}
    (h1 : (act E (after E anyB s as) (.call 0 (.mutate m1))).map (fun x => outOf x.1) = some (.res (.job .succeeded)))
    (h2 : ((doing E (after E anyB s as) (.call 0 (.mutate m1))).slots[0]?).map
        (fun sl => headOf sl.h (doing E (after E anyB s as) (.call 0 (.mutate m1))).w) =
      ((more E anyB [.load] (doing E (after E anyB s as) (.call 0 (.mutate m1)))).slots[1]?).map
        (fun sl => headOf sl.h (more E anyB [.load] (doing E (after E anyB s as) (.call 0 (.mutate m1)))).w))
    (h3 : ((more E anyB [.load] (doing E (after E anyB s as) (.call 0 (.mutate m1)))).slots[1]?).map
        (fun sl => sl.h.branch) = some mainBranch)
    (h4 : (act E (more E anyB [.load] (doing E (after E anyB s as) (.call 0 (.mutate m1))))
      (.call 1 (.mutate m2))).map (fun x => outOf x.1) = some (.res r))
    (h5 : readsB E (more E anyB [.load] (doing E (after E anyB s as) (.call 0 (.mutate m1)))) old = true)
    (h6 : readsB E (doing E (more E anyB [.load] (doing E (after E anyB s as) (.call 0 (.mutate m1))))
      (.call 1 (.mutate m2))) new = true) : Twice E s m1 m2 r old new := by
  obtain ⟨-, hs1⟩ := doing_step (E := E) (s := s) h1
  obtain ⟨-, hs2⟩ := doing_step (E := E) (s := s) h4
  obtain ⟨sl2, k1, -, k2⟩ := slot_of h3
  have hr : Reach E s anyStep (after E anyB s as) := after_reach (fun _ _ _ => trivial) _
  have hrun : Run E s anyStep (doing E (after E anyB s as) (.call 0 (.mutate m1)))
      (more E anyB [.load] (doing E (after E anyB s as) (.call 0 (.mutate m1)))) := more_run (fun _ _ _ => trivial) _ _
  rw [k1] at h2
  obtain ⟨sl1, k3, -, k4⟩ := slot_of h2
  exact ⟨_, _, _, _, sl1, sl2, .call hr hs1, k3, k1, ⟨hrun, k4.symm⟩, k2, (hr.step trivial hs1).run hrun, hs2,
    reads_of h5, reads_of h6⟩

/-- A delete repeated by another handle: it fails, since no file can have a row to delete, or is skipped. -/
example : Twice env schema (.delete (idIs "lt" 3)) (.delete (idIs "lt" 3)) (.job .failed)
      [row 4 "d" [4], row 3 "c" [3]] [row 4 "d" [4], row 3 "c" [3]] ∧
    Twice env schema (.delete (idIs "equal" 2)) (.rayDelete (idIs "equal" 2)) (.job .skipped)
      [row 1 "a" [1], row 4 "d" [4]] [row 1 "a" [1], row 4 "d" [4]] :=
  ⟨twice_of [.call 0 (.mutate (.append [[row 1 "a" [1], row 4 "d" [4]]])),
    .call 0 (.mutate (.append [[row 2 "b" [2], row 3 "c" [3]]]))]
    (by decide +kernel) (by decide +kernel) (by decide +kernel) (by decide +kernel) (by decide +kernel) (by decide +kernel),
   twice_of [.call 0 (.mutate (.append [[row 1 "a" [1], row 2 "b" [2], row 4 "d" [4]]]))]
    (by decide +kernel) (by decide +kernel) (by decide +kernel) (by decide +kernel) (by decide +kernel) (by decide +kernel)⟩

/-- An insert and an upsert repeated by another handle. -/
example : KeySchema schema ∧
    Twice env schema (.insert [row 1 "a" [1]]) (.insert [row 1 "a" [1]]) (.job .failed) [row 1 "a" [1]] [row 1 "a" [1]] ∧
    Twice env schema (.upsert [row 1 "A" [1], row 7 "g" []]) (.upsert [row 1 "A" [1], row 7 "g" []]) (.job .succeeded)
      [row 4 "d" [4], row 1 "A" [1], row 7 "g" []] [row 4 "d" [4], row 1 "A" [1], row 7 "g" []] :=
  ⟨keys,
   twice_of [] (by decide +kernel) (by decide +kernel) (by decide +kernel) (by decide +kernel) (by decide +kernel)
    (by decide +kernel),
   twice_of [.call 0 (.mutate (.append [[row 1 "a" [1], row 4 "d" [4]]]))]
    (by decide +kernel) (by decide +kernel) (by decide +kernel) (by decide +kernel) (by decide +kernel) (by decide +kernel)⟩

/-- C81 is false for deletes by Ray: they leave rows on which the filter is true, and others twice,
and the same delete takes effect again. -/
theorem C81_violated_ray : ∃ e old new, FilterFits schema e ∧
    Twice env schema (.rayDelete e) (.rayDelete e) (.job .succeeded) old new ∧ ¬ new ~ old := by
  refine ⟨idIn 3 6, [row 5 "e" [5], row 6 "f" [6], row 1 "a" [1], row 2 "b" [2], row 3 "c" [3],
      row 1 "a" [1], row 2 "b" [2], row 3 "c" [3], row 4 "d" [4], row 6 "f" [6]], [row 1 "a" [1], row 2 "b" [2],
      row 3 "c" [3], row 6 "f" [6], row 6 "f" [6], row 1 "a" [1], row 2 "b" [2], row 3 "c" [3]], ?_,
    twice_of [.call 0 (.mutate (.append [[row 1 "a" [1], row 2 "b" [2], row 3 "c" [3], row 4 "d" [4]],
      [row 5 "e" [5], row 6 "f" [6]]]))] (by decide +kernel) (by decide +kernel) (by decide +kernel)
      (by decide +kernel) (by decide +kernel) (by decide +kernel), ?_⟩
  · exact FilterFits.of_flat (by decide) (by decide) (by decide) (by decide) (by decide) (by decide)
  · intro h
    have := h.length_eq
    revert this
    decide

/-- C81 is false for inserts of keys with NaN: the same insert takes effect again, and the row is there twice. -/
theorem C81_violated_nan : Twice env floatKey (.insert [rowX .nan "a"]) (.insert [rowX .nan "a"]) (.job .succeeded)
    [rowX .nan "a"] [rowX .nan "a", rowX .nan "a"] :=
  twice_of [] (by decide +kernel) (by decide +kernel) (by decide +kernel) (by decide +kernel) (by decide +kernel)
    (by decide +kernel)

/-- C81 is false for upserts of keys with NaN: the row is there twice after the second. -/
theorem C81_violated_upsert :
    Twice env floatKey (.upsert [rowX .nan "a"]) (.upsert [rowX .nan "a"]) (.job .succeeded)
      [rowX .nan "a"] [rowX .nan "a", rowX .nan "a"] :=
  twice_of [] (by decide +kernel) (by decide +kernel) (by decide +kernel) (by decide +kernel) (by decide +kernel)
    (by decide +kernel)

end Space
