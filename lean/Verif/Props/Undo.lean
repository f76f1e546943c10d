import Verif.Props.Repeat
import Verif.Orphans

/-! # C82: deleting what was added -/

set_option autoImplicit false

namespace Space

open List

section
variable {E : Env} {s : Schema} {e : Expr} {m : Mutation} {h h' h1 : Handle} {wb w w' w1 : World} {p : Patch}
  {cur snap : Snapshot}

/-- A mutation that deletes no rows removes no manifest. -/
theorem Success.noDel (hs : Success E s m h wb w h' w' h1 w1 p cur snap) (hm : ¬ m.Deletes) : p.delIdx = [] := by
  have adds : ∀ {rows}, m.added = some rows → p.delIdx = [] := fun hr => by
    obtain ⟨P, hg, -⟩ := hs.addedG hr
    exact hg.del p rfl
  have inserts : ∀ {rows}, m.inserts = some (.insert, rows) → p.delIdx = [] := fun hr => by
    obtain ⟨e, mf, hout⟩ := hs.insertedG hr
    obtain ⟨w0, dp, ap, P, -, -, -, hp, hfin, -, hins, -⟩ := hout.out
    rw [(merge_delIdx hp (fun q hq => hfin.del q hq)).1, (hins rfl).1]
    rfl
  cases m with
  | append ts => exact adds rfl
  | insert rows => exact inserts rfl
  | upsert rows => exact absurd trivial hm
  | delete e => exact absurd trivial hm
  | appendParquet files => exact hs.loadParquet.2.1
  | appendArrayRecord fn files =>
    obtain ⟨f, mf, rmf, p0, -, -, -, -, hd, -⟩ := hs.loadRecords
    exact hd
  | rayAppend n sched rows => exact adds rfl
  | rayAppendFrom n sched sources => exact adds rfl
  | rayInsert mode n sched rows =>
    cases mode with
    | insert => exact inserts rfl
    | upsert => exact absurd rfl hm
  | rayDelete e => exact absurd trivial hm
  | sync n sched gone added =>
    obtain ⟨w0, dp, ap, P, -, -, -, hp, hfin, -, hdel, -⟩ := hs.syncedG.out
    rw [(merge_delIdx hp (fun q hq => hfin.del q hq)).1]
    rcases hdel with ⟨-, hd, -⟩ | ⟨e, mf, hkey, -⟩
    · rw [hd]; rfl
    · exfalso
      obtain ⟨-, -, -, -, hne⟩ := primaryKeyFilter_sem hkey E.I
      exact hm hne

/-- A delete whose filter is false of all rows of the manifests `base` and true of all rows of the others: the rows of
`base` are left. -/
theorem Success.undone (hn : s.names.Nodup) (he : FilterFits s e) (hm : m = .delete e ∨ m = .rayDelete e)
    (hs : Success E s m h wb w h' w' h1 w1 p cur snap) {base added : List Path} (hcur : cur.index = base ++ added)
    (hbase : ∀ r ∈ physRows w.fs base, e.truth E.I r = some false)
    (hadded : ∀ r ∈ physRows w.fs added, e.truth E.I r = some true) :
    snapRows w'.fs s snap = (physRows w.fs base).map (deref w.fs.records s) := by
  have hokB : ∀ q ∈ base, ManifestOK w.fs s q := fun q hq => hs.curOK.manifests q (by
    rw [hcur]; exact List.mem_append_left _ hq)
  have hokA : ∀ q ∈ added, ManifestOK w.fs s q := fun q hq => hs.curOK.manifests q (by
    rw [hcur]; exact List.mem_append_right _ hq)
  have hle := hs.grows.le
  obtain ⟨mf, hmf, hdel, hadd⟩ : ∃ mf, manifestFilter s (some e) = .ok mf ∧
      (∀ q, q ∈ p.delIdx ↔ q ∈ cur.index ∧ hasMod E.I e w.fs mf q = true) ∧
      ((∀ f ∈ (visited w.fs mf cur.index).files.filter (modFile E.I e w.fs), survRows E.I e w.fs f.path = []) →
        physRows w1.fs p.addIdx = []) := by
    have hb := hs.body
    rcases hm with rfl | rfl
    · simp only [Mutation.body] at hb
      obtain ⟨hg, -, snap', mf, hsn, hm, hout⟩ := Post.elim (deleteBody_post hs.fresh hs.handle) hb
      rw [hs.base] at hsn
      cases hsn
      rcases hout.out with ⟨hx, -⟩ | ⟨q, dms, carried, mf', rmf, rp, hx, hd⟩
      · cases hx
      cases hx
      refine ⟨mf, hm, fun q => by rw [hd.delIdx]; exact hd.mem_dms q, fun hall => ?_⟩
      have hnone : rp = none := by
        rw [hd.fin.none_iff, sumRows_zero hd.fin.ents, hd.fin.rowsEq, List.flatMap_eq_nil_iff.mpr hall]
        rfl
      rw [hd.addIdx, hnone]
      rfl
    · simp only [Mutation.body] at hb
      obtain ⟨hg, -, snap', mf, hsn, hm, hout⟩ := Post.elim (rayDeleteBody_post hs.fresh hn hs.handle) hb
      rw [hs.base] at hsn
      cases hsn
      rcases hout.out with ⟨hx, -⟩ | ⟨q, hx, -, -, -, hd⟩
      · cases hx
      cases hx
      refine ⟨mf, hm, fun q => ?_, fun hall => ?_⟩
      · rw [hd.delIdx]
        simp only [List.mem_flatMap, Option.mem_toList, hasMod, List.any_eq_true]
        constructor
        · rintro ⟨f, hf, hg⟩
          obtain ⟨q', hq', x, hx, hmod, -, hg'⟩ := visited_mods f hf
          rw [hg] at hg'
          cases hg'
          exact ⟨hq', x, hx, hmod⟩
        · rintro ⟨hq, x, hx, hmod⟩
          obtain ⟨n, k1, k2⟩ := mods_visited hq hx hmod
          exact ⟨_, k1, k2⟩
      · rw [hd.phys, List.flatMap_eq_nil_iff]
        intro f hf
        rw [List.flatMap_eq_nil_iff]
        intro q _
        rw [fileAfter, if_pos (hall f hf)]
  have hB : ∀ q ∈ base, hasMod E.I e w.fs mf q = false := by
    intro q hq
    rw [hasMod, List.any_eq_false]
    intro x hx
    rw [Bool.not_eq_true]
    refine modEntry_of_fails ((hokB q hq).entry hx) fun r hr => ?_
    rw [fails_iff]
    exact hbase r (List.mem_flatMap.mpr ⟨q, hq, List.mem_flatMap.mpr ⟨x, hx, hr⟩⟩)
  have hA : ∀ q ∈ added, ∀ x ∈ entriesOf w.fs q, survRows E.I e w.fs x.file = [] := by
    intro q hq x hx
    unfold survRows
    rw [List.filter_eq_nil_iff]
    intro r hr
    rw [fails_iff, hadded r (List.mem_flatMap.mpr ⟨q, hq, List.mem_flatMap.mpr ⟨x, hx, hr⟩⟩)]
    simp
  have hnew : physRows w1.fs p.addIdx = [] := by
    refine hadd fun f hf => ?_
    obtain ⟨q, hq, x, hx, hmod, hfe, -⟩ := visited_mods f hf
    rw [hcur] at hq
    rw [hfe]
    rcases List.mem_append.mp hq with hq | hq
    · have := hB q hq
      rw [hasMod, List.any_eq_false] at this
      exact absurd hmod (this x hx)
    · exact hA q hq x hx
  have hfilterB : base.filter (fun q => !p.delIdx.contains q) = base := by
    rw [List.filter_eq_self]
    intro q hq
    rw [Bool.not_eq_true', ← Bool.not_eq_true]
    intro hc
    have := ((hdel q).mp (by simpa using hc)).2
    rw [hB q hq] at this
    cases this
  have hphysA : physRows w1.fs (added.filter (fun q => !p.delIdx.contains q)) = [] := by
    rw [physRows_mono hle fun q hq => hokA q (List.mem_filter.mp hq).1]
    unfold physRows
    rw [List.flatMap_eq_nil_iff]
    intro q hq
    rw [List.flatMap_eq_nil_iff]
    intro x hx
    obtain ⟨hq, hqd⟩ := List.mem_filter.mp hq
    cases hrows : fileRows w.fs x.file with
    | nil => rfl
    | cons r l =>
      exfalso
      have hr : r ∈ fileRows w.fs x.file := by rw [hrows]; exact List.mem_cons_self ..
      have h2 : hasMod E.I e w.fs mf q = true := List.any_eq_true.mpr ⟨x, hx,
        modEntry_of_true he.prune hmf ((hokA q hq).entry hx) hr
          (hadded r (List.mem_flatMap.mpr ⟨q, hq, List.mem_flatMap.mpr ⟨x, hx, hr⟩⟩))⟩
      have := (hdel q).mpr ⟨by rw [hcur]; exact List.mem_append_right _ hq, h2⟩
      simp [this] at hqd
  rw [hs.rows, hcur, List.filter_append, hfilterB, physRows_append, physRows_append, hphysA, hnew, List.append_nil,
    List.append_nil, physRows_mono hle hokB, map_deref_mono hle.lookLe fun r hr => (physRows_ok hokB r hr).2]

/-- C82, for filters that fit the schema, on any layout: a mutation that deletes nothing adds rows after those there
were; a delete on the version that it left, local or by Ray, whose filter is false of the rows there were and
true of those added, leaves exactly the rows there were.  Missing: other filters, see `C82_violated`. -/
theorem C82_partial (hn : s.names.Nodup) (he : FilterFits s e) {i j : Nat} {σ σ1 σ2 σ3 : Sys} {sl1 sl2 : Slot}
    {m1 m2 : Mutation} (h1 : ¬ m1.Deletes) (h2 : m2 = .delete e ∨ m2 = .rayDelete e)
    (h : Done E s i m1 σ σ1) (hi : σ1.slots[i]? = some sl1) (hj : σ2.slots[j]? = some sl2)
    (hv : SameVersion E s σ1 sl1 σ2 sl2) (h3 : Done E s j m2 σ2 σ3) :
    ∃ old added, Reads E σ sl1.h.branch old ∧ Reads E σ2 sl2.h.branch (old ++ added) ∧
      ((∀ r ∈ old, e.truth E.I r = some false) → (∀ r ∈ added, e.truth E.I r = some true) →
        Reads E σ3 sl2.h.branch old) := by
  obtain ⟨hr0, ev, hst0⟩ := h.reach
  obtain ⟨hle, hr2⟩ := hv.le hn (hr0.step trivial hst0)
  obtain ⟨sla, slb, w, h1', w1, p, cur, snap, hl, hra, -⟩ := h.landing hn
  have := hl.slot'.symm.trans hi
  cases this
  obtain ⟨slc, sld, w2, h21, w21, p2, cur2, snap2, hl2, hrb, hrc⟩ := h3.landing hn
  have := hl2.slot.symm.trans hj
  cases this
  have hcur : cur2 = snap := by
    have h1 := hl2.succ.head
    rw [hv.2, hl.succ.head'] at h1
    exact (Option.some.inj h1).symm
  subst hcur
  obtain ⟨md, hok⟩ := reach_ok hn hr0
  obtain ⟨-, -, hle0, -⟩ := step_full hn hok hst0
  have hd := hl.succ.noDel h1
  have hidx : cur2.index = cur.index ++ p.addIdx := by rw [hl.succ.index, hd, filter_none]
  -- the rows of manifests of `cur2` are the same in all worlds below that of the delete
  have same : ∀ {fs : FS} (l : List Path), FSLe fs σ2.w.fs → (∀ q ∈ l, ManifestOK fs s q) →
      (physRows σ2.w.fs l).map (deref σ2.w.fs.records s) = (physRows fs l).map (deref fs.records s) := by
    intro fs l hf hok
    rw [physRows_mono hf hok, map_deref_mono hf.lookLe fun r hr => (physRows_ok hok r hr).2]
  have hokC : ∀ q ∈ cur.index, ManifestOK w2.fs s q := fun q hq => hl2.succ.curOK.manifests q (by
    rw [hidx]; exact List.mem_append_left _ hq)
  have hold : snapRows w.fs s cur = (physRows w2.fs cur.index).map (deref w2.fs.records s) := by
    rw [← same cur.index hl2.succ.earlier hokC]
    exact (same cur.index (hl.succ.earlier.trans (hle0.trans hle)) hl.succ.curOK.manifests).symm
  have hnow : snapRows w2.fs s cur2 = snapRows w.fs s cur ++
      (physRows w2.fs p.addIdx).map (deref w2.fs.records s) := by
    rw [hold, snapRows, hidx, physRows_append, List.map_append]
  refine ⟨_, ((physRows w2.fs p.addIdx).map (deref w2.fs.records s)).map (·.select s.writeNames), hl.branch ▸ hra, ?_, ?_⟩
  · rw [← List.map_append, ← hnow]
    exact hrb
  · intro hf ht
    have hres := hl2.succ.undone hn he h2 hidx
      (fun r hr => by
        have := hf _ (List.mem_map.mpr ⟨_, by rw [hold]; exact List.mem_map.mpr ⟨r, hr, rfl⟩, rfl⟩)
        rwa [truth_select he, truth_deref he.plain] at this)
      (fun r hr => by
        have := ht _ (List.mem_map.mpr ⟨_, List.mem_map.mpr ⟨r, hr, rfl⟩, rfl⟩)
        rwa [truth_select he, truth_deref he.plain] at this)
    rw [hres, ← hold] at hrc
    exact hrc

end

open Demo

/-- Two mutations that took effect by two handles, the second on the version that the first left: the rows of the main
branch before, between and after. -/
def Demo.Undoing (E : Env) (s : Schema) (m1 m2 : Mutation) (old mid new : List Row) : Prop :=
  ∃ σ σ1 σ2 σ3 sl1 sl2, Done E s 0 m1 σ σ1 ∧ σ1.slots[0]? = some sl1 ∧ σ2.slots[1]? = some sl2 ∧
    SameVersion E s σ1 sl1 σ2 sl2 ∧ Done E s 1 m2 σ2 σ3 ∧ Reads E σ mainBranch old ∧ Reads E σ2 mainBranch mid ∧
    Reads E σ3 mainBranch new

theorem Demo.undoing_of {E : Env} {s : Schema} (as : List Act) {m1 m2 : Mutation} {old mid new : List Row}
    (h1 : (act E (after E anyB s as) (.call 0 (.mutate m1))).map (fun x => outOf x.1) = some (.res (.job .succeeded)))
    (h2 : ((doing E (after E anyB s as) (.call 0 (.mutate m1))).slots[0]?).map
        (fun sl => headOf sl.h (doing E (after E anyB s as) (.call 0 (.mutate m1))).w) =
      ((more E anyB [.load] (doing E (after E anyB s as) (.call 0 (.mutate m1)))).slots[1]?).map
        (fun sl => headOf sl.h (more E anyB [.load] (doing E (after E anyB s as) (.call 0 (.mutate m1)))).w))
    (h3 : ((more E anyB [.load] (doing E (after E anyB s as) (.call 0 (.mutate m1)))).slots[1]?).map
        (fun sl => sl.h.branch) = some mainBranch)
    (h4 : (act E (more E anyB [.load] (doing E (after E anyB s as) (.call 0 (.mutate m1))))
      (.call 1 (.mutate m2))).map (fun x => outOf x.1) = some (.res (.job .succeeded)))
    (h0 : readsB E (after E anyB s as) old = true)
    (h5 : readsB E (more E anyB [.load] (doing E (after E anyB s as) (.call 0 (.mutate m1)))) mid = true)
    (h6 : readsB E (doing E (more E anyB [.load] (doing E (after E anyB s as) (.call 0 (.mutate m1))))
      (.call 1 (.mutate m2))) new = true) : Undoing E s m1 m2 old mid new := by
  obtain ⟨-, hs1⟩ := doing_step (E := E) (s := s) h1
  obtain ⟨-, hs2⟩ := doing_step (E := E) (s := s) h4
  obtain ⟨sl2, k1, -, k2⟩ := slot_of h3
  have hr : Reach E s anyStep (after E anyB s as) := after_reach (fun _ _ _ => trivial) _
  have hrun : Run E s anyStep (doing E (after E anyB s as) (.call 0 (.mutate m1)))
      (more E anyB [.load] (doing E (after E anyB s as) (.call 0 (.mutate m1)))) := more_run (fun _ _ _ => trivial) _ _
  rw [k1] at h2
  obtain ⟨sl1, k3, -, k4⟩ := slot_of h2
  exact ⟨_, _, _, _, sl1, sl2, .call hr hs1, k3, k1, ⟨hrun, k4.symm⟩, .call ((hr.step trivial hs1).run hrun) hs2,
    reads_of h0, reads_of h5, reads_of h6⟩

/-- Rows appended between those there were, in two files by Ray, and deleted again, by the local runner and by Ray. -/
example : FilterFits schema (idIn 1 4) ∧
    (∀ r ∈ [row 1 "a" [1], row 5 "e" [5]], (idIn 1 4).truth env.I r = some false) ∧
    (∀ r ∈ [row 2 "b" [2], row 3 "c" []], (idIn 1 4).truth env.I r = some true) ∧
    Undoing env schema (.append [[row 2 "b" [2]], [row 3 "c" []]]) (.delete (idIn 1 4))
      [row 1 "a" [1], row 5 "e" [5]] [row 1 "a" [1], row 5 "e" [5], row 2 "b" [2], row 3 "c" []]
      [row 1 "a" [1], row 5 "e" [5]] ∧
    Undoing env schema (.rayAppend 2 [0, 1] [row 2 "b" [2], row 3 "c" []]) (.rayDelete (idIn 1 4))
      [row 1 "a" [1], row 5 "e" [5]] [row 1 "a" [1], row 5 "e" [5], row 2 "b" [2], row 3 "c" []]
      [row 1 "a" [1], row 5 "e" [5]] :=
  ⟨FilterFits.of_flat (by decide) (by decide) (by decide) (by decide) (by decide) (by decide), by decide, by decide,
   undoing_of [.call 0 (.mutate (.append [[row 1 "a" [1], row 5 "e" [5]]]))] (by decide +kernel) (by decide +kernel)
    (by decide +kernel) (by decide +kernel) (by decide +kernel) (by decide +kernel) (by decide +kernel),
   undoing_of [.call 0 (.mutate (.append [[row 1 "a" [1], row 5 "e" [5]]]))] (by decide +kernel) (by decide +kernel)
    (by decide +kernel) (by decide +kernel) (by decide +kernel) (by decide +kernel) (by decide +kernel)⟩

/-- C82 is false where the filter is null on a row there was: that row goes with those added. -/
theorem C82_violated_null : ∃ e old added new, FilterFits schema e ∧
    Undoing env schema (.append [added]) (.delete e) old (old ++ added) new ∧
    (∀ r ∈ added, e.truth env.I r = some true) ∧ (∀ r ∈ old, e.truth env.I r ≠ some true) ∧ ¬ new ~ old := by
  refine ⟨.bin "equal" (.sel "txt") (.lit (.str "a")), [rowNull 2 [2], row 3 "c" [3]], [row 1 "a" [1]], [row 3 "c" [3]],
    ?_, undoing_of [.call 0 (.mutate (.append [[rowNull 2 [2], row 3 "c" [3]]]))] (by decide +kernel) (by decide +kernel)
    (by decide +kernel) (by decide +kernel) (by decide +kernel) (by decide +kernel) (by decide +kernel), by decide,
    by decide, ?_⟩
  · exact FilterFits.of_flat (by decide) (by decide) (by decide) (by decide) (by decide) (by decide)
  · intro h
    have := h.length_eq
    revert this
    decide

/-- C82 is false for negated comparisons: a file with keys on both sides of the one excluded is left out of the delete,
and its rows, which were added, stay. -/
theorem C82_violated_not : ∃ e old added new,
    Undoing env schema (.rayAppend 2 [0, 1] added) (.delete e) old (old ++ added) new ∧
    (∀ r ∈ added, e.truth env.I r = some true) ∧ (∀ r ∈ old, e.truth env.I r = some false) ∧ ¬ new ~ old := by
  refine ⟨.un "not" (idIs "equal" 3), [row 3 "c" [3]], [row 2 "b" [2], row 4 "d" [4], row 5 "e" [5], row 6 "f" [6]],
    [row 3 "c" [3], row 2 "b" [2], row 4 "d" [4]],
    undoing_of [.call 0 (.mutate (.append [[row 3 "c" [3]]]))] (by decide +kernel) (by decide +kernel)
    (by decide +kernel) (by decide +kernel) (by decide +kernel) (by decide +kernel) (by decide +kernel), by decide,
    by decide, ?_⟩
  intro h
  have := h.length_eq
  revert this
  decide

end Space
