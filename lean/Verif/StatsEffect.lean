import Verif.StatsInv

/-!
# What mutations add to the row counts
-/

set_option autoImplicit false

namespace Space

open List

variable {E : Env} {s : Schema} {m : Mutation} {h h' h1 : Handle} {wb w w' w1 : World} {p : Patch}
  {cur snap : Snapshot}

theorem filter_length_split {α : Type} (q : α → Bool) (l : List α) :
    ((l.filter q).length : Int) = l.length - (l.filter (fun x => !q x)).length := by
  have := (List.filter_append_perm q l).length_eq
  rw [List.length_append] at this
  omega

/-- The rows left by a delete that loses none, counted. -/
theorem after_count {e : Expr} {fs : FS} {mf : Option MExpr} (he : FilterFits s e)
    (hm : manifestFilter s (some e) = .ok mf) (hcur : SnapOK fs s cur) (I : Interp)
    (hnn : ∀ r ∈ snapRows fs s cur, e.truth I r ≠ none) :
    (((cur.index.flatMap (entriesOf fs)).flatMap (afterRows I e fs mf)).length : Int) =
      ((physRows fs cur.index).length : Int) -
        ((snapRows fs s cur).filter (fun r => e.truth I r == some true)).length := by
  obtain ⟨nulls, h1, h2⟩ := left_logical (fs1 := fs) (FSLe.refl _) he hm hcur I
  have hnil : nulls = [] := by
    refine List.eq_nil_iff_forall_not_mem.mpr fun r hr => ?_
    obtain ⟨hr1, hr2⟩ := List.mem_filter.mp (h1.subset hr)
    exact hnn r hr1 (by simpa using hr2)
  have h3 := h2.length_eq
  rw [hnil, List.append_nil, List.length_map] at h3
  rw [h3, filter_length_split, snapRows_length]
  congr 2
  rw [List.filter_congr]
  intro r hr
  have := hnn r hr
  rcases hx : e.truth I r with _ | _ | _ <;> simp_all

/-- Rows counted by the delete part of a mutation. -/
theorem DeleteOut.counts {e : Expr} {mf : Option MExpr} {dp : Option Patch}
    (he : FilterFits s e) (hm : manifestFilter s (some e) = .ok mf) (hcur : SnapOK w.fs s cur)
    (hnn : ∀ r ∈ snapRows w.fs s cur, e.truth E.I r ≠ none)
    (h : DeleteOut E s e w w1 cur.index mf dp) :
    (dp.map (·.stats.rows)).getD 0 = -((snapRows w.fs s cur).filter (fun r => e.truth E.I r == some true)).length := by
  have hc := after_count he hm hcur E.I hnn
  rcases h.out with ⟨rfl, hmod⟩ | ⟨q, dms, carried, mf', rmf, rp, rfl, hd⟩
  · have : (cur.index.flatMap (entriesOf w.fs)).flatMap (afterRows E.I e w.fs mf) = physRows w.fs cur.index := by
      rw [physRows_entries]
      refine flatMap_congr' fun mr hmr => ?_
      obtain ⟨q', hq', hmq⟩ := List.mem_flatMap.mp hmr
      have := hmod q' hq'
      simp only [hasMod, List.any_eq_false] at this
      have := this mr hmq
      simp [afterRows, this]
    rw [this] at hc
    simp only [Option.map_none, Option.getD_none]
    omega
  · have := hd.rowCount hcur.manifests
    simp only [Option.map_some, Option.getD_some]
    omega

theorem Success.statRows (hs : Success E s m h wb w h' w' h1 w1 p cur snap) :
    snap.stats.rows = cur.stats.rows + p.stats.rows := by
  rw [hs.stats]
  rfl

/-- The rows counted by an append, local or by Ray. -/
theorem Success.statAdded (hs : Success E s m h wb w h' w' h1 w1 p cur snap) {rows : List Row}
    (hm : m.added = some rows) : snap.stats.rows = cur.stats.rows + rows.length := by
  obtain ⟨P, hg, hP, -⟩ := hs.addedG hm
  have h1 := hg.counts.1
  have h2 := hs.countAdded hm
  obtain ⟨P', hg', hP', hsn⟩ := hs.addedG hm
  have h3 := hsn.length_eq
  unfold Counted at h2
  simp only [List.length_append, List.length_map] at h3
  omega

/-- The rows counted by an insert or upsert, local or by Ray. -/
theorem Success.statInserted (hs : Success E s m h wb w h' w' h1 w1 p cur snap)
    {mode : InsertMode} {data : List Row} (hm : m.inserts = some (mode, data)) :
    (mode = .insert → snap.stats.rows = cur.stats.rows + data.length) ∧
    (mode = .upsert → KeySchema s → KeysSet s (snapRows w.fs s cur) →
      snap.stats.rows = cur.stats.rows + data.length -
        ((snapRows w.fs s cur).filter (fun r => decide (keyOf s.pks r ∈ data.map (keyOf s.pks)))).length) := by
  obtain ⟨e, mf, hout⟩ := hs.insertedG hm
  obtain ⟨w0, dp, ap, P, g1, f1, g2, hp, hfin, hP, hins, hups, -⟩ := hout.out
  obtain ⟨hr, -⟩ := merge_rows hp
  have hrows := hs.statRows
  have hap : (ap.map (·.stats.rows)).getD 0 = (data.length : Int) := by
    have h2 := hP.length_eq
    simp only [List.length_map] at h2
    rw [← hfin.counts.1]
    cases ap with
    | none =>
      rw [hfin.none_iff.mp rfl] at h2
      simp [physRows] at h2 ⊢
      omega
    | some q =>
      simp only [Option.map_some, Option.getD_some]
      rw [hfin.phys q rfl, h2]
  constructor
  · rintro rfl
    obtain ⟨rfl, rfl, -⟩ := hins rfl
    simp only [Option.map_none, Option.getD_none] at hr
    omega
  · rintro rfl hk hset
    have hdel := hups rfl
    obtain ⟨hke, -⟩ := primaryKeyFilter_sem hout.key E.I
    have he := hk.fits hke
    have hc := hdel.counts he hout.filter hs.curOK (fun r hr => hke.total E.I r (hset r hr))
    have ht := key_truth (I := E.I) hk hout.key hset
    have : (snapRows w.fs s cur).filter (fun r => e.truth E.I r == some true) =
        (snapRows w.fs s cur).filter (fun r => decide (keyOf s.pks r ∈ data.map (keyOf s.pks))) := by
      refine List.filter_congr fun r hr => ?_
      rw [← ht r hr]
      by_cases hx : keyOf s.pks r ∈ data.map (keyOf s.pks) <;> simp [hx]
    rw [this] at hc
    omega

/-- The rows counted by a delete, local or by Ray. -/
theorem Success.statDeleted (hn : s.names.Nodup) (hs : Success E s m h wb w h' w' h1 w1 p cur snap)
    {e : Expr} (hm : m = .delete e ∨ m = .rayDelete e) (he : FilterFits s e)
    (hnn : ∀ r ∈ snapRows w.fs s cur, e.truth E.I r ≠ none) :
    snap.stats.rows = cur.stats.rows - ((snapRows w.fs s cur).filter (fun r => e.truth E.I r == some true)).length := by
  have hrows := hs.statRows
  rcases hm with rfl | rfl
  · have hb := hs.body
    simp only [Mutation.body] at hb
    obtain ⟨-, -, cur', mf, hc, hm, hout⟩ := Post.elim (deleteBody_post (E := E) (e := e) hs.fresh hs.handle) hb
    rw [hs.base] at hc
    cases hc
    have := hout.counts he hm hs.curOK hnn
    simp only [Option.map_some, Option.getD_some] at this
    omega
  · obtain ⟨mf, hm, hd⟩ := hs.rayDeleted hn
    have h1 := hd.rowCount hs.curOK.manifests
    have h2 := after_count he hm hs.curOK E.I hnn
    omega

/-- The rows counted by a transaction of a refresh. -/
theorem Success.statSync {n : Nat} {sched : List Nat} {gone : List Row}
    {added : Option (List (List (List Row)))}
    (hs : Success E s (.sync n sched gone added) h wb w h' w' h1 w1 p cur snap) (hk : KeySchema s)
    (hset : KeysSet s (snapRows w.fs s cur)) :
    snap.stats.rows = cur.stats.rows + (syncRows added).length -
      ((snapRows w.fs s cur).filter (fun r => decide (keyOf s.pks r ∈ gone.map (keyOf s.pks)))).length := by
  obtain ⟨w0, dp, ap, P, g1, f1, g2, hp, hfin, hP, hdp, -⟩ := hs.syncedG.out
  obtain ⟨hr, -⟩ := merge_rows hp
  have hrows := hs.statRows
  have hap : (ap.map (·.stats.rows)).getD 0 = ((syncRows added).length : Int) := by
    have h2 := hP.length_eq
    simp only [List.length_map] at h2
    rw [← hfin.counts.1]
    cases ap with
    | none =>
      rw [hfin.none_iff.mp rfl] at h2
      simp [physRows] at h2 ⊢
      omega
    | some q =>
      simp only [Option.map_some, Option.getD_some]
      rw [hfin.phys q rfl, h2]
  rcases hdp with ⟨rfl, rfl, -⟩ | ⟨e, mf, hkey, hmf, hdel⟩
  · simp only [Option.map_none, Option.getD_none] at hr
    have : (snapRows w.fs s cur).filter (fun r => decide (keyOf s.pks r ∈ List.map (keyOf s.pks) [])) = [] := by simp
    rw [this]
    simp only [List.length_nil]
    omega
  · obtain ⟨hke, -⟩ := primaryKeyFilter_sem hkey E.I
    have he := hk.fits hke
    have hc := hdel.counts he hmf hs.curOK (fun r hr => hke.total E.I r (hset r hr))
    have ht := key_truth (I := E.I) hk hkey hset
    have : (snapRows w.fs s cur).filter (fun r => e.truth E.I r == some true) =
        (snapRows w.fs s cur).filter (fun r => decide (keyOf s.pks r ∈ gone.map (keyOf s.pks))) := by
      refine List.filter_congr fun r hr => ?_
      rw [← ht r hr]
      by_cases hx : keyOf s.pks r ∈ gone.map (keyOf s.pks) <;> simp [hx]
    rw [this] at hc
    omega

/-- The rows counted by a load. -/
theorem Success.statLoaded (hn : s.names.Nodup) (hs : Success E s m h wb w h' w' h1 w1 p cur snap)
    (hm : (∃ files, m = .appendParquet files) ∨ ∃ fn files, m = .appendArrayRecord fn files) :
    snap.stats.rows - cur.stats.rows = (snapRows w'.fs s snap).length - (snapRows w.fs s cur).length := by
  have hc : Counted w w' s cur snap 0 := by
    refine hs.count hn ?_
    rcases hm with ⟨files, rfl⟩ | ⟨fn, files, rfl⟩ <;> trivial
  unfold Counted at hc
  omega

end Space
