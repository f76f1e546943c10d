import Verif.Props.PutBack
import Verif.Props.Diff
import Verif.Props.Loads

/-! # C96: the diff over one commit -/

set_option autoImplicit false

namespace Space

open List

section
variable {E : Env} {s : Schema}

theorem Success.logIs {m : Mutation} {h h' h1 : Handle} {wb w w' w1 : World} {p : Patch} {cur snap : Snapshot}
    (hs : Success E s m h wb w h' w' h1 w1 p cur snap) {cl : ChangeLog} (hl : p.log = some cl) :
    logOf w'.fs snap = some cl := by
  rcases hs.log with ⟨h0, -⟩ | ⟨cl', q, h1, h2, h3⟩
  · rw [hl] at h0; cases h0
  · rw [hl] at h1
    cases h1
    simp [logOf, h2, h3]

/-- An append logs the rows given as added. -/
theorem Success.appendLog {m : Mutation} {h h' h1 : Handle} {wb w w' w1 : World} {p : Patch} {cur snap : Snapshot}
    (hs : Success E s m h wb w h' w' h1 w1 p cur snap) {rows : List Row} (hm : m.added = some rows) :
    ∃ as, logOf w'.fs snap = some ⟨[], as⟩ ∧ loggedRows w'.fs s as ~ rows.map (·.select s.writeNames) := by
  obtain ⟨P, hg, hP⟩ := hs.addedG hm
  obtain ⟨as, hl, ha⟩ := hg.addedRows
  refine ⟨as, hs.logIs hl, ?_⟩
  have hlok : LogOK w1.fs s ⟨[], as⟩ := hs.patch.log _ hl
  rw [loggedRows_mono hs.le (fun b hb => hlok b (Or.inr hb))]
  unfold loggedRows
  rw [ha]
  exact hP.1

/-- The rows logged by a delete, on any layout: those on which the filter is true, and some on which it is null. -/
theorem logged_split {w w1 : World} {e : Expr} {mf : Option MExpr} {cur : Snapshot} (he : FilterFits s e)
    (hm : manifestFilter s (some e) = .ok mf) (hcur : SnapOK w.fs s cur) (hg : Grows w w1) :
    ∃ nulls rest, (snapRows w.fs s cur).filter (fun r => e.truth E.I r == none) ~ rest ++ nulls ∧
      ((((visited w.fs mf cur.index).files.filter (modFile E.I e w.fs)).map (delBitmap E.I e w.fs)).flatMap
        (bitRows w1.fs)).map (deref w1.fs.records s) ~
        (snapRows w.fs s cur).filter (fun r => e.truth E.I r == some true) ++ nulls := by
  obtain ⟨rest, a1, a2⟩ := left_logical (cur := cur) (I := E.I) hg.le he hm hcur
  obtain ⟨nulls, hnulls⟩ := a1.exists_perm_append
  refine ⟨nulls, rest, hnulls, ?_⟩
  have hd : (physRows w.fs cur.index).map (deref w1.fs.records s) = snapRows w.fs s cur :=
    map_deref_mono hg.le.lookLe fun r hr => (physRows_ok hcur.manifests r hr).2
  have hall := (after_all (I := E.I) (e := e) (fs := w.fs) (mf := mf) cur.index).map (deref w1.fs.records s)
  rw [hd, List.map_append, ← delBitmaps_rows hcur.manifests hg] at hall
  have hsplit : snapRows w.fs s cur ~ (snapRows w.fs s cur).filter (fun r => e.truth E.I r == some false) ++
      ((snapRows w.fs s cur).filter (fun r => e.truth E.I r == none) ++
        (snapRows w.fs s cur).filter (fun r => e.truth E.I r == some true)) := by
    refine (filter_append_perm (fun r => e.truth E.I r == some false) _).symm.trans (List.Perm.append_left _ ?_)
    refine (filter_append_perm (fun r => e.truth E.I r == none) _).symm.trans (List.Perm.of_eq ?_)
    rw [List.filter_filter, List.filter_filter]
    congr 1 <;> refine List.filter_congr fun r _ => ?_ <;>
      rcases h : e.truth E.I r with _ | _ | _ <;> simp
  refine (List.perm_append_left_iff ((snapRows w.fs s cur).filter (fun r => e.truth E.I r == some false) ++ rest)).mp ?_
  refine (a2.symm.append_right _).trans (hall.symm.trans (hsplit.trans ?_))
  rw [List.append_assoc]
  refine List.Perm.append_left _ ((hnulls.append_right _).trans ?_)
  rw [List.append_assoc]
  exact List.Perm.append_left _ List.perm_append_comm

theorem logged_matches {w w1 : World} {e : Expr} {mf : Option MExpr} {cur : Snapshot} (he : FilterFits s e)
    (hm : manifestFilter s (some e) = .ok mf) (hcur : SnapOK w.fs s cur) (hg : Grows w w1)
    (hnull : ∀ r ∈ snapRows w.fs s cur, e.truth E.I r ≠ none) :
    ((((visited w.fs mf cur.index).files.filter (modFile E.I e w.fs)).map (delBitmap E.I e w.fs)).flatMap
      (bitRows w1.fs)).map (deref w1.fs.records s) ~ (snapRows w.fs s cur).filter (fun r => e.truth E.I r == some true) := by
  obtain ⟨nulls, rest, h1, h2⟩ := logged_split (E := E) he hm hcur hg
  rw [List.filter_eq_nil_iff.mpr (by simpa using hnull)] at h1
  have : nulls = [] := (List.append_eq_nil_iff.mp (List.nil_perm.mp h1)).2
  rwa [this, List.append_nil] at h2

/-- A delete, local or by Ray, logs the rows on which the filter is true as deleted, and some on which it is null, on any
layout. -/
theorem Success.deleteLog (hn : s.names.Nodup) {m : Mutation} {h h' h1 : Handle} {wb w w' w1 : World} {p : Patch}
    {cur snap : Snapshot} (hs : Success E s m h wb w h' w' h1 w1 p cur snap) {e : Expr} (he : FilterFits s e)
    (hm : m = .delete e ∨ m = .rayDelete e) :
    ∃ ds nulls rest, logOf w'.fs snap = some ⟨ds, []⟩ ∧
      (snapRows w.fs s cur).filter (fun r => e.truth E.I r == none) ~ rest ++ nulls ∧
      loggedRows w'.fs s ds ~ (snapRows w.fs s cur).filter (fun r => e.truth E.I r == some true) ++ nulls := by
  obtain ⟨mf, hmf, hg, hlog⟩ : ∃ mf, manifestFilter s (some e) = .ok mf ∧ Grows w w1 ∧
      p.log = some ⟨((visited w.fs mf cur.index).files.filter (modFile E.I e w.fs)).map (delBitmap E.I e w.fs), []⟩ := by
    rcases hm with rfl | rfl
    · have hb := hs.body
      simp only [Mutation.body] at hb
      obtain ⟨hg, -, snap', mf, hsn, hm, hout⟩ := Post.elim (deleteBody_post hs.fresh hs.handle) hb
      rw [hs.base] at hsn
      cases hsn
      rcases hout.out with ⟨hx, -⟩ | ⟨q, dms, carried, mf', rmf, rp, hx, hd⟩
      · cases hx
      cases hx
      exact ⟨mf, hm, hg, hd.log⟩
    · obtain ⟨mf, hm, hd⟩ := hs.rayDeleted hn
      exact ⟨mf, hm, hs.grows, hd.log⟩
  obtain ⟨nulls, rest, h1, h2⟩ := logged_split (E := E) he hmf hs.curOK hg
  refine ⟨_, nulls, rest, hs.logIs hlog, h1, ?_⟩
  have hlok := hs.patch.log _ hlog
  rw [loggedRows_mono hs.le (fun b hb => hlok b (Or.inl hb))]
  exact h2

/-- An insert or upsert, local or by Ray, logs the rows given as added, and an upsert logs the rows with their keys as
deleted, on any layout. -/
theorem Success.insertLog (hk : KeySchema s) {m : Mutation} {h h' h1 : Handle} {wb w w' w1 : World} {p : Patch}
    {cur snap : Snapshot} (hs : Success E s m h wb w h' w' h1 w1 p cur snap) {mode : InsertMode} {data : List Row}
    (hm : m.inserts = some (mode, data)) :
    ∃ ds as, logOf w'.fs snap = some ⟨ds, as⟩ ∧ loggedRows w'.fs s as ~ data.map (·.select s.writeNames) ∧
      (mode = .insert → ds = []) ∧
      (mode = .upsert → KeysSet s (snapRows w.fs s cur) →
        loggedRows w'.fs s ds ~ (snapRows w.fs s cur).filter (fun r => decide (keyOf s.pks r ∈ data.map (keyOf s.pks)))) := by
  obtain ⟨e, mf, hout⟩ := hs.insertedG hm
  obtain ⟨w0, dp, ap, P, g1, f1, g2, hp, hfin, hP, hins, hups, -⟩ := hout.out
  obtain ⟨hke, -, -, -, hne⟩ := primaryKeyFilter_sem hout.key E.I
  obtain ⟨q, rfl⟩ : ∃ q, ap = some q := by
    cases ap with
    | none =>
      rw [hfin.none_iff.mp rfl] at hP
      exact absurd (List.map_eq_nil_iff.mp (List.nil_perm.mp hP)) hne
    | some q => exact ⟨q, rfl⟩
  obtain ⟨as, hal, ha⟩ := hfin.addedRows
  have adds : ∀ {ds}, p.log = some ⟨ds, as⟩ → loggedRows w'.fs s as ~ data.map (·.select s.writeNames) := by
    intro ds hlog
    have hlok : LogOK w1.fs s ⟨ds, as⟩ := hs.patch.log _ hlog
    rw [loggedRows_mono hs.le (fun b hb => hlok b (Or.inr hb))]
    unfold loggedRows
    rw [ha]
    exact hP
  rw [merge_two] at hp
  cases mode with
  | insert =>
    obtain ⟨rfl, rfl, -⟩ := hins rfl
    cases hp
    exact ⟨[], as, hs.logIs hal, adds hal, fun _ => rfl, by simp⟩
  | upsert =>
    have he := hk.fits hke
    have hmatch : KeysSet s (snapRows w.fs s cur) →
        (∀ r ∈ snapRows w.fs s cur, e.truth E.I r ≠ none) ∧
        (snapRows w.fs s cur).filter (fun r => e.truth E.I r == some true) =
          (snapRows w.fs s cur).filter (fun r => decide (keyOf s.pks r ∈ data.map (keyOf s.pks))) := by
      intro hset
      have ht := key_truth (I := E.I) hk hout.key hset
      refine ⟨fun r hr => by rw [← ht r hr]; simp, List.filter_congr fun r hr => ?_⟩
      rw [← ht r hr]
      cases decide (keyOf s.pks r ∈ data.map (keyOf s.pks)) <;> rfl
    rcases (hups rfl).out with ⟨hx, hmod⟩ | ⟨dq, dms, carried, mf2, rmf2, rp, hx, hd2⟩
    · subst hx
      cases hp
      refine ⟨[], as, hs.logIs hal, adds hal, by simp, fun _ hset => ?_⟩
      obtain ⟨h1, h2⟩ := hmatch hset
      have := logged_matches (E := E) he hout.filter hs.curOK g1 h1
      have hnil : (visited w.fs mf cur.index).files.filter (modFile E.I e w.fs) = [] := by
        cases hc : (visited w.fs mf cur.index).files.filter (modFile E.I e w.fs) with
        | nil => rfl
        | cons f l =>
          obtain ⟨q, hq, m', hmm, hmo, -⟩ := visited_mods f (hc ▸ List.mem_cons_self)
          have := hmod q hq
          simp only [hasMod, List.any_eq_false] at this
          exact absurd hmo (this m' hmm)
      rw [hnil, h2] at this
      exact this
    · subst hx
      cases hp
      have hlog := hd2.log
      obtain ⟨ds, hds⟩ : ∃ ds, ds = ((visited w.fs mf cur.index).files.filter (modFile E.I e w.fs)).map
        (delBitmap E.I e w.fs) := ⟨_, rfl⟩
      rw [← hds] at hlog
      have hl : mergeLogs dq.log q.log = some ⟨ds, as⟩ := by
        simp only [hlog, hal, mergeLogs, List.append_nil, List.nil_append]
      refine ⟨ds, as, hs.logIs hl, adds hl, by simp, fun _ hset => ?_⟩
      obtain ⟨h1, h2⟩ := hmatch hset
      have hlok0 : LogOK w0.fs s ⟨ds, []⟩ := hd2.logOK hs.curOK.manifests g1 _ hlog
      rw [loggedRows_mono (g2.le.trans hs.le) (fun b hb => hlok0 b (Or.inl hb)), ← h2]
      unfold loggedRows
      rw [hds]
      exact logged_matches he hout.filter hs.curOK g1 h1

theorem key_matches (hk : KeySchema s) {w w0 : World} {cur : Snapshot} {e : Expr} {mf : Option MExpr} {data : List Row}
    (hkey : primaryKeyFilter s.pks data = .ok (some e)) (hm : manifestFilter s (some e) = .ok mf)
    (hcur : SnapOK w.fs s cur) (hg : Grows w w0) (hset : KeysSet s (snapRows w.fs s cur)) :
    ((((visited w.fs mf cur.index).files.filter (modFile E.I e w.fs)).map (delBitmap E.I e w.fs)).flatMap
      (bitRows w0.fs)).map (deref w0.fs.records s) ~
      (snapRows w.fs s cur).filter (fun r => decide (keyOf s.pks r ∈ data.map (keyOf s.pks))) := by
  have ht := key_truth (I := E.I) hk hkey hset
  have := logged_matches (E := E) (hk.fits (primaryKeyFilter_sem hkey E.I).1) hm hcur hg
    (fun r hr => by rw [← ht r hr]; simp)
  rw [List.filter_congr (q := fun r => decide (keyOf s.pks r ∈ data.map (keyOf s.pks))) (fun r hr => by
    rw [← ht r hr]
    cases decide (keyOf s.pks r ∈ data.map (keyOf s.pks)) <;> rfl)] at this
  exact this

theorem mods_nil {w : World} {e : Expr} {mf : Option MExpr} {index : List Path}
    (hmod : ∀ q ∈ index, hasMod E.I e w.fs mf q = false) : (visited w.fs mf index).files.filter (modFile E.I e w.fs) = [] := by
  cases hc : (visited w.fs mf index).files.filter (modFile E.I e w.fs) with
  | nil => rfl
  | cons f l =>
    have hfm : f ∈ (visited w.fs mf index).files.filter (modFile E.I e w.fs) := by rw [hc]; exact List.mem_cons_self
    obtain ⟨q, hq, m', hmm, hmo, -⟩ := visited_mods f hfm
    have := hmod q hq
    simp only [hasMod, List.any_eq_false] at this
    exact absurd hmo (this m' hmm)

/-- A transaction of a refresh logs the rows to append as added, and the rows with the keys to delete as deleted, on any
layout. -/
theorem Success.syncLog (hk : KeySchema s) {n : Nat} {sched : List Nat} {gone : List Row}
    {added : Option (List (List (List Row)))} {h h' h1 : Handle} {wb w w' w1 : World} {p : Patch}
    {cur snap : Snapshot} (hs : Success E s (.sync n sched gone added) h wb w h' w' h1 w1 p cur snap) :
    ∃ ds as, logOf w'.fs snap = some ⟨ds, as⟩ ∧ loggedRows w'.fs s as ~ (syncRows added).map (·.select s.writeNames) ∧
      (KeysSet s (snapRows w.fs s cur) →
        loggedRows w'.fs s ds ~ (snapRows w.fs s cur).filter (fun r => decide (keyOf s.pks r ∈ gone.map (keyOf s.pks)))) := by
  obtain ⟨w0, dp, ap, P, g1, f1, g2, hp, hfin, hP, hdp, -⟩ := hs.syncedG.out
  rw [merge_two] at hp
  have adds : ∀ {ds as}, p.log = some ⟨ds, as⟩ → as.flatMap (bitRows w1.fs) = P →
      loggedRows w'.fs s as ~ (syncRows added).map (·.select s.writeNames) := by
    intro ds as hlog ha
    have hlok : LogOK w1.fs s ⟨ds, as⟩ := hs.patch.log _ hlog
    rw [loggedRows_mono hs.le (fun b hb => hlok b (Or.inr hb))]
    unfold loggedRows
    rw [ha]
    exact hP
  have only : dp = none → (KeysSet s (snapRows w.fs s cur) →
        (snapRows w.fs s cur).filter (fun r => decide (keyOf s.pks r ∈ gone.map (keyOf s.pks))) = []) →
      ∃ ds as, logOf w'.fs snap = some ⟨ds, as⟩ ∧ loggedRows w'.fs s as ~ (syncRows added).map (·.select s.writeNames) ∧
      (KeysSet s (snapRows w.fs s cur) →
        loggedRows w'.fs s ds ~ (snapRows w.fs s cur).filter (fun r => decide (keyOf s.pks r ∈ gone.map (keyOf s.pks)))) := by
    rintro rfl hnone
    cases ap with
    | none => cases hp
    | some q =>
      cases hp
      obtain ⟨as, hl, ha⟩ := hfin.addedRows
      exact ⟨[], as, hs.logIs hl, adds hl ha, fun hset => by rw [hnone hset]; exact .refl _⟩
  rcases hdp with ⟨hg, h1, -⟩ | ⟨e, mf, hkey, hmf, hdel⟩
  · exact only h1 (fun _ => by subst hg; simp)
  rcases hdel.out with ⟨hx, hmod⟩ | ⟨dq, dms, carried, mf2, rmf2, rp, hx, hd2⟩
  · refine only hx fun hset => ?_
    have := key_matches (E := E) hk hkey hmf hs.curOK g1 hset
    rw [mods_nil hmod] at this
    exact (List.nil_perm.mp this)
  · subst hx
    have hlog := hd2.log
    obtain ⟨ds, hds⟩ : ∃ ds, ds = ((visited w.fs mf cur.index).files.filter (modFile E.I e w.fs)).map
      (delBitmap E.I e w.fs) := ⟨_, rfl⟩
    rw [← hds] at hlog
    have hlok0 : LogOK w0.fs s ⟨ds, []⟩ := hd2.logOK hs.curOK.manifests g1 _ hlog
    have dels : KeysSet s (snapRows w.fs s cur) →
        loggedRows w'.fs s ds ~ (snapRows w.fs s cur).filter (fun r => decide (keyOf s.pks r ∈ gone.map (keyOf s.pks))) := by
      intro hset
      rw [loggedRows_mono (g2.le.trans hs.le) (fun b hb => hlok0 b (Or.inl hb))]
      unfold loggedRows
      rw [hds]
      exact key_matches hk hkey hmf hs.curOK g1 hset
    cases ap with
    | none =>
      cases hp
      exact ⟨ds, [], hs.logIs hlog, adds hlog (by rw [hfin.none_iff.mp rfl]; rfl), dels⟩
    | some q =>
      cases hp
      obtain ⟨as, hal, ha⟩ := hfin.addedRows
      have hl : mergeLogs dq.log q.log = some ⟨ds, as⟩ := by
        simp only [hlog, hal, mergeLogs, List.append_nil, List.nil_append]
      exact ⟨ds, as, hs.logIs hl, adds hl ha, dels⟩

/-- The diff over the commit of a mutation, by every handle, is this. -/
def Diffs (E : Env) (i : Nat) (σ σ' : Sys) (f : List ChangeData → Prop) : Prop :=
  ∃ sl md md' n n', σ.slots[i]? = some sl ∧ σ.w.stored = some md ∧ σ'.w.stored = some md' ∧
    md.currentId sl.h.branch = .ok n ∧ md'.currentId sl.h.branch = .ok n' ∧
    ∀ sl' ∈ σ'.slots, ∀ batch, ∃ cs, tableDiff E sl'.h σ'.w batch (.id n) (.id n') = .ok cs ∧ f cs

/-- It is what the log has. -/
theorem Landing.diffs (hk : KeySchema s) {i : Nat} {m : Mutation} {σ σ' : Sys} {sl sl' : Slot} {w w1 : World} {h1 : Handle}
    {p : Patch} {cur snap : Snapshot} (hd : Done E s i m σ σ') (hl : Landing E s m i σ σ' sl sl' w h1 w1 p cur snap)
    {cl : ChangeLog} (h5 : logOf σ'.w.fs snap = some cl) {f : List ChangeData → Prop}
    (hf : ∀ cs, deletedKeys s cs = keysOf s (loggedRows σ'.w.fs s cl.deleted) →
      addedRows cs = (loggedRows σ'.w.fs s cl.added).map (·.select s.writeNames) → f cs) : Diffs E i σ σ' f := by
  obtain ⟨hr, ev, hs⟩ := hd.reach
  obtain ⟨md, hok⟩ := reach_ok hk.names hr
  obtain ⟨md', hok', -⟩ := step_full hk.names hok hs
  obtain ⟨hc1, hc2⟩ := headOf_id hok hl.succ.head
  obtain ⟨hc3, hc4⟩ := headOf_id hok' hl.succ.head'
  refine ⟨sl, md, md', _, _, hl.slot, hok.wok.storedEq, hok'.wok.storedEq, hc1, hl.branch ▸ hc3, fun b hb batch => ?_⟩
  have hsch := hok'.wok.schema
  obtain ⟨c, h9, h10⟩ := reports_of (E := E) (batch := batch) (hsch ▸ fun k h => ⟨hk.keys k h, hk.plain k h⟩)
    hok'.wok.ok hc4 h5
  rw [hsch] at h10
  obtain ⟨hlt, -⟩ := hok'.wok.ok.parents _ _ _ hc4 hl.succ.parent
  obtain ⟨k1, k2⟩ := deletedKeys_reports h5 h10
  exact ⟨c, (tableDiff_ok hok'.wok (hok'.slot hb)).mpr ⟨cur.id, snap.id, [snap.id], rfl, rfl, hlt,
    .next .here hc4 hl.succ.parent, readChangeIds_ok.mpr ⟨[c], by simp [h9], by simp⟩⟩, hf c k1 k2⟩

/-- C96 for appends and inserts, local and by Ray: the diff over the commit adds the rows given and deletes nothing.
Missing: tables that are not written in the order of the schema's columns, and `append_parquet`, see `C21_violated`. -/
theorem C96_add_partial (hk : KeySchema s) (hlast : s.writeNames = s.names) {i : Nat} {m : Mutation} {σ σ' : Sys}
    {rows : List Row} (hm : Appending m rows ∨ Inserting m rows) (hc : ∀ r ∈ rows, r.cols = s.names)
    (hd : Done E s i m σ σ') :
    Diffs E i σ σ' (fun cs => deletedKeys s cs = [] ∧ addedRows cs ~ rows) := by
  obtain ⟨sl, sl', w, h1, w1, p, cur, snap, hl, -, -⟩ := hd.landing hk.names
  obtain ⟨as, h5, h6⟩ : ∃ as, logOf σ'.w.fs snap = some ⟨[], as⟩ ∧
      loggedRows σ'.w.fs s as ~ rows.map (·.select s.writeNames) := by
    rcases hm with hm | hm
    · exact hl.succ.appendLog hm.added
    · obtain ⟨ds, as, a, b, c, -⟩ := hl.succ.insertLog hk hm
      cases c rfl
      exact ⟨as, a, b⟩
  refine hl.diffs hk hd h5 fun cs k1 k2 => ⟨k1, ?_⟩
  rw [hlast, select_rows hk.names hc] at h6
  have := h6.map (·.select s.writeNames)
  rw [← k2, hlast, select_rows hk.names hc] at this
  exact this

/-- C96 for loads of array records: the diff over the commit deletes nothing and adds the rows that the table gained. -/
theorem C96_load (hk : KeySchema s) {i : Nat} {fn : List Nat → Row} {files : List Path} {σ σ' : Sys}
    (hd : Done E s i (.appendArrayRecord fn files) σ σ') :
    ∃ sl old new, σ.slots[i]? = some sl ∧ Reads E σ sl.h.branch old ∧ Reads E σ' sl.h.branch new ∧
      Diffs E i σ σ' (fun cs => deletedKeys s cs = [] ∧ new ~ old ++ addedRows cs) := by
  obtain ⟨sl, sl', w, h1, w1, p, cur, snap, hl, hr, hr'⟩ := hd.landing hk.names
  obtain ⟨f, mf, rmf, p0, -, -, hf, -, -, -, -, -, -, hlog⟩ := hl.succ.loadRecords
  obtain ⟨as, hal, -⟩ := hf.addedRows
  have h5 := hl.succ.logIs (hlog.trans hal)
  obtain ⟨lost, ⟨cl, kept, h5', -, h7, h8⟩, hno⟩ := hl.succ.logged hk.names (by simp) (by simp)
  cases h5.symm.trans h5'
  cases hno trivial
  refine ⟨sl, _, _, hl.slot, hr, hr', hl.diffs hk hd h5 fun cs k1 k2 => ⟨k1, ?_⟩⟩
  have hle : FSLe w.fs σ'.w.fs := hl.succ.grows.le.trans hl.succ.le
  rw [snapRows_mono hle hl.succ.curOK] at h7
  rw [List.append_nil, show loggedRows σ'.w.fs s [] = [] from rfl, List.append_nil] at h7
  rw [k2, ← List.map_append]
  exact (h8.trans (h7.symm.append_right _)).map _

/-- C96 for deletes, local and by Ray, on any layout, by filters that fit the schema: the diff over the commit adds nothing
and deletes the keys of the rows that a read with the filter showed, and of some rows on which the filter is null. -/
theorem C96_delete_sound (hk : KeySchema s) {i : Nat} {m : Mutation} {e : Expr} {σ σ' : Sys} {sl : Slot}
    (he : FilterFits s e) (hm : m = .delete e ∨ m = .rayDelete e) (hd : Done E s i m σ σ') (hi : σ.slots[i]? = some sl)
    {old shown : List Row} (hold : Reads E σ sl.h.branch old) (hshown : ReadsBy E e σ sl.h.branch shown) :
    ∃ nulls rest, old.filter (fun r => e.truth E.I r == none) ~ rest ++ nulls ∧
      Diffs E i σ σ' (fun cs => addedRows cs = [] ∧ deletedKeys s cs ~ keysOf s (shown ++ nulls)) := by
  obtain ⟨sl0, sl', w, h1, w1, p, cur, snap, hl, hr, -⟩ := hd.landing hk.names
  cases hi.symm.trans hl.slot
  cases hold.unique hi hr
  obtain ⟨ds, nulls, rest, h5, h6, h7⟩ := hl.succ.deleteLog hk.names he hm
  refine ⟨nulls.map (·.select s.writeNames), rest.map (·.select s.writeNames), ?_,
    hl.diffs hk hd h5 fun cs k1 k2 => ⟨k2, ?_⟩⟩
  · rw [← filter_select he, ← List.map_append]
    exact h6.map _
  have hsh : shown = ((snapRows w.fs s cur).map (·.select s.writeNames)).filter (fun r => e.truth E.I r == some true) := by
    have m' := List.mem_of_getElem? hi
    obtain ⟨hr, -⟩ := hd.reach
    exact Except.ok.inj ((hshown sl m' rfl).symm.trans (hold.by hk.names he hr sl m' rfl))
  rw [k1, hsh, ← filter_select he, ← List.map_append, keysOf_select hk]
  exact h7.map _

/-- C96 for deletes by filters that are null on no row: the keys deleted are those of the rows that a read with the filter
showed.  Missing: other filters, see `C96_violated`. -/
theorem C96_delete_partial (hk : KeySchema s) {i : Nat} {m : Mutation} {e : Expr} {σ σ' : Sys} {sl : Slot}
    (he : FilterFits s e) (hm : m = .delete e ∨ m = .rayDelete e) (hd : Done E s i m σ σ') (hi : σ.slots[i]? = some sl)
    {old shown : List Row} (hold : Reads E σ sl.h.branch old) (hnull : ∀ r ∈ old, e.truth E.I r ≠ none)
    (hshown : ReadsBy E e σ sl.h.branch shown) :
    Diffs E i σ σ' (fun cs => addedRows cs = [] ∧ deletedKeys s cs ~ keysOf s shown) := by
  obtain ⟨nulls, rest, h1, h2⟩ := C96_delete_sound hk he hm hd hi hold hshown
  rw [List.filter_eq_nil_iff.mpr (by simpa using hnull)] at h1
  have : nulls = [] := (List.append_eq_nil_iff.mp (List.nil_perm.mp h1)).2
  rwa [this, List.append_nil] at h2

/-- C96 for upserts, local and by Ray, on any layout, for keys without null and NaN: the diff over the commit adds the rows
given and deletes those of their keys that were there.  Missing: other keys, as in C08. -/
theorem C96_upsert_partial (hk : KeySchema s) (hlast : s.writeNames = s.names) {i : Nat} {m : Mutation} {σ σ' : Sys}
    {sl : Slot} {A old : List Row} (hm : m.inserts = some (.upsert, A)) (hc : ∀ r ∈ A, r.cols = s.names)
    (hd : Done E s i m σ σ') (hi : σ.slots[i]? = some sl) (hold : Reads E σ sl.h.branch old) (hset : KeysSet s old) :
    Diffs E i σ σ' (fun cs => addedRows cs ~ A ∧
      deletedKeys s cs ~ (keysOf s old).filter (fun k => decide (k ∈ keysOf s A))) := by
  obtain ⟨sl0, sl', w, h1, w1, p, cur, snap, hl, hr, -⟩ := hd.landing hk.names
  cases hi.symm.trans hl.slot
  cases hold.unique hi hr
  have hset' : KeysSet s (snapRows w.fs s cur) := by
    intro r hr k hkk
    have := hset _ (List.mem_map_of_mem hr) k hkk
    rwa [select_val (writeNames_sub.mpr (hk.keys k hkk))] at this
  obtain ⟨ds, as, h5, h6, -, h7⟩ := hl.succ.insertLog hk hm
  refine hl.diffs hk hd h5 fun cs k1 k2 => ⟨?_, ?_⟩
  · rw [hlast, select_rows hk.names hc] at h6
    have := h6.map (·.select s.writeNames)
    rw [← k2, hlast, select_rows hk.names hc] at this
    exact this
  · rw [k1, keysOf_select hk]
    refine ((h7 rfl hset').map _).trans (List.Perm.of_eq ?_)
    show _ = ((snapRows w.fs s cur).map (fun r => s.pks.map r.val)).filter _
    rw [List.filter_map]
    rfl

/-- C96 for the transactions of a refresh, on any layout, for keys without null and NaN: the diff over the commit adds the
rows that the refresh appends and deletes those of the keys that it deletes that were there. -/
theorem C96_refresh_partial (hk : KeySchema s) (hlast : s.writeNames = s.names) {i n : Nat} {sched : List Nat}
    {gone old : List Row} {added : Option (List (List (List Row)))} {σ σ' : Sys} {sl : Slot}
    (hc : ∀ r ∈ (added.getD []).flatten.flatten, r.cols = s.names) (hd : Done E s i (.sync n sched gone added) σ σ')
    (hi : σ.slots[i]? = some sl) (hold : Reads E σ sl.h.branch old) (hset : KeysSet s old) :
    Diffs E i σ σ' (fun cs => addedRows cs ~ (added.getD []).flatten.flatten ∧
      deletedKeys s cs ~ (keysOf s old).filter (fun k => decide (k ∈ keysOf s gone))) := by
  obtain ⟨sl0, sl', w, h1, w1, p, cur, snap, hl, hr, -⟩ := hd.landing hk.names
  cases hi.symm.trans hl.slot
  cases hold.unique hi hr
  have hset' : KeysSet s (snapRows w.fs s cur) := by
    intro r hr k hkk
    have := hset _ (List.mem_map_of_mem hr) k hkk
    rwa [select_val (writeNames_sub.mpr (hk.keys k hkk))] at this
  obtain ⟨ds, as, h5, h6, h7⟩ := hl.succ.syncLog hk
  refine hl.diffs hk hd h5 fun cs k1 k2 => ⟨?_, ?_⟩
  · unfold syncRows at h6
    rw [hlast, select_rows hk.names hc] at h6
    have := h6.map (·.select s.writeNames)
    rw [← k2, hlast, select_rows hk.names hc] at this
    exact this
  · rw [k1, keysOf_select hk]
    refine ((h7 hset').map _).trans (List.Perm.of_eq ?_)
    show _ = ((snapRows w.fs s cur).map (fun r => s.pks.map r.val)).filter _
    rw [List.filter_map]
    rfl

end

/-! ## Cases -/

open Demo

/-- After a first append and then the mutation, a handle sees these keys deleted and these rows added from version 1 to 2. -/
def Demo.diffOf (σ : Sys) : Option (Except Err (List (List Val) × List Row)) :=
  (σ.slots[0]?).map (fun sl => (tableDiff env sl.h σ.w 16 (.id 1) (.id 2)).map (fun cs => (deletedKeys schema cs, addedRows cs)))

/-- `Showing`, and what the diff is. -/
def Demo.Diffing (m : Mutation) (e : Expr) (old shown : List Row) (ks : List (List Val)) (add : List Row) : Prop :=
  ∃ σ σ' sl sl', Done env schema 0 m σ σ' ∧ σ.slots[0]? = some sl ∧ sl.h.branch = mainBranch ∧ Reads env σ mainBranch old ∧
    ReadsBy env e σ mainBranch shown ∧ σ'.slots[0]? = some sl' ∧ ∃ cs,
      tableDiff env sl'.h σ'.w 16 (.id 1) (.id 2) = .ok cs ∧ deletedKeys schema cs = ks ∧ addedRows cs = add

theorem Demo.diffing_of (as : List Act) {m : Mutation} {e : Expr} {old shown add : List Row} {ks : List (List Val)}
    (h1 : (act env (after env anyB schema as) (.call 0 (.mutate m))).map (fun x => outOf x.1) = some (.res (.job .succeeded)))
    (h2 : ((after env anyB schema as).slots[0]?).map (fun sl => sl.h.branch) = some mainBranch)
    (h3 : readsB env (after env anyB schema as) old = true)
    (h4 : readsByB env e (after env anyB schema as) shown = true)
    (h5 : diffOf (doing env (after env anyB schema as) (.call 0 (.mutate m))) = some (.ok (ks, add))) :
    Diffing m e old shown ks add := by
  obtain ⟨-, hs1⟩ := doing_step (E := env) (s := schema) h1
  obtain ⟨sl, k0, -, k5⟩ := slot_of h2
  obtain ⟨sl', l0, -, l5⟩ := slot_of h5
  refine ⟨_, _, sl, sl', .call (after_reach (fun _ _ _ => trivial) _) hs1, k0, k5, reads_of h3, readsBy_of h4, l0, ?_⟩
  cases hd : tableDiff env sl'.h (doing env (after env anyB schema as) (.call 0 (.mutate m))).w 16 (.id 1) (.id 2) with
  | error x => rw [hd] at l5; cases l5
  | ok cs =>
    rw [hd] at l5
    cases l5
    exact ⟨cs, rfl, rfl, rfl⟩

/-- Deletes by the local runner and by Ray, the first of which loses row 5, which the diff does not tell (see C19); an upsert
of a key that is there and one that is not; an append and an insert by Ray. -/
example : FilterFits schema (idIs "lt" 5) ∧ KeysSet schema [row 1 "a" [1], row 2 "b" [2], row 5 "e" [5]] ∧
    Inserting (.rayInsert .insert 2 [1, 0] [row 6 "f" [], row 7 "g" [7]]) [row 6 "f" [], row 7 "g" [7]] ∧
    Diffing (.delete (idIs "lt" 5)) (idIs "lt" 5) [row 1 "a" [1], row 2 "b" [2], row 5 "e" [5]]
      [row 1 "a" [1], row 2 "b" [2]] [[.sc (.int 1)], [.sc (.int 2)]] [] ∧
    Diffing (.rayDelete (idIs "lt" 5)) (idIs "lt" 5) [row 1 "a" [1], row 2 "b" [2], row 5 "e" [5]]
      [row 1 "a" [1], row 2 "b" [2]] [[.sc (.int 1)], [.sc (.int 2)]] [] ∧
    Diffing (.upsert [row 2 "B" [], row 7 "g" [7]]) (idIs "lt" 5) [row 1 "a" [1], row 2 "b" [2], row 5 "e" [5]]
      [row 1 "a" [1], row 2 "b" [2]] [[.sc (.int 2)]] [row 2 "B" [], row 7 "g" [7]] ∧
    Diffing (.append [[row 6 "f" []], [row 6 "f" []]]) (idIs "lt" 5) [row 1 "a" [1], row 2 "b" [2], row 5 "e" [5]]
      [row 1 "a" [1], row 2 "b" [2]] [] [row 6 "f" [], row 6 "f" []] ∧
    Diffing (.rayInsert .insert 2 [1, 0] [row 6 "f" [], row 7 "g" [7]]) (idIs "lt" 5)
      [row 1 "a" [1], row 2 "b" [2], row 5 "e" [5]] [row 1 "a" [1], row 2 "b" [2]] [] [row 6 "f" [], row 7 "g" [7]] := by
  let as : List Act := [.call 0 (.mutate (.append [[row 1 "a" [1], row 2 "b" [2]], [row 5 "e" [5]]]))]
  exact ⟨fitsB_fits (by decide), keysSetB_set (by decide), rfl,
    diffing_of as (by decide +kernel) (by decide +kernel) (by decide +kernel) (by decide +kernel) (by decide +kernel),
    diffing_of as (by decide +kernel) (by decide +kernel) (by decide +kernel) (by decide +kernel) (by decide +kernel),
    diffing_of as (by decide +kernel) (by decide +kernel) (by decide +kernel) (by decide +kernel) (by decide +kernel),
    diffing_of as (by decide +kernel) (by decide +kernel) (by decide +kernel) (by decide +kernel) (by decide +kernel),
    diffing_of as (by decide +kernel) (by decide +kernel) (by decide +kernel) (by decide +kernel) (by decide +kernel)⟩

/-- A transaction of a refresh that deletes two keys, one of which is there, and appends two sources by two actors. -/
example : Diffing (.sync 2 [1, 0] [row 5 "E" [5], row 12 "k" []] (some [[[row 11 "k" []]], [[row 13 "l" []]]])) (idIs "lt" 5)
    [row 1 "a" [1], row 2 "b" [2], row 5 "e" [5]] [row 1 "a" [1], row 2 "b" [2]] [[.sc (.int 5)]]
    [row 11 "k" [], row 13 "l" []] :=
  diffing_of [.call 0 (.mutate (.append [[row 1 "a" [1], row 2 "b" [2]], [row 5 "e" [5]]]))]
    (by decide +kernel) (by decide +kernel) (by decide +kernel) (by decide +kernel) (by decide +kernel)

/-- A user's record file, loaded after an append, and the diff over the load. -/
example : ∃ (fn : List Nat → Row) (σ σ' : Sys), Done env schema 0 (.appendArrayRecord fn [.external "/in/a.array_record"]) σ σ' ∧
    Reads env σ mainBranch [row 1 "a" [1]] ∧ diffOf σ' = some (.ok ([], [row 2 "x" [2], row 3 "x" [3, 3, 3]])) := by
  let fn : List Nat → Row := fun b => [("id", .sc (.int (b.headD 0))), ("txt", .sc (.str "x"))]
  let σ := placed (after env anyB schema [.call 0 (.mutate (.append [[row 1 "a" [1]]]))]) "/in/a.array_record"
    (.records [[2], [3, 3, 3]])
  have hr : Reach env schema anyStep σ := placed_reach (after_reach (fun _ _ _ => trivial) _) _ (by decide +kernel)
  exact ⟨fn, σ, _, .call hr (calling_step trivial (by decide +kernel)), reads_all (by decide +kernel), by decide +kernel⟩

/-- C96 is false for deletes by filters that are null on rows: a read with the filter shows row 1 only; row 2, on which the
filter is null, goes with it, and the diff says so. -/
theorem C96_violated : ∃ e old shown ks, FilterFits schema e ∧ Diffing (.delete e) e old shown ks [] ∧
    ¬ ks ~ keysOf schema shown := by
  refine ⟨.bin "equal" (.sel "txt") (.lit (.str "a")), [row 1 "a" [1], rowNull 2 [2], row 3 "c" [3]], [row 1 "a" [1]],
    [[.sc (.int 1)], [.sc (.int 2)]], fitsB_fits (by decide),
    diffing_of [.call 0 (.mutate (.append [[row 1 "a" [1], rowNull 2 [2], row 3 "c" [3]]]))] (by decide +kernel)
      (by decide +kernel) (by decide +kernel) (by decide +kernel) (by decide +kernel), fun h => ?_⟩
  have := h.length_eq
  revert this
  decide

end Space
