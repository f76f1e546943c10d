import Verif.MV
import Verif.ViewLemmas
import Verif.Progress
import Verif.Props.Diff

/-!
# Refreshing materialized views: lemmas
-/

set_option autoImplicit false

namespace Space

open List

/-! ## One transaction -/

/-- The object `h` of the storage of a materialized view is up to date, on the main branch,
and its current snapshot `k`, the newest, holds `rows`. -/
structure Holding (sm : Schema) (h : Handle) (w : World) (k : Nat) (rows : List Row) : Prop where
  wok : WOK sm w h.md
  handle : HandleOK sm w h
  branch : h.branch = mainBranch
  max : h.maxId = k
  refs : h.md.maxRefId = k
  current : h.md.current = k
  rows : ∃ cur, h.md.snaps.get? k = some cur ∧ (snapRows w.fs sm cur).map (·.select sm.writeNames) ~ rows

section
variable {F : Env} {sm : Schema} {h : Handle} {w : World} {k : Nat} {rows : List Row}

theorem Holding.perm {rows' : List Row} (hh : Holding sm h w k rows) (hp : rows ~ rows') : Holding sm h w k rows' :=
  let ⟨cur, h1, h2⟩ := hh.rows
  { hh with rows := ⟨cur, h1, h2.trans hp⟩ }

theorem Holding.grows {w' : World} (hh : Holding sm h w k rows) (hg : Grows w w') : Holding sm h w' k rows := by
  obtain ⟨cur, h1, h2⟩ := hh.rows
  refine { hh with wok := hh.wok.grows hg, handle := hh.handle.mono hg.le, rows := ⟨cur, h1, ?_⟩ }
  rw [snapRows_mono hg.le (hh.wok.schema ▸ hh.wok.ok.snaps _ _ h1)]
  exact h2

theorem Holding.same {h' : Handle} (hh : Holding sm h w k rows) (hok : HandleOK sm w h') (hmd : h'.md = h.md)
    (hb : h'.branch = h.branch) (hm : h' = h ∨ h' = Handle.init h.md h'.mdFile false h.branch) :
    Holding sm h' w k rows where
  wok := hmd ▸ hh.wok
  handle := hok
  branch := hb.trans hh.branch
  max := by
    rcases hm with rfl | hm
    · exact hh.max
    · rw [hm]
      exact hh.refs
  refs := hmd ▸ hh.refs
  current := hmd ▸ hh.current
  rows := hmd ▸ hh.rows

/-- Beginning a transaction. -/
theorem Holding.enter (hh : Holding sm h w k rows) : ∃ t h1, Txn.enter (h, w) = (.ok t, (h1, w)) ∧
    Holding sm h1 w k rows ∧ t.branch = mainBranch ∧ t.start = k := by
  obtain ⟨b, h1, e1, e2, e3, e4, -, -, e5, e6⟩ := reload_eq hh.wok hh.handle
  refine ⟨⟨k, mainBranch⟩, h1, ?_, hh.same e4 e2 e3 ?_, rfl, rfl⟩
  · unfold Txn.enter
    simp [bind, M.andThen, self, M.lift, pure, M.ret, e1, e2, hh.branch, Metadata.currentId, hh.current]
  · cases b with
    | true => exact Or.inr (e6 rfl)
    | false => exact Or.inl (e5 rfl)

/-- The rows a view's storage holds after rows with the keys of `gone` are deleted and
`added` written. -/
def Synced (sm : Schema) (rows gone added : List Row) : List Row :=
  rows.filter (fun r => decide (keyOf sm.pks r ∉ gone.map (keyOf sm.pks))) ++ added.map (·.select sm.writeNames)

theorem filterKeys_select (hk : KeySchema sm) (gone rows : List Row) :
    (rows.filter (fun r => decide (keyOf sm.pks r ∉ gone.map (keyOf sm.pks)))).map (·.select sm.writeNames) =
      (rows.map (·.select sm.writeNames)).filter (fun r => decide (keyOf sm.pks r ∉ gone.map (keyOf sm.pks))) := by
  rw [List.filter_map]
  congr 1
  refine List.filter_congr fun r _ => ?_
  have e : keyOf sm.pks (r.select sm.writeNames) = keyOf sm.pks r := keyOf_select hk r
  simp only [Function.comp_apply, e]

theorem keysSet_select (hk : KeySchema sm) {l : List Row} (h : KeysSet sm (l.map (·.select sm.writeNames))) :
    KeysSet sm l := by
  intro r hr c hc
  have := h _ (List.mem_map.mpr ⟨r, hr, rfl⟩) c hc
  have hmem : c ∈ sm.writeNames := writeNames_sub.mpr (hk.keys c hc)
  rwa [select_val hmem] at this

theorem KeysSet.perm {a b : List Row} (h : KeysSet sm a) (hp : a ~ b) : KeysSet sm b :=
  fun r hr => h r (hp.mem_iff.mpr hr)

/-- A transaction without a patch: there was nothing to do. -/
theorem sync_none (hk : KeySchema sm) {w' : World} {cur : Snapshot} {gone added : List Row} {app : WM (Option Patch)}
    (hcur : SnapOK w.fs sm cur) (hset : KeysSet sm (snapRows w.fs sm cur))
    (h : SyncG F sm gone added app w w' cur none) :
    added = [] ∧ (snapRows w.fs sm cur).filter (fun r => decide (keyOf sm.pks r ∉ gone.map (keyOf sm.pks))) =
      snapRows w.fs sm cur := by
  obtain ⟨w1, dp, ap, P, g1, f1, g2, hp, hfin, hP, hd, -⟩ := h.out
  rw [merge_two] at hp
  cases ap with
  | some q => cases dp <;> cases hp
  | none =>
  cases dp with
  | some q => cases hp
  | none =>
  constructor
  · have h0 := hfin.none_iff.mp rfl
    subst h0
    have := hP.symm.eq_nil
    simpa using this
  · rw [List.filter_eq_self]
    rcases hd with ⟨rfl, -, -⟩ | ⟨e, mf, hkey, hmf, hout⟩
    · simp
    · have hmod : ∀ q ∈ cur.index, hasMod F.I e w.fs mf q = false := by
        rcases hout.out with ⟨-, hmod⟩ | ⟨q, dms, carried, mf', rmf, rp, hq, -⟩
        · exact hmod
        · cases hq
      obtain ⟨hke, hsem, -, -, -⟩ := primaryKeyFilter_sem hkey F.I
      obtain ⟨nulls, a1, a2⟩ := left_logical (I := F.I) (FSLe.refl w.fs) (hk.fits hke) hmf hcur
      have hall : (cur.index.flatMap (entriesOf w.fs)).flatMap (afterRows F.I e w.fs mf) = physRows w.fs cur.index := by
        unfold physRows
        rw [List.flatMap_assoc]
        refine flatMap_congr' fun q hq => ?_
        refine flatMap_congr' fun m hm => ?_
        have h1 := hmod q hq
        unfold hasMod at h1
        rw [List.any_eq_false] at h1
        have h2 := h1 m hm
        unfold afterRows
        rw [if_neg h2]
      rw [hall] at a2
      have hnull : nulls = [] := by
        refine List.sublist_nil.mp ?_
        have : (snapRows w.fs sm cur).filter (fun r => e.truth F.I r == none) = [] := by
          refine List.filter_eq_nil_iff.mpr fun r hr => ?_
          have := hke.total F.I r (hset r hr)
          simp [this]
        rwa [this] at a1
      rw [hnull, List.append_nil] at a2
      intro r hr
      simp only [decide_eq_true_eq]
      intro hmem
      have hr' := a2.mem_iff.mp (show r ∈ (physRows w.fs cur.index).map (deref w.fs.records sm) from hr)
      have ht := (List.mem_filter.mp hr').2
      obtain ⟨d, hd, he⟩ := List.mem_map.mp hmem
      rw [(hsem r).mpr ⟨d, hd, he, hset.num r hr⟩] at ht
      simp at ht

theorem maxRefId_eq (md : Metadata) : md.maxRefId = (md.refs.map (·.2.id)).foldr max md.current := rfl

theorem foldr_max_le {l : List Nat} {a n : Nat} (h : l.foldr max a < n) : l.foldr max n = n := by
  induction l with
  | nil => rfl
  | cons x l ih =>
    simp only [List.foldr_cons] at h ⊢
    rw [ih (by omega)]
    omega

/-- One transaction of a refresh: it ends without a conflict, and unless it had nothing to
do there is one more snapshot. -/
theorem Holding.sync (hk : KeySchema sm) (hh : Holding sm h w k rows) (hset : KeysSet sm rows) {t : Txn} {h1 : Handle}
    (he : Txn.enter (h, w) = (.ok t, (h1, w))) {n : Nat} {sched : List Nat} {gone : List Row}
    {added : Option (List (List (List Row)))} {p : Option Patch} {w2 : World}
    (hb : syncBody F h1 n sched gone added w = (.ok p, w2)) :
    ∃ j h' w', t.commit p (h1, w2) = (.ok j, (h', w')) ∧ j ≠ .failed ∧
      ((j = .succeeded → gone ≠ [] →
        DeleteSafe (fun r => some (decide (keyOf sm.pks r ∈ gone.map (keyOf sm.pks)))) (headLayout sm h w)) →
      Holding sm h' w' (if j = .succeeded then k + 1 else k) (Synced sm rows gone (syncRows added))) := by
  obtain ⟨e1, e2, e3, e4, -, e5, e6, e7⟩ := Post.elim (enter_post hh.wok hh.handle) he
  simp only at e1 e2 e3 e4 e5 e6 e7
  obtain ⟨b1, b2, b3⟩ := Post.elim (syncBody_ok (E := F) hh.wok.fresh e4 hk.names n sched gone added) hb
  have hw2 := hh.wok.grows b1
  have hh2 := e4.mono b1.le
  obtain ⟨cur, hcur, hrows⟩ := hh.rows
  have hid : h.md.currentId mainBranch = .ok k := by simp [Metadata.currentId, hh.current]
  have hcid := hh.wok.ok.ids _ _ hcur
  have hsnap : h1.snapshot none = .ok cur := by
    simp [Handle.snapshot, e2, e3, hh.branch, hid, Metadata.snapshot, hcur]
  have hcok : SnapOK w.fs sm cur := hh.wok.schema ▸ hh.wok.ok.snaps _ _ hcur
  have hsetc : KeysSet sm (snapRows w.fs sm cur) := keysSet_select hk (hset.perm hrows.symm)
  -- the commit ends
  have htot : Total (t.commit p (h1, w2)) (fun j _ => j = if p.isSome then Job.succeeded else .skipped) := by
    obtain ⟨b, h', r1, r2, r3, r4, -, -, -, -⟩ := reload_eq hw2 hh2
    rw [hh.branch, hid] at e6
    cases e6
    unfold Txn.commit
    refine Post.bind (Q := fun a st => a = true ∧ st = (h', w2)) ?_ ?_
    · unfold Txn.check
      refine Post.bind (Q := fun _ st => st = (h', w2)) (by rw [r1]; exact rfl) ?_
      rintro b' _ rfl
      refine Post.bind (Q := fun a st => h' = a ∧ st = (h', w2)) ⟨rfl, rfl⟩ ?_
      rintro a _ ⟨ha, rfl⟩
      subst ha
      rw [r2, e5, hh.branch, hid]
      exact ⟨by simp, rfl⟩
    rintro _ _ ⟨rfl, rfl⟩
    simp only [Bool.not_true, Bool.false_eq_true, ite_false]
    cases p with
    | none => exact Post.pure rfl
    | some q =>
      refine Post.bind (commit_total (w0 := w) r4 (Or.inl (e5.trans hh.branch))
        (cur := cur) (by rw [r2, e5, hh.branch, hcid]; exact hid) (by rw [r2, hcid]; exact hcur) hcok
        ((b3 q rfl).2 cur hsnap)) ?_
      intro _ _ _
      exact Post.pure rfl
  obtain ⟨j, ⟨h', w'⟩, hc, hj⟩ := htot.get
  refine ⟨j, h', w', hc, ?_, ?_⟩
  · rw [hj]
    split <;> simp
  intro hsafe
  have hrun : runMutation F (.sync n sched gone added) (h, w) = (.ok j, (h', w')) := by
    unfold runMutation
    simp [bind, M.andThen, self, liftW, he, Mutation.body, hb, hc]
  cases p with
  | none =>
    simp only [Option.isSome_none, Bool.false_eq_true, ite_false] at hj
    subst hj
    have hg : Post (t.commit none (h1, w2)) (fun _ st => st.2 = w2 ∧ HandleOK sm w2 st.1 ∧ st.1.md = h.md ∧
        st.1.branch = h1.branch ∧ (st.1 = h1 ∨ st.1 = Handle.init h.md st.1.mdFile false h1.branch)) (fun _ => True) := by
      unfold Txn.commit
      refine Post.bind ((check_post (t := t) hw2 hh2).imp (fun _ _ h => h) (fun _ _ => trivial)) ?_
      rintro b ⟨h3, w3⟩ ⟨c1, c2, c3, c4, -, -, c5⟩
      split
      · exact ⟨c1, c4, c2, c3, c5⟩
      · exact ⟨c1, c4, c2, c3, c5⟩
    obtain ⟨c1, c2, c3, c4, c5⟩ := Post.elim hg hc
    simp only at c1 c2 c3 c4 c5
    subst c1
    obtain ⟨-, -, -, hx⟩ := Post.elim (syncBody_post (E := F) hh.wok.fresh e4 n sched gone added) hb
    obtain ⟨hz, hall⟩ := sync_none hk hcok hsetc (hx cur (Or.inr hsnap))
    rw [if_neg (by simp)]
    refine ((hh.grows b1).same c2 c3 (c4.trans e3) ?_).perm ?_
    · rw [e3] at c5
      rcases c5 with rfl | c5
      · exact e7
      · exact Or.inr c5
    · unfold Synced
      rw [hz, List.map_nil, List.append_nil]
      refine Perm.trans ?_ (hrows.filter _)
      rw [← filterKeys_select hk, hall]
      exact hrows.symm
  | some q =>
    simp only [Option.isSome_some, if_true] at hj
    subst hj
    obtain ⟨m1, m2, m3⟩ := Post.elim (runMutation_post (E := F) hh.wok hh.handle hk.names (.sync n sched gone added) trivial) hrun
    rcases m3 with m3 | ⟨-, h2, w1, q', n', cur', snap, hm⟩
    · exact absurd rfl m3.1
    have hs := Mutated.success (m := .sync n sched gone added) hh.wok hh.handle trivial m1 m2 hm
    have com := hm.step.com
    have hcc : cur' = cur := by
      have h3 := com.head
      rw [hh.branch, hid] at h3
      cases h3
      have h4 := com.curGet
      rw [hcur] at h4
      cases h4
      rfl
    subst hcc
    have hn' : n' = k + 1 := by
      rcases hm.num with ⟨-, h0⟩ | h0
      · rw [h0, hh.max]
      · rw [h0, hh.refs]
    have hlay : headLayout sm h w = layout w.fs sm cur' := by
      unfold headLayout
      rw [hs.head]
    obtain ⟨-, hr⟩ := hs.sync hk hsetc (fun hg => hlay ▸ hsafe rfl hg)
    have hmove : h'.md.current = n' ∧ h'.md.refs = h.md.refs := by
      rcases com.move with ⟨-, c1, c2⟩ | ⟨c0, -⟩
      · exact ⟨c1, c2⟩
      · exact absurd hh.branch c0
    rw [if_pos rfl]
    refine ⟨hm.step.wok, m2, m1.trans hh.branch, by rw [hm.step.max, hn'], ?_, by rw [hmove.1, hn'], snap,
      hn' ▸ com.newSnap, ?_⟩
    · rw [maxRefId_eq, hmove.1, hmove.2, hn']
      refine foldr_max_le (a := h.md.current) ?_
      rw [← maxRefId_eq, hh.refs]
      omega
    · refine (hr.map _).trans ?_
      rw [List.map_append, filterKeys_select hk]
      unfold Synced
      refine ((hrows.filter _).append ?_)
      rw [List.map_map]
      refine Perm.of_eq (List.map_congr_left fun r _ => ?_)
      exact select_select fun c hc => hc

end

end Space
