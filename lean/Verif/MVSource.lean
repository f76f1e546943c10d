import Verif.MVLoop

/-!
# What a refresh reads of its source
-/

set_option autoImplicit false

namespace Space

open List

/-- Transforms of a dataset ask for record fields last, as the dataset gives them. -/
def View.Ordered (s : Schema) : View → Prop
  | .dataset _ => True
  | .map _ i fields => i.Ordered s ∧ i.inputCols s fields = fields
  | .filter _ i fields => i.Ordered s ∧ i.inputCols s fields = fields
  | .joined .. => False

/-- A view that `refresh` can bring up to date: it works row by row, and rows keep their
keys. -/
structure Refreshable (X : Upstream) (g : Nat → Row → List Row) (s sm : Schema) : Prop where
  rowWise : RowWise X.U g
  fits : X.view.Fits s g
  ordered : X.view.Ordered s
  keys : sm.pks = s.pks
  keeps : ∀ r, ∀ r' ∈ X.view.rowsOn s g X.U.keep [r], keyOf s.pks r' = keyOf s.pks r
  parallel : 0 < X.ray.parallelism

/-- The rows of the view on snapshot `n` of its source, as its storage has them. -/
def viewAt (X : Upstream) (g : Nat → Row → List Row) (fs : FS) (s sm : Schema) (md : Metadata) (n : Nat) : List Row :=
  match md.snaps.get? n with
  | none => []
  | some snap => (X.view.rowsOn s g X.U.keep ((snapRows fs s snap).map (·.select s.writeNames))).map (·.select sm.writeNames)

section
variable {X : Upstream} {g : Nat → Row → List Row} {fs : FS} {s sm : Schema} {md : Metadata}

theorem processBlocks_rows {R : RayEnv} {U : UdfEnv} (hg : RowWise U g) : ∀ {v : View}, v.Fits s g → v.Ordered s →
    ∀ (at_ : List Nat) (bs : List (List Row)), (∀ r ∈ bs.flatten, ∀ c ∈ s.names, c ∈ r.cols) →
    ∃ bs', processBlocks R U v at_ bs = .ok bs' ∧ bs'.flatten ~ v.rowsOn s g U.keep bs.flatten
  | .dataset _, _, _, at_, bs, _ => ⟨bs, rfl, Perm.refl _⟩
  | .map u i fields, hv, ho, at_, bs, hc => by
    obtain ⟨b1, h1, h2⟩ := processBlocks_rows (R := R) hg hv.1 ho.1 (0 :: at_) bs hc
    have hsel := selectColumns_ok (fields := fields) (bs := b1) fun r hr c hcf =>
      View.rowsOn_cols hv.1 hc r (h2.mem_iff.mp hr) c (hv.2.1 c hcf)
    refine ⟨_, by simp only [processBlocks, h1, hsel]; rfl, ?_⟩
    have e : U.map u.fn = fun b => b.flatMap (g u.fn) := by
      funext b
      exact hg _ _
    rw [e, flatten_map_rowWise]
    refine ((R.deliver_perm _ _).trans ?_).flatMap_right _
    rw [ho.2, ← List.map_flatten]
    exact h2.map _
  | .filter u i fields, hv, ho, at_, bs, hc => by
    obtain ⟨b1, h1, h2⟩ := processBlocks_rows (R := R) hg hv.1 ho.1 (0 :: at_) bs hc
    have hsel := selectColumns_ok (fields := fields) (bs := b1) fun r hr c hcf =>
      View.rowsOn_cols hv.1 hc r (h2.mem_iff.mp hr) c (hv.2 c hcf)
    refine ⟨_, by simp only [processBlocks, h1, hsel]; rfl, ?_⟩
    rw [flatten_map_filter]
    refine ((R.deliver_perm _ _).trans ?_).filter _
    rw [ho.2, ← List.map_flatten]
    exact h2.map _
  | .joined .., hv, _, _, _, _ => hv.elim

theorem readAdded_rows (hX : Refreshable X g s sm) (batch : Nat) (at_ : List Nat) :
    ∀ (shards : List (List RowBitmap)) (k : Nat), (∀ b ∈ shards.flatten, BitmapOK fs s b) →
    ∃ cs, readAdded X fs s at_ k (shards.map (fun b => ⟨b.map bitmapFile, { batch := batch }⟩)) = .ok cs ∧
      cs.flatten.flatten ~ X.view.rowsOn s g X.U.keep ((loggedRows fs s shards.flatten).map (·.select s.writeNames))
  | [], k, _ => ⟨[], rfl, by rw [X.view.rowsOn_flatMap]; exact Perm.refl _⟩
  | b :: shards, k, h => by
    obtain ⟨ts, h1, h2⟩ := bitmap_blocks (E := X.E) (R := X.R) (ray := X.ray) (fs := fs) (s := s) (o := { batch := batch })
      (fun c hc => hc) rfl rfl (bs := b) (fun x hx => h x (by simp [hx])) (0 :: k :: at_)
    have he : ((b.flatMap (bitRows fs)).map (outRow fs.records s (ReadOpts.cols { batch := batch } s))) =
        (loggedRows fs s b).map (·.select s.writeNames) := by
      rw [loggedRows, List.map_map]
      refine List.map_congr_left fun r _ => ?_
      simp only [outRow, Function.comp_apply]
      rw [← outCols_names]
      rfl
    rw [he] at h2
    obtain ⟨b1, h3, h4⟩ := processBlocks_rows (R := X.R) hX.rowWise hX.fits hX.ordered (1 :: k :: at_) ts (by
      intro r hr c hc
      obtain ⟨r', -, rfl⟩ := List.mem_map.mp (h2.mem_iff.mp hr)
      rw [select_cols]
      exact writeNames_sub.mpr hc)
    obtain ⟨cs, h5, h6⟩ := readAdded_rows hX batch at_ shards (k + 1) (fun x hx => h x (by
      rw [List.flatten_cons]
      exact List.mem_append_right _ hx))
    refine ⟨_, by simp only [List.map_cons, readAdded, h1, h3, h5]; rfl, ?_⟩
    rw [List.flatten_cons, List.flatten_append, iterBatches_flatten, List.flatten_cons]
    have hl : loggedRows fs s (b ++ shards.flatten) = loggedRows fs s b ++ loggedRows fs s shards.flatten := by
      simp [loggedRows]
    rw [hl, List.map_append, X.view.rowsOn_flatMap, List.flatMap_append, ← X.view.rowsOn_flatMap, ← X.view.rowsOn_flatMap]
    exact (h4.trans (X.view.rowsOn_perm s g X.U.keep h2)).append h6

theorem readGone_rows (hk : KeySchema s) {batch : Nat} {at_ : List Nat} {deleted : List RowBitmap} {gone : List Row}
    (hok : ∀ b ∈ deleted, BitmapOK fs s b)
    (h : readGone X fs s at_ [⟨deleted.map bitmapFile, { fields := some s.pks, batch := batch }⟩] = .ok gone) :
    gone ~ (loggedRows fs s deleted).map (·.select s.pks) := by
  obtain ⟨ts, h1, h2⟩ := bitmap_blocks (E := X.E) (R := X.R) (ray := X.ray) (fs := fs) (s := s)
    (o := { fields := some s.pks, batch := batch }) (fun c hc => hk.keys c hc) rfl rfl hok at_
  simp only [readGone, h1] at h
  split at h
  · cases h
  · cases h
    rw [iterBatches_flatten]
    refine h2.trans (Perm.of_eq ?_)
    rw [loggedRows, List.map_map]
    refine List.map_congr_left fun r _ => ?_
    simp only [outRow, Function.comp_apply]
    have : outCols s s.pks = s.pks := outCols_plain fun k h => ⟨hk.keys k h, hk.plain k h⟩
    show (deref fs.records s r).select (outCols s s.pks) = _
    rw [this]

theorem rowsOn_mem {v : View} {keep : Nat → Row → Bool} {rows : List Row} {r : Row} (h : r ∈ v.rowsOn s g keep rows) :
    ∃ r0 ∈ rows, r ∈ v.rowsOn s g keep [r0] := by
  rw [v.rowsOn_flatMap] at h
  exact List.mem_flatMap.mp h

/-- Rows of a view have keys of rows of its source. -/
theorem view_key (hX : Refreshable X g s sm) (hk : KeySchema s) (hkm : KeySchema sm) {rows : List Row} {r : Row}
    (h : r ∈ (X.view.rowsOn s g X.U.keep (rows.map (·.select s.writeNames))).map (·.select sm.writeNames)) :
    ∃ r0 ∈ rows, keyOf sm.pks r = keyOf s.pks r0 := by
  obtain ⟨r1, h1, rfl⟩ := List.mem_map.mp h
  obtain ⟨r2, h2, h3⟩ := rowsOn_mem h1
  obtain ⟨r0, h4, rfl⟩ := List.mem_map.mp h2
  refine ⟨r0, h4, ?_⟩
  rw [keyOf_select hkm, hX.keys, hX.keeps _ _ h3, keyOf_select hk]

theorem view_append (a b : List Row) :
    (X.view.rowsOn s g X.U.keep ((a ++ b).map (·.select s.writeNames))).map (·.select sm.writeNames) =
      (X.view.rowsOn s g X.U.keep (a.map (·.select s.writeNames))).map (·.select sm.writeNames) ++
      (X.view.rowsOn s g X.U.keep (b.map (·.select s.writeNames))).map (·.select sm.writeNames) := by
  rw [List.map_append, X.view.rowsOn_flatMap, List.flatMap_append, ← X.view.rowsOn_flatMap, ← X.view.rowsOn_flatMap,
    List.map_append]

theorem keyOf_val {pks : List String} {r r' : Row} (h : keyOf pks r = keyOf pks r') {c : String} (hc : c ∈ pks) :
    r.val c = r'.val c := by
  unfold keyOf at h
  exact List.map_inj_left.mp h c hc

theorem viewAt_set (hX : Refreshable X g s sm) (hk : KeySchema s) (hkm : KeySchema sm) {n : Nat}
    (h : ∀ snap, md.snaps.get? n = some snap → KeysSet s (snapRows fs s snap)) :
    KeysSet sm (viewAt X g fs s sm md n) := by
  unfold viewAt
  cases hs : md.snaps.get? n with
  | none => intro r hr; cases hr
  | some snap =>
    intro r hr c hc
    obtain ⟨r0, h1, h2⟩ := view_key hX hk hkm hr
    have hc' : c ∈ s.pks := hX.keys ▸ hc
    rw [hX.keys] at h2
    rw [keyOf_val h2 hc']
    exact h snap hs r0 h1 c hc'

/-- One commit of the source, seen through the view. -/
theorem view_step (hX : Refreshable X g s sm) (hk : KeySchema s) (hkm : KeySchema sm) {cur snap kept deleted added : List Row}
    {gone src : List Row} (h1 : cur ~ kept ++ deleted) (h2 : snap ~ kept ++ added) (hu : (keysOf s cur).Nodup)
    (hg : gone ~ deleted.map (·.select s.pks))
    (hs : src ~ X.view.rowsOn s g X.U.keep (added.map (·.select s.writeNames))) :
    (X.view.rowsOn s g X.U.keep (snap.map (·.select s.writeNames))).map (·.select sm.writeNames) ~
      Synced sm ((X.view.rowsOn s g X.U.keep (cur.map (·.select s.writeNames))).map (·.select sm.writeNames)) gone src := by
  have e1 := (X.view.rowsOn_perm s g X.U.keep (h2.map (·.select s.writeNames))).map (·.select sm.writeNames)
  have e2 := (X.view.rowsOn_perm s g X.U.keep (h1.map (·.select s.writeNames))).map (·.select sm.writeNames)
  rw [view_append] at e1 e2
  refine e1.trans ?_
  unfold Synced
  refine Perm.append ?_ (hs.symm.map _)
  refine Perm.symm ((e2.filter _).trans ?_)
  have hu' : (keysOf s (kept ++ deleted)).Nodup := (h1.map _).nodup_iff.mp hu
  simp only [keysOf, List.map_append, List.nodup_append] at hu'
  have hgk : ∀ k : List Val, k ∈ gone.map (keyOf sm.pks) ↔ k ∈ deleted.map (keyOf s.pks) := by
    intro k
    rw [(hg.map (keyOf sm.pks)).mem_iff, List.map_map, hX.keys]
    have : (keyOf s.pks ∘ fun x => x.select s.pks) = keyOf s.pks := by
      funext r
      exact List.map_congr_left fun c hc => select_val hc
    rw [this]
  rw [List.filter_append, List.filter_eq_self.mpr, List.filter_eq_nil_iff.mpr, List.append_nil]
  · intro r hr
    obtain ⟨r0, h3, h4⟩ := view_key hX hk hkm hr
    simp only [decide_not, Bool.not_eq_true, Bool.not_eq_false', decide_eq_true_eq]
    rw [hgk, h4]
    exact List.mem_map.mpr ⟨r0, h3, rfl⟩
  · intro r hr
    obtain ⟨r0, h3, h4⟩ := view_key hX hk hkm hr
    simp only [decide_not, Bool.not_eq_true', decide_eq_false_iff_not]
    rw [hgk, h4]
    intro hm
    exact hu'.2.2 _ (List.mem_map.mpr ⟨r0, h3, rfl⟩) _ hm rfl

/-- One commit of the source leads from its parent's rows to its own. -/
theorem leads_of (hX : Refreshable X g s sm) (hk : KeySchema s) (hkm : KeySchema sm) (hmd : md.schema = s)
    (hok : MdOK fs md) {p n : Nat} {cur snap : Snapshot} (hp : md.snaps.get? p = some cur) (hs : md.snaps.get? n = some snap)
    (hpar : snap.parent = some p) (hl : Logged fs s cur snap []) (hu : (keysOf s (snapRows fs s cur)).Nodup)
    (hset : KeysSet s (snapRows fs s cur)) (batch : Nat) :
    Leads X fs s sm (rayStream fs md X.ray batch) (viewAt X g fs s sm md) p n := by
  obtain ⟨cl, kept, h1, h2, h3, h4⟩ := hl
  refine ⟨(hok.parents _ _ _ hs hpar).1, viewAt_set hX hk hkm (fun sn hsn => by rw [hp] at hsn; cases hsn; exact hset), ?_⟩
  obtain ⟨shards, hsh⟩ := addShards_ok hX.parallel cl.added
  have hfl := (addShards_flatten hsh).1
  refine ⟨if cl.deleted = [] then none else some ⟨n, .delete, [⟨cl.deleted.map bitmapFile, { fields := some s.pks, batch := batch }⟩]⟩,
    if cl.added = [] then none else some ⟨n, .add, shards.map (fun b => ⟨b.map bitmapFile, { batch := batch }⟩)⟩, ?_, ?_, ?_, ?_⟩
  · have hl' : snap.log.bind fs.log = some cl := h1
    simp only [rayStream, hs, hl', hmd, hsh]
    split <;> split <;> rfl
  · intro d hd
    split at hd
    · cases hd
    · cases hd
      exact ⟨rfl, rfl⟩
  · intro d hd
    split at hd
    · cases hd
    · cases hd
      exact ⟨rfl, rfl⟩
  · intro gone added hg ha
    have hdel : gone ~ (loggedRows fs s cl.deleted).map (·.select s.pks) := by
      split at hg
      · rename_i h0
        have hg : gone = [] := hg
        rw [hg, h0]
        exact Perm.refl _
      · obtain ⟨at_, hg⟩ := hg
        exact readGone_rows hk (fun b hb => h2 b (Or.inl hb)) hg
    have hadd : syncRows added ~ X.view.rowsOn s g X.U.keep ((loggedRows fs s cl.added).map (·.select s.writeNames)) := by
      split at ha
      · rename_i h0
        have ha : added = none := ha
        rw [ha, h0, X.view.rowsOn_flatMap]
        exact Perm.refl _
      · obtain ⟨at_, src, ha, rfl⟩ := ha
        obtain ⟨cs, c1, c2⟩ := readAdded_rows (fs := fs) hX batch at_ shards 0 (fun b hb => h2 b (Or.inr (hfl ▸ hb)))
        rw [c1] at ha
        cases ha
        rw [hfl] at c2
        exact c2
    rw [List.append_nil] at h3
    have := view_step hX hk hkm h3 h4 hu hdel hadd
    simpa only [viewAt, hp, hs] using this

theorem LeadsAll.snoc {stream : Nat → List (Except Err RayChange)} {V : Nat → List Row} : ∀ {p n : Nat} {ids : List Nat},
    LeadsAll X fs s sm stream V p ids → Leads X fs s sm stream V (lastOf p ids) n →
    LeadsAll X fs s sm stream V p (ids ++ [n])
  | _, _, [], _, h => ⟨h, trivial⟩
  | _, _, _ :: _, h, h' => ⟨h.1, LeadsAll.snoc h.2 h'⟩

theorem Commits.last {a n : Nat} {ids : List Nat} (h : Commits md a n ids) : lastOf a ids = n := by
  cases h with
  | here => rfl
  | next _ _ _ => rw [lastOf_append]; rfl

end

end Space
