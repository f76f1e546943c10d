import Verif.Mutations

/-!
# C37: merging patches
-/

set_option autoImplicit false

namespace Space

/-- The change log entries of a patch. -/
def logDeleted (p : Patch) : List RowBitmap := (p.log.map (·.deleted)).getD []
@[inherit_doc logDeleted] def logAdded (p : Patch) : List RowBitmap := (p.log.map (·.added)).getD []

/-- `p` is the concatenation of `ps`. -/
structure Concat (ps : List Patch) (p : Patch) : Prop where
  addIdx : p.addIdx = ps.flatMap (·.addIdx)
  addRec : p.addRec = ps.flatMap (·.addRec)
  delIdx : p.delIdx = ps.flatMap (·.delIdx)
  logNone : p.log = none ↔ ∀ q ∈ ps, q.log = none
  deleted : logDeleted p = ps.flatMap logDeleted
  added : logAdded p = ps.flatMap logAdded
  rows : p.stats.rows = (ps.map (·.stats.rows)).sum
  icb : p.stats.icb = (ps.map (·.stats.icb)).sum
  iub : p.stats.iub = (ps.map (·.stats.iub)).sum
  rub : p.stats.rub = (ps.map (·.stats.rub)).sum

theorem mergeLogs_entries (a b : Option ChangeLog) :
    (mergeLogs a b = none ↔ a = none ∧ b = none) ∧
    ((mergeLogs a b).map (·.deleted)).getD [] = (a.map (·.deleted)).getD [] ++ (b.map (·.deleted)).getD [] ∧
    ((mergeLogs a b).map (·.added)).getD [] = (a.map (·.added)).getD [] ++ (b.map (·.added)).getD [] := by
  cases a <;> cases b <;> simp [mergeLogs]

theorem Concat.snoc {ps : List Patch} {acc : Patch} (h : Concat ps acc) (p : Patch) :
    Concat (ps ++ [p]) (Patch.mk (acc.addIdx ++ p.addIdx) (acc.addRec ++ p.addRec)
      (acc.delIdx ++ p.delIdx) ((acc.stats.addIndex p.stats).addRecord p.stats) (mergeLogs acc.log p.log)) := by
  have hl := mergeLogs_entries acc.log p.log
  constructor
  · simp [h.addIdx]
  · simp [h.addRec]
  · simp [h.delIdx]
  · rw [hl.1, h.logNone]
    simp only [List.mem_append, List.mem_singleton]
    constructor
    · rintro ⟨h1, h2⟩ q (hq | rfl)
      · exact h1 q hq
      · exact h2
    · exact fun h' => ⟨fun q hq => h' q (Or.inl hq), h' p (Or.inr rfl)⟩
  · have := h.deleted
    unfold logDeleted at this
    rw [List.flatMap_append, ← h.deleted, logDeleted, hl.2.1]
    simp [logDeleted]
  · rw [List.flatMap_append, ← h.added, logAdded, hl.2.2]
    simp [logAdded]
  all_goals simp [SStats.addIndex, SStats.addRecord, h.rows, h.icb, h.iub, h.rub, List.sum_append]

theorem mergeLoop_concat : ∀ (ps : List (Option Patch)) (acc : Patch) (b : Bool) (done : List Patch),
    Concat done acc → (b = true ↔ done = []) →
    Concat (done ++ ps.filterMap id) (mergeLoop ps acc b).1 ∧
      ((mergeLoop ps acc b).2 = true ↔ done ++ ps.filterMap id = [])
  | [], acc, b, done, h, hb => by simpa [mergeLoop] using ⟨h, hb⟩
  | none :: ps, acc, b, done, h, hb => by
    simpa [mergeLoop] using mergeLoop_concat ps acc b done h hb
  | some p :: ps, acc, b, done, h, hb => by
    have := mergeLoop_concat ps _ false (done ++ [p]) (h.snoc p) (by simp)
    simpa [mergeLoop] using this

/-- Patches are determined by what they are the concatenation of. -/
theorem Concat.unique {ps : List Patch} {p q : Patch} (h : Concat ps p) (h' : Concat ps q) : p = q := by
  have hlog : p.log = q.log := by
    have h1 := h.logNone.trans h'.logNone.symm
    have h2 := h.deleted.trans h'.deleted.symm
    have h3 := h.added.trans h'.added.symm
    unfold logDeleted at h2
    unfold logAdded at h3
    cases hp : p.log with
    | none => rw [h1.mp hp]
    | some a =>
      cases hq : q.log with
      | none => rw [h1.mpr hq] at hp; cases hp
      | some b =>
        rw [hp, hq] at h2 h3
        obtain ⟨a1, a2⟩ := a
        obtain ⟨b1, b2⟩ := b
        simp_all
  have e1 := h.addIdx.trans h'.addIdx.symm
  have e2 := h.addRec.trans h'.addRec.symm
  have e3 := h.delIdx.trans h'.delIdx.symm
  have e4 := h.rows.trans h'.rows.symm
  have e5 := h.icb.trans h'.icb.symm
  have e6 := h.iub.trans h'.iub.symm
  have e7 := h.rub.trans h'.rub.symm
  obtain ⟨p1, p2, p3, ⟨p4, p5, p6, p7⟩, p8⟩ := p
  obtain ⟨q1, q2, q3, ⟨q4, q5, q6, q7⟩, q8⟩ := q
  simp_all

/-- C37: a merge is absent iff all patches are, and otherwise the concatenation of those
present. -/
theorem C37_concat (ps : List (Option Patch)) :
    (mergePatches ps = none ↔ ∀ p ∈ ps, p = none) ∧
    ∀ p, mergePatches ps = some p → Concat (ps.filterMap id) p := by
  have h0 : Concat [] ({} : Patch) := by constructor <;> simp [logDeleted, logAdded]
  have h := mergeLoop_concat ps {} true [] h0 (by simp)
  rw [List.nil_append] at h
  unfold mergePatches
  constructor
  · have hn : ps.filterMap id = [] ↔ ∀ p ∈ ps, p = none := by simp
    rw [← hn, ← h.2]
    split
    · rename_i he; simp [he]
    · rename_i he; simp [he]
  · intro p hp
    split at hp
    · cases hp
    · rename_i q he
      cases hp
      rw [he] at h
      exact h.1

theorem Concat.join {xs ys zs : List Patch} {p q : Patch} (h : Concat (xs ++ q :: ys) p) (hq : Concat zs q) :
    Concat (xs ++ zs ++ ys) p := by
  constructor
  · simp [h.addIdx, hq.addIdx]
  · simp [h.addRec, hq.addRec]
  · simp [h.delIdx, hq.delIdx]
  · rw [h.logNone]
    simp only [List.mem_append, List.mem_cons]
    constructor
    · rintro h' x ((hx | hx) | hx)
      · exact h' x (Or.inl hx)
      · exact hq.logNone.mp (h' q (Or.inr (Or.inl rfl))) x hx
      · exact h' x (Or.inr (Or.inr hx))
    · rintro h' x (hx | rfl | hx)
      · exact h' x (Or.inl (Or.inl hx))
      · exact hq.logNone.mpr fun y hy => h' y (Or.inl (Or.inr hy))
      · exact h' x (Or.inr hx)
  · simp [h.deleted, hq.deleted]
  · simp [h.added, hq.added]
  · simp only [h.rows, hq.rows, List.map_append, List.map_cons, List.sum_append, List.sum_cons]; omega
  · simp only [h.icb, hq.icb, List.map_append, List.map_cons, List.sum_append, List.sum_cons]; omega
  · simp only [h.iub, hq.iub, List.map_append, List.map_cons, List.sum_append, List.sum_cons]; omega
  · simp only [h.rub, hq.rub, List.map_append, List.map_cons, List.sum_append, List.sum_cons]; omega

theorem Concat.groups {p : Patch} : ∀ (gs : List (List (Option Patch))) (xs : List Patch),
    Concat (xs ++ (gs.map mergePatches).filterMap id) p → Concat (xs ++ gs.flatten.filterMap id) p
  | [], xs, h => h
  | g :: gs, xs, h => by
    rw [List.flatten_cons, List.filterMap_append, ← List.append_assoc]
    refine Concat.groups gs _ ?_
    cases hg : mergePatches g with
    | none =>
      have : g.filterMap id = [] := by simpa using (C37_concat g).1.mp hg
      rw [this, List.append_nil]
      simpa [hg] using h
    | some q =>
      refine Concat.join (q := q) ?_ ((C37_concat g).2 q hg)
      simpa [hg] using h

/-- C37: merging in groups gives the same result. -/
theorem C37_groups (gs : List (List (Option Patch))) :
    mergePatches (gs.map mergePatches) = mergePatches gs.flatten := by
  have hn : mergePatches (gs.map mergePatches) = none ↔ mergePatches gs.flatten = none := by
    rw [(C37_concat _).1, (C37_concat _).1]
    simp only [List.mem_map, forall_exists_index, and_imp, forall_apply_eq_imp_iff₂, List.mem_flatten]
    constructor
    · intro h p g hg hp
      exact (C37_concat g).1.mp (h g hg) p hp
    · intro h g hg
      exact (C37_concat g).1.mpr fun p hp => h p g hg hp
  cases h1 : mergePatches (gs.map mergePatches) with
  | none => rw [hn.mp h1]
  | some p =>
    cases h2 : mergePatches gs.flatten with
    | none => rw [hn.mpr h2] at h1; cases h1
    | some q =>
      have a := (C37_concat _).2 p h1
      have b := (C37_concat _).2 q h2
      rw [(Concat.groups gs [] a).unique b]

/-- A patch of a delete and one of an append. -/
example : mergePatches [none, some (.mk [.indexManifest 1] [] [.indexManifest 0] ⟨-1, 2, 0, 0⟩
      (some ⟨[⟨.index 0, true, 1, []⟩], []⟩)), none,
    some (.mk [.indexManifest 2] [.recordManifest 3] [] ⟨4, 0, 0, 7⟩ (some ⟨[], [⟨.index 2, true, 4, []⟩]⟩))] =
    some (.mk [.indexManifest 1, .indexManifest 2] [.recordManifest 3] [.indexManifest 0] ⟨3, 2, 0, 7⟩
      (some ⟨[⟨.index 0, true, 1, []⟩], [⟨.index 2, true, 4, []⟩]⟩)) := by decide

example : mergePatches [none, none] = none := by decide

end Space
