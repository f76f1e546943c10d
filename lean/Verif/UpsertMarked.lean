import Verif.Props.Keys

/-!
# Upserts on stored rows of every kind

The three-valued meaning of the primary key filter, and the rows an upsert leaves when stored
keys may be null or NaN.
-/

set_option autoImplicit false

namespace Space

open List

/-- Comparison of a stored cell with a given one: unknown if the stored one is null, false if
it is NaN. -/
def sameVal : Val → Val → Option Bool
  | .sc x, v => some (decide (v = .sc x ∧ x ≠ .nan))
  | _, _ => none

/-- Is the key of the stored row `r` one of the keys of the given rows?  Yes if it is known to be
equal to one of them; no if it is known to be different from each; otherwise unknown. -/
def keyTruth (s : Schema) (given : List Row) (r : Row) : Option Bool :=
  if given.any (fun d => s.pks.all fun k => sameVal (r.val k) (d.val k) == some true) then some true
  else if given.all (fun d => s.pks.any fun k => sameVal (r.val k) (d.val k) == some false) then some false
  else none

theorem truth_eq_same (I : Interp) (k : String) (v : Scalar) (r : Row) :
    (Expr.bin "equal" (.sel k) (.lit v)).truth I r = sameVal (r.val k) (.sc v) := by
  rw [truth_eq]
  cases r.val k with
  | sc x =>
    show some (Cmp.equal.holds x v) = some (decide (Val.sc v = .sc x ∧ x ≠ .nan))
    refine congrArg some (Bool.eq_iff_iff.mpr ?_)
    rw [equal_holds, decide_eq_true_eq]
    exact ⟨fun ⟨a, b⟩ => ⟨congrArg Val.sc a.symm, b⟩, fun ⟨a, b⟩ => ⟨(Val.sc.inj a).symm, b⟩⟩
  | _ => rfl

theorem rowFilter_fold_false (I : Interp) (r : Row) : ∀ (ks : List (String × Scalar)) (acc : Expr),
    ((ks.foldl (fun acc x => Expr.bin "and" acc (.bin "equal" (.sel x.1) (.lit x.2))) acc).truth I r = some false ↔
      acc.truth I r = some false ∨ ∃ x ∈ ks, sameVal (r.val x.1) (.sc x.2) = some false)
  | [], acc => by simp
  | x :: ks, acc => by
    simp only [List.foldl_cons]
    rw [rowFilter_fold_false I r ks, truth_and, kAnd_eq_false, truth_eq_same]
    simp only [List.mem_cons, exists_eq_or_imp, or_assoc]

theorem oneRow_false {pks : List String} {d : Row} {e : Expr}
    (h : (keyPairs d pks).bind rowFilter = some e) (I : Interp) (r : Row) :
    e.truth I r = some false ↔ ∃ k ∈ pks, sameVal (r.val k) (d.val k) = some false := by
  cases hk : keyPairs d pks with
  | none => rw [hk] at h; cases h
  | some kv =>
    rw [hk] at h
    obtain ⟨h1, h2, -⟩ := keyPairs_sem hk
    have key : e.truth I r = some false ↔ ∃ x ∈ kv, sameVal (r.val x.1) (.sc x.2) = some false := by
      cases kv with
      | nil => cases h
      | cons x kv =>
        obtain ⟨k, v⟩ := x
        simp only [Option.bind_some, rowFilter, Option.some.injEq] at h
        subst h
        rw [rowFilter_fold_false, truth_eq_same]
        simp only [List.mem_cons, exists_eq_or_imp]
    rw [key]
    constructor
    · rintro ⟨x, hx, h⟩
      exact ⟨x.1, h1 ▸ List.mem_map.mpr ⟨x, hx, rfl⟩, by rw [h2 x hx]; exact h⟩
    · rintro ⟨k, hkm, h⟩
      rw [← h1] at hkm
      obtain ⟨x, hx, rfl⟩ := List.mem_map.mp hkm
      exact ⟨x, hx, by rw [← h2 x hx]; exact h⟩

theorem rowFilters_false {pks : List String} : ∀ {data : List Row} {es : List Expr},
    rowFilters pks data = some es → ∀ (I : Interp) (r : Row),
    ((∀ e ∈ es, e.truth I r = some false) ↔ ∀ d ∈ data, ∃ k ∈ pks, sameVal (r.val k) (d.val k) = some false)
  | [], es, h, I, r => by
    simp only [rowFilters, Option.some.injEq] at h
    subst h
    simp
  | d :: data, es, h, I, r => by
    simp only [rowFilters] at h
    split at h
    · cases h
    · rename_i e he
      cases hr : rowFilters pks data with
      | none => rw [hr] at h; cases h
      | some es' =>
        rw [hr] at h
        simp only [Option.map_some, Option.some.injEq] at h
        subst h
        rw [List.forall_mem_cons, List.forall_mem_cons, oneRow_false he I r, rowFilters_false hr I r]

theorem orFold_false (I : Interp) (r : Row) : ∀ (es : List Expr) (acc : Expr),
    ((es.foldl (fun acc x => Expr.bin "or" acc x) acc).truth I r = some false ↔
      acc.truth I r = some false ∧ ∀ e ∈ es, e.truth I r = some false)
  | [], acc => by simp
  | e :: es, acc => by
    simp only [List.foldl_cons]
    rw [orFold_false I r es, truth_or, kOr_eq_false]
    simp only [List.forall_mem_cons, and_assoc]

/-- The primary key filter in three values. -/
theorem primaryKeyFilter_truth {s : Schema} {data : List Row} {e : Expr}
    (h : primaryKeyFilter s.pks data = .ok (some e)) (I : Interp) (r : Row) :
    e.truth I r = keyTruth s data r := by
  obtain ⟨-, hsem, -, -, -⟩ := primaryKeyFilter_sem h I
  have htrue : e.truth I r = some true ↔
      data.any (fun d => s.pks.all fun k => sameVal (r.val k) (d.val k) == some true) = true := by
    rw [hsem r]
    simp only [List.any_eq_true, List.all_eq_true, beq_iff_eq]
    refine exists_congr fun d => and_congr_right fun hd => ?_
    rw [keyOf_eq]
    constructor
    · rintro ⟨h1, h2⟩ k hk
      have hv := h1 k hk
      have hn := h2 k hk
      obtain ⟨v, hv'⟩ := (primaryKeyFilter_sem h I).2.2.2.1 d hd k hk
      rw [← hv, hv'] at hn ⊢
      simp only [ne_eq, Val.sc.injEq] at hn
      simp [sameVal, hn]
    · intro hx
      have each : ∀ k ∈ s.pks, d.val k = r.val k ∧ r.val k ≠ .sc .nan := by
        intro k hk
        have := hx k hk
        cases hr : r.val k with
        | sc x =>
          rw [hr] at this
          simp only [sameVal, Option.some.injEq, decide_eq_true_eq] at this
          exact ⟨this.1, fun h => this.2 (Val.sc.inj h)⟩
        | _ => rw [hr] at this; cases this
      exact ⟨fun k hk => (each k hk).1, fun k hk => (each k hk).2⟩
  have hfalse : e.truth I r = some false ↔
      data.all (fun d => s.pks.any fun k => sameVal (r.val k) (d.val k) == some false) = true := by
    simp only [List.any_eq_true, List.all_eq_true, beq_iff_eq]
    unfold primaryKeyFilter at h
    split at h
    · split at h
      · split at h
        · cases h
        · cases h
        · rename_i e0 es hr
          simp only [Except.ok.injEq, Option.some.injEq] at h
          subst h
          rw [orFold_false, ← rowFilters_false hr I r, List.forall_mem_cons]
      · cases h
    · cases h
  unfold keyTruth
  split
  · rename_i hc; exact htrue.mpr hc
  · rename_i hc
    split
    · rename_i hc'; exact hfalse.mpr hc'
    · rename_i hc'
      rcases ht : e.truth I r with _ | _ | _
      · rfl
      · exact absurd (hfalse.mp ht) hc'
      · exact absurd (htrue.mp ht) hc

section
variable {E : Env} {s : Schema}

/-- What the delete of some files leaves. -/
theorem Deleted.leftMarked {e : Expr} {mf : Option MExpr} {w w' : World} {mf' : List ManifestRow} {dms : List Path}
    {carried : List ManifestRow} {rmf : List RecManifestRow} {rp : Option Patch} {p : Patch} {snap : Snapshot}
    (hn : s.names.Nodup) (hcur : SnapOK w.fs s snap) (hg : Grows w w') (hplain : ∀ c ∈ e.cols, c ∉ s.recs)
    (hd : Deleted E s e w w' (visited w.fs mf snap.index) dms carried mf' rmf rp p) :
    (physRows w'.fs (snap.index.filter (fun q => !p.delIdx.contains q) ++ p.addIdx)).map (deref w'.fs.records s) ~
      Space.leftMarked (e.truth E.I) (marked E.I e w.fs s mf snap) := by
  have hany : ∀ m : ManifestRow, ((fileRows w.fs m.file).map (deref w.fs.records s)).any
      (fun r => e.truth E.I r == some false) = true ↔ survRows E.I e w.fs m.file ≠ [] := by
    intro m
    rw [ne_eq, ← List.map_eq_nil_iff (f := deref w.fs.records s), survRows_rows hplain, List.filter_eq_nil_iff,
      ← List.any_eq_false, Bool.not_eq_false]
  unfold Space.leftMarked
  split
  · rename_i hc
    simp only [List.any_eq_true, Bool.and_eq_true] at hc
    obtain ⟨man, hman, f, hf, hf1, hf2⟩ := hc
    obtain ⟨q, hq, rfl⟩ := List.mem_map.mp hman
    obtain ⟨m, hmm, rfl⟩ := List.mem_map.mp hf
    have hperm := hd.rowsPerm hn hcur.nodup hcur.manifests hg
      (Or.inl ⟨q, hq, m, hmm, hf1, (hany m).mp (List.any_eq_true.mpr hf2)⟩)
    refine (hperm.map _).trans (Perm.of_eq ?_)
    rw [map_deref_mono hg.le.lookLe (fun r hr => by
      obtain ⟨m, hm, hr⟩ := List.mem_flatMap.mp hr
      exact (physRows_ok hcur.manifests r (by
        rw [physRows_entries]
        exact List.mem_flatMap.mpr ⟨m, hm, (afterRows_sub m).subset hr⟩)).2)]
    unfold marked
    rw [← List.flatMap_def, List.flatMap_assoc, List.flatMap_assoc, List.map_flatMap]
    refine flatMap_congr' fun q hq => ?_
    rw [List.map_flatMap, List.flatMap_map]
    refine flatMap_congr' fun m hm => ?_
    simp only [afterRows]
    split
    · rw [survRows_rows hplain]
    · rfl
  · rename_i hc
    have hno : ∀ q ∈ snap.index, ∀ m ∈ entriesOf w.fs q, modEntry E.I e w.fs mf m = true →
        survRows E.I e w.fs m.file = [] := by
      intro q hq m hmm hmod
      refine Classical.byContradiction fun h0 => hc ?_
      simp only [List.any_eq_true, Bool.and_eq_true]
      refine ⟨_, List.mem_map.mpr ⟨q, hq, rfl⟩, _, List.mem_map.mpr ⟨m, hmm, rfl⟩, hmod, ?_⟩
      exact List.any_eq_true.mp ((hany m).mpr h0)
    rw [hd.rowsGone hn hcur.manifests hg hno]
    refine Perm.of_eq ?_
    rw [map_deref_mono hg.le.lookLe fun r hr =>
      (physRows_ok (fun q hq => hcur.manifests q (List.mem_filter.mp hq).1) r hr).2]
    unfold marked physRows
    rw [List.filter_map, ← List.flatMap_def, List.flatMap_assoc, List.map_flatMap]
    have : ((fun man : List (Bool × List Row) => !man.any (·.1)) ∘ fun p => (entriesOf w.fs p).map
        (fun m => (modEntry E.I e w.fs mf m, (fileRows w.fs m.file).map (deref w.fs.records s)))) =
        fun q => !hasMod E.I e w.fs mf q := by
      funext q
      simp only [Function.comp_apply, List.any_map, hasMod]
      rfl
    rw [this]
    refine flatMap_congr' fun q hq => ?_
    rw [List.map_flatMap, List.flatMap_map]

/-- If no file is marked, all rows are left. -/
theorem leftMarked_none {truth : Row → Option Bool} {lay : List (List (Bool × List Row))}
    (h : ∀ man ∈ lay, ∀ f ∈ man, f.1 = false) : leftMarked truth lay = lay.flatten.flatMap (·.2) := by
  unfold leftMarked
  rw [if_neg]
  · rw [List.filter_eq_self.mpr]
    intro man hman
    simp only [Bool.not_eq_true', List.any_eq_false, Bool.not_eq_true]
    exact h man hman
  · simp only [List.any_eq_true, Bool.and_eq_true]
    rintro ⟨man, hman, f, hf, hf1, -⟩
    rw [h man hman f hf] at hf1
    cases hf1

theorem leftMarked_congr {t u : Row → Option Bool} (h : ∀ r, t r = u r) (lay : List (List (Bool × List Row))) :
    leftMarked t lay = leftMarked u lay := by
  rw [show t = u from funext h]

variable {m : Mutation} {h h' h1 : Handle} {wb w w' w1 : World} {p : Patch} {cur snap : Snapshot}

/-- `upsert` on stored rows of every kind. -/
theorem Success.upsert_marked (hk : KeySchema s) {data : List Row}
    (hs : Success E s m h wb w h' w' h1 w1 p cur snap) (hmi : m.inserts = some (.upsert, data)) :
    (data.map (keyOf s.pks)).Nodup ∧ KeysGiven s data ∧ ∃ e mf, KeyExpr s.pks e ∧
      manifestFilter s (some e) = .ok mf ∧ (∀ r, e.truth E.I r = keyTruth s data r) ∧
      snapRows w'.fs s snap ~
        leftMarked (keyTruth s data) (marked E.I e w.fs s mf cur) ++ data.map (·.select s.writeNames) := by
  obtain ⟨e, mf, hout⟩ := hs.insertedG hmi
  obtain ⟨hke, hsem, hnd, hset, hne⟩ := primaryKeyFilter_sem hout.key E.I
  have he := hk.fits hke
  have htr := primaryKeyFilter_truth hout.key E.I
  refine ⟨hnd, hset, e, mf, hke, hout.filter, htr, ?_⟩
  rw [← leftMarked_congr htr]
  obtain ⟨w0, dp, ap, P, g1, f1, g2, hp, hfin, hP, -, hups, -⟩ := hout.out
  have hdel := hups rfl
  obtain ⟨hd, ha, -⟩ := merge_delIdx hp (fun q hq => hfin.del q hq)
  have hap : ∃ q, ap = some q ∧ physRows w1.fs q.addIdx = P := by
    cases ap with
    | none =>
      rw [hfin.none_iff.mp rfl] at hP
      exact absurd (List.map_eq_nil_iff.mp (List.nil_perm.mp hP)) hne
    | some q => exact ⟨q, rfl, hfin.phys q rfl⟩
  obtain ⟨q, rfl, hq⟩ := hap
  have hrows := hs.rows
  rw [hd, ha, ← List.append_assoc, physRows_append, List.map_append] at hrows
  simp only [Option.map_some, Option.getD_some] at hrows
  rw [hq] at hrows
  replace hrows := hrows.symm ▸ hP.append_left _
  refine hrows.trans (List.Perm.append_right _ ?_)
  rcases hdel.out with ⟨hx, hmod⟩ | ⟨dq, dms, carried, mf2, rmf2, rp, hx, hd2⟩
  · subst hx
    simp only [Option.map_none, Option.getD_none, List.append_nil]
    rw [filter_none, physRows_mono (g1.le.trans g2.le) hs.curOK.manifests]
    rw [leftMarked_none]
    · refine Perm.of_eq ?_
      rw [map_deref_mono (g1.le.trans g2.le).lookLe fun r hr => (physRows_ok hs.curOK.manifests r hr).2]
      unfold marked physRows
      rw [← List.flatMap_def, List.flatMap_assoc, List.map_flatMap]
      refine flatMap_congr' fun q hq => ?_
      rw [List.map_flatMap, List.flatMap_map]
    · intro man hman f hf
      obtain ⟨q', hq', rfl⟩ := List.mem_map.mp hman
      obtain ⟨mr, hmr, rfl⟩ := List.mem_map.mp hf
      have := hmod q' hq'
      simp only [hasMod, List.any_eq_false, Bool.not_eq_true] at this
      exact this mr hmr
  · subst hx
    have := hd2.leftMarked hk.names hs.curOK g1 he.plain
    simp only [Option.map_some, Option.getD_some]
    refine List.Perm.trans (List.Perm.of_eq ?_) this
    have hman : ∀ q' ∈ cur.index.filter (fun q => !dq.delIdx.contains q) ++ dq.addIdx, ManifestOK w0.fs s q' := by
      intro q' hq'
      rcases List.mem_append.mp hq' with hq' | hq'
      · exact (hs.curOK.manifests q' (List.mem_filter.mp hq').1).mono g1.le
      · exact (hd2.patchOK hk.names hs.curOK.manifests g1).idx q' hq'
    rw [physRows_mono g2.le hman]
    exact map_deref_mono g2.le.lookLe fun r hr => (physRows_ok hman r hr).2

/-- Upserts by the local runner and by Ray, on stored rows of every kind. -/
theorem Done.upsertFiles (hk : KeySchema s) {i : Nat} {rows : List Row} {σ σ' : Sys} (h : Done E s i m σ σ')
    (hmi : m.inserts = some (.upsert, rows)) :
    (keysOf s rows).Nodup ∧ KeysGiven s rows ∧
    ∃ sl new lay, σ.slots[i]? = some sl ∧ Reads E σ' sl.h.branch new ∧
      lay.map (·.map (·.2)) = headLayout s sl.h σ.w ∧
      new ~ (leftMarked (keyTruth s rows) lay ++ rows).map (·.select s.writeNames) ∧
      (∀ man ∈ lay, ∀ file ∈ man, file.1 = true → ∃ r ∈ file.2, keyTruth s rows r ≠ some false) ∧
      (∀ man ∈ lay, ∀ file ∈ man, (∃ r ∈ file.2, keyTruth s rows r = some true) → file.1 = true) := by
  obtain ⟨sl, sl', w, h1, w1, p, cur, snap, hl, hr, hr'⟩ := h.landing hk.names
  obtain ⟨hnd, hset, e, mf, hke, hm, htr, hperm⟩ := hl.succ.upsert_marked hk hmi
  have he := hk.fits hke
  refine ⟨hnd, hset, sl, _, marked E.I e w.fs s mf cur, hl.slot, hr', ?_, ?_, ?_, ?_⟩
  · rw [hl.layout, marked_layout]
  · refine (hperm.map _).trans ?_
    rw [List.map_append, List.map_append, List.map_map]
    have : (·.select s.writeNames) ∘ (·.select s.writeNames) = ((·.select s.writeNames) : Row → Row) := by
      funext r
      exact select_select (fun c hc => hc)
    rw [this]
  · intro man hman f hf hf1
    obtain ⟨q, hq, rfl⟩ := List.mem_map.mp hman
    obtain ⟨m, hmm, rfl⟩ := List.mem_map.mp hf
    obtain ⟨y, hy, hty⟩ := not_false_of_mod ((hl.succ.curOK.manifests q hq).entry hmm) hf1
    exact ⟨_, List.mem_map.mpr ⟨y, hy, rfl⟩, by rw [← htr]; rwa [truth_deref he.plain]⟩
  · intro man hman f hf ⟨r, hr, ht⟩
    obtain ⟨q, hq, rfl⟩ := List.mem_map.mp hman
    obtain ⟨m, hmm, rfl⟩ := List.mem_map.mp hf
    obtain ⟨y, hy, rfl⟩ := List.mem_map.mp hr
    rw [← htr, truth_deref he.plain] at ht
    exact modEntry_of_true he.prune hm ((hl.succ.curOK.manifests q hq).entry hmm) hy ht

end

end Space
