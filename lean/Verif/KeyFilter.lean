import Verif.Effects

/-!
# What the primary key filter of `insert` and `upsert` means
-/

namespace Space

theorem truth_and (I : Interp) (a b : Expr) (r : Row) :
    (Expr.bin "and" a b).truth I r = kAnd (a.truth I r) (b.truth I r) := by
  simp [Expr.truth, Expr.eval]

theorem truth_or (I : Interp) (a b : Expr) (r : Row) :
    (Expr.bin "or" a b).truth I r = kOr (a.truth I r) (b.truth I r) := by
  simp [Expr.truth, Expr.eval]

theorem truth_eq (I : Interp) (k : String) (v : Scalar) (r : Row) :
    (Expr.bin "equal" (.sel k) (.lit v)).truth I r =
      (r.val k).scalar?.map (fun x => Cmp.equal.holds x v) := by
  simp only [Expr.truth, Expr.eval]
  simp only [String.reduceEq, if_false, Cmp.ofName]
  cases h : (r.val k).scalar? with
  | none => simp [Cmp.eval, Val.scalar?]
  | some x => simp [Cmp.eval, Val.scalar?]

/-- `==` is true of equal values that are not NaN. -/
theorem equal_holds {x v : Scalar} : Cmp.equal.holds x v = true ↔ x = v ∧ x ≠ .nan := by
  unfold Cmp.holds
  split
  · rename_i h
    simp only [reduceCtorEq, decide_false, Bool.false_eq_true, false_iff]
    rintro ⟨rfl, h'⟩
    exact h.elim h' h'
  · rename_i h
    rw [not_or] at h
    simp [Cmp.test, h.1]

theorem truth_eq_true (I : Interp) (k : String) (v : Scalar) (r : Row) :
    (Expr.bin "equal" (.sel k) (.lit v)).truth I r = some true ↔ r.val k = .sc v ∧ r.val k ≠ .sc .nan := by
  rw [truth_eq]
  cases h : r.val k <;> simp [Val.scalar?, equal_holds]

theorem kAnd_true {a b : Option Bool} : kAnd a b = some true ↔ a = some true ∧ b = some true := by
  cases a with
  | none => cases b with
    | none => simp [kAnd]
    | some b => cases b <;> simp [kAnd]
  | some a => cases a <;> (cases b with
    | none => simp [kAnd]
    | some b => cases b <;> simp [kAnd])

theorem kOr_true {a b : Option Bool} : kOr a b = some true ↔ a = some true ∨ b = some true := by
  cases a with
  | none => cases b with
    | none => simp [kOr]
    | some b => cases b <;> simp [kOr]
  | some a => cases a <;> (cases b with
    | none => simp [kOr]
    | some b => cases b <;> simp [kOr])

theorem kAnd_isSome {a b : Option Bool} (ha : a ≠ none) (hb : b ≠ none) : kAnd a b ≠ none := by
  cases a with
  | none => exact absurd rfl ha
  | some a => cases b with
    | none => exact absurd rfl hb
    | some b => cases a <;> cases b <;> simp [kAnd]

theorem kOr_isSome {a b : Option Bool} (ha : a ≠ none) (hb : b ≠ none) : kOr a b ≠ none := by
  cases a with
  | none => exact absurd rfl ha
  | some a => cases b with
    | none => exact absurd rfl hb
    | some b => cases a <;> cases b <;> simp [kOr]

/-- Facts about one expression used for both loops. -/
structure KeyExpr (pks : List String) (e : Expr) : Prop where
  safe : ∀ s : Schema, e.pruneSafe s = true
  cols : ∀ c ∈ e.cols, c ∈ pks
  total : ∀ I r, (∀ k ∈ pks, ∃ x, r.val k = .sc x ∧ x ≠ .nan) → e.truth I r ≠ none

theorem keyEq {pks : List String} {k : String} (hk : k ∈ pks) (v : Scalar) :
    KeyExpr pks (.bin "equal" (.sel k) (.lit v)) where
  safe := fun s => by simp [Expr.pruneSafe]
  cols := by simp [Expr.cols, hk]
  total := by
    intro I r h
    obtain ⟨x, hx, -⟩ := h k hk
    simp [truth_eq, hx, Val.scalar?]

theorem KeyExpr.and {pks : List String} {a b : Expr} (ha : KeyExpr pks a) (hb : KeyExpr pks b) :
    KeyExpr pks (.bin "and" a b) where
  safe := fun s => by simp [Expr.pruneSafe, ha.safe s, hb.safe s]
  cols := by
    intro c hc
    simp only [Expr.cols, List.mem_append] at hc
    exact hc.elim (ha.cols c) (hb.cols c)
  total := fun I r h => by rw [truth_and]; exact kAnd_isSome (ha.total I r h) (hb.total I r h)

theorem KeyExpr.or {pks : List String} {a b : Expr} (ha : KeyExpr pks a) (hb : KeyExpr pks b) :
    KeyExpr pks (.bin "or" a b) where
  safe := fun s => by simp [Expr.pruneSafe, ha.safe s, hb.safe s]
  cols := by
    intro c hc
    simp only [Expr.cols, List.mem_append] at hc
    exact hc.elim (ha.cols c) (hb.cols c)
  total := fun I r h => by rw [truth_or]; exact kOr_isSome (ha.total I r h) (hb.total I r h)

theorem rowFilter_fold {pks : List String} (I : Interp) (r : Row) : ∀ (ks : List (String × Scalar)) (acc : Expr),
    KeyExpr pks acc → (∀ x ∈ ks, x.1 ∈ pks) →
    KeyExpr pks (ks.foldl (fun acc x => .bin "and" acc (.bin "equal" (.sel x.1) (.lit x.2))) acc) ∧
    ((ks.foldl (fun acc x => Expr.bin "and" acc (.bin "equal" (.sel x.1) (.lit x.2))) acc).truth I r = some true ↔
      acc.truth I r = some true ∧ ∀ x ∈ ks, r.val x.1 = .sc x.2 ∧ r.val x.1 ≠ .sc .nan)
  | [], acc, ha, _ => by simp [ha]
  | x :: ks, acc, ha, hx => by
    have ih := rowFilter_fold (pks := pks) I r ks (.bin "and" acc (.bin "equal" (.sel x.1) (.lit x.2)))
      (ha.and (keyEq (hx x (by simp)) x.2)) (fun y hy => hx y (by simp [hy]))
    refine ⟨ih.1, ?_⟩
    simp only [List.foldl_cons]
    rw [ih.2, truth_and, kAnd_true, truth_eq_true]
    simp only [List.forall_mem_cons, and_assoc]

theorem rowFilter_sem {pks : List String} {kv : List (String × Scalar)} {e : Expr}
    (h : rowFilter kv = some e) (hp : ∀ x ∈ kv, x.1 ∈ pks) (I : Interp) (r : Row) :
    KeyExpr pks e ∧ (e.truth I r = some true ↔ ∀ x ∈ kv, r.val x.1 = .sc x.2 ∧ r.val x.1 ≠ .sc .nan) := by
  cases kv with
  | nil => cases h
  | cons x kv =>
    obtain ⟨k, v⟩ := x
    simp only [rowFilter, Option.some.injEq] at h
    subst h
    obtain ⟨h1, h2⟩ := rowFilter_fold (pks := pks) I r kv _ (keyEq (hp (k, v) (by simp)) v)
      (fun y hy => hp y (by simp [hy]))
    refine ⟨h1, ?_⟩
    rw [h2, truth_eq_true]
    simp

theorem keyPairs_sem {d : Row} : ∀ {pks : List String} {kv : List (String × Scalar)},
    keyPairs d pks = some kv → kv.map (·.1) = pks ∧ (∀ x ∈ kv, d.val x.1 = .sc x.2) ∧
      ∀ k ∈ pks, ∃ v, d.val k = .sc v
  | [], kv, h => by
    simp only [keyPairs, Option.some.injEq] at h
    subst h
    simp
  | k :: pks, kv, h => by
    simp only [keyPairs] at h
    split at h
    · rename_i v hv
      cases hk : keyPairs d pks with
      | none => rw [hk] at h; cases h
      | some kv' =>
        rw [hk] at h
        simp only [Option.map_some, Option.some.injEq] at h
        subst h
        obtain ⟨h1, h2, h3⟩ := keyPairs_sem hk
        refine ⟨by simp [h1], ?_, ?_⟩
        · exact List.forall_mem_cons.mpr ⟨hv, h2⟩
        · exact List.forall_mem_cons.mpr ⟨⟨v, hv⟩, h3⟩
    · cases h

theorem keyOf_eq {pks : List String} {d r : Row} :
    keyOf pks d = keyOf pks r ↔ ∀ k ∈ pks, d.val k = r.val k := by
  simp [keyOf]

/-- No key of the row is NaN. -/
def KeyNum (pks : List String) (r : Row) : Prop := ∀ k ∈ pks, r.val k ≠ .sc .nan

/-- The filter of one row is true exactly on the rows with the same key, if it has no NaN. -/
theorem oneRow_sem {pks : List String} {d : Row} {e : Expr}
    (h : (keyPairs d pks).bind rowFilter = some e) (I : Interp) (r : Row) :
    KeyExpr pks e ∧ (e.truth I r = some true ↔ keyOf pks d = keyOf pks r ∧ KeyNum pks r) ∧
      ∀ k ∈ pks, ∃ v, d.val k = .sc v := by
  cases hk : keyPairs d pks with
  | none => rw [hk] at h; cases h
  | some kv =>
    rw [hk] at h
    obtain ⟨h1, h2, h3⟩ := keyPairs_sem hk
    have hp : ∀ x ∈ kv, x.1 ∈ pks := fun x hx => h1 ▸ List.mem_map.mpr ⟨x, hx, rfl⟩
    obtain ⟨a, b⟩ := rowFilter_sem (pks := pks) h hp I r
    refine ⟨a, ?_, h3⟩
    rw [b, keyOf_eq]
    constructor
    · refine fun hx => ⟨fun k hk' => ?_, fun k hk' => ?_⟩ <;> rw [← h1] at hk' <;>
        obtain ⟨x, hx1, rfl⟩ := List.mem_map.mp hk'
      · rw [h2 x hx1, (hx x hx1).1]
      · exact (hx x hx1).2
    · rintro ⟨hx, hn⟩ x hxm
      refine ⟨?_, hn x.1 (hp x hxm)⟩
      rw [← hx x.1 (hp x hxm), h2 x hxm]

theorem rowFilters_sem {pks : List String} : ∀ {data : List Row} {es : List Expr},
    rowFilters pks data = some es → ∀ (I : Interp) (r : Row),
    (∀ e ∈ es, KeyExpr pks e) ∧
      ((∃ e ∈ es, e.truth I r = some true) ↔ ∃ d ∈ data, keyOf pks d = keyOf pks r ∧ KeyNum pks r) ∧
      ∀ d ∈ data, ∀ k ∈ pks, ∃ v, d.val k = .sc v
  | [], es, h, I, r => by
    simp only [rowFilters, Option.some.injEq] at h
    subst h
    simp
  | d :: data, es, h, I, r => by
    simp only [rowFilters] at h
    split at h
    · cases h
    · rename_i e he
      cases hr : rowFilters pks data with
      | none => rw [hr] at h; cases h
      | some es' =>
        rw [hr] at h
        simp only [Option.map_some, Option.some.injEq] at h
        subst h
        obtain ⟨a1, a2, a3⟩ := oneRow_sem he I r
        obtain ⟨b1, b2, b3⟩ := rowFilters_sem hr I r
        refine ⟨List.forall_mem_cons.mpr ⟨a1, b1⟩, ?_, List.forall_mem_cons.mpr ⟨a3, b3⟩⟩
        simp only [List.mem_cons, exists_eq_or_imp, a2, b2]

theorem orFold {pks : List String} (I : Interp) (r : Row) : ∀ (es : List Expr) (acc : Expr), KeyExpr pks acc →
    (∀ e ∈ es, KeyExpr pks e) → KeyExpr pks (es.foldl (fun acc x => .bin "or" acc x) acc) ∧
    ((es.foldl (fun acc x => Expr.bin "or" acc x) acc).truth I r = some true ↔
      acc.truth I r = some true ∨ ∃ e ∈ es, e.truth I r = some true)
  | [], acc, h, _ => by simp [h]
  | e :: es, acc, h, he => by
    obtain ⟨h1, h2⟩ := orFold I r es (.bin "or" acc e) (h.or (he e (by simp))) (fun x hx => he x (by simp [hx]))
    refine ⟨h1, ?_⟩
    simp only [List.foldl_cons]
    rw [h2, truth_or, kOr_true]
    simp only [List.mem_cons, exists_eq_or_imp, or_assoc]

/-- The primary key filter is true exactly on the rows whose key is among the given
ones and has no NaN; it is never null on rows without null keys. -/
theorem primaryKeyFilter_sem {pks : List String} {data : List Row} {e : Expr}
    (h : primaryKeyFilter pks data = .ok (some e)) (I : Interp) :
    KeyExpr pks e ∧
      (∀ r, e.truth I r = some true ↔ ∃ d ∈ data, keyOf pks d = keyOf pks r ∧ KeyNum pks r) ∧
      (data.map (keyOf pks)).Nodup ∧ (∀ d ∈ data, ∀ k ∈ pks, ∃ v, d.val k = .sc v) ∧ data ≠ [] := by
  unfold primaryKeyFilter at h
  split at h
  · split at h
    · rename_i hnd
      split at h
      · cases h
      · cases h
      · rename_i e0 es hr
        simp only [Except.ok.injEq, Option.some.injEq] at h
        subst h
        have key := fun r => rowFilters_sem hr I r
        have hK : ∀ x ∈ e0 :: es, KeyExpr pks x := (key []).1
        have h2 := fun r => orFold (pks := pks) I r es e0 (hK e0 (by simp)) (fun x hx => hK x (by simp [hx]))
        refine ⟨(h2 []).1, fun r => ?_, hnd, (key []).2.2, ?_⟩
        · rw [(h2 r).2, ← (key r).2.1]
          simp
        · rintro rfl
          cases hr
    · cases h
  · cases h

/-- If a key is repeated or the key filter cannot be built, no filter results. -/
theorem primaryKeyFilter_dup {pks : List String} {data : List Row}
    (h : ¬ (data.map (keyOf pks)).Nodup) : ∀ fe, primaryKeyFilter pks data ≠ .ok fe := by
  intro fe hf
  unfold primaryKeyFilter at hf
  split at hf
  · simp [h] at hf
  · cases hf

theorem keyPairs_total {d : Row} : ∀ {pks : List String}, (∀ k ∈ pks, ∃ v, d.val k = .sc v) →
    ∃ kv, keyPairs d pks = some kv
  | [], _ => ⟨[], rfl⟩
  | k :: pks, h => by
    obtain ⟨v, hv⟩ := h k (by simp)
    obtain ⟨kv, hk⟩ := keyPairs_total (d := d) (pks := pks) (fun x hx => h x (by simp [hx]))
    exact ⟨(k, v) :: kv, by simp [keyPairs, hv, hk]⟩

theorem rowFilters_total {pks : List String} (hp : pks ≠ []) : ∀ {data : List Row},
    (∀ d ∈ data, ∀ k ∈ pks, ∃ v, d.val k = .sc v) → ∃ es, rowFilters pks data = some es ∧ es.length = data.length
  | [], _ => ⟨[], rfl, rfl⟩
  | d :: data, h => by
    obtain ⟨kv, hk⟩ := keyPairs_total (h d (by simp))
    obtain ⟨es, he, hl⟩ := rowFilters_total hp (data := data) (fun x hx => h x (by simp [hx]))
    cases kv with
    | nil =>
      have := (keyPairs_sem hk).1
      exact absurd this.symm hp
    | cons x kv =>
      obtain ⟨e, hee⟩ : ∃ e, rowFilter (x :: kv) = some e := ⟨_, rfl⟩
      exact ⟨e :: es, by simp [rowFilters, hk, hee, he], by simp [hl]⟩

/-- Rows with distinct keys without nulls have a key filter. -/
theorem primaryKeyFilter_total {pks : List String} (hp : pks ≠ []) {data : List Row} (hd : data ≠ [])
    (hc : ∀ r ∈ data, ∀ k ∈ pks, k ∈ r.cols) (hk : ∀ d ∈ data, ∀ k ∈ pks, ∃ v, d.val k = .sc v)
    (hn : (data.map (keyOf pks)).Nodup) : ∃ e, primaryKeyFilter pks data = .ok (some e) := by
  obtain ⟨es, he, hl⟩ := rowFilters_total hp hk
  unfold primaryKeyFilter
  rw [if_pos (by simpa using hc), if_pos hn, he]
  cases es with
  | nil => cases data with
    | nil => exact absurd rfl hd
    | cons => simp at hl
  | cons e es => exact ⟨_, rfl⟩

end Space
