import Verif.SchemaSpec

/-! # Lemmas about schemas -/

namespace Space

/-! ## Ids -/

mutual
theorem assignField_ids : ∀ (f : AField) (n : Nat),
    (assignField f n).1.ids = (List.range' n f.ids.length).map some ∧
      (assignField f n).2 = n + f.ids.length
  | .mk name nl i t, n => by
    cases t with
    | list item =>
      have h := assignField_ids item (n + 1)
      simp only [assignField, AField.ids, ATy.ids, List.length_cons, List.range'_succ, List.map_cons]
      exact ⟨by rw [h.1], by rw [h.2]; omega⟩
    | struct fs =>
      have h := assignFields_ids fs (n + 1)
      simp only [assignField, AField.ids, ATy.ids, List.length_cons, List.range'_succ, List.map_cons]
      exact ⟨by rw [h.1], by rw [h.2]; omega⟩
    | _ => simp [assignField, AField.ids, ATy.ids]

theorem assignFields_ids : ∀ (fs : AFields) (n : Nat),
    (assignFields fs n).1.ids = (List.range' n fs.ids.length).map some ∧
      (assignFields fs n).2 = n + fs.ids.length
  | .nil, n => by simp [assignFields, AFields.ids]
  | .cons f fs, n => by
    have h := assignField_ids f n
    have hs := assignFields_ids fs (assignField f n).2
    simp only [assignFields, AFields.ids, List.length_append]
    refine ⟨?_, by rw [hs.2, h.2]; omega⟩
    rw [h.1, hs.1, h.2, ← List.map_append, List.range'_append_1]
end

mutual
theorem assignField_same : ∀ (f : AField) (n : Nat),
    (assignField f n).1.noIds.anyNull = f.noIds.anyNull
  | .mk name nl i t, n => by
    cases t with
    | list item =>
      simp only [assignField, AField.noIds, ATy.noIds, AField.anyNull, ATy.anyNull, AField.mk.injEq,
        ATy.list.injEq, true_and]
      exact assignField_same item (n + 1)
    | struct fs =>
      simp only [assignField, AField.noIds, ATy.noIds, AField.anyNull, ATy.anyNull, AField.mk.injEq,
        ATy.struct.injEq, true_and]
      exact assignFields_same fs (n + 1)
    | _ => simp [assignField, AField.noIds, AField.anyNull]

theorem assignFields_same : ∀ (fs : AFields) (n : Nat),
    (assignFields fs n).1.noIds.anyNull = fs.noIds.anyNull
  | .nil, n => by simp [assignFields]
  | .cons f fs, n => by
    simp only [assignFields, AFields.noIds, AFields.anyNull]
    rw [assignField_same f n, assignFields_same fs]
end

mutual
theorem assignField_exact : ∀ (f : AField) (n : Nat), f.openNested →
    (assignField f n).1.noIds = f.noIds
  | .mk name nl i t, n, h => by
    cases t with
    | list item =>
      simp only [AField.openNested, ATy.openAt] at h
      simp only [assignField, AField.noIds, ATy.noIds, AField.mk.injEq, ATy.list.injEq, true_and]
      exact ⟨h.1.symm, assignField_exact item (n + 1) h.2⟩
    | struct fs =>
      simp only [AField.openNested, ATy.openAt] at h
      simp only [assignField, AField.noIds, ATy.noIds, AField.mk.injEq, ATy.struct.injEq, true_and]
      exact ⟨h.1.symm, assignFields_exact fs (n + 1) h.2⟩
    | _ => simp [assignField, AField.noIds]

theorem assignFields_exact : ∀ (fs : AFields) (n : Nat), fs.openNested →
    (assignFields fs n).1.noIds = fs.noIds
  | .nil, n, _ => by simp [assignFields]
  | .cons f fs, n, h => by
    simp only [AFields.openNested] at h
    simp only [assignFields, AFields.noIds]
    rw [assignField_exact f n h.1, assignFields_exact fs _ h.2]
end

theorem assignField_name (f : AField) (n : Nat) : (assignField f n).1.name = f.name := by
  cases f with
  | mk name nl i t => cases t <;> rfl

theorem assignField_fid (f : AField) (n : Nat) : (assignField f n).1.fid = some n := by
  cases f with
  | mk name nl i t => cases t <;> rfl

theorem assignField_like (f : AField) (n : Nat) :
    (assignField f n).1.ty.likeness = f.ty.likeness := by
  have h := assignField_same f n
  generalize assignField f n = r at h
  obtain ⟨⟨a, b, c, d⟩, m⟩ := r
  cases f with
  | mk name nl i t =>
    simp only [AField.noIds, AField.anyNull, AField.mk.injEq, true_and] at h
    simp only [AField.ty, ATy.likeness, h.2]

theorem assignFields_names (fs : AFields) : ∀ n, (assignFields fs n).1.names = fs.names := by
  unfold AFields.names
  refine AFields.rec (motive_1 := fun _ => True) (motive_2 := fun _ => True)
    (motive_3 := fun fs => ∀ n, (assignFields fs n).1.toList.map AField.name =
      fs.toList.map AField.name) ?_ ?_ ?_ ?_ ?_ ?_ ?_ ?_ ?_ ?_ ?_ ?_ ?_ ?_ ?_ fs <;>
    try (intros; trivial)
  intro f fs _ ih n
  simp only [assignFields, AFields.toList, List.map_cons, assignField_name, ih]


/-! ## Storing and loading -/

mutual
/-- How a type looks after being stored and loaded. -/
def ATy.view (p : Bool) : ATy → ATy
  | .list (.mk _ _ _ t) => .list (.mk "item" true none (t.view p))
  | .struct fs => .struct (fs.view p)
  | .file d => if p then .str else .file d
  | t => t
/-- `view` inside every field. -/
def AFields.view (p : Bool) : AFields → AFields
  | .nil => .nil
  | .cons (.mk n _ _ t) fs => .cons (.mk n true none (t.view p)) (fs.view p)
end

mutual
theorem view_false : ∀ t : ATy, t.view false = t.likeness
  | .list (.mk a b c t) => by
    have h := view_false t
    simp only [ATy.view, ATy.likeness, ATy.noIds, AField.noIds, ATy.anyNull, AField.anyNull, ATy.itemNames,
      h]
  | .struct fs => by
    have h := views_false fs
    simp only [ATy.view, ATy.likeness, ATy.noIds, ATy.anyNull, ATy.itemNames, h]
  | .bool | .i32 | .i64 | .f32 | .f64 | .str | .bin | .tf _ | .file _ | .other _ => by
    simp [ATy.view, ATy.likeness, ATy.noIds, ATy.anyNull, ATy.itemNames]
theorem views_false : ∀ fs : AFields, fs.view false = fs.noIds.anyNull.itemNames
  | .nil => by simp [AFields.view, AFields.noIds, AFields.anyNull, AFields.itemNames]
  | .cons (.mk a b c t) fs => by
    have h := view_false t
    have hs := views_false fs
    simp only [AFields.view, AFields.noIds, AField.noIds, AFields.anyNull, AField.anyNull, AFields.itemNames,
      h, hs, ATy.likeness]
end

mutual
theorem view_true : ∀ t : ATy, t.view true = t.likeness.stored
  | .list (.mk a b c t) => by
    have h := view_true t
    simp only [ATy.view, ATy.likeness, ATy.noIds, AField.noIds, ATy.anyNull, AField.anyNull, ATy.itemNames,
      ATy.stored, h]
  | .struct fs => by
    have h := views_true fs
    simp only [ATy.view, ATy.likeness, ATy.noIds, ATy.anyNull, ATy.itemNames, ATy.stored, h]
  | .bool | .i32 | .i64 | .f32 | .f64 | .str | .bin | .tf _ | .file _ | .other _ => by
    simp [ATy.view, ATy.likeness, ATy.noIds, ATy.anyNull, ATy.itemNames, ATy.stored]
theorem views_true : ∀ fs : AFields, fs.view true = fs.noIds.anyNull.itemNames.stored
  | .nil => by simp [AFields.view, AFields.noIds, AFields.anyNull, AFields.itemNames, AFields.stored]
  | .cons (.mk a b c t) fs => by
    have h := view_true t
    have hs := views_true fs
    simp only [AFields.view, AFields.noIds, AField.noIds, AFields.anyNull, AField.anyNull, AFields.itemNames,
      AFields.stored, h, hs, ATy.likeness]
end

theorem needId_ok {i : Option Nat} {v : Nat} (h : needId i = .ok v) : i = some v := by
  cases i with
  | none => cases h
  | some n => simp only [needId, Except.ok.injEq] at h; rw [h]

theorem Except.bind_ok {ε α β : Type} {x : Except ε α} {f : α → Except ε β} {b : β}
    (h : (x >>= f) = .ok b) : ∃ a, x = .ok a ∧ f a = .ok b := by
  cases x with
  | error e => cases h
  | ok a => exact ⟨a, rfl, h⟩

theorem Except.pure_ok {ε α : Type} {a b : α} (h : (pure a : Except ε α) = .ok b) : a = b := by
  simpa [pure, Except.pure] using h

mutual
theorem sub_arrow {C : Codec} (hC : C.Faithful) (p : Bool) : ∀ (f : AField) (item : Bool)
    (ns : List String) (st : SType), subField C f item = .ok (ns, st) →
    ∃ inner, ns = (if item then [] else [f.name]) ++ inner ∧ f.fid = some st.variation ∧
      (RecordTy f.ty → inner = []) ∧
      ∀ rest, arrowType C p st (inner ++ rest) = .ok (f.ty.view p, rest)
  | .mk name nl i (.list f), item, ns, st, h => by
    simp only [subField] at h
    obtain ⟨v, h1, h⟩ := Except.bind_ok h
    obtain ⟨⟨ns', st'⟩, h2, h⟩ := Except.bind_ok h
    have h := Except.pure_ok h
    obtain ⟨inner, e1, -, -, e3⟩ := sub_arrow hC p f true ns' st' h2
    simp only [if_true, List.nil_append] at e1
    cases h
    refine ⟨ns', rfl, needId_ok h1, ?_, fun rest => ?_⟩
    · rintro (h | ⟨_, h⟩) <;> cases h
    · obtain ⟨a, b, c, t⟩ := f
      rw [e1]
      simp only [arrowType, e3, AField.ty, ATy.view]
      rfl
  | .mk name nl i (.struct fs), item, ns, st, h => by
    simp only [subField] at h
    obtain ⟨v, h1, h⟩ := Except.bind_ok h
    obtain ⟨⟨ns', st'⟩, h2, h⟩ := Except.bind_ok h
    have h := Except.pure_ok h
    have e3 := subs_arrow hC p fs ns' st' h2
    cases h
    refine ⟨ns', rfl, needId_ok h1, ?_, fun rest => ?_⟩
    · rintro (h | ⟨_, h⟩) <;> cases h
    · simp only [arrowType, e3, AField.ty, ATy.view]
      rfl
  | .mk name nl i (.tf x), item, ns, st, h => by
    simp only [subField] at h
    obtain ⟨v, h1, h⟩ := Except.bind_ok h
    have h := Except.pure_ok h
    cases h
    refine ⟨[], (List.append_nil _).symm, needId_ok h1, fun _ => rfl, fun rest => ?_⟩
    simp [arrowType, userType, hC.tf, AField.ty, ATy.view, Except.map, bind, Except.bind, pure, Except.pure]
  | .mk name nl i (.file x), item, ns, st, h => by
    simp only [subField] at h
    obtain ⟨v, h1, h⟩ := Except.bind_ok h
    have h := Except.pure_ok h
    cases h
    refine ⟨[], (List.append_nil _).symm, needId_ok h1, fun _ => rfl, fun rest => ?_⟩
    have hne : fileName ≠ tfName := by decide
    cases p <;> simp [arrowType, userType, hC.file, hne, AField.ty, ATy.view, Except.map, bind, Except.bind,
      pure, Except.pure]
  | .mk name nl i (.other x), item, ns, st, h => by
    simp only [subField] at h
    cases h
  | .mk name nl i .bool, item, ns, st, h | .mk name nl i .i32, item, ns, st, h
  | .mk name nl i .i64, item, ns, st, h | .mk name nl i .f32, item, ns, st, h
  | .mk name nl i .f64, item, ns, st, h | .mk name nl i .str, item, ns, st, h
  | .mk name nl i .bin, item, ns, st, h => by
    simp only [subField] at h
    obtain ⟨v, h1, h⟩ := Except.bind_ok h
    have h := Except.pure_ok h
    cases h
    exact ⟨[], (List.append_nil _).symm, needId_ok h1, fun _ => rfl, fun rest => by
      simp [arrowType, AField.ty, ATy.view]⟩

theorem subs_arrow {C : Codec} (hC : C.Faithful) (p : Bool) : ∀ (fs : AFields)
    (ns : List String) (sts : STypes), subFields C fs = .ok (ns, sts) →
    ∀ rest, arrowSubs C p sts (ns ++ rest) = .ok (fs.view p, rest)
  | .nil, ns, sts, h, rest => by
    simp only [subFields] at h
    have h := Except.pure_ok h
    cases h
    simp [arrowSubs, AFields.view]
  | .cons f fs, ns, sts, h, rest => by
    simp only [subFields] at h
    obtain ⟨⟨n1, s1⟩, h1, h⟩ := Except.bind_ok h
    obtain ⟨⟨n2, s2⟩, h2, h⟩ := Except.bind_ok h
    have h := Except.pure_ok h
    cases h
    obtain ⟨inner, e1, -, -, e3⟩ := sub_arrow hC p f false n1 s1 h1
    have e4 := subs_arrow hC p fs n2 s2 h2 rest
    obtain ⟨a, b, c, t⟩ := f
    simp only [e1, AField.name, Bool.false_eq_true, if_false, List.cons_append, List.nil_append,
      List.append_assoc, arrowSubs, nextName, AFields.view, AField.ty] at e3 ⊢
    simp only [bind, Except.bind, e3, e4, pure, Except.pure]
end

/-- Loading the stored form of fields with ids gives their views. -/
theorem fields_arrow {C : Codec} (hC : C.Faithful) (p : Bool) (recs : List String) : ∀ (fs : AFields)
    (ns : List String) (sts : STypes), subFields C fs = .ok (ns, sts) →
    (∀ f ∈ fs.toList, f.name ∈ recs → RecordTy f.ty) →
    ∀ rest, arrowFields C recs p sts (ns ++ rest) = .ok (fs.toList.map (fun f =>
      .mk f.name true f.fid (if p = true ∧ f.name ∈ recs then addressTy else f.ty.view p)), rest)
  | .nil, ns, sts, h, _, rest => by
    simp only [subFields] at h
    have h := Except.pure_ok h
    cases h
    simp [arrowFields, AFields.toList]
  | .cons f fs, ns, sts, h, hr, rest => by
    simp only [subFields] at h
    obtain ⟨⟨n1, s1⟩, h1, h⟩ := Except.bind_ok h
    obtain ⟨⟨n2, s2⟩, h2, h⟩ := Except.bind_ok h
    have h := Except.pure_ok h
    cases h
    obtain ⟨inner, e1, e2, e5, e3⟩ := sub_arrow hC p f false n1 s1 h1
    have e4 := fields_arrow hC p recs fs n2 s2 h2
      (fun g hg => hr g (by simp [AFields.toList, hg])) rest
    simp only [e1, Bool.false_eq_true, if_false, List.cons_append, List.nil_append,
      List.append_assoc, arrowFields, nextName, AFields.toList, List.map_cons]
    by_cases hp : p = true ∧ f.name ∈ recs
    · have := e5 (hr f (by simp [AFields.toList]) hp.2)
      subst this
      simp only [bind, Except.bind, hp.1, hp.2, and_self, if_true, List.nil_append, pure, Except.pure, e2]
      rw [hp.1] at e4
      rw [e4]
      simp
    · simp only [bind, Except.bind, if_neg hp, e3, e4, pure, Except.pure, e2]

/-! ## Which schemas have a stored form -/

mutual
theorem sub_total (C : Codec) : ∀ (f : AField) (item : Bool) (n : Nat),
    (∃ r, subField C (assignField f n).1 item = .ok r) ↔ f.ty.supported
  | .mk name nl i (.list f), item, n => by
    have h := sub_total C f true (n + 1)
    obtain ⟨a, b, c, t⟩ := f
    simp only [AField.ty] at h
    simp only [assignField, AField.ty, ATy.supported, subField, needId, bind, Except.bind, pure, Except.pure]
    rw [← h]
    cases subField C (assignField (.mk a b c t) (n + 1)).1 true <;> simp
  | .mk name nl i (.struct fs), item, n => by
    have h := subs_total C fs (n + 1)
    simp only [assignField, AField.ty, ATy.supported, subField, needId, bind, Except.bind, pure, Except.pure]
    rw [← h]
    cases subFields C (assignFields fs (n + 1)).1 <;> simp
  | .mk name nl i (.other x), item, n => by
    simp only [assignField, AField.ty, ATy.supported, subField, iff_false]
    rintro ⟨r, h⟩
    cases h
  | .mk name nl i .bool, item, n | .mk name nl i .i32, item, n | .mk name nl i .i64, item, n
  | .mk name nl i .f32, item, n | .mk name nl i .f64, item, n | .mk name nl i .str, item, n
  | .mk name nl i .bin, item, n | .mk name nl i (.tf _), item, n | .mk name nl i (.file _), item, n => by
    simp [assignField, AField.ty, ATy.supported, subField, needId, bind, Except.bind, pure, Except.pure]

theorem subs_total (C : Codec) : ∀ (fs : AFields) (n : Nat),
    (∃ r, subFields C (assignFields fs n).1 = .ok r) ↔ fs.supported
  | .nil, n => by simp [assignFields, subFields, AFields.supported, pure, Except.pure]
  | .cons f fs, n => by
    have h1 := sub_total C f false n
    have h2 := subs_total C fs (assignField f n).2
    obtain ⟨a, b, c, t⟩ := f
    simp only [AField.ty] at h1
    simp only [assignFields, AFields.supported, subFields, bind, Except.bind, pure, Except.pure]
    rw [← h1, ← h2]
    cases subField C (assignField (.mk a b c t) n).1 false <;> simp
    cases subFields C (assignFields fs (assignField (.mk a b c t) n).2).1 <;> simp
    rename_i x
    exact ⟨x.1, x.2, rfl⟩
end

/-! ## Validation -/

theorem fieldNamed_ok {fs : List AField} {k : String} {f : AField} :
    fieldNamed fs k = .ok f ↔ OnlyField fs k f := by
  have key : fs.filter (fun g => decide (g.name = k)) = [f] ↔ OnlyField fs k f := by
    constructor
    · intro h
      induction fs with
      | nil => cases h
      | cons g gs ih =>
        rw [List.filter_cons] at h
        split at h
        · rename_i hg
          simp only [List.cons.injEq] at h
          obtain ⟨rfl, h⟩ := h
          refine ⟨[], gs, rfl, by simpa using hg, fun x hx => ?_⟩
          rw [List.filter_eq_nil_iff] at h
          simpa using h x (by simpa using hx)
        · rename_i hg
          obtain ⟨l₁, l₂, e, hn, ho⟩ := ih h
          refine ⟨g :: l₁, l₂, by rw [e]; rfl, hn, fun x hx => ?_⟩
          simp only [List.cons_append, List.mem_cons] at hx
          rcases hx with rfl | hx
          · simpa using hg
          · exact ho x hx
    · rintro ⟨l₁, l₂, rfl, hn, ho⟩
      have h1 : l₁.filter (fun g => decide (g.name = k)) = [] :=
        List.filter_eq_nil_iff.mpr fun x hx => by simpa using ho x (by simp [hx])
      have h2 : l₂.filter (fun g => decide (g.name = k)) = [] :=
        List.filter_eq_nil_iff.mpr fun x hx => by simpa using ho x (by simp [hx])
      simp [List.filter_append, h1, h2, hn]
  rw [← key]
  unfold fieldNamed
  constructor
  · intro h
    split at h
    · rename_i hf
      rw [hf]
      cases h
      rfl
    · cases h
  · intro h
    simp only [h]

theorem OnlyField.mem {fs : List AField} {k : String} {f : AField} (h : OnlyField fs k f) :
    k ∈ fs.map AField.name := by
  obtain ⟨l₁, l₂, rfl, hn, -⟩ := h
  simp [hn]

theorem badKey_iff {t : ATy} : t.badKey = true ↔ NestedTy t := by
  cases t <;> simp [ATy.badKey, NestedTy]

theorem okRecord_iff {t : ATy} : t.okRecord = true ↔ RecordTy t := by
  cases t <;> simp [ATy.okRecord, RecordTy]

theorem validateKeys_ok {fs : List AField} {ks : List String} :
    validateKeys fs ks = .ok () ↔ ∀ k ∈ ks, ∃ f, OnlyField fs k f ∧ ¬ NestedTy f.ty := by
  induction ks with
  | nil => simp [validateKeys]
  | cons k ks ih =>
    simp only [validateKeys, List.forall_mem_cons, ← ih]
    constructor
    · intro h
      split at h
      · cases h
      · obtain ⟨f, h1, h⟩ := Except.bind_ok h
        split at h
        · cases h
        · rename_i hb
          exact ⟨⟨f, fieldNamed_ok.mp h1, fun hn => hb (badKey_iff.mpr hn)⟩, h⟩
    · rintro ⟨⟨f, h1, h2⟩, h⟩
      rw [if_neg (fun hn => hn h1.mem)]
      have hb : ¬ (f.ty.badKey = true) := fun hn => h2 (badKey_iff.mp hn)
      simp only [bind, Except.bind, fieldNamed_ok.mpr h1, pure, Except.pure, hb]
      exact h

theorem validateRecords_ok {fs : List AField} {pks rs : List String} :
    validateRecords fs pks rs = .ok () ↔
      ∀ r ∈ rs, r ∉ pks ∧ ∃ f, OnlyField fs r f ∧ RecordTy f.ty := by
  induction rs with
  | nil => simp [validateRecords]
  | cons k ks ih =>
    simp only [validateRecords, List.forall_mem_cons, ← ih]
    constructor
    · intro h
      split at h
      · cases h
      · simp only [bind, Except.bind, pure, Except.pure] at h
        split at h
        · cases h
        · rename_i hp
          cases hf : fieldNamed fs k with
          | error e => simp only [hf] at h; cases h
          | ok f =>
            simp only [hf] at h
            split at h
            · cases h
            · rename_i hb
              exact ⟨⟨hp, f, fieldNamed_ok.mp hf, okRecord_iff.mp (by simpa using hb)⟩, h⟩
    · rintro ⟨⟨hp, f, h1, h2⟩, h⟩
      rw [if_neg (fun hn => hn h1.mem)]
      have hb : f.ty.okRecord = true := okRecord_iff.mpr h2
      simp only [bind, Except.bind, pure, Except.pure, if_neg hp, fieldNamed_ok.mpr h1, hb,
        not_true_eq_false, if_false]
      exact h

theorem validate_ok {fs : List AField} {pks recs : List String} :
    validateSchema fs pks recs = .ok () ↔ Acceptable fs pks recs := by
  unfold validateSchema
  constructor
  · intro h
    split at h
    · cases h
    · rename_i hn
      obtain ⟨⟨⟩, h1, h2⟩ := Except.bind_ok h
      exact ⟨hn, validateKeys_ok.mp h1, validateRecords_ok.mp h2⟩
  · rintro ⟨h0, h1, h2⟩
    simp only [bind, Except.bind, pure, Except.pure, if_neg h0, validateKeys_ok.mpr h1]
    exact validateRecords_ok.mpr h2

theorem createSchema_ok {C : Codec} {fs : AFields} {pks recs : List String} {m : StoredSchema} :
    createSchema C fs pks recs = .ok m ↔
      Acceptable fs.toList pks recs ∧ m.pks = pks ∧ m.recs = recs ∧
        subFields C (assignIds fs) = .ok (m.fields.names, m.fields.types) := by
  unfold createSchema substraitFields
  constructor
  · intro h
    obtain ⟨⟨⟩, h1, h⟩ := Except.bind_ok h
    obtain ⟨d, h2, h⟩ := Except.bind_ok h
    obtain ⟨r, h3, h2⟩ := Except.bind_ok h2
    have h := Except.pure_ok h
    have h2 := Except.pure_ok h2
    subst h h2
    exact ⟨validate_ok.mp h1, rfl, rfl, h3⟩
  · rintro ⟨h1, h2, h3, h4⟩
    obtain ⟨⟨a, b⟩, c, d⟩ := m
    simp only at h2 h3 h4
    subst h2 h3
    simp only [bind, Except.bind, validate_ok.mpr h1, h4, pure, Except.pure]

theorem assignFields_record {recs : List String} : ∀ (fs : AFields) (n : Nat),
    (∀ f ∈ fs.toList, f.name ∈ recs → RecordTy f.ty) →
    ∀ f ∈ (assignFields fs n).1.toList, f.name ∈ recs → RecordTy f.ty
  | .nil, _, _, f, hf, _ => by simp [assignFields, AFields.toList] at hf
  | .cons g gs, n, h, f, hf, hr => by
    simp only [assignFields, AFields.toList, List.mem_cons] at hf
    rcases hf with rfl | hf
    · rw [assignField_name] at hr
      have := h g (by simp [AFields.toList]) hr
      obtain ⟨a, b, c, t⟩ := g
      cases t with
      | list _ => rcases this with h | ⟨_, h⟩ <;> cases h
      | struct _ => rcases this with h | ⟨_, h⟩ <;> cases h
      | _ => simpa [assignField, AField.ty] using this
    · exact assignFields_record gs _ (fun x hx => h x (by simp [AFields.toList, hx])) f hf hr

theorem Acceptable.record {fs : List AField} {pks recs : List String} (h : Acceptable fs pks recs) :
    ∀ f ∈ fs, f.name ∈ recs → RecordTy f.ty := by
  intro f hf hr
  obtain ⟨-, g, ⟨l₁, l₂, rfl, hn, ho⟩, ht⟩ := h.records _ hr
  rcases List.mem_append.mp hf with h1 | h1
  · exact absurd rfl (ho f (by simp [h1]))
  · rcases List.mem_cons.mp h1 with rfl | h1
    · exact ht
    · exact absurd rfl (ho f (by simp [h1]))

/-- What loading a created schema gives. -/
theorem load_created {C : Codec} (hC : C.Faithful) {fs : AFields} {pks recs : List String}
    {m : StoredSchema} (h : createSchema C fs pks recs = .ok m) (p : Bool) :
    arrowSchema C m.fields m.recs p = .ok ((assignIds fs).toList.map fun f =>
      .mk f.name true f.fid (if p = true ∧ f.name ∈ recs then addressTy else f.ty.view p)) := by
  obtain ⟨ha, h2, h3, h4⟩ := createSchema_ok.mp h
  have := fields_arrow hC p recs _ _ _ h4 (assignFields_record fs 0 ha.record) []
  rw [List.append_nil] at this
  simp only [arrowSchema, h3, this, bind, Except.bind, pure, Except.pure]

theorem assignFields_map_ty (g : ATy → ATy) (hg : ∀ t, g t.likeness = g t) : ∀ (fs : AFields) (n : Nat),
    (assignFields fs n).1.toList.map (fun f => g f.ty) = fs.toList.map (fun f => g f.ty)
  | .nil, _ => rfl
  | .cons f fs, n => by
    simp only [assignFields, AFields.toList, List.map_cons, assignFields_map_ty g hg fs, List.cons.injEq,
      and_true]
    rw [← hg, assignField_like, hg]

mutual
theorem sub_ids {C : Codec} : ∀ (f : AField) (item : Bool) (ns : List String) (st : SType),
    subField C f item = .ok (ns, st) → f.ids = st.ids.map some
  | .mk name nl i (.list f), item, ns, st, h => by
    simp only [subField] at h
    obtain ⟨v, h1, h⟩ := Except.bind_ok h
    obtain ⟨⟨ns', st'⟩, h2, h⟩ := Except.bind_ok h
    have h := Except.pure_ok h
    cases h
    simp [AField.ids, ATy.ids, SType.ids, needId_ok h1, sub_ids f true ns' st' h2]
  | .mk name nl i (.struct fs), item, ns, st, h => by
    simp only [subField] at h
    obtain ⟨v, h1, h⟩ := Except.bind_ok h
    obtain ⟨⟨ns', st'⟩, h2, h⟩ := Except.bind_ok h
    have h := Except.pure_ok h
    cases h
    simp [AField.ids, ATy.ids, SType.ids, needId_ok h1, subs_ids fs ns' st' h2]
  | .mk name nl i (.other x), item, ns, st, h => by
    simp only [subField] at h
    cases h
  | .mk name nl i .bool, item, ns, st, h | .mk name nl i .i32, item, ns, st, h
  | .mk name nl i .i64, item, ns, st, h | .mk name nl i .f32, item, ns, st, h
  | .mk name nl i .f64, item, ns, st, h | .mk name nl i .str, item, ns, st, h
  | .mk name nl i .bin, item, ns, st, h | .mk name nl i (.tf x), item, ns, st, h
  | .mk name nl i (.file x), item, ns, st, h => by
    simp only [subField] at h
    obtain ⟨v, h1, h⟩ := Except.bind_ok h
    have h := Except.pure_ok h
    cases h
    simp [AField.ids, ATy.ids, SType.ids, SType.variation, needId_ok h1]

theorem subs_ids {C : Codec} : ∀ (fs : AFields) (ns : List String) (sts : STypes),
    subFields C fs = .ok (ns, sts) → fs.ids = sts.ids.map some
  | .nil, ns, sts, h => by
    simp only [subFields] at h
    have h := Except.pure_ok h
    cases h
    simp [AFields.ids, STypes.ids]
  | .cons f fs, ns, sts, h => by
    simp only [subFields] at h
    obtain ⟨⟨n1, s1⟩, h1, h⟩ := Except.bind_ok h
    obtain ⟨⟨n2, s2⟩, h2, h⟩ := Except.bind_ok h
    have h := Except.pure_ok h
    cases h
    simp [AFields.ids, STypes.ids, sub_ids f false n1 s1 h1, subs_ids fs n2 s2 h2]
end

/-- Top-level ids are among all ids, in order. -/
theorem AFields.fids_sublist : ∀ fs : AFields, List.Sublist (fs.toList.map AField.fid) fs.ids
  | .nil => by simp [AFields.toList, AFields.ids]
  | .cons (.mk a b c t) fs => by
    have := fids_sublist fs
    simp only [AFields.toList, List.map_cons, AFields.ids, AField.ids, List.cons_append, AField.fid]
    exact (this.trans (List.sublist_append_right _ _)).cons_cons _

theorem assignIds_ids (fs : AFields) :
    (assignIds fs).ids = (List.range fs.ids.length).map some := by
  unfold assignIds
  rw [(assignFields_ids fs 0).1, List.range_eq_range']

theorem assignIds_fids_nodup (fs : AFields) : ((assignIds fs).toList.map AField.fid).Nodup := by
  refine (AFields.fids_sublist _).nodup ?_
  rw [assignIds_ids]
  exact List.Pairwise.map some (fun _ _ h he => h (Option.some.inj he)) List.nodup_range

/-! ## Lookup tables -/

theorem foldl_set_get? {α β γ : Type} [DecidableEq β] (k : α → β) (v : α → γ) :
    ∀ (l : List α) (m : AMap β γ) (b : β),
      (l.foldl (fun m a => m.set (k a) (v a)) m).get? b =
        match (l.filter (fun a => decide (k a = b))).getLast? with
        | some a => some (v a)
        | none => m.get? b
  | [], m, b => rfl
  | a :: l, m, b => by
    rw [List.foldl_cons, foldl_set_get? k v l]
    by_cases h : k a = b
    · simp only [List.filter_cons, h, decide_true, if_true]
      cases hl : (l.filter (fun a => decide (k a = b))).getLast? with
      | some c => rw [List.getLast?_cons, hl]; simp
      | none =>
        rw [List.getLast?_cons, hl]
        simp [AMap.get?_set, h]
    · simp only [List.filter_cons, h, decide_false, Bool.false_eq_true, if_false]
      cases hl : (l.filter (fun a => decide (k a = b))).getLast? with
      | some c => rfl
      | none => exact AMap.get?_set_ne _ _ (Ne.symm h)

theorem filter_unique {α β : Type} [DecidableEq β] (k : α → β) : ∀ {l : List α} {a : α},
    (l.map k).Nodup → a ∈ l → l.filter (fun x => decide (k x = k a)) = [a]
  | [], _, _, h => by cases h
  | x :: l, a, hn, h => by
    simp only [List.map_cons, List.nodup_cons] at hn
    rcases List.mem_cons.mp h with rfl | h
    · simp only [List.filter_cons, decide_true, if_true, List.cons.injEq, true_and]
      rw [List.filter_eq_nil_iff]
      intro y hy
      simp only [decide_eq_true_eq]
      intro he
      exact hn.1 (he ▸ List.mem_map_of_mem hy)
    · have hne : k x ≠ k a := fun he => hn.1 (he ▸ List.mem_map_of_mem h)
      simp only [List.filter_cons, hne, decide_false]
      exact filter_unique k hn.2 h

theorem nameToId_get {fs : List AField} (hn : (fs.map AField.name).Nodup) {f : AField} (h : f ∈ fs) :
    (nameToId fs).get? f.name = some f.fid := by
  unfold nameToId
  rw [foldl_set_get?, filter_unique AField.name hn h]
  rfl

theorem idToName_get {fs : List AField} (hn : (fs.map AField.fid).Nodup) {f : AField} (h : f ∈ fs) :
    (idToName fs).get? f.fid = some f.name := by
  unfold idToName
  rw [foldl_set_get?, filter_unique AField.fid hn h]
  rfl

theorem idToColumnGo_ok {d : AMap String (Option Nat)} : ∀ (fs : List AField) (k : Nat)
    (m : AMap (Option Nat) Nat), (∀ f ∈ fs, d.get? f.name = some f.fid) → (fs.map AField.fid).Nodup →
    ∃ m', idToColumnGo d (fs.map AField.name) k m = .ok m' ∧
      (∀ i, i ∉ fs.map AField.fid → m'.get? i = m.get? i) ∧
      ∀ (j : Nat) f, fs[j]? = some f → m'.get? f.fid = some (k + j)
  | [], k, m, _, _ => ⟨m, rfl, fun _ _ => rfl, fun j f h => by simp at h⟩
  | f :: fs, k, m, hd, hn => by
    simp only [List.map_cons, List.nodup_cons] at hn
    obtain ⟨m', h1, h2, h3⟩ := idToColumnGo_ok fs (k + 1) (m.set f.fid k)
      (fun g hg => hd g (List.mem_cons_of_mem _ hg)) hn.2
    refine ⟨m', ?_, fun i hi => ?_, fun j g hg => ?_⟩
    · simp only [List.map_cons, idToColumnGo, hd f List.mem_cons_self]
      exact h1
    · simp only [List.map_cons, List.mem_cons, not_or] at hi
      rw [h2 i hi.2, AMap.get?_set_ne _ _ hi.1]
    · cases j with
      | zero =>
        simp only [List.getElem?_cons_zero, Option.some.injEq] at hg
        subst hg
        rw [h2 _ hn.1, AMap.get?_set_self]
        rfl
      | succ j =>
        rw [h3 j g (by simpa using hg)]
        congr 1
        omega

theorem classify_eq (fs : List AField) (recs : List String) (selected : Option (List String)) :
    classifyFields fs recs selected =
      (((fs.filter (fun f => selected.all (·.contains f.name))).filter (fun f => !recs.contains f.name)).map
          (fun f => (f.name, f.fid)),
        ((fs.filter (fun f => selected.all (·.contains f.name))).filter (fun f => recs.contains f.name)).map
          (fun f => (f.name, f.fid))) := by
  have key : ∀ (fs : List AField) (a b : List (String × Option Nat)),
      fs.foldl (fun acc f =>
        if selected.any (fun l => !l.contains f.name) then acc
        else if recs.contains f.name then (acc.1, acc.2 ++ [(f.name, f.fid)])
        else (acc.1 ++ [(f.name, f.fid)], acc.2)) (a, b) =
      (a ++ ((fs.filter (fun f => selected.all (·.contains f.name))).filter
          (fun f => !recs.contains f.name)).map (fun f => (f.name, f.fid)),
        b ++ ((fs.filter (fun f => selected.all (·.contains f.name))).filter
          (fun f => recs.contains f.name)).map (fun f => (f.name, f.fid))) := by
    intro fs
    induction fs with
    | nil => intro a b; simp
    | cons f fs ih =>
      intro a b
      rw [List.foldl_cons]
      have hsel : (selected.any (fun l => !l.contains f.name)) = !selected.all (·.contains f.name) := by
        cases selected <;> simp
      by_cases h1 : selected.all (·.contains f.name) = true
      · simp only [hsel, h1, Bool.not_true, Bool.false_eq_true, if_false, List.filter_cons, if_true]
        by_cases h2 : recs.contains f.name = true
        · simp only [h2, if_true, Bool.not_true, Bool.false_eq_true, if_false, List.map_cons]
          rw [ih]
          simp
        · simp only [Bool.not_eq_true] at h2
          simp only [h2, Bool.not_false, if_true, Bool.false_eq_true, if_false, List.map_cons]
          rw [ih]
          simp
      · simp only [Bool.not_eq_true] at h1
        simp only [hsel, h1, Bool.not_false, if_true, List.filter_cons, Bool.false_eq_true, if_false]
        rw [ih]
  unfold classifyFields
  rw [key]
  simp

mutual
theorem likeness_likeness : ∀ t : ATy, t.likeness.likeness = t.likeness
  | .list (.mk a b c t) => by
    have h := likeness_likeness t
    simp only [ATy.likeness, ATy.noIds, AField.noIds, ATy.anyNull, AField.anyNull, ATy.itemNames] at h ⊢
    rw [h]
  | .struct fs => by
    have h := likeness_fields fs
    simp only [ATy.likeness, ATy.noIds, ATy.anyNull, ATy.itemNames] at h ⊢
    rw [h]
  | .bool | .i32 | .i64 | .f32 | .f64 | .str | .bin | .tf _ | .file _ | .other _ => by
    simp [ATy.likeness, ATy.noIds, ATy.anyNull, ATy.itemNames]
theorem likeness_fields : ∀ fs : AFields,
    fs.noIds.anyNull.itemNames.noIds.anyNull.itemNames = fs.noIds.anyNull.itemNames
  | .nil => by simp [AFields.noIds, AFields.anyNull, AFields.itemNames]
  | .cons (.mk a b c t) fs => by
    have h := likeness_likeness t
    have hs := likeness_fields fs
    simp only [ATy.likeness, AFields.noIds, AField.noIds, AFields.anyNull, AField.anyNull,
      AFields.itemNames] at h hs ⊢
    rw [h, hs]
end

end Space
