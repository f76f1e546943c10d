import Verif.Serializers

/-!
# C45: serializers round trip
-/

namespace Space

variable {V : Type}

theorem mapCol_ok {f : V → Except Err V} : ∀ {l out : List V},
    mapCol f l = .ok out ↔ l.map f = out.map .ok
  | [], out => by cases out <;> simp [mapCol]
  | v :: l, out => by
    simp only [mapCol, List.map_cons]
    cases hv : f v with
    | error e => cases out <;> simp
    | ok b =>
      cases hl : mapCol f l with
      | error e =>
        cases out with
        | nil => simp
        | cons c out =>
          simp only [reduceCtorEq, List.map_cons, List.cons.injEq, false_iff, not_and]
          intro _ h
          rw [mapCol_ok.mpr h] at hl
          cases hl
      | ok bs =>
        have h2 := mapCol_ok.mp hl
        cases out with
        | nil => simp
        | cons c out =>
          simp only [Except.ok.injEq, List.cons.injEq, List.map_cons]
          constructor
          · rintro ⟨rfl, rfl⟩; exact ⟨rfl, h2⟩
          · rintro ⟨rfl, h⟩
            have h3 := mapCol_ok.mpr h
            rw [hl] at h3
            cases h3
            exact ⟨rfl, rfl⟩

theorem AMap.set_new {α β : Type} [DecidableEq α] : ∀ (m : AMap α β) (k : α) (v : β), k ∉ m.keys →
    m.set k v = m ++ [(k, v)]
  | [], _, _, _ => rfl
  | (a, b) :: m, k, v, h => by
    simp only [AMap.keys, List.map_cons, List.mem_cons, not_or] at h
    simp only [AMap.set, Ne.symm h.1, if_false, List.cons_append]
    rw [AMap.set_new m k v h.2]

/-- What the serializer of a field does to its column; columns without one are copied. -/
def colResult (S : AMap String (FieldSer V)) (serialize : Bool) (f : String) (col : List V)
    (out : List V) : Prop :=
  match S.get? f with
  | none => out = col
  | some s => col.map (if serialize then s.ser else s.de) = out.map .ok

theorem processDict_ok {S : AMap String (FieldSer V)} {b : Bool} :
    ∀ {t : AMap String (List V)} {acc : AMap String (List V)} {u : AMap String (List V)},
      (acc.keys ++ t.keys).Nodup →
      (processDict S b t acc = .ok u ↔ ∃ cols, u = acc ++ t.keys.zip cols ∧ cols.length = t.length ∧
        ∀ (i : Nat) f col out, t[i]? = some (f, col) → cols[i]? = some out → colResult S b f col out)
  | [], acc, u, _ => by
    simp only [processDict, Except.ok.injEq, AMap.keys, List.map_nil, List.zip_nil_left, List.append_nil]
    constructor
    · rintro rfl; exact ⟨[], rfl, rfl, fun i f col out h => by simp at h⟩
    · rintro ⟨cols, h, -⟩; exact h.symm
  | (f, col) :: t, acc, u, hn => by
    have hf : f ∉ acc.keys := by
      intro h
      simp only [AMap.keys, List.map_cons] at hn h
      exact (List.nodup_append.mp hn).2.2 f h f List.mem_cons_self rfl
    have hstep : ∀ c : List V, ((acc.set f c).keys ++ AMap.keys t).Nodup := by
      intro c
      rw [AMap.set_new _ _ _ hf]
      simp only [AMap.keys, List.map_append, List.map_cons, List.map_nil, List.append_assoc,
        List.cons_append, List.nil_append] at hn ⊢
      exact hn
    have main : ∀ c : List V, colResult S b f col c →
        (∀ c', colResult S b f col c' → c' = c) →
        (processDict S b t (acc.set f c) = .ok u ↔
          ∃ cols, u = acc ++ (AMap.keys ((f, col) :: t)).zip cols ∧ cols.length = ((f, col) :: t).length ∧
            ∀ (i : Nat) g co out, ((f, col) :: t)[i]? = some (g, co) → cols[i]? = some out →
              colResult S b g co out) := by
      intro c hc huniq
      rw [processDict_ok (hstep c), AMap.set_new _ _ _ hf]
      constructor
      · rintro ⟨cols, h1, h2, h3⟩
        refine ⟨c :: cols, by simp [h1, AMap.keys], by simp [h2], fun i g co out hi ho => ?_⟩
        cases i with
        | zero =>
          simp only [List.getElem?_cons_zero, Option.some.injEq, Prod.mk.injEq] at hi ho
          obtain ⟨rfl, rfl⟩ := hi
          exact ho ▸ hc
        | succ i => exact h3 i g co out (by simpa using hi) (by simpa using ho)
      · rintro ⟨cols, h1, h2, h3⟩
        cases cols with
        | nil => simp at h2
        | cons c' cols =>
          have := huniq c' (h3 0 f col c' rfl rfl)
          subst this
          refine ⟨cols, by simp [h1, AMap.keys], by simpa using h2, fun i g co out hi ho => ?_⟩
          exact h3 (i + 1) g co out (by simpa using hi) (by simpa using ho)
    simp only [processDict]
    cases hS : S.get? f with
    | none =>
      simp only
      exact main col (by simp [colResult, hS]) fun c' h => by simpa [colResult, hS] using h
    | some s =>
      simp only
      cases hm : mapCol (if b = true then s.ser else s.de) col with
      | error e =>
        simp only [reduceCtorEq, false_iff]
        rintro ⟨cols, -, h2, h3⟩
        cases cols with
        | nil => simp at h2
        | cons c' cols =>
          have := h3 0 f col c' rfl rfl
          simp only [colResult, hS] at this
          rw [mapCol_ok.mpr this] at hm
          cases hm
      | ok c =>
        simp only
        refine main c (by simp only [colResult, hS]; exact mapCol_ok.mp hm) fun c' h => ?_
        simp only [colResult, hS] at h
        rw [mapCol_ok.mpr h] at hm
        exact (Except.ok.inj hm)

/-- **C45**.  For every table with distinct column names and every set of field serializers
that read back what they wrote for the values of their column, serializing succeeds,
deserializing the result gives the original table, and in between every column with a serializer
holds the serialized values in order and every other column is unchanged. -/
theorem C45 (S : AMap String (FieldSer V)) (t : AMap String (List V)) (hn : t.keys.Nodup)
    (hS : ∀ f s col, S.get? f = some s → t.get? f = some col →
      ∀ v ∈ col, ∃ b, s.ser v = .ok b ∧ s.de b = .ok v) :
    ∃ u, dictSerialize S t = .ok u ∧ dictDeserialize S u = .ok t ∧ u.keys = t.keys ∧
      (∀ f, S.get? f = none → u.get? f = t.get? f) ∧
      ∀ f s col, S.get? f = some s → t.get? f = some col →
        ∃ out, u.get? f = some out ∧ col.map s.ser = out.map .ok := by
  -- the serialized column of each field
  have hcol : ∀ x ∈ t, ∃ out, colResult S true x.1 x.2 out ∧ colResult S false x.1 out x.2 := by
    intro x hx
    have hx' : t.get? x.1 = some x.2 := AMap.get?_of_mem hn hx
    cases hs : S.get? x.1 with
    | none => exact ⟨x.2, by simp [colResult, hs], by simp [colResult, hs]⟩
    | some s =>
      have hv := hS x.1 s x.2 hs hx'
      have : ∀ l : List V, (∀ v ∈ l, ∃ b, s.ser v = .ok b ∧ s.de b = .ok v) →
          ∃ out : List V, l.map s.ser = out.map .ok ∧ out.map s.de = l.map .ok := by
        intro l
        induction l with
        | nil => intro _; exact ⟨[], rfl, rfl⟩
        | cons v l ih =>
          intro h
          obtain ⟨b, h1, h2⟩ := h v List.mem_cons_self
          obtain ⟨out, h3, h4⟩ := ih fun w hw => h w (List.mem_cons_of_mem _ hw)
          exact ⟨b :: out, by simp [h1, h3], by simp [h2, h4]⟩
      obtain ⟨out, h1, h2⟩ := this x.2 hv
      exact ⟨out, by simpa [colResult, hs] using h1, by simpa [colResult, hs] using h2⟩
  have hall : ∀ l : AMap String (List V), (∀ x ∈ l, ∃ out, colResult S true x.1 x.2 out ∧
      colResult S false x.1 out x.2) → ∃ cols : List (List V), cols.length = l.length ∧
      ∀ (i : Nat) f col out, l[i]? = some (f, col) → cols[i]? = some out →
        colResult S true f col out ∧ colResult S false f out col := by
    intro l
    induction l with
    | nil => intro _; exact ⟨[], rfl, fun i f col out h => by simp at h⟩
    | cons x l ih =>
      intro h
      obtain ⟨out, h1, h2⟩ := h x List.mem_cons_self
      obtain ⟨cols, h3, h4⟩ := ih fun y hy => h y (List.mem_cons_of_mem _ hy)
      refine ⟨out :: cols, by simp [h3], fun i f col o hi ho => ?_⟩
      cases i with
      | zero =>
        simp only [List.getElem?_cons_zero, Option.some.injEq] at hi ho
        subst hi ho
        exact ⟨h1, h2⟩
      | succ i => exact h4 i f col o (by simpa using hi) (by simpa using ho)
  obtain ⟨cols, hlen, hc⟩ := hall t hcol
  have hkeys : AMap.keys (t.keys.zip cols) = t.keys := by
    unfold AMap.keys
    rw [List.map_fst_zip]
    simp [hlen]
  have hzn : (AMap.keys (t.keys.zip cols)).Nodup := by rw [hkeys]; exact hn
  have hu : ∀ (i : Nat) f out, (t.keys.zip cols)[i]? = some (f, out) →
      ∃ col, t[i]? = some (f, col) ∧ cols[i]? = some out := by
    intro i f out h
    rw [List.getElem?_zip_eq_some] at h
    obtain ⟨h1, h2⟩ := h
    simp only [AMap.keys, List.getElem?_map, Option.map_eq_some_iff] at h1
    obtain ⟨⟨g, col⟩, h3, rfl⟩ := h1
    exact ⟨col, h3, h2⟩
  have hback : ∀ (i : Nat) f col, t[i]? = some (f, col) → ∃ out, cols[i]? = some out ∧
      (t.keys.zip cols)[i]? = some (f, out) := by
    intro i f col h
    have hi : i < cols.length := hlen ▸ (List.getElem?_eq_some_iff.mp h).1
    refine ⟨cols[i], List.getElem?_eq_getElem hi, ?_⟩
    rw [List.getElem?_zip_eq_some]
    exact ⟨by simp [AMap.keys, h], List.getElem?_eq_getElem hi⟩
  refine ⟨t.keys.zip cols, ?_, ?_, hkeys, ?_, ?_⟩
  · exact (processDict_ok (by simpa [AMap.keys] using hn)).mpr
      ⟨cols, rfl, hlen, fun i f col out h1 h2 => (hc i f col out h1 h2).1⟩
  · refine (processDict_ok (show ([] ++ AMap.keys (t.keys.zip cols)).Nodup from hzn)).mpr
      ⟨t.map Prod.snd, ?_, ?_, ?_⟩
    · rw [hkeys, List.nil_append]
      exact List.zip_of_prod (l := t.keys) (l' := t.map Prod.snd) rfl rfl
    · simp [AMap.keys, hlen]
    · intro i f out col h1 h2
      obtain ⟨col', h3, h4⟩ := hu i f out h1
      simp only [List.getElem?_map, h3, Option.map_some, Option.some.injEq] at h2
      subst h2
      exact (hc i f col' out h3 h4).2
  · intro f hf
    cases ht : t.get? f with
    | none =>
      cases hz : AMap.get? (t.keys.zip cols) f with
      | none => rfl
      | some out =>
        have : f ∈ AMap.keys (t.keys.zip cols) := AMap.mem_keys_iff.mpr ⟨out, hz⟩
        rw [hkeys] at this
        obtain ⟨v, hv⟩ := AMap.mem_keys_iff.mp this
        rw [hv] at ht
        cases ht
    | some col =>
      obtain ⟨i, hi⟩ := List.mem_iff_getElem?.mp (AMap.mem_of_get? ht)
      obtain ⟨out, h1, h2⟩ := hback i f col hi
      have := (hc i f col out hi h1).1
      simp only [colResult, hf] at this
      exact AMap.get?_of_mem hzn (this ▸ List.mem_of_getElem? h2)
  · intro f s col hs ht
    obtain ⟨i, hi⟩ := List.mem_iff_getElem?.mp (AMap.mem_of_get? ht)
    obtain ⟨out, h1, h2⟩ := hback i f col hi
    have := (hc i f col out hi h1).1
    simp only [colResult, hs, if_true] at this
    exact ⟨out, AMap.get?_of_mem hzn (List.mem_of_getElem? h2), this⟩

/-- **C45** (errors).  When a value of some column is refused by its serializer, serializing
the table raises. -/
theorem C45_refused (S : AMap String (FieldSer V)) (t : AMap String (List V)) (hn : t.keys.Nodup)
    {f : String} {s : FieldSer V} {col : List V} (hs : S.get? f = some s) (ht : t.get? f = some col)
    {v : V} (hv : v ∈ col) {e : Err} (he : s.ser v = .error e) :
    ∃ e', dictSerialize S t = .error e' := by
  cases h : dictSerialize S t with
  | error e' => exact ⟨e', rfl⟩
  | ok u =>
    obtain ⟨cols, -, hl, hc⟩ := (processDict_ok (by simpa [AMap.keys] using hn)).mp h
    obtain ⟨i, hi⟩ := List.mem_iff_getElem?.mp (AMap.mem_of_get? ht)
    have hlt : i < cols.length := hl ▸ (List.getElem?_eq_some_iff.mp hi).1
    have := hc i f col cols[i] hi (List.getElem?_eq_getElem hlt)
    simp only [colResult, hs, if_true] at this
    have hm : (Except.error e : Except Err V) ∈ col.map s.ser := he ▸ List.mem_map_of_mem hv
    rw [this] at hm
    simp at hm

/-- **C45** (which fields).  The serializers of a schema are those of its `TfFeatures`
columns; with distinct names each such column has its own. -/
theorem C45_create (tf : String → FieldSer V) : ∀ (fs : List AField) (m : AMap String (FieldSer V)),
    (fs.map AField.name).Nodup → ∀ f,
      (serializersOf tf fs m).get? f = match fs.find? (fun g => g.name = f) with
        | some (.mk _ _ _ (.tf x)) => some (tf x)
        | _ => m.get? f
  | [], m, _, f => rfl
  | .mk n b i t :: fs, m, hn, f => by
    simp only [List.map_cons, List.nodup_cons] at hn
    by_cases hf : n = f
    · subst hf
      have hnone : fs.find? (fun g => decide (g.name = n)) = none := by
        rw [List.find?_eq_none]
        intro g hg
        simp only [decide_eq_true_eq]
        intro he
        exact hn.1 (List.mem_map.mpr ⟨g, hg, he⟩)
      have hh : (AField.mk n b i t).name = n := rfl
      cases t <;> simp [serializersOf, C45_create tf fs _ hn.2, hnone, hh]
    · have hh : (AField.mk n b i t).name ≠ f := hf
      have ih := fun m => C45_create tf fs m hn.2 f
      cases t with
      | tf x =>
        simp only [serializersOf, ih, List.find?_cons, hh, decide_false]
        rw [AMap.get?_set_ne _ _ (Ne.symm hf)]
      | _ => simp only [serializersOf, ih, List.find?_cons, hh, decide_false]

/-! ## A concrete case -/

/-- Numbers written as their successors; zero cannot be read. -/
def Demo.succSer : FieldSer Nat := ⟨fun n => .ok (n + 1), fun n => if n = 0 then .error .runtime else .ok (n - 1)⟩

example : ∃ u, dictSerialize [("a", Demo.succSer)] [("a", [1, 2]), ("b", [7])] = .ok u ∧
    dictDeserialize [("a", Demo.succSer)] u = .ok [("a", [1, 2]), ("b", [7])] := by
  obtain ⟨u, h1, h2, -⟩ := C45 [("a", Demo.succSer)] [("a", [1, 2]), ("b", [7])] (by decide) (by
    intro f s col hs ht v hv
    simp only [AMap.get?] at hs
    split at hs
    · cases hs; exact ⟨v + 1, rfl, rfl⟩
    · cases hs)
  exact ⟨u, h1, h2⟩

end Space
