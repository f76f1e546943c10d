import Verif.Join
import Verif.ViewLemmas

/-!
# Joining flattened tables and folding the addresses again is joining the tables
-/

set_option autoImplicit false

namespace Space

/-- The join of two tables whose columns are not flattened. -/
def joinTables (key : String) (outs : List String) (l r : List Row) : List Row :=
  l.flatMap fun a => (r.filter fun b => decide (a.val key ≠ .null) && decide (a.val key = b.val key)).map fun b =>
    outs.map fun c => (c, if a.cols.contains c then a.val c else b.val c)

/-- `_join` without flattening. -/
def joinPlain (key : String) (outs : List String) (l r : List Row) : Except Err (Option (List Row)) :=
  match l, r with
  | a :: _, b :: _ =>
    if !(l.all (fun x => x.cols = a.cols) && r.all (fun x => x.cols = b.cols)) then .error (.other "ArrowInvalid")
    else if (l ++ r).any (fun x => x.any (fun c => c.2.nested)) then .error (.other "ArrowInvalid")
    else if outs.all (fun c => (a.cols ++ b.cols.filter (· ≠ key)).count c = 1) then
      .ok (some (joinTables key outs l r))
    else .error (.other "KeyError")
  | _, _ => .ok none

/-! ## Lookups -/

theorem get?_append {α β : Type} [DecidableEq α] (m m' : AMap α β) (k : α) :
    AMap.get? (m ++ m') k = (AMap.get? m k).or (AMap.get? m' k) := by
  induction m with
  | nil => simp [AMap.get?]
  | cons e m ih =>
    obtain ⟨k', v⟩ := e
    simp only [List.cons_append, AMap.get?_cons]
    split
    · rfl
    · exact ih

theorem get?_filter_key {α β : Type} [DecidableEq α] (m : AMap α β) (p : α → Bool) (k : α) :
    AMap.get? (m.filter (fun x => p x.1)) k = if p k then AMap.get? m k else none := by
  induction m with
  | nil => simp [AMap.get?]
  | cons e m ih =>
    obtain ⟨k', v⟩ := e
    rw [List.filter_cons, AMap.get?_cons]
    by_cases hk : k' = k
    · subst hk
      cases hp : p k'
      · simp [hp, ih]
      · simp [hp, AMap.get?_cons]
    · rw [if_neg hk]
      split
      · rw [AMap.get?_cons, if_neg hk, ih]
      · exact ih

theorem get?_none_iff {α β : Type} [DecidableEq α] {m : AMap α β} {k : α} : AMap.get? m k = none ↔ k ∉ m.map Prod.fst := by
  induction m with
  | nil => simp [AMap.get?]
  | cons e m ih =>
    obtain ⟨k', v⟩ := e
    rw [AMap.get?_cons]
    by_cases hk : k' = k
    · simp [hk]
    · simp [hk, ih, Ne.symm hk]

/-! ## Flattening -/

/-- The cells of the record columns are addresses. -/
def Addressed (recs : List String) (r : Row) : Prop := ∀ x ∈ r, x.1 ∈ recs → ∃ p i, x.2 = .addr p i

theorem flatten_cons {recs : List String} {x : String × Val} {r : Row} (h : x.1 ∈ recs → ∃ p i, x.2 = .addr p i) :
    (x.1 ∈ recs ∧ ∃ p i, x.2 = .addr p i ∧ flatten recs (x :: r) = (.file x.1, .file p) :: (.rowId x.1, .rowId i) :: flatten recs r) ∨
    (x.1 ∉ recs ∧ flatten recs (x :: r) = (.col x.1, .cell x.2) :: flatten recs r) := by
  by_cases hx : x.1 ∈ recs
  · obtain ⟨p, i, e⟩ := h hx
    refine Or.inl ⟨hx, p, i, e, ?_⟩
    simp [flatten, hx, e]
  · exact Or.inr ⟨hx, by simp [flatten, hx]⟩

theorem flatten_col {recs : List String} {c : String} : ∀ {r : Row}, Addressed recs r →
    AMap.get? (flatten recs r) (.col c) = if c ∈ recs then none else (AMap.get? r c).map .cell
  | [], _ => by simp [flatten, AMap.get?]
  | x :: r, h => by
    have ih := flatten_col (c := c) (r := r) fun y hy => h y (List.mem_cons_of_mem _ hy)
    rcases flatten_cons (r := r) (h x List.mem_cons_self) with ⟨hx, p, i, -, e⟩ | ⟨hx, e⟩
    · rw [e, AMap.get?_cons, if_neg (by simp), AMap.get?_cons, if_neg (by simp), ih]
      by_cases hc : c ∈ recs
      · simp [hc]
      · rw [if_neg hc, if_neg hc, AMap.get?, if_neg (fun h => hc (by rw [← h]; exact hx))]
    · rw [e, AMap.get?_cons, ih]
      by_cases hc : c ∈ recs
      · rw [if_pos hc, if_neg (fun h => hx (by rw [FlatName.col.inj h]; exact hc)), if_pos hc]
      · rw [if_neg hc, if_neg hc, AMap.get?]
        by_cases hxc : x.1 = c
        · rw [if_pos (by rw [hxc]), if_pos hxc]; rfl
        · rw [if_neg (fun h => hxc (FlatName.col.inj h)), if_neg hxc]

theorem flatten_addr {recs : List String} {f : String} (hf : f ∈ recs) : ∀ {r : Row}, Addressed recs r →
    (AMap.get? r f = none ∧ AMap.get? (flatten recs r) (.file f) = none ∧ AMap.get? (flatten recs r) (.rowId f) = none) ∨
    ∃ p i, AMap.get? r f = some (.addr p i) ∧ AMap.get? (flatten recs r) (.file f) = some (.file p) ∧
      AMap.get? (flatten recs r) (.rowId f) = some (.rowId i)
  | [], _ => by simp [flatten, AMap.get?]
  | x :: r, h => by
    have ih := flatten_addr hf (r := r) fun y hy => h y (List.mem_cons_of_mem _ hy)
    rcases flatten_cons (r := r) (h x List.mem_cons_self) with ⟨hx, p, i, e', e⟩ | ⟨hx, e⟩
    · by_cases hxf : x.1 = f
      · refine Or.inr ⟨p, i, ?_, ?_, ?_⟩
        · rw [AMap.get?, if_pos hxf, e']
        · rw [e, AMap.get?_cons, if_pos (by rw [hxf])]
        · rw [e, AMap.get?_cons, if_neg (by simp), AMap.get?_cons, if_pos (by rw [hxf])]
      · have e1 : AMap.get? (x :: r) f = AMap.get? r f := by rw [AMap.get?, if_neg hxf]
        rw [e, e1, AMap.get?_cons, if_neg (fun h => hxf (FlatName.file.inj h)), AMap.get?_cons, if_neg (by simp),
          AMap.get?_cons, if_neg (by simp), AMap.get?_cons, if_neg (fun h => hxf (FlatName.rowId.inj h))]
        exact ih
    · have hxf : x.1 ≠ f := fun h => hx (h ▸ hf)
      have e1 : AMap.get? (x :: r) f = AMap.get? r f := by rw [AMap.get?, if_neg hxf]
      rw [e, e1, AMap.get?_cons, if_neg (by simp), AMap.get?_cons, if_neg (by simp)]
      exact ih

theorem flatten_no_addr {recs : List String} {f : String} (hf : f ∉ recs) : ∀ {r : Row}, Addressed recs r →
    AMap.get? (flatten recs r) (.file f) = none ∧ AMap.get? (flatten recs r) (.rowId f) = none
  | [], _ => by simp [flatten, AMap.get?]
  | x :: r, h => by
    have ih := flatten_no_addr hf (r := r) fun y hy => h y (List.mem_cons_of_mem _ hy)
    rcases flatten_cons (r := r) (h x List.mem_cons_self) with ⟨hx, p, i, e', e⟩ | ⟨hx, e⟩
    · have hxf : x.1 ≠ f := fun h => hf (h ▸ hx)
      rw [e, AMap.get?_cons, if_neg (fun h => hxf (FlatName.file.inj h)), AMap.get?_cons, if_neg (by simp),
        AMap.get?_cons, if_neg (by simp), AMap.get?_cons, if_neg (fun h => hxf (FlatName.rowId.inj h))]
      exact ih
    · rw [e, AMap.get?_cons, if_neg (by simp), AMap.get?_cons, if_neg (by simp)]
      exact ih

theorem flatten_nested {recs : List String} : ∀ {r : Row}, Addressed recs r →
    (flatten recs r).any (fun c => c.2.nested) = r.any (fun c => c.2.nested)
  | [], _ => rfl
  | x :: r, h => by
    have ih := flatten_nested (r := r) fun y hy => h y (List.mem_cons_of_mem _ hy)
    rcases flatten_cons (r := r) (h x List.mem_cons_self) with ⟨hx, p, i, e', e⟩ | ⟨hx, e⟩
    · rw [e, List.any_cons, List.any_cons, List.any_cons, ih, e']
      rfl
    · rw [e, List.any_cons, List.any_cons, ih]
      rfl

/-- The columns of a flattened row. -/
def flatCols (recs cs : List String) : List FlatName :=
  cs.flatMap fun c => if c ∈ recs then [.file c, .rowId c] else [.col c]

theorem flatten_cols {recs : List String} : ∀ {r : Row}, Addressed recs r →
    (flatten recs r).keys = flatCols recs r.cols
  | [], _ => rfl
  | x :: r, h => by
    have ih := flatten_cols (r := r) fun y hy => h y (List.mem_cons_of_mem _ hy)
    unfold AMap.keys at ih ⊢
    have e2 : Row.cols (x :: r) = x.1 :: Row.cols r := rfl
    rcases flatten_cons (r := r) (h x List.mem_cons_self) with ⟨hx, p, i, e', e⟩ | ⟨hx, e⟩
    · rw [e, List.map_cons, List.map_cons, ih, e2]
      simp [flatCols, hx]
    · rw [e, List.map_cons, ih, e2]
      simp [flatCols, hx]

theorem flatCols_col {recs : List String} {c : String} : ∀ cs : List String,
    (flatCols recs cs).count (.col c) = if c ∈ recs then 0 else cs.count c
  | [] => by simp [flatCols]
  | d :: cs => by
    have ih := flatCols_col (recs := recs) (c := c) cs
    unfold flatCols at ih ⊢
    rw [List.flatMap_cons, List.count_append, ih]
    by_cases hd : d ∈ recs
    · by_cases hc : c ∈ recs
      · simp [hd, hc]
      · have : d ≠ c := fun h => hc (h ▸ hd)
        simp [hd, hc, this]
    · by_cases hc : c ∈ recs
      · have : d ≠ c := fun h => hd (h ▸ hc)
        simp [hd, hc, this]
      · simp only [hd, hc, if_false, List.count_cons, List.count_nil, beq_iff_eq, FlatName.col.injEq]
        omega

theorem flatCols_file {recs : List String} {c : String} : ∀ cs : List String,
    (flatCols recs cs).count (.file c) = (if c ∈ recs then cs.count c else 0) ∧
    (flatCols recs cs).count (.rowId c) = if c ∈ recs then cs.count c else 0
  | [] => by simp [flatCols]
  | d :: cs => by
    have ih := flatCols_file (recs := recs) (c := c) cs
    unfold flatCols at ih ⊢
    rw [List.flatMap_cons, List.count_append, List.count_append, ih.1, ih.2]
    by_cases hd : d ∈ recs
    · by_cases hc : c ∈ recs
      · simp only [hd, hc, if_true, List.count_cons, List.count_nil, beq_iff_eq, FlatName.file.injEq, FlatName.rowId.injEq,
          reduceCtorEq, if_false]
        omega
      · have : d ≠ c := fun h => hc (h ▸ hd)
        simp [hd, hc, this]
    · by_cases hc : c ∈ recs
      · have : d ≠ c := fun h => hd (h ▸ hc)
        simp [hd, hc, this]
      · simp [hd, hc]

/-! ## Folding -/

def foldRow (f : String) (r : FlatRow) : FlatRow :=
  r.filter (fun x => decide (x.1 ≠ .file f) && decide (x.1 ≠ .rowId f)) ++
    [(.col f, foldCells (r.get? (.file f)) (r.get? (.rowId f)))]

def foldRows (recs : List String) (r : FlatRow) : FlatRow := recs.foldl (fun r f => foldRow f r) r

theorem foldRow_get (f : String) (r : FlatRow) (n : FlatName) : AMap.get? (foldRow f r) n =
    match n with
    | .col c => (AMap.get? r (.col c)).or (if c = f then some (foldCells (AMap.get? r (.file f)) (AMap.get? r (.rowId f))) else none)
    | .file g => if g = f then none else AMap.get? r (.file g)
    | .rowId g => if g = f then none else AMap.get? r (.rowId g) := by
  unfold foldRow
  rw [get?_append, get?_filter_key (p := fun x : FlatName => decide (x ≠ FlatName.file f) && decide (x ≠ FlatName.rowId f))]
  cases n with
  | col c =>
    simp only [ne_eq, reduceCtorEq, not_false_eq_true, decide_true, Bool.and_self, if_true, AMap.get?_cons, AMap.get?_nil,
      FlatName.col.injEq]
    by_cases h : c = f
    · subst h; rfl
    · rw [if_neg (Ne.symm h), if_neg h]
  | file g => by_cases h : g = f <;> simp [h, AMap.get?_cons]
  | rowId g => by_cases h : g = f <;> simp [h, AMap.get?_cons]

theorem foldRows_get : ∀ (recs : List String) (r : FlatRow) (n : FlatName), AMap.get? (foldRows recs r) n =
    match n with
    | .col c => (AMap.get? r (.col c)).or (if c ∈ recs then some (foldCells (AMap.get? r (.file c)) (AMap.get? r (.rowId c))) else none)
    | .file g => if g ∈ recs then none else AMap.get? r (.file g)
    | .rowId g => if g ∈ recs then none else AMap.get? r (.rowId g)
  | [], r, n => by cases n <;> simp [foldRows]
  | f :: recs, r, n => by
    have ih := fun n => foldRows_get recs (foldRow f r) n
    have e : foldRows (f :: recs) r = foldRows recs (foldRow f r) := rfl
    rw [e, ih]
    cases n with
    | col c =>
      simp only [foldRow_get, List.mem_cons]
      by_cases hc : c = f
      · subst hc
        simp only [if_true, true_or]
        cases AMap.get? r (.col c) <;> rfl
      · simp [hc]
    | file g =>
      simp only [foldRow_get, List.mem_cons]
      by_cases hg : g = f <;> simp [hg]
    | rowId g =>
      simp only [foldRow_get, List.mem_cons]
      by_cases hg : g = f <;> simp [hg]

theorem count_filter' {α : Type} [DecidableEq α] (p : α → Bool) (l : List α) (a : α) :
    (l.filter p).count a = if p a then l.count a else 0 := by
  induction l with
  | nil => simp
  | cons b l ih =>
    rw [List.filter_cons]
    by_cases hb : b = a
    · subst hb
      cases hp : p b <;> simp [hp] at ih ⊢ <;> exact ih
    · split
      · rw [List.count_cons, List.count_cons, ih]
        simp [hb]
      · rw [List.count_cons, ih]
        simp [hb]

theorem fold_ok {f : String} {t t' : Flat} (h : t.fold f = .ok t') :
    t.cols.count (.file f) = 1 ∧ t.cols.count (.rowId f) = 1 ∧ t'.rows = t.rows.map (foldRow f) ∧
      (∀ c, t'.cols.count (.col c) = t.cols.count (.col c) + if c = f then 1 else 0) ∧
      (∀ g, t'.cols.count (.file g) = if g = f then 0 else t.cols.count (.file g)) ∧
      ∀ g, t'.cols.count (.rowId g) = if g = f then 0 else t.cols.count (.rowId g) := by
  unfold Flat.fold at h
  split at h
  · rename_i hc
    simp only [Bool.and_eq_true, decide_eq_true_eq] at hc
    cases h
    refine ⟨hc.1, hc.2, rfl, fun c => ?_, fun g => ?_, fun g => ?_⟩ <;>
      simp only [List.count_append, count_filter', List.count_cons, List.count_nil, beq_iff_eq, FlatName.col.injEq, ne_eq,
        reduceCtorEq, not_false_eq_true, decide_true, Bool.and_self, if_true, Nat.zero_add, FlatName.file.injEq,
        FlatName.rowId.injEq, Bool.and_true, Bool.true_and, if_false, Nat.add_zero, decide_eq_true_eq]
    · by_cases hcf : c = f
      · simp [hcf]
      · rw [if_neg (Ne.symm hcf), if_neg hcf]
    · by_cases hg : g = f <;> simp [hg]
    · by_cases hg : g = f <;> simp [hg]
  · cases h

theorem foldAddresses_ok : ∀ {recs : List String} {t t' : Flat}, foldAddresses recs t = .ok t' →
    recs.Nodup ∧ (∀ f ∈ recs, t.cols.count (.file f) = 1) ∧ t'.rows = t.rows.map (foldRows recs) ∧
      (∀ c, t'.cols.count (.col c) = t.cols.count (.col c) + if c ∈ recs then 1 else 0) ∧
      ∀ g, t'.cols.count (.file g) = if g ∈ recs then 0 else t.cols.count (.file g)
  | [], t, t', h => by
    cases h
    exact ⟨List.nodup_nil, nofun, (List.map_id _).symm, by simp, by simp⟩
  | f :: recs, t, t', h => by
    unfold foldAddresses at h
    cases hf : t.fold f with
    | error e => rw [hf] at h; cases h
    | ok t1 =>
      rw [hf] at h
      simp only at h
      obtain ⟨h1, h2, h3, h4, h5, h6⟩ := fold_ok hf
      obtain ⟨i1, i2, i3, i4, i5⟩ := foldAddresses_ok h
      have hnf : f ∉ recs := by
        intro hfr
        have := i2 f hfr
        rw [h5, if_pos rfl] at this
        cases this
      refine ⟨List.nodup_cons.mpr ⟨hnf, i1⟩, ?_, ?_, ?_, ?_⟩
      · intro g hg
        rcases List.mem_cons.mp hg with rfl | hg
        · exact h1
        · have := i2 g hg
          rw [h5, if_neg (fun e : g = f => hnf (e ▸ hg))] at this
          exact this
      · rw [i3, h3, List.map_map]
        rfl
      · intro c
        rw [i4, h4]
        by_cases hcf : c = f
        · subst hcf
          simp [hnf]
        · simp [hcf]
      · intro g
        rw [i5, h5]
        by_cases hg : g = f
        · simp [hg]
        · simp [hg]

theorem foldAddresses_ids : ∀ {recs : List String} {t t' : Flat}, foldAddresses recs t = .ok t' →
    ∀ g, t'.cols.count (.rowId g) = if g ∈ recs then 0 else t.cols.count (.rowId g)
  | [], t, t', h => by
    cases h
    simp
  | f :: recs, t, t', h => by
    unfold foldAddresses at h
    cases hf : t.fold f with
    | error e => rw [hf] at h; cases h
    | ok t1 =>
      rw [hf] at h
      simp only at h
      obtain ⟨-, -, -, -, -, h6⟩ := fold_ok hf
      intro g
      rw [foldAddresses_ids h, h6]
      by_cases hg : g = f
      · simp [hg]
      · simp [hg]

theorem foldAddresses_total : ∀ {recs : List String} {t : Flat}, recs.Nodup →
    (∀ f ∈ recs, t.cols.count (.file f) = 1 ∧ t.cols.count (.rowId f) = 1) → ∃ t', foldAddresses recs t = .ok t'
  | [], t, _, _ => ⟨t, rfl⟩
  | f :: recs, t, hn, h => by
    obtain ⟨hnf, hn⟩ := List.nodup_cons.mp hn
    have h0 := h f List.mem_cons_self
    have hf : ∃ t1, t.fold f = .ok t1 := by
      unfold Flat.fold
      rw [if_pos (by simp [h0])]
      exact ⟨_, rfl⟩
    obtain ⟨t1, hf⟩ := hf
    obtain ⟨-, -, -, -, h5, h6⟩ := fold_ok hf
    unfold foldAddresses
    rw [hf]
    refine foldAddresses_total hn fun g hg => ?_
    have hgf : g ≠ f := fun e => hnf (e ▸ hg)
    rw [h5, h6, if_neg hgf, if_neg hgf]
    exact h g (List.mem_cons_of_mem _ hg)

theorem foldAddresses_error : ∀ {recs : List String} {t : Flat} {e : Err}, foldAddresses recs t = .error e → e = .other "KeyError"
  | [], t, e, h => by cases h
  | f :: recs, t, e, h => by
    unfold foldAddresses at h
    cases hf : t.fold f with
    | error e' =>
      rw [hf] at h
      cases h
      unfold Flat.fold at hf
      split at hf <;> cases hf
      rfl
    | ok t1 =>
      rw [hf] at h
      exact foldAddresses_error h

/-! ## The join of flattened tables -/

section
variable {key : String} {outs recs recs' : List String} {l r : List Row}

theorem joinFlat_rows (hk : key ∉ recs) (hk' : key ∉ recs') (hl : ∀ x ∈ l, Addressed recs x) (hr : ∀ x ∈ r, Addressed recs' x) :
    joinFlat key (l.map (flatten recs)) (r.map (flatten recs')) =
      l.flatMap fun a => (r.filter fun b => decide (a.val key ≠ .null) && decide (a.val key = b.val key)).map fun b =>
        flatten recs a ++ (flatten recs' b).filter fun x => decide (x.1 ≠ .col key) := by
  unfold joinFlat
  rw [List.flatMap_map]
  refine flatMap_congr' fun a ha => ?_
  rw [List.filter_map, List.map_map]
  have : r.filter ((fun b => decide (AMap.get? (flatten recs a) (.col key) ≠ none) &&
        decide (AMap.get? (flatten recs a) (.col key) ≠ some (.cell .null)) &&
        decide (AMap.get? (flatten recs a) (.col key) = AMap.get? b (.col key))) ∘ flatten recs') =
      r.filter fun b => decide (a.val key ≠ .null) && decide (a.val key = b.val key) := by
    refine List.filter_congr fun b hb => ?_
    simp only [Function.comp_apply]
    rw [flatten_col (hl a ha), flatten_col (hr b hb), if_neg hk, if_neg hk']
    unfold Row.val
    cases hga : AMap.get? a key with
    | none => simp
    | some v =>
      cases hgb : AMap.get? b key with
      | none => simp
      | some v' => simp
  rw [this]
  rfl

theorem joined_value {a b : Row} {c : String} (hk : key ∉ recs) (hka : a.val key ≠ .null) (ha : Addressed recs a) (hb : Addressed recs' b)
    (h1 : (flatCols recs a.cols ++ (flatCols recs' b.cols).filter (fun c => decide (c ≠ .col key))).count (.col c) +
      (if c ∈ recs then 1 else 0) + (if c ∈ recs' then 1 else 0) = 1)
    (h2 : c ∈ recs → (flatCols recs a.cols ++ (flatCols recs' b.cols).filter (fun c => decide (c ≠ .col key))).count (.file c) = 1)
    (h3 : c ∈ recs' → (flatCols recs a.cols ++ (flatCols recs' b.cols).filter (fun c => decide (c ≠ .col key))).count (.file c) = 1) :
    FlatCell.value (AMap.get? (foldRows recs' (foldRows recs (flatten recs a ++ (flatten recs' b).filter fun x => decide (x.1 ≠ .col key))))
      (.col c)) = if a.cols.contains c then a.val c else b.val c := by
  rw [List.count_append, count_filter', flatCols_col, flatCols_col] at h1
  rw [List.count_append, count_filter', (flatCols_file _).1, (flatCols_file _).1] at h2 h3
  simp only [ne_eq, reduceCtorEq, not_false_eq_true, decide_true, if_true, FlatName.col.injEq] at h1 h2 h3
  have hcols : ∀ {x : Row} {c : String}, x.cols.contains c = true ↔ AMap.get? x c ≠ none := by
    intro x c
    rw [ne_eq, get?_none_iff, Row.cols]
    simp
  have hget : ∀ n, AMap.get? (flatten recs a ++ (flatten recs' b).filter fun x => decide (x.1 ≠ .col key)) n =
      (AMap.get? (flatten recs a) n).or (if n ≠ .col key then AMap.get? (flatten recs' b) n else none) := by
    intro n
    rw [get?_append, get?_filter_key (p := fun x : FlatName => decide (x ≠ FlatName.col key))]
    simp
  simp only [foldRows_get, hget]
  by_cases hc : c ∈ recs
  · -- a record field of the left
    have hc' : c ∉ recs' := fun h => by simp only [hc, h, if_true] at h1; omega
    simp only [hc, hc', if_true, if_false] at h1 h2 ⊢
    have h2 := h2 trivial
    have hnk : c ≠ key := fun h => hk (h ▸ hc)
    have hb0 : AMap.get? b c = none := by
      rw [get?_none_iff]
      intro hm
      have := List.count_pos_iff.mpr hm
      simp only [Row.cols, hnk, not_false_eq_true, decide_true, if_true] at h1
      omega
    rcases flatten_addr hc ha with ⟨e, -, -⟩ | ⟨p, i, e, e1, e2⟩
    · rw [get?_none_iff] at e
      have := List.count_eq_zero.mpr e
      simp only [Row.cols] at h2
      omega
    · have hin : a.cols.contains c = true := hcols.mpr (by rw [e]; simp)
      rw [if_pos hin, flatten_col ha, if_pos hc, flatten_col hb, if_neg hc', hb0, e1, e2]
      simp [foldCells, FlatCell.value, Row.val, e]
  · by_cases hc' : c ∈ recs'
    · simp only [hc, hc', if_true, if_false] at h1 h3 ⊢
      have h3 := h3 trivial
      have ha0 : AMap.get? a c = none := by
        rw [get?_none_iff]
        intro hm
        have := List.count_pos_iff.mpr hm
        simp only [Row.cols] at h1
        omega
      have hin : ¬ a.cols.contains c = true := fun h => hcols.mp h ha0
      rcases flatten_addr hc' hb with ⟨e, -, -⟩ | ⟨p, i, e, e1, e2⟩
      · rw [get?_none_iff] at e
        have := List.count_eq_zero.mpr e
        simp only [Row.cols] at h3
        omega
      · rw [if_neg hin, flatten_col ha, if_neg hc, ha0, flatten_col hb, if_pos hc', (flatten_no_addr hc ha).1,
          (flatten_no_addr hc ha).2, e1, e2]
        simp [foldCells, FlatCell.value, Row.val, e]
    · simp only [hc, hc', if_false]
      rw [flatten_col ha, if_neg hc, flatten_col hb, if_neg hc']
      cases e : AMap.get? a c with
      | some v =>
        have hin : a.cols.contains c = true := hcols.mpr (by rw [e]; simp)
        rw [if_pos hin]
        simp [FlatCell.value, Row.val, e]
      | none =>
        have hin : ¬ a.cols.contains c = true := fun h => hcols.mp h e
        have hnk : c ≠ key := by
          intro h
          subst h
          exact hka (by rw [Row.val, e]; rfl)
        rw [if_neg hin]
        simp only [Option.map_none, Option.none_or, Option.or_none, ne_eq, FlatName.col.injEq, hnk, not_false_eq_true, if_true]
        cases e' : AMap.get? b c <;> simp [FlatCell.value, Row.val, e']

theorem nested_all (hl : ∀ x ∈ l, Addressed recs x) :
    (l.map (flatten recs)).any (fun x => x.any (fun c => c.2.nested)) = l.any (fun x => x.any (fun c => c.2.nested)) := by
  induction l with
  | nil => rfl
  | cons x l ih =>
    rw [List.map_cons, List.any_cons, List.any_cons, flatten_nested (hl x List.mem_cons_self),
      ih fun y hy => hl y (List.mem_cons_of_mem _ hy)]

/-- Folding and selecting the joined rows. -/
theorem folded_rows {cs ds : List String} (hk : key ∉ recs) (hk' : key ∉ recs') (hl : ∀ x ∈ l, Addressed recs x)
    (hr : ∀ x ∈ r, Addressed recs' x) (hcs : ∀ x ∈ l, x.cols = cs) (hds : ∀ x ∈ r, x.cols = ds) {t1 t2 : Flat} {rows : List Row}
    (h1 : foldAddresses recs ⟨flatCols recs cs ++ (flatCols recs' ds).filter (fun c => decide (c ≠ .col key)),
      joinFlat key (l.map (flatten recs)) (r.map (flatten recs'))⟩ = .ok t1)
    (h2 : foldAddresses recs' t1 = .ok t2) (h3 : t2.select outs = .ok rows) : rows = joinTables key outs l r := by
  obtain ⟨-, a2, a3, a4, a5⟩ := foldAddresses_ok h1
  obtain ⟨-, b2, b3, b4, -⟩ := foldAddresses_ok h2
  unfold Flat.select at h3
  split at h3
  · rename_i hall
    cases h3
    simp only [List.all_eq_true, decide_eq_true_eq] at hall
    rw [b3, a3]
    simp only [joinFlat_rows hk hk' hl hr, List.map_flatMap, List.map_map]
    unfold joinTables
    refine flatMap_congr' fun a ha => List.map_congr_left fun b hb => List.map_congr_left fun c hc => ?_
    obtain ⟨hb, hm⟩ := List.mem_filter.mp hb
    simp only [Bool.and_eq_true, decide_eq_true_eq] at hm
    have hcount := hall c hc
    rw [b4, a4] at hcount
    simp only at hcount
    refine congrArg (Prod.mk c) (joined_value hk hm.1 (hl a ha) (hr b hb) ?_ ?_ ?_)
    · rw [hcs a ha, hds b hb]
      exact hcount
    · rw [hcs a ha, hds b hb]
      exact a2 c
    · intro hcr
      rw [hcs a ha, hds b hb]
      have hnr : c ∉ recs := fun h => by simp only [h, hcr, if_true] at hcount; omega
      have := b2 c hcr
      rw [a5, if_neg hnr] at this
      exact this
  · cases h3

end

section
variable {key : String} {outs : List String} {lrec rrec : Option (List String)} {l r : List Row}

/-- A part of a join that returns. -/
theorem joinPart_rows (hk : key ∉ lrec.getD []) (hk' : key ∉ rrec.getD []) (hl : ∀ x ∈ l, Addressed (lrec.getD []) x)
    (hr : ∀ x ∈ r, Addressed (rrec.getD []) x) {b : Option (List Row)}
    (h : joinPart key outs lrec rrec l r = .ok b) : b.getD [] = joinTables key outs l r := by
  unfold joinPart at h
  split at h
  · rename_i a l0 b0 r0
    split at h
    · cases h
    rename_i hu
    simp only [Bool.not_eq_true, Bool.not_eq_false', Bool.and_eq_true, List.all_eq_true, decide_eq_true_eq] at hu
    simp only at h
    split at h
    · cases h
    rw [flatten_cols (hl a List.mem_cons_self), flatten_cols (hr b0 List.mem_cons_self)] at h
    split at h
    · cases h
    rename_i t1 h1
    split at h
    · cases h
    rename_i t2 h2
    cases h3 : t2.select outs with
    | error e => rw [h3] at h; cases h
    | ok rows =>
      rw [h3] at h
      cases h
      exact folded_rows hk hk' hl hr hu.1 hu.2 h1 h2 h3
  · rename_i hne
    cases h
    cases l with
    | nil => rfl
    | cons a l =>
      cases r with
      | nil => simp [joinTables]
      | cons b r => exact absurd rfl (hne a l b r rfl)

/-- The record fields of a side: each once, columns of its rows that hold addresses, in the output. -/
structure Foldable (key : String) (outs recs : List String) (l : List Row) : Prop where
  key : key ∉ recs
  once : recs.Nodup
  addrs : ∀ x ∈ l, Addressed recs x
  cols : ∀ x ∈ l, ∀ f ∈ recs, f ∈ x.cols
  outs : ∀ f ∈ recs, f ∈ outs

/-- Flattening and folding makes no difference. -/
theorem joinPart_plain (hl : Foldable key outs (lrec.getD []) l) (hr : Foldable key outs (rrec.getD []) r) :
    joinPart key outs lrec rrec l r = joinPlain key outs l r := by
  unfold joinPart joinPlain
  split
  rotate_left
  · rename_i hne
    split
    · rename_i a l0 b r0
      exact absurd rfl (hne a l0 b r0 rfl)
    · rfl
  · rename_i a l0 b r0
    simp only
    split
    · rfl
    rename_i hu
    simp only [Bool.not_eq_true, Bool.not_eq_false', Bool.and_eq_true, List.all_eq_true, decide_eq_true_eq] at hu
    rw [List.any_append, nested_all hl.addrs, nested_all hr.addrs, List.any_append]
    split
    · rfl
    rw [flatten_cols (hl.addrs a List.mem_cons_self), flatten_cols (hr.addrs b List.mem_cons_self)]
    generalize lrec.getD [] = recs at *
    generalize rrec.getD [] = recs' at *
    have ca := hl.cols a List.mem_cons_self
    have cb := hr.cols b List.mem_cons_self
    have filt : ∀ n : FlatName, ((flatCols recs' b.cols).filter (fun c => decide (c ≠ .col key))).count n =
        if n ≠ .col key then (flatCols recs' b.cols).count n else 0 := by
      intro n
      rw [count_filter' (fun c : FlatName => decide (c ≠ FlatName.col key))]
      simp
    have filtK : ∀ c : String, (b.cols.filter (fun x => decide (x ≠ key))).count c = if c ≠ key then b.cols.count c else 0 := by
      intro c
      rw [count_filter' (fun x : String => decide (x ≠ key))]
      simp
    by_cases hc : (outs.all fun c => decide ((a.cols ++ b.cols.filter (fun x => decide (x ≠ key))).count c = 1)) = true
    · rw [if_pos hc]
      simp only [List.all_eq_true, decide_eq_true_eq, List.count_append, filtK] at hc
      have hlr : ∀ f ∈ recs, f ∉ recs' ∧ a.cols.count f = 1 ∧ b.cols.count f = 0 := by
        intro f hf
        have hfk : f ≠ key := fun h => hl.key (h ▸ hf)
        have := hc f (hl.outs f hf)
        have h0 := List.count_pos_iff.mpr (ca f hf)
        simp only [ne_eq, hfk, not_false_eq_true, if_true] at this
        refine ⟨fun hf' => ?_, by omega, by omega⟩
        have := List.count_pos_iff.mpr (cb f hf')
        omega
      have hrl : ∀ f ∈ recs', f ∉ recs ∧ a.cols.count f = 0 ∧ b.cols.count f = 1 := by
        intro f hf
        have hfk : f ≠ key := fun h => hr.key (h ▸ hf)
        have := hc f (hr.outs f hf)
        have h0 := List.count_pos_iff.mpr (cb f hf)
        simp only [ne_eq, hfk, not_false_eq_true, if_true] at this
        refine ⟨fun hf' => ?_, by omega, by omega⟩
        have := List.count_pos_iff.mpr (ca f hf')
        omega
      have fcount : ∀ f, (flatCols recs a.cols ++ (flatCols recs' b.cols).filter (fun c => decide (c ≠ .col key))).count (.file f) =
          (if f ∈ recs then a.cols.count f else 0) + (if f ∈ recs' then b.cols.count f else 0) ∧
          (flatCols recs a.cols ++ (flatCols recs' b.cols).filter (fun c => decide (c ≠ .col key))).count (.rowId f) =
          (if f ∈ recs then a.cols.count f else 0) + (if f ∈ recs' then b.cols.count f else 0) := by
        intro f
        rw [List.count_append, List.count_append, filt, filt, (flatCols_file _).1, (flatCols_file _).2, (flatCols_file _).1,
          (flatCols_file _).2]
        simp
      obtain ⟨t1, h1⟩ := foldAddresses_total (recs := recs) (t := ⟨flatCols recs a.cols ++
        (flatCols recs' b.cols).filter (fun c => decide (c ≠ .col key)),
        joinFlat key ((a :: l0).map (flatten recs)) ((b :: r0).map (flatten recs'))⟩) hl.once (by
          intro f hf
          simp only [(fcount f).1, (fcount f).2, hf, (hlr f hf).1, if_true, if_false, (hlr f hf).2.1]
          exact ⟨trivial, trivial⟩)
      rw [h1]
      simp only
      have h2 : ∃ t2, foldAddresses recs' t1 = .ok t2 := by
        refine foldAddresses_total hr.once fun f hf => ?_
        obtain ⟨q1, q2, q3⟩ := hrl f hf
        rw [(foldAddresses_ok h1).2.2.2.2, foldAddresses_ids h1, if_neg q1, if_neg q1, (fcount f).1, (fcount f).2]
        simp only [q1, hf, q3, if_true, if_false]
        exact ⟨trivial, trivial⟩
      obtain ⟨t2, h2⟩ := h2
      rw [h2]
      simp only
      obtain ⟨-, -, -, a4, a5⟩ := foldAddresses_ok h1
      obtain ⟨-, -, -, b4, -⟩ := foldAddresses_ok h2
      have h3 : ∃ rows, t2.select outs = .ok rows := by
        unfold Flat.select
        rw [if_pos]
        · exact ⟨_, rfl⟩
        · simp only [List.all_eq_true, decide_eq_true_eq]
          intro c hco
          rw [b4, a4, List.count_append, filt, flatCols_col, flatCols_col]
          have := hc c hco
          by_cases h1 : c ∈ recs
          · obtain ⟨q1, q2, q3⟩ := hlr c h1
            simp only [h1, q1, if_true, if_false, q3]
            simp
          · by_cases h2 : c ∈ recs'
            · obtain ⟨q1, q2, q3⟩ := hrl c h2
              simp only [h1, h2, if_true, if_false, q2]
              simp
            · simp only [h1, h2, if_false, ne_eq, FlatName.col.injEq]
              simpa using this
      obtain ⟨rows, h3⟩ := h3
      rw [h3, folded_rows hl.key hr.key hl.addrs hr.addrs hu.1 hu.2 h1 h2 h3]
      rfl
    · rw [if_neg hc]
      split
      · rename_i e he
        rw [foldAddresses_error he]
      rename_i t1 h1
      split
      · rename_i e he
        rw [foldAddresses_error he]
      rename_i t2 h2
      have h3 : t2.select outs = .error (.other "KeyError") := by
        unfold Flat.select
        rw [if_neg]
        intro hall
        apply hc
        simp only [List.all_eq_true, decide_eq_true_eq] at hall ⊢
        intro c hco
        obtain ⟨-, a2, -, a4, a5⟩ := foldAddresses_ok h1
        obtain ⟨-, b2, -, b4, -⟩ := foldAddresses_ok h2
        have := hall c hco
        rw [b4, a4, List.count_append, filt, flatCols_col, flatCols_col] at this
        rw [List.count_append, filtK]
        simp only [ne_eq, FlatName.col.injEq] at this
        by_cases q1 : c ∈ recs
        · have q2 : c ∉ recs' := fun h => by simp only [q1, h, if_true] at this; omega
          have e1 := a2 c q1
          rw [List.count_append, filt, (flatCols_file _).1, (flatCols_file _).1] at e1
          simp only [q1, q2, if_true, if_false] at e1 this
          simp at e1
          simp only [ne_eq]
          omega
        · by_cases q2 : c ∈ recs'
          · have e1 := b2 c q2
            have hck : c ≠ key := fun h => hr.key (h ▸ q2)
            rw [a5, if_neg q1, List.count_append, filt, (flatCols_file _).1, (flatCols_file _).1] at e1
            simp only [q1, q2, if_true, if_false] at e1 this
            simp at e1
            simp only [ne_eq, hck, not_false_eq_true, if_true]
            omega
          · simp only [q1, q2, if_false] at this
            simpa using this
      rw [h3]
      rfl

end

end Space
