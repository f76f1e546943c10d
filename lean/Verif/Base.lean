/-!
# Base vocabulary

Association maps, column values with a total order, file paths and rows.
-/

namespace Space

/-! ## Association maps

Python dicts and protobuf maps (`metadata.proto`: `snapshots`, `refs`;
`runtime.proto`: `FileSet.index_manifest_files`).  Iteration order of a protobuf
map is unspecified; no theorem depends on the order used here. -/

/-- A finite map as a list of pairs; lookups use the first match. -/
abbrev AMap (α β : Type) := List (α × β)

namespace AMap
variable {α β : Type} [DecidableEq α]

/-- `m[k]` with absence as `none` (`k in m` / `m[k]` in Python). -/
def get? : AMap α β → α → Option β
  | [], _ => none
  | (k', v) :: m, k => if k' = k then some v else get? m k

/-- `m[k] = v`. -/
def set : AMap α β → α → β → AMap α β
  | [], k, v => [(k, v)]
  | (k', v') :: m, k, v => if k' = k then (k, v) :: m else (k', v') :: set m k v

/-- `del m[k]`. -/
def erase (m : AMap α β) (k : α) : AMap α β := m.filter (fun e => !decide (e.1 = k))

/-- `list(m)`. -/
def keys (m : AMap α β) : List α := m.map Prod.fst

@[simp] theorem get?_nil (k : α) : get? ([] : AMap α β) k = none := rfl

theorem get?_cons (k' : α) (v : β) (m : AMap α β) (k : α) :
    get? ((k', v) :: m) k = if k' = k then some v else get? m k := rfl

@[simp] theorem get?_set_self (m : AMap α β) (k : α) (v : β) : (m.set k v).get? k = some v := by
  induction m with
  | nil => simp [set, get?]
  | cons e m ih =>
    obtain ⟨k', v'⟩ := e
    simp only [set]
    split <;> simp_all [get?]

theorem get?_set_ne (m : AMap α β) {k k' : α} (v : β) (h : k' ≠ k) :
    (m.set k v).get? k' = m.get? k' := by
  induction m with
  | nil => simp [set, get?, h.symm]
  | cons e m ih =>
    obtain ⟨a, b⟩ := e
    simp only [set]
    split
    · rename_i hab
      subst hab
      simp [get?, h.symm]
    · simp only [get?, ih]

theorem get?_set (m : AMap α β) (k k' : α) (v : β) :
    (m.set k v).get? k' = if k' = k then some v else m.get? k' := by
  split
  · rename_i h; subst h; exact get?_set_self _ _ _
  · rename_i h; exact get?_set_ne _ _ h

@[simp] theorem get?_erase_self (m : AMap α β) (k : α) : (m.erase k).get? k = none := by
  induction m with
  | nil => rfl
  | cons e m ih =>
    obtain ⟨a, b⟩ := e
    by_cases h : a = k
    · simpa [erase, h] using ih
    · simp only [erase, List.filter_cons, h, decide_false, Bool.not_false, ite_true, get?, ite_false]
      exact ih

theorem get?_erase_ne (m : AMap α β) {k k' : α} (h : k' ≠ k) :
    (m.erase k).get? k' = m.get? k' := by
  induction m with
  | nil => rfl
  | cons e m ih =>
    obtain ⟨a, b⟩ := e
    by_cases ha : a = k
    · subst ha
      simp only [erase, List.filter_cons, decide_true, Bool.not_true, get?, h.symm, ite_false]
      exact ih
    · simp only [erase, List.filter_cons, ha, decide_false, Bool.not_false, ite_true, get?]
      split
      · rfl
      · exact ih

theorem get?_erase (m : AMap α β) (k k' : α) :
    (m.erase k).get? k' = if k' = k then none else m.get? k' := by
  split
  · rename_i h; subst h; exact get?_erase_self _ _
  · rename_i h; exact get?_erase_ne _ h

theorem mem_of_get? {m : AMap α β} {k : α} {v : β} (h : m.get? k = some v) : (k, v) ∈ m := by
  induction m with
  | nil => simp at h
  | cons e m ih =>
    obtain ⟨a, b⟩ := e
    simp only [get?] at h
    split at h
    · simp_all
    · exact List.mem_cons_of_mem _ (ih h)

theorem mem_keys_iff {m : AMap α β} {k : α} : k ∈ keys m ↔ ∃ v, m.get? k = some v := by
  induction m with
  | nil => simp [keys]
  | cons e m ih =>
    obtain ⟨a, b⟩ := e
    by_cases h : a = k
    · simp [keys, get?, h]
    · have : (k ∈ keys m) = (k ∈ List.map Prod.fst m) := rfl
      simp only [keys, List.map_cons, List.mem_cons, get?, h, ite_false, ← ih]
      constructor
      · rintro (h' | h')
        · exact absurd h'.symm h
        · exact h'
      · exact Or.inr

theorem keys_set_nodup : ∀ {m : AMap α β} {k : α} {v : β}, (keys m).Nodup → (keys (m.set k v)).Nodup
  | [], k, v, _ => by simp [set, keys]
  | (a, b) :: m, k, v, h => by
    have h' : a ∉ keys m ∧ (keys m).Nodup := List.nodup_cons.mp h
    simp only [set]
    split
    · rename_i he
      subst he
      exact h
    · rename_i he
      refine List.nodup_cons.mpr ⟨?_, keys_set_nodup h'.2⟩
      intro hm
      obtain ⟨x, hx⟩ := mem_keys_iff.mp hm
      rw [get?_set_ne _ _ he] at hx
      exact h'.1 (mem_keys_iff.mpr ⟨x, hx⟩)

theorem keys_erase_nodup {m : AMap α β} {k : α} (h : (keys m).Nodup) : (keys (m.erase k)).Nodup :=
  List.Nodup.sublist (List.Sublist.map _ List.filter_sublist) h

theorem get?_of_mem : ∀ {m : AMap α β} {k : α} {v : β}, (keys m).Nodup → (k, v) ∈ m → m.get? k = some v
  | (a, b) :: m, k, v, h, hm => by
    have h' : a ∉ keys m ∧ (keys m).Nodup := List.nodup_cons.mp h
    rcases List.mem_cons.mp hm with he | hm
    · cases he; simp [get?]
    · rw [get?_cons, if_neg]
      · exact get?_of_mem h'.2 hm
      · rintro rfl
        exact h'.1 (List.mem_map.mpr ⟨_, hm, rfl⟩)

end AMap

/-! ## Column values -/

/-- Non-null values of the Arrow types Space can store and compare
(`schema/arrow.py:107-139`): bool, int32/int64, float32/float64, string, binary.
A float that is a number is given by its place `k` in the order of the floats;
`nan` is the float that is not a number.  Simplifications: int32 and int64 share
one constructor, and so do float32 and float64; 0.0 and -0.0 are one value, and
so are all bit patterns of NaN. -/
inductive Scalar where
  | bool (b : Bool)
  | int (i : Int)
  | str (s : String)
  | bytes (b : List Nat)
  | flt (k : Int)
  | nan
deriving DecidableEq, Repr

/-- An order-defining key. Values of one type compare as Arrow and Parquet do
(bools false < true, integers, code points, unsigned bytes); values of different
types are ordered by type, a case Arrow rejects before it is ever compared.  `nan`
has a place in this order only to make it total; no comparison of the code or of
Arrow uses it (`Cmp.holds`, `minMaxOf`). -/
def Scalar.key : Scalar → List Int
  | .bool b => [0, if b then 1 else 0]
  | .int i => [1, i]
  | .str s => 2 :: s.toList.map (fun c : Char => (c.toNat : Int))
  | .bytes b => 3 :: b.map (fun n : Nat => (n : Int))
  | .flt k => [4, k]
  | .nan => [5]

/-- Lexicographic order on keys. -/
def keyLe : List Int → List Int → Bool
  | [], _ => true
  | _ :: _, [] => false
  | a :: as, b :: bs => a < b || (a == b && keyLe as bs)

theorem keyLe_refl (a : List Int) : keyLe a a = true := by
  induction a with
  | nil => rfl
  | cons a as ih => simp [keyLe, ih]

theorem keyLe_total (a b : List Int) : keyLe a b = true ∨ keyLe b a = true := by
  induction a generalizing b with
  | nil => simp [keyLe]
  | cons a as ih =>
    cases b with
    | nil => simp [keyLe]
    | cons b bs =>
      simp only [keyLe, Bool.or_eq_true, decide_eq_true_eq, Bool.and_eq_true, beq_iff_eq]
      rcases Int.lt_trichotomy a b with h | h | h
      · exact Or.inl (Or.inl h)
      · rcases ih bs with h' | h'
        · exact Or.inl (Or.inr ⟨h, h'⟩)
        · exact Or.inr (Or.inr ⟨h.symm, h'⟩)
      · exact Or.inr (Or.inl h)

theorem keyLe_trans {a b c : List Int} (h1 : keyLe a b = true) (h2 : keyLe b c = true) :
    keyLe a c = true := by
  induction a generalizing b c with
  | nil => simp [keyLe]
  | cons a as ih =>
    cases b with
    | nil => simp [keyLe] at h1
    | cons b bs =>
      cases c with
      | nil => simp [keyLe] at h2
      | cons c cs =>
        simp only [keyLe, Bool.or_eq_true, decide_eq_true_eq, Bool.and_eq_true,
          beq_iff_eq] at h1 h2 ⊢
        rcases h1 with h1 | ⟨h1, h1'⟩ <;> rcases h2 with h2 | ⟨h2, h2'⟩
        · left; omega
        · left; omega
        · left; omega
        · exact Or.inr ⟨by omega, ih h1' h2'⟩

theorem keyLe_antisymm {a b : List Int} (h1 : keyLe a b = true) (h2 : keyLe b a = true) :
    a = b := by
  induction a generalizing b with
  | nil => cases b with
    | nil => rfl
    | cons b bs => simp [keyLe] at h2
  | cons a as ih =>
    cases b with
    | nil => simp [keyLe] at h1
    | cons b bs =>
      simp only [keyLe, Bool.or_eq_true, decide_eq_true_eq, Bool.and_eq_true,
        beq_iff_eq] at h1 h2
      rcases h1 with h1 | ⟨h1, h1'⟩ <;> rcases h2 with h2 | ⟨h2, h2'⟩
      · omega
      · omega
      · omega
      · rw [h1, ih h1' h2']

theorem map_inj_int {l l' : List Nat} (h : l.map (fun n : Nat => (n : Int)) = l'.map (fun n : Nat => (n : Int))) :
    l = l' := by
  induction l generalizing l' with
  | nil => cases l' <;> simp_all
  | cons a l ih =>
    cases l' with
    | nil => simp at h
    | cons b l' =>
      simp only [List.map_cons, List.cons.injEq] at h
      rw [ih h.2, show a = b by omega]

theorem map_inj_char {l l' : List Char}
    (h : l.map (fun c : Char => (c.toNat : Int)) = l'.map (fun c : Char => (c.toNat : Int))) : l = l' := by
  induction l generalizing l' with
  | nil => cases l' <;> simp_all
  | cons a l ih =>
    cases l' with
    | nil => simp at h
    | cons b l' =>
      simp only [List.map_cons, List.cons.injEq] at h
      rw [ih h.2, show a = b from Char.toNat_inj.mp (by omega)]

theorem Scalar.key_inj {a b : Scalar} (h : a.key = b.key) : a = b := by
  cases a <;> cases b <;> simp only [Scalar.key, List.cons.injEq, and_true] at h
  · rename_i x y; cases x <;> cases y <;> simp_all
  all_goals first
    | omega
    | (obtain ⟨h, -⟩ := h; omega)
    | skip
  · rename_i x y; rw [h.2]
  · rename_i x y
    exact congrArg Scalar.str (String.toList_inj.mp (map_inj_char h.2))
  · rename_i x y; exact congrArg Scalar.bytes (map_inj_int h.2)
  · rename_i x y; rw [h.2]
  · rfl

instance : LE Scalar := ⟨fun a b => keyLe a.key b.key = true⟩
instance : LT Scalar := ⟨fun a b => keyLe b.key a.key = false⟩
instance (a b : Scalar) : Decidable (a ≤ b) := inferInstanceAs (Decidable (_ = true))
instance (a b : Scalar) : Decidable (a < b) := inferInstanceAs (Decidable (_ = false))

theorem Scalar.le_def (a b : Scalar) : a ≤ b ↔ keyLe a.key b.key = true := Iff.rfl
theorem Scalar.lt_def (a b : Scalar) : a < b ↔ keyLe b.key a.key = false := Iff.rfl

theorem Scalar.le_refl (a : Scalar) : a ≤ a := keyLe_refl _
theorem Scalar.le_trans {a b c : Scalar} (h : a ≤ b) (h' : b ≤ c) : a ≤ c := keyLe_trans h h'
theorem Scalar.le_total (a b : Scalar) : a ≤ b ∨ b ≤ a := keyLe_total _ _
theorem Scalar.le_antisymm {a b : Scalar} (h : a ≤ b) (h' : b ≤ a) : a = b :=
  Scalar.key_inj (keyLe_antisymm h h')
theorem Scalar.not_le {a b : Scalar} : ¬ a ≤ b ↔ b < a := by
  rw [Scalar.le_def, Scalar.lt_def]; simp
theorem Scalar.not_lt {a b : Scalar} : ¬ a < b ↔ b ≤ a := by
  rw [Scalar.le_def, Scalar.lt_def]; simp

instance : Std.IsLinearOrder Scalar where
  le_refl := Scalar.le_refl
  le_trans _ _ _ := Scalar.le_trans
  le_antisymm _ _ := Scalar.le_antisymm
  le_total := Scalar.le_total

instance : Std.LawfulOrderLT Scalar where
  lt_iff a b := by
    rw [← Scalar.not_le]
    constructor
    · intro h; exact ⟨(Scalar.le_total b a).resolve_left h, h⟩
    · exact fun h => h.2

/-! ## Paths

`utils/paths.py:30-110`.  All paths are short paths, relative to the storage
location; file names carry a `uuid4`, drawn here from a counter (assumption:
uuids never collide).  The string form is in `Verif/Paths.lean`. -/

/-- A file of a storage. -/
inductive Path where
  | entryPoint
  | metadata (u : Nat)
  | changeLog (u : Nat)
  | indexManifest (u : Nat)
  | recordManifest (u : Nat)
  | index (u : Nat)
  | record (field : String) (u : Nat)
  /-- a file outside the storage, given by the user (`append_parquet`,
  `append_array_record`) -/
  | external (s : String)
deriving DecidableEq, Repr

/-- The uuid number of a generated path. -/
def Path.uuid : Path → Option Nat
  | .entryPoint | .external _ => none
  | .metadata u | .changeLog u | .indexManifest u | .recordManifest u | .index u
  | .record _ u => some u

/-- String form of a path, used only as the value of the `_FILE` leaf column of
record addresses (`schema/arrow.py:212-215`). -/
def Path.render : Path → String
  | .entryPoint => "metadata/entrypoint.txtpb"
  | .metadata u => "metadata/metadata_" ++ toString u ++ ".txtpb"
  | .changeLog u => "metadata/changes/change_" ++ toString u ++ ".txtpb"
  | .indexManifest u => "metadata/index_manifest_" ++ toString u ++ ".parquet"
  | .recordManifest u => "metadata/record_manifest_" ++ toString u ++ ".parquet"
  | .index u => "data/index_" ++ toString u ++ ".parquet"
  | .record f u => "data/" ++ f ++ "_" ++ toString u ++ ".array_record"
  | .external s => s

/-! ## Rows -/

/-- A cell of a table.  `addr` is a record address `struct<_FILE,_ROW_ID>`
(`schema/arrow.py:212-215`); `struct` is any other nested value, represented by
its Parquet leaf values in depth-first order. -/
inductive Val where
  | null
  | sc (s : Scalar)
  | addr (file : Path) (row : Nat)
  | struct (leaves : List (Option Scalar))
deriving DecidableEq, Repr

/-- A row: named cells in column order. -/
abbrev Row := AMap String Val

/-- Cell of a column (null if the column is absent). -/
def Row.val (r : Row) (c : String) : Val := (AMap.get? r c).getD .null

/-- `Table.select(names)` on one row. -/
def Row.select (r : Row) (cs : List String) : Row := cs.map (fun c => (c, r.val c))

/-- Column names of a row. -/
def Row.cols (r : Row) : List String := r.map Prod.fst

end Space
