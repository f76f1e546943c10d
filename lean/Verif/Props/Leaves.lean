import Verif.Props.Pruning
import Verif.Schema

/-!
# C06 for logical schemas: lists and structs with one leaf before a key do no harm
-/

set_option autoImplicit false

namespace Space

/-- A type that Parquet stores as one column: not nested, a list of such, or a struct
with one field of such a type. -/
inductive OneLeaf : ATy → Prop where
  | scalar {t : ATy} : (∀ f, t ≠ .list f) → (∀ fs, t ≠ .struct fs) → OneLeaf t
  | list {n : String} {nl : Bool} {i : Option Nat} {t : ATy} : OneLeaf t → OneLeaf (.list (.mk n nl i t))
  | struct {n : String} {nl : Bool} {i : Option Nat} {t : ATy} :
      OneLeaf t → OneLeaf (.struct (.cons (.mk n nl i t) .nil))

/-- Keys are not nested and not records, and before them there are only columns that are
no records and have one leaf. -/
def KeysReached (L : List AField) (pks recs : List String) : Prop :=
  ∀ pre f post, L = pre ++ f :: post → f.name ∈ pks →
    (f.name ∉ recs ∧ (∀ g, f.ty ≠ .list g) ∧ ∀ fs, f.ty ≠ .struct fs) ∧
    ∀ g ∈ pre, g.name ∉ recs ∧ OneLeaf g.ty

theorem OneLeaf.leaves {t : ATy} (h : OneLeaf t) : t.leaves = 1 := by
  induction h with
  | @scalar t h1 h2 =>
    cases t with
    | list f => exact (h1 f rfl).elim
    | struct fs => exact (h2 fs rfl).elim
    | _ => simp [ATy.leaves]
  | list _ ih => simp [ATy.leaves, ih]
  | struct _ ih => simp [ATy.leaves, AFields.leaves, ih]

theorem dropWhile_clear {α : Type} {P : α → Bool} {K : α → Prop} :
    ∀ {l : List α}, (∀ pre f post, l = pre ++ f :: post → K f → P f = true ∧ ∀ g ∈ pre, P g = true) →
      ∀ f ∈ l.dropWhile P, ¬ K f
  | [], _, f, hf => by simp at hf
  | a :: l, h, f, hf => by
    intro hk
    simp only [List.dropWhile_cons] at hf
    split at hf
    · refine dropWhile_clear (l := l) (fun pre g post e hg => ?_) f hf hk
      obtain ⟨h1, h2⟩ := h (a :: pre) g post (by rw [e]; rfl) hg
      exact ⟨h1, fun x hx => h2 x (List.mem_cons_of_mem _ hx)⟩
    · rename_i hc
      rcases List.mem_cons.1 hf with rfl | hf
      · exact hc (h [] f l rfl hk).1
      · obtain ⟨pre, post, e⟩ := List.append_of_mem hf
        exact hc ((h (a :: pre) f post (by rw [e]; rfl) hk).2 a (List.mem_cons_self ..))

theorem leafCount_flat {L : List AField} {pks recs : List String} {g : AField} {i : Nat} (h : g.name ∉ recs)
    (h1 : OneLeaf g.ty) : (flatSchema L pks recs).leafCount ⟨g.name, i, g.ty.flat⟩ = 1 := by
  have hr : (flatSchema L pks recs).isRec ⟨g.name, i, g.ty.flat⟩ = false := by
    simp [Schema.isRec, flatSchema, h]
  unfold Schema.leafCount
  rw [hr]
  have := h1.leaves
  cases ht : g.ty <;> simp_all [ATy.flat]

theorem KeysReached.keysLeaf {L : List AField} {pks recs : List String} (h : KeysReached L pks recs) :
    (flatSchema L pks recs).keysLeaf = true := by
  unfold Schema.keysLeaf
  simp only [Bool.and_eq_true, List.all_eq_true]
  constructor
  · intro f hf
    have := dropWhile_clear (P := fun f => (flatSchema L pks recs).leafCount f == 1) (K := fun f : Field => f.name ∈ pks)
      (l := (flatSchema L pks recs).fields) (fun pre f post e hk => ?_) f hf
    · simpa [flatSchema] using this
    · simp only [flatSchema] at e
      obtain ⟨l1, l2, rfl, rfl, e2⟩ := List.map_eq_append_iff.1 e
      obtain ⟨g, l3, rfl, rfl, -⟩ := List.map_eq_cons_iff.1 e2
      obtain ⟨⟨a1, a2, a3⟩, a4⟩ := h l1 g l3 rfl hk
      refine ⟨by rw [leafCount_flat a1 (.scalar a2 a3)]; rfl, ?_⟩
      intro x hx
      obtain ⟨y, hy, rfl⟩ := List.mem_map.1 hx
      rw [leafCount_flat (a4 y hy).1 (a4 y hy).2]
      rfl
  · intro f hf
    obtain ⟨g, hg, rfl⟩ := List.mem_map.1 hf
    obtain ⟨pre, post, e⟩ := List.append_of_mem hg
    by_cases hk : g.name ∈ pks
    · obtain ⟨⟨a1, a2, a3⟩, -⟩ := h pre g post e hk
      have hs : (flatSchema L pks recs).simple ⟨g.name, g.fid.getD 0, g.ty.flat⟩ = true := by
        simp only [Schema.simple, Schema.isRec, flatSchema]
        cases ht : g.ty <;> simp_all [ATy.flat]
      simp [hs]
    · simp [flatSchema, hk]

/-- C06 for the schemas that users write: if before the keys there are only columns that
are no records and that Parquet stores as one column, such as lists of numbers, then every value of
a key in a file other than NaN lies between the recorded minimum and maximum.
Missing: structs of several fields before a key, see `C06_violated`. -/
theorem C06_logical_partial {E : Env} {L : List AField} {pks recs : List String} (hn : (L.map (·.name)).Nodup)
    (hi : (L.map (fun f => f.fid.getD 0)).Nodup) (hk : KeysReached L pks recs) {σ : Sys}
    (h1 : Reach E (flatSchema L pks recs) anyStep σ) {md : Metadata} (hmd : σ.w.stored = some md) {n : Nat}
    {snap : Snapshot} (hs : md.snaps.get? n = some snap) {p : Path} (hp : p ∈ snap.index)
    {rows : List ManifestRow} (hr : σ.w.fs.imanifest p = some rows) {m : ManifestRow} (hm : m ∈ rows)
    {groups : List (List Row)} (hg : σ.w.fs.parquet m.file = some groups) {r : Row} (hrm : r ∈ groups.flatten)
    {f : AField} (hf : f ∈ L) (hkey : f.name ∈ pks) {x : Scalar} (hx : r.val f.name = .sc x) (hnan : x ≠ .nan) :
    ∃ mn mx, m.stats.get? (f.fid.getD 0) = some (some mn, some mx) ∧ mn ≤ x ∧ x ≤ mx ∧ mn ≠ .nan ∧ mx ≠ .nan := by
  refine C06_partial (s := flatSchema L pks recs) (f := ⟨f.name, f.fid.getD 0, f.ty.flat⟩) ?_ ?_ hk.keysLeaf h1 hmd
    hs hp hr hm hg hrm ?_ hkey hx hnan
  · simpa [Schema.names, flatSchema, Function.comp_def] using hn
  · simpa [flatSchema, Function.comp_def] using hi
  · exact List.mem_map.2 ⟨f, hf, rfl⟩

/-- A list of numbers before the key. -/
def listFirst : List AField :=
  [.mk "nums" true (some 0) (.list (.mk "item" true (some 2) .i64)), .mk "id" true (some 1) .i64]

theorem listFirst_reached : KeysReached listFirst ["id"] [] := by
  intro pre f post e hk
  match pre with
  | [] =>
    simp only [listFirst, List.nil_append, List.cons.injEq] at e
    obtain ⟨rfl, -⟩ := e
    simp [AField.name] at hk
  | [a] =>
    simp only [listFirst, List.cons_append, List.nil_append, List.cons.injEq] at e
    obtain ⟨rfl, rfl, -⟩ := e
    refine ⟨⟨by simp, fun g => by simp [AField.ty], fun fs => by simp [AField.ty]⟩, ?_⟩
    intro g hg
    simp only [List.mem_singleton] at hg
    subst hg
    exact ⟨by simp, .list (.scalar (fun g => by simp) (fun fs => by simp))⟩
  | a :: b :: l => simp [listFirst] at e

/-- A state that meets the hypotheses: two rows in one file, the statistics of the key are 3 and 5. -/
example : ∃ (σ : Sys) (md : Metadata), KeysReached listFirst ["id"] [] ∧
    Reach Demo.env (flatSchema listFirst ["id"] []) anyStep σ ∧ σ.w.stored = some md ∧
    ((md.snaps.get? 1).map fun sn => sn.index.map fun p => (σ.w.fs.imanifest p).map fun ms => ms.map (·.stats)) =
      some [some [[(1, some (.int 3), some (.int 5))]]] := by
  let σ := Demo.after Demo.env Demo.anyB (flatSchema listFirst ["id"] []) [.call 0 (.mutate (.append
    [[[("nums", .struct [some (.int 9)]), ("id", .sc (.int 5))], [("nums", .struct [some (.int 8)]), ("id", .sc (.int 3))]]]))]
  obtain ⟨md, h1, h2⟩ := Demo.stored_of_map (w := σ.w)
    (f := fun md => (md.snaps.get? 1).map fun sn => sn.index.map fun p =>
      (σ.w.fs.imanifest p).map fun ms => ms.map (·.stats))
    (x := some [some [[(1, some (.int 3), some (.int 5))]]]) (by decide +kernel)
  exact ⟨σ, md, listFirst_reached, Demo.after_reach (fun _ _ _ => trivial) _, h1, h2⟩

end Space
