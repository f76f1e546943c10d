import Verif.Plans
import Verif.SchemaLemmas
import Verif.Props.Paths

/-!
# Lemmas about logical plans
-/

set_option autoImplicit false

namespace Space

open Paths (Str str join metadataDir relpath place rooted isabs Name)

/-! ## Lookups -/

theorem lookAll_cons {α β : Type} [DecidableEq α] {d : AMap α β} {a : α} {as : List α} {bs : List β} :
    lookAll d (a :: as) = .ok bs ↔ ∃ b bs', d.get? a = some b ∧ lookAll d as = .ok bs' ∧ bs = b :: bs' := by
  rw [lookAll]
  cases d.get? a with
  | none => simp
  | some b =>
    cases lookAll d as with
    | error e => simp
    | ok l => simp [eq_comm]

theorem lookAll_ok {α β : Type} [DecidableEq α] {d : AMap α β} : ∀ {as : List α},
    (∀ a ∈ as, (d.get? a).isSome) → ∃ bs, lookAll d as = .ok bs
  | [], _ => ⟨[], rfl⟩
  | a :: as, h => by
    obtain ⟨b, hb⟩ := Option.isSome_iff_exists.mp (h a (by simp))
    obtain ⟨bs, hbs⟩ := lookAll_ok (as := as) fun x hx => h x (List.mem_cons_of_mem _ hx)
    exact ⟨b :: bs, lookAll_cons.mpr ⟨b, bs, hb, hbs, rfl⟩⟩

theorem nameToId_some {fs : List AField} {n : String} {i : Option Nat}
    (h : (nameToId fs).get? n = some i) : ∃ f ∈ fs, f.name = n ∧ f.fid = i := by
  unfold nameToId at h
  rw [foldl_set_get?] at h
  split at h
  · rename_i f hf
    have := List.mem_filter.mp (Paths.getLast_mem hf)
    exact ⟨f, this.1, by simpa using this.2, Option.some.inj h⟩
  · cases h

theorem nameToId_mem {fs : List AField} {n : String} (h : n ∈ fs.map AField.name) :
    ((nameToId fs).get? n).isSome := by
  unfold nameToId
  rw [foldl_set_get?]
  split
  · rfl
  · rename_i hl
    obtain ⟨f, hf, rfl⟩ := List.mem_map.mp h
    rw [List.getLast?_eq_none_iff, List.filter_eq_nil_iff] at hl
    have := hl f hf
    simp at this

/-- Field names turned into ids and back. -/
theorem fields_back {fs : List AField} (hn : (fs.map AField.fid).Nodup) : ∀ {names : List String}
    {ids : List (Option Nat)}, lookAll (nameToId fs) names = .ok ids →
    lookAll (idToName fs) ids = .ok names
  | [], ids, h => by
    simp only [lookAll, Except.ok.injEq] at h
    subst h
    rfl
  | n :: ns, ids, h => by
    obtain ⟨i, is, h1, h2, rfl⟩ := lookAll_cons.mp h
    obtain ⟨f, hf, rfl, rfl⟩ := nameToId_some h1
    exact lookAll_cons.mpr ⟨_, _, idToName_get hn hf, fields_back hn h2, rfl⟩

/-! ## The builder -/

theorem tryName_ok {rnd : Nat → Str} {udfs : AMap Str Udf} : ∀ {n k : Nat} {x : Str × Nat},
    tryName rnd udfs n k = .ok x → udfs.get? x.1 = none ∧ ∃ j, x.1 = str "udf_" ++ rnd j ∧ k ≤ j ∧ x.2 = j + 1
  | 0, _, _, h => by cases h
  | n + 1, k, x, h => by
    unfold tryName at h
    dsimp only at h
    split at h
    · rename_i hn
      cases h
      exact ⟨by simpa using hn, k, rfl, Nat.le_refl _, rfl⟩
    · obtain ⟨h1, j, h2, h3, h4⟩ := tryName_ok h
      exact ⟨h1, j, h2, by omega, h4⟩

/-- The function anchor `ref` of a plan under construction leads to the function `u`. -/
def Anchored (rnd : Nat → Str) (b : Builder) (ref : Nat) (u : Udf) : Prop :=
  ref < b.nextFn ∧ ∃ name ur, b.plan.compact.fns.get? ref = some ⟨ur, ref, name⟩ ∧ ur < b.nextUri ∧
    b.plan.compact.uris.get? ur = some ⟨ur, simpleUdfUri⟩ ∧ b.udfs.get? name = some u ∧
    ∃ k, name = str "udf_" ++ rnd k

/-- What holds of every builder. -/
structure BuilderOK (rnd : Nat → Str) (b : Builder) : Prop where
  keys : b.udfs.keys.Nodup
  named : ∀ n ∈ b.udfs.keys, ∃ k, k < b.drawn ∧ n = str "udf_" ++ rnd k
  relations : b.plan.relations = []

theorem addUdf_ok {rnd : Nat → Str} {b b' : Builder} {u : Udf} {ref : Nat} (hb : BuilderOK rnd b)
    (h : b.addUdf rnd u = .ok (ref, b')) : BuilderOK rnd b' ∧ Anchored rnd b' ref u ∧
      ∀ r v, Anchored rnd b r v → Anchored rnd b' r v := by
  unfold Builder.addUdf at h
  obtain ⟨⟨name, k⟩, h1, h2⟩ := Except.bind_ok h
  obtain ⟨hn, j, hj, hjk, hk⟩ := tryName_ok h1
  dsimp only at hn hj hk h2
  cases h2
  refine ⟨⟨AMap.keys_set_nodup hb.keys, ?_, hb.relations⟩, ?_, ?_⟩
  · intro n hn'
    obtain ⟨v, hv⟩ := AMap.mem_keys_iff.mp hn'
    dsimp only at hv
    rw [AMap.get?_set] at hv
    split at hv
    · rename_i he
      exact ⟨j, by dsimp only; omega, he.trans hj⟩
    · obtain ⟨i, hi, he⟩ := hb.named n (AMap.mem_keys_iff.mpr ⟨v, hv⟩)
      exact ⟨i, by dsimp only; omega, he⟩
  · refine ⟨Nat.lt_succ_self _, name, b.nextUri, ?_, Nat.lt_succ_self _, ?_, by simp, j, hj⟩
    · simp [Plan.compact, List.foldl_append]
    · simp [Plan.compact, List.foldl_append]
  · rintro r v ⟨h3, name', ur, h4, h5, h6, h7, h8⟩
    refine ⟨by dsimp only; omega, name', ur, ?_, by dsimp only; omega, ?_, ?_, h8⟩
    · simp only [Plan.compact, List.foldl_append, List.foldl_cons, List.foldl_nil] at h4 ⊢
      rw [AMap.get?_set_ne _ _ (by omega)]
      exact h4
    · simp only [Plan.compact, List.foldl_append, List.foldl_cons, List.foldl_nil] at h6 ⊢
      rw [AMap.get?_set_ne _ _ (by omega)]
      exact h6
    · dsimp only
      rw [AMap.get?_set_ne _ _ (by rintro rfl; rw [hn] at h7; cases h7)]
      exact h7

/-- The relation describes the view. -/
def Describes (rnd : Nat → Str) (b : Builder) : Rel → View → Prop
  | .read names, .dataset d => names = [d.loc]
  | .project r cs, .map u i fields => Describes rnd b r i ∧
      ∃ c, cs = [c] ∧ Anchored rnd b c.ref u ∧ lookAll (nameToId i.schema) fields = .ok c.args
  | .filter r c, .filter u i fields => Describes rnd b r i ∧
      Anchored rnd b c.ref u ∧ lookAll (nameToId i.schema) fields = .ok c.args
  | _, _ => False

theorem Describes.mono {rnd : Nat → Str} {b b' : Builder}
    (h : ∀ r v, Anchored rnd b r v → Anchored rnd b' r v) :
    ∀ (v : View) (r : Rel), Describes rnd b r v → Describes rnd b' r v
  | .dataset d, r, hd => by cases r <;> first | exact hd | exact hd.elim
  | .map u i fields, r, hd => by
    cases r with
    | project r cs =>
      obtain ⟨h1, c, h2, h3, h4⟩ := hd
      exact ⟨Describes.mono h i r h1, c, h2, h _ _ h3, h4⟩
    | _ => exact hd.elim
  | .filter u i fields, r, hd => by
    cases r with
    | filter r c =>
      obtain ⟨h1, h3, h4⟩ := hd
      exact ⟨Describes.mono h i r h1, h _ _ h3, h4⟩
    | _ => exact hd.elim
  | .joined .., r, hd => by cases r <;> exact hd.elim

theorem arguments_ok {i : View} {fields : List String} {args : List (Option Nat)}
    (h : arguments i fields = .ok args) : lookAll (nameToId i.schema) fields = .ok args := by
  unfold arguments at h
  split at h
  · cases h
  · exact h

theorem toRelation_ok {rnd : Nat → Str} : ∀ {v : View} {b b' : Builder} {r : Rel}, BuilderOK rnd b →
    v.toRelation rnd b = .ok (r, b') → BuilderOK rnd b' ∧ Describes rnd b' r v ∧
      ∀ r v, Anchored rnd b r v → Anchored rnd b' r v
  | .dataset d, b, b', r, hb, h => by
    cases h
    exact ⟨hb, rfl, fun _ _ h => h⟩
  | .map u i fields, b, b', r, hb, h => by
    unfold View.toRelation at h
    obtain ⟨⟨r1, b1⟩, h1, h⟩ := Except.bind_ok h
    obtain ⟨⟨anchor, b2⟩, h2, h⟩ := Except.bind_ok h
    obtain ⟨args, h3, h⟩ := Except.bind_ok h
    cases h
    obtain ⟨k1, k2, k3⟩ := toRelation_ok hb h1
    obtain ⟨l1, l2, l3⟩ := addUdf_ok k1 h2
    exact ⟨l1, ⟨k2.mono l3, _, rfl, l2, arguments_ok h3⟩, fun r v h => l3 _ _ (k3 _ _ h)⟩
  | .filter u i fields, b, b', r, hb, h => by
    unfold View.toRelation at h
    obtain ⟨⟨r1, b1⟩, h1, h⟩ := Except.bind_ok h
    obtain ⟨⟨anchor, b2⟩, h2, h⟩ := Except.bind_ok h
    obtain ⟨args, h3, h⟩ := Except.bind_ok h
    cases h
    obtain ⟨k1, k2, k3⟩ := toRelation_ok hb h1
    obtain ⟨l1, l2, l3⟩ := addUdf_ok k1 h2
    exact ⟨l1, ⟨k2.mono l3, l2, arguments_ok h3⟩, fun r v h => l3 _ _ (k3 _ _ h)⟩
  | .joined .., b, b', r, hb, h => by cases h

theorem BuilderOK.init (rnd : Nat → Str) : BuilderOK rnd {} :=
  ⟨by simp [AMap.keys], by simp [AMap.keys], rfl⟩

/-! ## The pickles -/

theorem pickle_name {rnd : Nat → Str} (hr : ∀ k, '/' ∉ rnd k) (k : Nat) :
    Name (str "udf_" ++ rnd k ++ str ".pkl") :=
  Paths.name_of (by decide) (hr k) (by decide) (by simp [str])

/-- The place of a pickle below the location of the storage. -/
theorem pickle_place {location name : Str} (hn : Name (name ++ str ".pkl")) (dir : List Str) :
    place dir (pickleFile location name) =
      place dir location ++ [str "metadata", str "udfs", name ++ str ".pkl"] := by
  unfold pickleFile udfDir metadataDir
  rw [Paths.place_under hn, Paths.place_under (by unfold Name; decide),
    Paths.place_under (by unfold Name; decide)]
  simp

theorem dumpUdfs_get {cwd location : Str} : ∀ (us : List (Str × Udf)) (files : Pickles) (paths : AMap Str Str),
    (us.map Prod.fst).Nodup → (∀ n ∈ us.map Prod.fst, Name (n ++ str ".pkl")) →
    (∀ n, n ∉ us.map Prod.fst → (dumpUdfs cwd location us files paths).2.get? n = paths.get? n) ∧
    (∀ n, n ∉ us.map Prod.fst → Name (n ++ str ".pkl") →
      (dumpUdfs cwd location us files paths).1.get? (place (rooted cwd) (pickleFile location n)) =
        files.get? (place (rooted cwd) (pickleFile location n))) ∧
    ∀ n u, (n, u) ∈ us →
      (dumpUdfs cwd location us files paths).2.get? n = some (relpath cwd (pickleFile location n) location) ∧
      (dumpUdfs cwd location us files paths).1.get? (place (rooted cwd) (pickleFile location n)) = some u
  | [], files, paths, _, _ => ⟨fun _ _ => rfl, fun _ _ _ => rfl, fun _ _ h => by cases h⟩
  | (m, v) :: us, files, paths, hn, hnm => by
    simp only [List.map_cons, List.nodup_cons] at hn
    have hm : Name (m ++ str ".pkl") := hnm m (by simp)
    have hrest : ∀ n ∈ us.map Prod.fst, Name (n ++ str ".pkl") := fun n h => hnm n (by simp [h])
    obtain ⟨h1, h2, h3⟩ := dumpUdfs_get (cwd := cwd) (location := location) us
      (files.set (place (rooted cwd) (pickleFile location m)) v)
      (paths.set m (relpath cwd (pickleFile location m) location)) hn.2 hrest
    have hne : ∀ n, Name (n ++ str ".pkl") → n ≠ m →
        place (rooted cwd) (pickleFile location n) ≠ place (rooted cwd) (pickleFile location m) := by
      intro n hn' hne he
      rw [pickle_place hn', pickle_place hm] at he
      have := List.append_cancel_left he
      simp only [List.cons.injEq, and_true, true_and] at this
      exact hne (List.append_cancel_right this)
    refine ⟨fun n hn' => ?_, fun n hn' hnm' => ?_, fun n u hu => ?_⟩
    · simp only [List.map_cons, List.mem_cons, not_or] at hn'
      unfold dumpUdfs
      rw [h1 n hn'.2, AMap.get?_set_ne _ _ hn'.1]
    · simp only [List.map_cons, List.mem_cons, not_or] at hn'
      unfold dumpUdfs
      rw [h2 n hn'.2 hnm', AMap.get?_set_ne _ _ (hne n hnm' hn'.1)]
    · unfold dumpUdfs
      rcases List.mem_cons.mp hu with he | hu
      · cases he
        rw [h1 _ hn.1, h2 _ hn.1 hm]
        simp
      · exact h3 n u hu

end Space
