import Verif.SchemaLemmas
import Verif.RowEffects

/-!
# C28, C29, C30, C55, C56: schemas

`C28` field ids, `C29` stored schemas, `C30` validation, `C55` lookups by field id,
`C56` index and record columns.
-/

namespace Space

/-! ## Concrete schemas used in the examples -/
namespace Demo

/-- `id: int64, tags: list<string>, pos: struct<x: double, y: list<struct<z: bool>>>,
img: binary, thumb: file`. -/
def nested : AFields := .ofList [
  .mk "id" true none .i64,
  .mk "tags" true none (.list (.mk "item" true none .str)),
  .mk "pos" true none (.struct (.ofList [.mk "x" true none .f64,
    .mk "y" true none (.list (.mk "item" true none (.struct (.ofList [.mk "z" true none .bool]))))])),
  .mk "img" true none .bin,
  .mk "thumb" true none (.file "dir")]

/-- The same with `not null` fields: `id: int64 not null, pos: struct<x: list<int32>
not null> not null`. -/
def notNull : AFields := .ofList [
  .mk "id" false none .i64,
  .mk "pos" false none (.struct (.ofList [.mk "x" false none (.list (.mk "item" true none .i32))]))]

/-- Extension types written as they are. -/
def codec : Codec := ⟨id, .ok, id, .ok⟩

theorem codec_faithful : codec.Faithful := ⟨fun _ => rfl, fun _ => rfl⟩

/-- The stored form of `nested`. -/
def storedNested : Except Err StoredSchema := createSchema codec nested ["id"] ["img"]

end Demo

/-! ## C28 -/

/-- **C28** (ids).  In a created storage the fields at every nesting level, taken depth
first with a field before what it contains, have the ids 0, 1, 2, ...: the ids written in
the metadata are exactly these, so they are distinct. -/
theorem C28_ids {C : Codec} {fs : AFields} {pks recs : List String} {m : StoredSchema}
    (h : createSchema C fs pks recs = .ok m) :
    m.fields.types.ids = List.range fs.ids.length ∧ m.fields.types.ids.Nodup := by
  have h1 := subs_ids _ _ _ (createSchema_ok.mp h).2.2.2
  rw [assignIds_ids] at h1
  have h2 : m.fields.types.ids = List.range fs.ids.length :=
    (List.map_inj_right (fun _ _ => Option.some.inj)).mp h1.symm
  exact ⟨h2, h2 ▸ List.nodup_range⟩

/-- **C28** (nothing else changes; partial).  Assigning ids keeps the number, names, order
and types of fields at every level, apart from `not null` marks.  Missing: `not null` on list
and struct fields is lost (`C28_violated`). -/
theorem C28_types_partial (fs : AFields) : (assignIds fs).noIds.anyNull = fs.noIds.anyNull :=
  assignFields_same fs 0

/-- **C28** (nothing else changes; partial).  When no list or struct field is marked
`not null`, assigning ids changes nothing but the ids. -/
theorem C28_open_partial {fs : AFields} (h : fs.openNested) : (assignIds fs).noIds = fs.noIds :=
  assignFields_exact fs 0 h

/-- **C28 is violated**: a nested list field marked `not null` becomes nullable, which
changes the type of the struct containing it. -/
theorem C28_violated : ∃ fs : AFields, (assignIds fs).noIds ≠ fs.noIds :=
  ⟨Demo.notNull, by decide⟩

example : Demo.nested.openNested := by
  simp [Demo.nested, AFields.ofList, AFields.openNested, AField.openNested, ATy.openAt]

example : (assignIds Demo.nested).ids = [0, 1, 2, 3, 4, 5, 6, 7, 8, 9].map some := by decide

example : Demo.storedNested.toOption.isSome = true := by decide

/-! ## C29 -/

/-- **C29** (logical form; partial).  The logical schema loaded from the metadata of a
created storage has the names, order, types and top-level field ids of the schema that was
stored.  Types are compared as Arrow does, without metadata and names of list items.
Missing: `not null` marks, which are lost (`C29_violated`). -/
theorem C29_partial {C : Codec} (hC : C.Faithful) {fs : AFields} {pks recs : List String}
    {m : StoredSchema} (h : createSchema C fs pks recs = .ok m) :
    ∃ L, logicalSchema C m = .ok L ∧ L.map AField.name = fs.names ∧
      L.map (fun f => f.ty.likeness) = fs.toList.map (fun f => f.ty.likeness) ∧
      L.map AField.fid = (assignIds fs).toList.map AField.fid := by
  refine ⟨_, load_created hC h false, ?_, ?_, ?_⟩
  · rw [List.map_map]
    exact assignFields_names fs 0
  · rw [List.map_map]
    simp only [Bool.false_eq_true, false_and, if_false, Function.comp_def, view_false]
    exact assignFields_map_ty (fun t => t.likeness.likeness)
      (fun t => by rw [likeness_likeness]) fs 0 |>.trans
        (List.map_congr_left fun f _ => likeness_likeness f.ty)
  · rw [List.map_map]
    rfl

/-- **C29** (logical form, schemas without `not null`; partial).  When every field is
nullable and list items are called `item`, as Arrow does by default, the loaded types are
exactly the given ones. -/
theorem C29_exact_partial {C : Codec} (hC : C.Faithful) {fs : AFields} {pks recs : List String}
    {m : StoredSchema} (h : createSchema C fs pks recs = .ok m)
    (hd : ∀ f ∈ fs.toList, f.nullable = true ∧ f.ty.likeness = f.ty) :
    ∃ L, logicalSchema C m = .ok L ∧
      L.map (fun f => (f.name, f.nullable, f.ty)) = fs.toList.map (fun f => (f.name, f.nullable, f.ty)) := by
  refine ⟨_, load_created hC h false, ?_⟩
  rw [List.map_map]
  simp only [Bool.false_eq_true, false_and, if_false, Function.comp_def, view_false, AField.name,
    AField.nullable, AField.ty]
  have key : ∀ (fs : AFields) (n : Nat),
      (∀ f ∈ fs.toList, f.nullable = true ∧ f.ty.likeness = f.ty) →
      (assignFields fs n).1.toList.map (fun f => (f.name, true, f.ty.likeness)) =
        fs.toList.map (fun f => (f.name, f.nullable, f.ty)) := by
    intro fs
    refine AFields.rec (motive_1 := fun _ => True) (motive_2 := fun _ => True)
      (motive_3 := fun fs => ∀ n, (∀ f ∈ fs.toList, f.nullable = true ∧ f.ty.likeness = f.ty) →
        (assignFields fs n).1.toList.map (fun f => (f.name, true, f.ty.likeness)) =
          fs.toList.map (fun f => (f.name, f.nullable, f.ty))) ?_ ?_ ?_ ?_ ?_ ?_ ?_ ?_ ?_ ?_ ?_ ?_ ?_ ?_ ?_ fs <;>
      try (intros; trivial)
    intro f fs _ ih n hd
    simp only [assignFields, AFields.toList, List.map_cons, assignField_name, assignField_like] at hd ⊢
    rw [ih _ fun g hg => hd g (List.mem_cons_of_mem _ hg)]
    have := hd f List.mem_cons_self
    rw [this.1, this.2]
  exact key fs 0 hd

/-- **C29** (physical form; partial).  The physical schema has the same names, order and
ids; record fields are addresses, other fields have the given types with files stored as
strings.  Missing: `not null` marks. -/
theorem C29_physical_partial {C : Codec} (hC : C.Faithful) {fs : AFields} {pks recs : List String}
    {m : StoredSchema} (h : createSchema C fs pks recs = .ok m) :
    ∃ L, physicalSchema C m = .ok L ∧ L.map AField.name = fs.names ∧
      L.map AField.ty = fs.toList.map (fun f =>
        if f.name ∈ recs then addressTy else f.ty.likeness.stored) ∧
      L.map AField.fid = (assignIds fs).toList.map AField.fid := by
  refine ⟨_, load_created hC h true, ?_, ?_, ?_⟩
  · rw [List.map_map]
    exact assignFields_names fs 0
  · rw [List.map_map]
    simp only [true_and, Function.comp_def, AField.ty, view_true]
    have key : ∀ (fs : AFields) (n : Nat),
        (assignFields fs n).1.toList.map (fun f => if f.name ∈ recs then addressTy else f.ty.likeness.stored) =
        fs.toList.map (fun f => if f.name ∈ recs then addressTy else f.ty.likeness.stored) := by
      intro fs
      refine AFields.rec (motive_1 := fun _ => True) (motive_2 := fun _ => True)
        (motive_3 := fun fs => ∀ n,
          (assignFields fs n).1.toList.map (fun f => if f.name ∈ recs then addressTy else f.ty.likeness.stored) =
          fs.toList.map (fun f => if f.name ∈ recs then addressTy else f.ty.likeness.stored))
        ?_ ?_ ?_ ?_ ?_ ?_ ?_ ?_ ?_ ?_ ?_ ?_ ?_ ?_ ?_ fs <;>
        try (intros; trivial)
      intro f fs _ ih n
      simp only [assignFields, AFields.toList, List.map_cons, assignField_name, assignField_like, ih]
    exact key fs 0
  · rw [List.map_map]
    rfl

/-- **C29** (the two physical forms).  For a storage without file columns, the physical
schema computed from the stored fields is the one computed from the logical schema. -/
theorem C29_agree {C : Codec} (hC : C.Faithful) {fs : AFields} {pks recs : List String}
    {m : StoredSchema} (h : createSchema C fs pks recs = .ok m)
    (hf : ∀ f ∈ fs.toList, f.ty.likeness.stored = f.ty.likeness) :
    ∃ L P, logicalSchema C m = .ok L ∧ physicalSchema C m = .ok P ∧ P = logicalToPhysical L recs := by
  refine ⟨_, _, load_created hC h false, load_created hC h true, ?_⟩
  unfold logicalToPhysical
  rw [List.map_map]
  refine List.map_congr_left fun f hm => ?_
  simp only [Function.comp_def, Bool.false_eq_true, false_and, if_false, true_and]
  rw [show ∀ t, (AField.mk f.name true f.fid t).name = f.name from fun _ => rfl,
    show ∀ t, (AField.mk f.name true f.fid t).fid = f.fid from fun _ => rfl]
  by_cases hr : f.name ∈ recs
  · rw [if_pos hr, if_pos hr]
  · rw [if_neg hr, if_neg hr, view_true, view_false]
    have : f.ty.likeness ∈ (assignIds fs).toList.map (fun f => f.ty.likeness) :=
      List.mem_map_of_mem (f := fun f : AField => f.ty.likeness) hm
    have h2 := assignFields_map_ty (fun t => t.likeness) likeness_likeness fs 0
    rw [show (assignIds fs).toList = (assignFields fs 0).1.toList from rfl, h2] at this
    obtain ⟨g, hg, he⟩ := List.mem_map.mp this
    rw [← he, hf g hg]

/-- **C29 is violated**: a nested `not null` mark is lost, so the loaded type differs from
the one given to `create`. -/
theorem C29_violated : ∃ (fs : AFields) (m : StoredSchema) (L : List AField),
    createSchema Demo.codec fs ["id"] [] = .ok m ∧ logicalSchema Demo.codec m = .ok L ∧
      L.map (fun f => f.ty.noIds) ≠ fs.toList.map (fun f => f.ty.noIds) := by
  refine ⟨Demo.notNull, (createSchema Demo.codec Demo.notNull ["id"] []).toOption.get (by decide),
    (logicalSchema Demo.codec
      ((createSchema Demo.codec Demo.notNull ["id"] []).toOption.get (by decide))).toOption.get (by decide),
    by rfl, by rfl, by decide⟩

example : ∃ m, createSchema Demo.codec Demo.nested ["id"] ["img"] = .ok m ∧
    (∀ f ∈ Demo.nested.toList, f.nullable = true ∧ f.ty.likeness = f.ty) :=
  ⟨Demo.storedNested.toOption.get (by decide), rfl, by decide⟩

/-! ## C30 -/

/-- **C30**.  Validation succeeds exactly when there is a primary key, every primary key
is the name of one field whose type is allowed for keys, and every record field is the name of
one field whose type is allowed for records and is not a primary key. -/
theorem C30 (fs : List AField) (pks recs : List String) :
    validateSchema fs pks recs = .ok () ↔ Acceptable fs pks recs :=
  validate_ok

/-- **C30** (distinct names).  With distinct field names, "the one field called `k`" is "a
field called `k`". -/
theorem C30_distinct {fs : List AField} (hn : (fs.map AField.name).Nodup) (k : String) (f : AField) :
    OnlyField fs k f ↔ f ∈ fs ∧ f.name = k := by
  constructor
  · rintro ⟨l₁, l₂, rfl, h, -⟩
    exact ⟨by simp, h⟩
  · rintro ⟨h, rfl⟩
    obtain ⟨l₁, l₂, rfl⟩ := List.append_of_mem h
    refine ⟨l₁, l₂, rfl, rfl, fun g hg he => ?_⟩
    rw [List.map_append, List.map_cons, List.nodup_append] at hn
    obtain ⟨-, h2, h3⟩ := hn
    rw [List.nodup_cons] at h2
    rcases List.mem_append.mp hg with h | h
    · exact h3 _ (List.mem_map_of_mem h) _ List.mem_cons_self he
    · exact h2.1 (he ▸ List.mem_map_of_mem h)

/-- **C30** (create).  The schema is accepted by `create` exactly when it passes validation
and every type in it, at every level, is one that can be stored. -/
theorem C30_create (C : Codec) (fs : AFields) (pks recs : List String) :
    (∃ m, createSchema C fs pks recs = .ok m) ↔ Acceptable fs.toList pks recs ∧ fs.supported := by
  have h := subs_total C fs 0
  rw [← h]
  constructor
  · rintro ⟨m, hm⟩
    obtain ⟨h1, -, -, h2⟩ := createSchema_ok.mp hm
    exact ⟨h1, _, h2⟩
  · rintro ⟨h1, r, h2⟩
    exact ⟨⟨⟨r.1, r.2⟩, pks, recs⟩, createSchema_ok.mpr ⟨h1, rfl, rfl, h2⟩⟩

example : Acceptable Demo.nested.toList ["id"] ["img"] :=
  (C30 _ _ _).mp (show (validateSchema _ _ _) = .ok () from rfl)

example : ¬ Acceptable Demo.nested.toList ["tags"] [] := fun h =>
  absurd (congrArg Except.toOption ((C30 _ _ _).mpr h)) (by decide)

example : ¬ Acceptable Demo.nested.toList ["id"] ["thumb"] := fun h =>
  absurd (congrArg Except.toOption ((C30 _ _ _).mpr h)) (by decide)

/-! ## C55 -/

/-- **C55**.  In the loaded schema of a created storage with distinct field names, looking up
a field id gives the position and the name of the field, and looking up its name gives the
id. -/
theorem C55 {C : Codec} (hC : C.Faithful) {fs : AFields} {pks recs : List String} {m : StoredSchema}
    (h : createSchema C fs pks recs = .ok m) (hn : fs.names.Nodup) (p : Bool) :
    ∃ L cols, arrowSchema C m.fields m.recs p = .ok L ∧ idToColumn L = .ok cols ∧
      ∀ (i : Nat) f, L[i]? = some f → cols.get? f.fid = some i ∧
        (idToName L).get? f.fid = some f.name ∧ (nameToId L).get? f.name = some f.fid := by
  have hl := load_created hC h p
  generalize hL : (List.map _ (assignIds fs).toList) = L at hl
  have hnames : (L.map AField.name).Nodup := by
    subst hL
    rw [List.map_map]
    have := assignFields_names fs 0
    unfold AFields.names at this hn
    rw [← this] at hn
    exact hn
  have hids : (L.map AField.fid).Nodup := by
    subst hL
    rw [List.map_map]
    exact assignIds_fids_nodup fs
  obtain ⟨cols, h1, -, h3⟩ := idToColumnGo_ok (d := nameToId L) L 0 []
    (fun f hf => nameToId_get hnames hf) hids
  refine ⟨L, cols, hl, h1, fun i f hf => ?_⟩
  have hmem := List.mem_of_getElem? hf
  exact ⟨by simpa using h3 i f hf, idToName_get hids hmem, nameToId_get hnames hmem⟩

example : Demo.nested.names.Nodup := by decide

/-- **C55** (keys).  The flat schema of a created storage with distinct names and no nested or
record column before a key meets the assumptions the theorems about keys make: its ids are
distinct, it has keys, and they are columns that are not record fields. -/
theorem C55_keys {C : Codec} (hC : C.Faithful) {fs : AFields} {pks recs : List String} {m : StoredSchema}
    (h : createSchema C fs pks recs = .ok m) (hn : fs.names.Nodup) :
    ∃ L, logicalSchema C m = .ok L ∧
      ((flatSchema L m.pks m.recs).keysFirst = true → KeySchema (flatSchema L m.pks m.recs)) := by
  have hl := load_created hC h false
  obtain ⟨ha, hp, hr, -⟩ := createSchema_ok.mp h
  refine ⟨_, hl, fun hf => ?_⟩
  have hnames : (flatSchema ((assignIds fs).toList.map fun f => AField.mk f.name true f.fid
      (if false = true ∧ f.name ∈ recs then addressTy else f.ty.view false)) m.pks m.recs).names = fs.names := by
    simp only [Schema.names, flatSchema, List.map_map]
    exact assignFields_names fs 0
  refine ⟨hnames ▸ hn, ?_, hp ▸ ha.some, ?_, ?_, hf⟩
  · simp only [flatSchema, List.map_map]
    have hs : ∀ f ∈ (assignIds fs).toList, f.fid.isSome = true := by
      intro f hf
      have h1 : f.fid ∈ (assignIds fs).ids :=
        (AFields.fids_sublist _).subset (List.mem_map_of_mem hf)
      rw [assignIds_ids] at h1
      obtain ⟨n, -, h2⟩ := List.mem_map.mp h1
      rw [← h2]
      rfl
    have hnd := assignIds_fids_nodup fs
    have : (assignIds fs).toList.map AField.fid =
        ((assignIds fs).toList.map (fun f => f.fid.getD 0)).map some := by
      rw [List.map_map]
      refine List.map_congr_left fun f hf => ?_
      obtain ⟨n, hn⟩ := Option.isSome_iff_exists.mp (hs f hf)
      simp [hn]
    rw [this] at hnd
    exact (List.pairwise_map.mp hnd).imp fun h he => h (congrArg some he)
  · intro k hk
    rw [hnames]
    obtain ⟨f, hof, -⟩ := ha.keys k (hp ▸ hk)
    exact hof.mem
  · intro k hk hkr
    exact (ha.records k (hr ▸ hkr)).1 (hp ▸ hk)

example : ∃ L, logicalSchema Demo.codec (Demo.storedNested.toOption.get (by decide)) = .ok L ∧
    (flatSchema L ["id"] ["img"]).keysFirst = true := ⟨_, rfl, by decide⟩

/-! ## C56 -/

/-- **C56**.  Classifying the columns of a schema puts every selected column in exactly one
of the two lists: record fields in the second, all others in the first, each list in schema
order. -/
theorem C56 (fs : List AField) (recs : List String) (selected : Option (List String)) :
    (classifyFields fs recs selected).1 =
        (fs.filter (fun f => (∀ l ∈ selected, f.name ∈ l) ∧ f.name ∉ recs)).map (fun f => (f.name, f.fid)) ∧
      (classifyFields fs recs selected).2 =
        (fs.filter (fun f => (∀ l ∈ selected, f.name ∈ l) ∧ f.name ∈ recs)).map (fun f => (f.name, f.fid)) := by
  rw [classify_eq]
  constructor <;>
  · dsimp only
    rw [List.filter_filter]
    congr 1
    refine List.filter_congr fun f _ => ?_
    cases selected <;> simp [Bool.and_comm, and_comm]

example : classifyFields Demo.nested.toList ["img"] (some ["id", "img"]) =
    ([("id", none)], [("img", none)]) := by decide

end Space
