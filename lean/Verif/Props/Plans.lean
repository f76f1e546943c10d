import Verif.Props.Schema
import Verif.PlansLemmas

/-!
# C42: logical plans survive storage
-/

set_option autoImplicit false

namespace Space

open Paths (Str str join metadataDir relpath place rooted isabs Name)

/-! ## What a user can build -/

/-- The dataset was created by `Storage.create` and is open: its schema is the loaded one. -/
def Source.Open (C : Codec) (d : Source) : Prop :=
  ∃ fs m, createSchema C fs d.pks d.recs = .ok m ∧ logicalSchema C m = .ok d.schema

/-- Views made by the calls of the API: a dataset, `map_batches` and `filter` of a view, and
the join of two views. -/
inductive Built (C : Codec) : View → Prop where
  | dataset {d : Source} : d.Open C → Built C (.dataset d)
  | map {v v' : View} {fn out fields recs batch} : Built C v →
      v.mapBatches fn out fields recs batch = .ok v' → Built C v'
  | filter {v v' : View} {fn fields} : Built C v → v.filterBy fn fields = .ok v' → Built C v'
  | join {out : List AField} {pks recs : List String} : Built C (.joined out pks recs)

/-- The datasets a view reads, except those under a join. -/
def View.reads : View → List Source
  | .dataset d => [d]
  | .map _ i _ => i.reads
  | .filter _ i _ => i.reads
  | .joined .. => []

/-- There is no join in the view. -/
def View.chain : View → Bool
  | .dataset _ => true
  | .map _ i _ => i.chain
  | .filter _ i _ => i.chain
  | .joined .. => false

/-! ## Lemmas -/

theorem mapBatches_ok {v v' : View} {fn : Nat} {out : AFields} {fields recs : Option (List String)}
    {batch : Option Nat} (h : v.mapBatches fn out fields recs batch = .ok v') :
    ∃ l, v.inputFields fields = .ok l ∧ validateSchema (assignIds out).toList v.pks (recs.getD []) = .ok () ∧
      v' = .map ⟨fn, (assignIds out).toList, recs.getD [], batch⟩ v l := by
  unfold View.mapBatches at h
  obtain ⟨l, h1, h⟩ := Except.bind_ok h
  obtain ⟨⟨⟩, h2, h⟩ := Except.bind_ok h
  cases h
  exact ⟨l, h1, h2, rfl⟩

theorem filterBy_ok {v v' : View} {fn : Nat} {fields : Option (List String)}
    (h : v.filterBy fn fields = .ok v') :
    ∃ l, v.inputFields fields = .ok l ∧ v' = .filter ⟨fn, v.schema, v.recs, none⟩ v l := by
  unfold View.filterBy at h
  obtain ⟨l, h1, h⟩ := Except.bind_ok h
  cases h
  exact ⟨l, h1, rfl⟩

theorem open_fids {C : Codec} (hC : C.Faithful) {d : Source} (h : d.Open C) :
    (d.schema.map AField.fid).Nodup := by
  obtain ⟨fs, m, h1, h2⟩ := h
  have := load_created hC h1 false
  unfold logicalSchema at h2
  rw [this] at h2
  rw [← Except.ok.inj h2, List.map_map]
  exact assignIds_fids_nodup fs

/-- The schema of every view in the chain has distinct ids. -/
def View.fidsOK : View → Prop
  | .dataset d => (d.schema.map AField.fid).Nodup
  | .map u i _ => (u.out.map AField.fid).Nodup ∧ i.fidsOK
  | .filter _ i _ => i.fidsOK
  | .joined .. => True

theorem View.fidsOK.top {v : View} (hc : v.chain = true) (h : v.fidsOK) :
    (v.schema.map AField.fid).Nodup := by
  induction v with
  | dataset d => exact h
  | map u i _ => exact h.1
  | filter u i _ ih => exact ih hc h
  | joined => cases hc

theorem Built.fids {C : Codec} (hC : C.Faithful) {v : View} (h : Built C v) : v.fidsOK := by
  induction h with
  | dataset h => exact open_fids hC h
  | map _ h ih =>
    obtain ⟨l, -, -, rfl⟩ := mapBatches_ok h
    exact ⟨assignIds_fids_nodup _, ih⟩
  | filter _ h ih =>
    obtain ⟨l, -, rfl⟩ := filterBy_ok h
    exact ih
  | join => trivial

theorem Describes.chain {rnd : Nat → Str} {b : Builder} : ∀ {v : View} {r : Rel}, Describes rnd b r v →
    v.chain = true
  | .dataset _, _, _ => rfl
  | .map u i fields, r, h => by
    cases r with
    | project r cs => exact Describes.chain (v := i) h.1
    | _ => exact h.elim
  | .filter u i fields, r, h => by
    cases r with
    | filter r cs => exact Describes.chain (v := i) h.1
    | _ => exact h.elim
  | .joined .., r, h => by cases r <;> exact h.elim

theorem load_described {rnd : Nat → Str} {b : Builder} {load : Str → Except Err Source} {cwd location : Str}
    {lp : LogicalPlan} {files : Pickles} {p : CompactPlan}
    (hu : ∀ c u, Anchored rnd b c.ref u → loadUdf cwd location lp files p c = .ok u) :
    ∀ {v : View} {r : Rel}, Describes rnd b r v → v.fidsOK → (∀ d ∈ v.reads, load d.loc = .ok d) →
      loadRel load cwd location lp files p r = .ok v
  | .dataset d, r, h, _, hl => by
    cases r with
    | read names =>
      cases h
      unfold loadRel
      dsimp only
      rw [hl d (by simp [View.reads])]
    | _ => exact h.elim
  | .map u i fields, r, h, hf, hl => by
    cases r with
    | project r cs =>
      obtain ⟨h1, c, rfl, h3, h4⟩ := h
      unfold loadRel
      dsimp only
      rw [hu c u h3, load_described hu h1 hf.2 hl]
      simp only [Bind.bind, Except.bind]
      rw [fields_back (hf.2.top h1.chain) h4]
      rfl
    | _ => exact h.elim
  | .filter u i fields, r, h, hf, hl => by
    cases r with
    | filter r c =>
      obtain ⟨h1, h3, h4⟩ := h
      unfold loadRel
      rw [hu c u h3, load_described hu h1 hf hl]
      simp only [Bind.bind, Except.bind]
      rw [fields_back (View.fidsOK.top h1.chain hf) h4]
      rfl
    | _ => exact h.elim
  | .joined .., r, h, _, _ => by cases r <;> exact h.elim

/-! ## C42 -/

/-- **C42**.  Every view a user can build and materialize is found again when its logical plan
is loaded: the same transforms in the same order, with the same functions and the same input
fields, on the same dataset.  This also holds when the files of the storage have meanwhile been
moved to another location (`files'` has below `location'` at least what `files` has below
`location`), from any working directory.  `load` is `Dataset.load`, and the datasets the view
reads can still be loaded under the names they had. -/
theorem C42 {C : Codec} (hC : C.Faithful) {rnd : Nat → Str} (hr : ∀ k, '/' ∉ rnd k)
    {cwd location : Str} (hc : isabs cwd = true) {v : View} (hb : Built C v)
    {files0 files : Pickles} {lp : LogicalPlan}
    (hm : v.materialize rnd cwd location files0 = .ok (lp, files))
    {load : Str → Except Err Source} (hl : ∀ d ∈ v.reads, load d.loc = .ok d)
    {cwd' location' : Str} {files' : Pickles}
    (hmove : ∀ below u, files.get? (place (rooted cwd) location ++ below) = some u →
      files'.get? (place (rooted cwd') location' ++ below) = some u) :
    loadView load cwd' location' lp files' = .ok v := by
  unfold View.materialize at hm
  obtain ⟨⟨r, b⟩, h1, h2⟩ := Except.bind_ok hm
  obtain ⟨hb1, hd, -⟩ := toRelation_ok (BuilderOK.init rnd) h1
  dsimp only at h2
  cases h2
  have hnames : ∀ n ∈ b.udfs.map Prod.fst, Name (n ++ str ".pkl") := by
    intro n hn
    obtain ⟨k, -, rfl⟩ := hb1.named n hn
    exact pickle_name hr k
  obtain ⟨-, -, hdump⟩ := dumpUdfs_get (cwd := cwd) (location := location) b.udfs files0 [] hb1.keys hnames
  unfold loadView
  simp only [hb1.relations, List.nil_append]
  refine load_described (b := b) (rnd := rnd) ?_ hd (hb.fids hC) hl
  rintro c u ⟨-, name, ur, a1, a2, a3, a4, k, a5⟩
  obtain ⟨b1, b2⟩ := hdump name u (AMap.mem_of_get? a4)
  unfold loadUdf
  have hn : Name (name ++ str ".pkl") := a5 ▸ pickle_name hr k
  have hp := Paths.C33_moved hc (location := location) (p := pickleFile location name) (pickle_place hn _)
    (rooted cwd') location'
  unfold Paths.fullPath Paths.shortPath at hp
  simp only [Plan.compact] at a1 a3 ⊢
  simp only [a1, a3, b1, ne_eq, not_true_eq_false, if_false]
  rw [hp, hmove _ _ (by rw [← pickle_place hn]; exact b2)]

/-- Where nothing was moved. -/
theorem C42_same {C : Codec} (hC : C.Faithful) {rnd : Nat → Str} (hr : ∀ k, '/' ∉ rnd k)
    {cwd location : Str} (hc : isabs cwd = true) {v : View} (hb : Built C v)
    {files0 files : Pickles} {lp : LogicalPlan}
    (hm : v.materialize rnd cwd location files0 = .ok (lp, files))
    {load : Str → Except Err Source} (hl : ∀ d ∈ v.reads, load d.loc = .ok d) :
    loadView load cwd location lp files = .ok v :=
  C42 hC hr hc hb hm hl fun _ _ h => h

/-! ### Materializing succeeds -/

/-- The view has keys, and they are columns. -/
def View.keyed (v : View) : Prop := v.pks ≠ [] ∧ ∀ k ∈ v.pks, k ∈ v.schema.map AField.name

/-- Every transform in the chain reads at least one column, and only columns there are. -/
def View.argsOK : View → Prop
  | .dataset _ => True
  | .map _ i l => i.argsOK ∧ l ≠ [] ∧ ∀ n ∈ l, n ∈ i.schema.map AField.name
  | .filter _ i l => i.argsOK ∧ l ≠ [] ∧ ∀ n ∈ l, n ∈ i.schema.map AField.name
  | .joined .. => True

theorem acceptable_keyed {fs : List AField} {pks recs : List String} (h : Acceptable fs pks recs) :
    pks ≠ [] ∧ ∀ k ∈ pks, k ∈ fs.map AField.name := by
  refine ⟨h.some, fun k hk => ?_⟩
  obtain ⟨f, ⟨l1, l2, rfl, hf, -⟩, -⟩ := h.keys k hk
  exact List.mem_map.mpr ⟨f, by simp, hf⟩

theorem inputFields_ok {v : View} (hk : v.keyed) {o : Option (List String)} {l : List String}
    (h : v.inputFields o = .ok l) : l ≠ [] ∧ ∀ n ∈ l, n ∈ v.schema.map AField.name := by
  obtain ⟨h1, h2⟩ := hk
  cases o with
  | none =>
    cases h
    refine ⟨fun he => ?_, fun _ h => h⟩
    cases hp : v.pks with
    | nil => exact h1 hp
    | cons k ks =>
      have := h2 k (by simp [hp])
      rw [he] at this
      cases this
  | some l' =>
    unfold View.inputFields at h
    dsimp only at h
    split at h
    · split at h
      · rename_i ha hb
        cases h
        simp only [List.all_eq_true, List.contains_iff_mem] at ha hb
        refine ⟨?_, hb⟩
        rintro rfl
        cases hp : v.pks with
        | nil => exact h1 hp
        | cons k ks => simpa using ha k (by simp [hp])
      · cases h
    · cases h

theorem Built.argsOK {C : Codec} (hC : C.Faithful) {v : View} (h : Built C v) (hc : v.chain = true) :
    v.keyed ∧ v.argsOK := by
  induction h with
  | @dataset d h =>
    refine ⟨?_, trivial⟩
    obtain ⟨fs, m, h1, h2⟩ := h
    have hl := load_created hC h1 false
    unfold logicalSchema at h2
    rw [hl] at h2
    obtain ⟨h3, h4⟩ := acceptable_keyed (createSchema_ok.mp h1).1
    refine ⟨h3, fun k hk => ?_⟩
    show k ∈ d.schema.map AField.name
    rw [← Except.ok.inj h2, List.map_map]
    have := assignFields_names fs 0
    unfold AFields.names at this
    have h5 := h4 k hk
    rw [← this] at h5
    exact h5
  | map _ h ih =>
    obtain ⟨l, h1, h2, rfl⟩ := mapBatches_ok h
    obtain ⟨i1, i2⟩ := ih hc
    exact ⟨acceptable_keyed (validate_ok.mp h2), i2, inputFields_ok i1 h1⟩
  | filter _ h ih =>
    obtain ⟨l, h1, rfl⟩ := filterBy_ok h
    obtain ⟨i1, i2⟩ := ih hc
    exact ⟨i1, i2, inputFields_ok i1 h1⟩
  | join => cases hc

theorem addUdf_new {rnd : Nat → Str} (hr : ∀ i j, rnd i = rnd j → i = j) {b : Builder} (hb : BuilderOK rnd b)
    (u : Udf) : ∃ x, b.addUdf rnd u = .ok x := by
  have hnone : b.udfs.get? (str "udf_" ++ rnd b.drawn) = none := by
    cases hg : b.udfs.get? (str "udf_" ++ rnd b.drawn) with
    | none => rfl
    | some v =>
      obtain ⟨k, hk, he⟩ := hb.named _ (AMap.mem_keys_iff.mpr ⟨v, hg⟩)
      have := hr _ _ (List.append_cancel_left he)
      omega
  unfold Builder.addUdf
  rw [show tryName rnd b.udfs 10 b.drawn = .ok (str "udf_" ++ rnd b.drawn, b.drawn + 1) by
    unfold tryName; simp [hnone]]
  exact ⟨_, rfl⟩

theorem arguments_new {i : View} {l : List String} (h1 : l ≠ []) (h2 : ∀ n ∈ l, n ∈ i.schema.map AField.name) :
    ∃ as, arguments i l = .ok as := by
  unfold arguments
  rw [if_neg h1]
  exact lookAll_ok fun n hn => nameToId_mem (h2 n hn)

theorem toRelation_new {rnd : Nat → Str} (hr : ∀ i j, rnd i = rnd j → i = j) : ∀ {v : View} {b : Builder},
    BuilderOK rnd b → v.chain = true → v.argsOK → ∃ x, v.toRelation rnd b = .ok x
  | .dataset d, b, _, _, _ => ⟨_, rfl⟩
  | .map u i l, b, hb, hc, ha => by
    obtain ⟨⟨r, b1⟩, h1⟩ := toRelation_new hr (v := i) hb hc ha.1
    obtain ⟨⟨n, b2⟩, h2⟩ := addUdf_new hr (toRelation_ok hb h1).1 u
    obtain ⟨as, h3⟩ := arguments_new ha.2.1 ha.2.2
    unfold View.toRelation
    rw [h1]
    simp only [Bind.bind, Except.bind, h2, h3]
    exact ⟨_, rfl⟩
  | .filter u i l, b, hb, hc, ha => by
    obtain ⟨⟨r, b1⟩, h1⟩ := toRelation_new hr (v := i) hb hc ha.1
    obtain ⟨⟨n, b2⟩, h2⟩ := addUdf_new hr (toRelation_ok hb h1).1 u
    obtain ⟨as, h3⟩ := arguments_new ha.2.1 ha.2.2
    unfold View.toRelation
    rw [h1]
    simp only [Bind.bind, Except.bind, h2, h3]
    exact ⟨_, rfl⟩
  | .joined .., _, _, hc, _ => by cases hc

/-- Every chain of maps and filters on a dataset has a logical plan, if random ids do not
repeat. -/
theorem C42_succeeds {C : Codec} (hC : C.Faithful) {rnd : Nat → Str} (hr : ∀ i j, rnd i = rnd j → i = j)
    {v : View} (hb : Built C v) (hc : v.chain = true) (cwd location : Str) (files : Pickles) :
    ∃ x, v.materialize rnd cwd location files = .ok x := by
  obtain ⟨⟨r, b⟩, h⟩ := toRelation_new hr (BuilderOK.init rnd) hc (hb.argsOK hC hc).2
  unfold View.materialize
  rw [h]
  exact ⟨_, rfl⟩

/-- A view over a join has none. -/
theorem C42_join {rnd : Nat → Str} {v : View} (hc : v.chain = false) (cwd location : Str) (files : Pickles) :
    ∀ x, v.materialize rnd cwd location files ≠ .ok x := by
  intro x h
  unfold View.materialize at h
  obtain ⟨⟨r, b⟩, h1, -⟩ := Except.bind_ok h
  have := (toRelation_ok (BuilderOK.init rnd) h1).2.1.chain
  rw [hc] at this
  cases this

/-! ### An example -/

namespace Demo

/-- Ids as the `k`-fold repetition of a letter. -/
def ids (k : Nat) : Str := List.replicate k 'x'

/-- A dataset with a list, a struct and a record field. -/
def source : Source :=
  { loc := str "/data/src", schema := (storedNested.bind (logicalSchema codec)).toOption.getD [],
    pks := ["id"], recs := ["img"] }

/-- Two filters around a map that drops columns and turns one into a record field. -/
def chained : Except Err View := do
  let v ← (View.dataset source).filterBy 1 none
  let v ← v.mapBatches 2 (.ofList [.mk "name" true none .str, .mk "id" true none .i64, .mk "blob" true none .bin])
    (some ["img", "id"]) (some ["blob"]) (some 8)
  v.filterBy 3 (some ["id", "name"])

end Demo

theorem bind_some {ε α β : Type} {x : Except ε α} {f : α → Except ε β} {b : β}
    (h : (x >>= f) = .ok b) : ∃ a, x = .ok a ∧ f a = .ok b := Except.bind_ok h

/-- The chain is built from an open dataset. -/
example : ∃ v, Demo.chained = .ok v ∧ Built Demo.codec v ∧ v.chain = true := by
  have h : Demo.chained = .ok (Demo.chained.toOption.get (by decide)) := rfl
  refine ⟨_, h, ?_, rfl⟩
  unfold Demo.chained at h
  obtain ⟨v1, h1, h⟩ := bind_some h
  obtain ⟨v2, h2, h3⟩ := bind_some h
  refine .filter (.map (.filter (.dataset ?_) h1) h2) h3
  exact ⟨Demo.nested, Demo.storedNested.toOption.get (by decide), rfl, rfl⟩

example : ∀ i j, Demo.ids i = Demo.ids j → i = j := fun i j h => by
  have := congrArg List.length h
  simpa [Demo.ids] using this

/-- It is materialized at a relative location, moved, and loaded from another directory. -/
example : (Demo.chained.bind fun v => do
    let (lp, files) ← v.materialize Demo.ids (str "/home") (str "mvs/../mv") []
    let u ← loadView (fun l => if l = str "/data/src" then .ok Demo.source else .error .storageNotFound)
      (str "/") (str "moved") lp (files.map fun x => ([str "moved"] ++ x.1.drop 2, x.2))
    return decide (u = v)).toOption = some true := by decide +kernel

end Space
