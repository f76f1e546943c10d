import Verif.Catalog
import Verif.Props.Plans
import Verif.Props.Crash

/-!
# Catalogs over time
-/

set_option autoImplicit false

namespace Space

open Paths (Str str join metadataDir entryPointPath place rooted isabs Name)

/-! ## What happens on a disk -/

/-- The datasets a view reads are those found at their locations. -/
def View.Found (C : Codec) (cwd : Str) (d : Disk) (v : View) : Prop :=
  ∀ s ∈ v.reads, d.loadDataset C cwd s.loc = .ok s

/-- The random ids are usable in file names and have not been used for pickles at the
location. -/
structure NewIds (rnd : Nat → Str) (cwd location : Str) (d : Disk) : Prop where
  slash : ∀ i, '/' ∉ rnd i
  unused : ∀ i, d.pickles.get? (place (rooted cwd) (pickleFile location (str "udf_" ++ rnd i))) = none

/-- One step of any process, in any working directory: creating a dataset or a view through
some catalog (with any outcome), work on a storage, a process that dies while creating a storage,
or other files and directories that appear. -/
inductive DiskStep (C : Codec) (E : Env) : Disk → Disk → Prop where
  | create {k : DirCatalog} {mkdir : Option Err} {name : Str} {fs : AFields} {pks recs : List String}
      {d d' : Disk} {r : Except Err Opened} : isabs k.cwd = true → fs.names.Nodup →
      k.createDataset C mkdir name fs pks recs d = (r, d') → DiskStep C E d d'
  | materialize {k : DirCatalog} {mkdir : Option Err} {rnd : Nat → Str} {name : Str} {v : View}
      {d d' : Disk} {r : Except Err Opened} : isabs k.cwd = true → (v.schema.map AField.name).Nodup →
      Built C v → v.Found C k.cwd d → NewIds rnd k.cwd (k.location name) d →
      k.materialize C mkdir rnd name v d = (r, d') → DiskStep C E d d'
  | work {d : Disk} {p : List Str} {st : Store} {m : Made} {σ σ' : Sys} :
      d.stores.get? p = some st → st.made = some m → Reach E m.flat anyStep σ → σ.w = st.w →
      Run E m.flat anyStep σ σ' →
      DiskStep C E d { d with stores := d.stores.set p ⟨σ'.w, some m⟩ }
  | scrap {d : Disk} {p : List Str} {w : World} : (∀ x ∈ p, Name x) →
      ((d.stores.get? p).getD {}).made = none → Adds ((d.stores.get? p).getD {}).w w →
      DiskStep C E d { d with stores := d.stores.set p ⟨w, none⟩ }
  | other {d : Disk} {x : List Str × Bool} : (∀ y ∈ x.1, Name y) →
      DiskStep C E d { d with others := x :: d.others }

/-- Any number of steps. -/
inductive DiskRun (C : Codec) (E : Env) : Disk → Disk → Prop where
  | refl (d : Disk) : DiskRun C E d d
  | step {d d' d'' : Disk} : DiskRun C E d d' → DiskStep C E d' d'' → DiskRun C E d d''

/-! ## Invariants -/

/-- A directory of storage files is empty but for scraps, or holds a storage that came about
by `create` and the steps of the table model. -/
def StoreOK (C : Codec) (E : Env) (st : Store) : Prop :=
  (st.made = none ∧ st.w.Empty) ∨
  ∃ m l σ, st.made = some m ∧ logicalSchema C m.stored = .ok l ∧ m.flat.names.Nodup ∧
    Reach E m.flat anyStep σ ∧ σ.w = st.w

/-- The invariant without the plans. -/
structure CoreOK (C : Codec) (E : Env) (d : Disk) : Prop where
  keys : d.stores.keys.Nodup
  names : ∀ p ∈ d.stores.keys, ∀ x ∈ p, Name x
  others : ∀ x ∈ d.others, ∀ y ∈ x.1, Name y
  stores : ∀ p st, d.stores.get? p = some st → StoreOK C E st

/-- The plan is the one of a view materialized at the place, and what it needs is still there. -/
def PlanOK (C : Codec) (d : Disk) (p : List Str) (lp : LogicalPlan) : Prop :=
  ∃ (cwd location : Str) (rnd : Nat → Str) (v : View) (files0 files : Pickles),
    isabs cwd = true ∧ place (rooted cwd) location = p ∧ (∀ i, '/' ∉ rnd i) ∧ Built C v ∧
    v.materialize rnd cwd location files0 = .ok (lp, files) ∧ v.Found C cwd d ∧
    ∀ x u, files.get? x = some u → d.pickles.get? x = some u

/-- The invariant. -/
structure DiskOK (C : Codec) (E : Env) (d : Disk) : Prop where
  core : CoreOK C E d
  plans : ∀ p st m lp, d.stores.get? p = some st → st.made = some m → m.plan = some lp → PlanOK C d p lp

/-- Storages and pickles stay. -/
structure DiskLe (d d' : Disk) : Prop where
  stores : ∀ p st m, d.stores.get? p = some st → st.made = some m →
    ∃ st', d'.stores.get? p = some st' ∧ st'.made = some m
  pickles : ∀ x u, d.pickles.get? x = some u → d'.pickles.get? x = some u

theorem DiskLe.refl (d : Disk) : DiskLe d d := ⟨fun _ st _ h1 h2 => ⟨st, h1, h2⟩, fun _ _ h => h⟩

theorem DiskLe.trans {a b c : Disk} (h1 : DiskLe a b) (h2 : DiskLe b c) : DiskLe a c :=
  ⟨fun p st m a1 a2 => by
    obtain ⟨st', b1, b2⟩ := h1.stores p st m a1 a2
    exact h2.stores p st' m b1 b2, fun x u h => h2.pickles x u (h1.pickles x u h)⟩

/-- A storage that came about in the model can be loaded. -/
theorem reach_load {E : Env} {s : Schema} (hn : s.names.Nodup) {σ : Sys} (h : Reach E s anyStep σ) :
    ∃ h, load σ.w = .ok h ∧ σ.w.stored = some h.md ∧ h.md.schema = s ∧
      (AMap.get? σ.w.fs .entryPoint).isSome := by
  obtain ⟨md, hok⟩ := reach_ok hn h
  obtain ⟨p, h1, h2⟩ := hok.wok.stored
  have h3 : readStored σ.w = .ok (p, md) := by simp [readStored, h1, h2]
  refine ⟨Handle.init md p false mainBranch, by simp [load, h3], hok.wok.storedEq, hok.wok.schema, ?_⟩
  unfold FS.entry at h1
  cases hg : AMap.get? σ.w.fs .entryPoint with
  | none => rw [hg] at h1; cases h1
  | some c => rfl

theorem StoreOK.load {C : Codec} {E : Env} {st : Store} (h : StoreOK C E st) {m : Made}
    (hm : st.made = some m) : ∃ h l, Space.load st.w = .ok h ∧ st.w.stored = some h.md ∧
      h.md.schema = m.flat ∧ logicalSchema C m.stored = .ok l ∧ (AMap.get? st.w.fs .entryPoint).isSome := by
  rcases h with ⟨h, -⟩ | ⟨m', l, σ, h1, h2, h3, h4, h5⟩
  · rw [hm] at h; cases h
  · rw [hm] at h1
    cases h1
    obtain ⟨h, a1, a2, a3, a4⟩ := reach_load h3 h4
    rw [h5] at a1 a2 a4
    exact ⟨h, l, a1, a2, a3, h2, a4⟩

/-- A directory holds a storage exactly if it has an entry point. -/
theorem StoreOK.entry {C : Codec} {E : Env} {st : Store} (h : StoreOK C E st) :
    (AMap.get? st.w.fs .entryPoint).isSome ↔ st.made.isSome := by
  constructor
  · intro he
    rcases h with ⟨h, h1⟩ | ⟨m', l, σ, h1, -⟩
    · rw [h1.noEntry] at he; cases he
    · rw [h1]; rfl
  · intro he
    obtain ⟨m, hm⟩ := Option.isSome_iff_exists.mp he
    obtain ⟨_, _, -, -, -, -, h⟩ := h.load hm
    exact h

theorem loadDataset_mono {C : Codec} {E : Env} {d d' : Disk} (hd : CoreOK C E d') (hl : DiskLe d d')
    {cwd location : Str} {s : Source} (h : d.loadDataset C cwd location = .ok s) :
    d'.loadDataset C cwd location = .ok s := by
  unfold Disk.loadDataset Disk.loadStore at h ⊢
  cases h1 : d.stores.get? (place (rooted cwd) location) with
  | none => rw [h1] at h; cases h
  | some st =>
    rw [h1] at h
    dsimp only at h
    cases h2 : load st.w with
    | error e => rw [h2] at h; cases h
    | ok x =>
      rw [h2] at h
      dsimp only at h
      cases h3 : st.made with
      | none => rw [h3] at h; cases h
      | some m =>
        rw [h3] at h
        obtain ⟨st', a1, a2⟩ := hl.stores _ _ _ h1 h3
        obtain ⟨y, l, b1, -, -, b3, -⟩ := (hd.stores _ _ a1).load a2
        rw [a1]
        dsimp only
        rw [b1, a2]
        exact h

theorem PlanOK.mono {C : Codec} {E : Env} {d d' : Disk} (hd : CoreOK C E d') (hl : DiskLe d d')
    {p : List Str} {lp : LogicalPlan} (h : PlanOK C d p lp) : PlanOK C d' p lp := by
  obtain ⟨cwd, loc, rnd, v, f0, f, h1, h2, h3, h4, h5, h6, h7⟩ := h
  exact ⟨cwd, loc, rnd, v, f0, f, h1, h2, h3, h4, h5, fun s hs => loadDataset_mono hd hl (h6 s hs),
    fun x u hx => hl.pickles x u (h7 x u hx)⟩

/-- Replacing one directory of storage files. -/
theorem CoreOK.set {C : Codec} {E : Env} {d : Disk} (hd : CoreOK C E d) {p : List Str}
    (hp : ∀ x ∈ p, Name x) {st : Store} (hs : StoreOK C E st) :
    CoreOK C E { d with stores := d.stores.set p st } := by
  refine ⟨AMap.keys_set_nodup hd.keys, fun q hq => ?_, hd.others, fun q st' hq => ?_⟩
  · obtain ⟨v, hv⟩ := AMap.mem_keys_iff.mp hq
    dsimp only at hv
    rw [AMap.get?_set] at hv
    split at hv
    · rename_i h; subst h; exact hp
    · exact hd.names q (AMap.mem_keys_iff.mpr ⟨v, hv⟩)
  · dsimp only at hq
    rw [AMap.get?_set] at hq
    split at hq
    · cases hq; exact hs
    · exact hd.stores q st' hq

theorem DiskLe.set {d : Disk} {p : List Str} {st : Store}
    (h : ∀ st0 m, d.stores.get? p = some st0 → st0.made = some m → st.made = some m) :
    DiskLe d { d with stores := d.stores.set p st } := by
  refine ⟨fun q st0 m h1 h2 => ?_, fun _ _ h => h⟩
  by_cases hq : q = p
  · subst hq
    exact ⟨st, by simp, h st0 m h1 h2⟩
  · exact ⟨st0, by simp [AMap.get?_set, hq, h1], h2⟩

/-- The same with plans. -/
theorem DiskOK.set {C : Codec} {E : Env} {d : Disk} (hd : DiskOK C E d) {p : List Str}
    (hp : ∀ x ∈ p, Name x) {st : Store} (hs : StoreOK C E st)
    (h : ∀ st0 m, d.stores.get? p = some st0 → st0.made = some m → st.made = some m)
    (hplan : ∀ m lp, st.made = some m → m.plan = some lp → PlanOK C d p lp) :
    DiskOK C E { d with stores := d.stores.set p st } ∧ DiskLe d { d with stores := d.stores.set p st } := by
  have hc := hd.core.set hp hs
  have hl := DiskLe.set h
  refine ⟨⟨hc, fun q st' m lp h1 h2 h3 => ?_⟩, hl⟩
  dsimp only at h1
  rw [AMap.get?_set] at h1
  split at h1
  · rename_i hq; subst hq
    cases h1
    exact (hplan m lp h2 h3).mono hc hl
  · exact (hd.plans q st' m lp h1 h2 h3).mono hc hl

theorem StoreOK.default (C : Codec) (E : Env) : StoreOK C E {} :=
  Or.inl ⟨rfl, ⟨fun _ _ _ _ => rfl, rfl⟩⟩

theorem CoreOK.at {C : Codec} {E : Env} {d : Disk} (hd : CoreOK C E d) (p : List Str) :
    StoreOK C E ((d.stores.get? p).getD {}) := by
  cases h : d.stores.get? p with
  | none => exact .default C E
  | some st => exact hd.stores p st h

theorem flat_names {C : Codec} (hC : C.Faithful) {fs : AFields} {pks recs : List String} {m : StoredSchema}
    (h : createSchema C fs pks recs = .ok m) {l : List AField} (hl : logicalSchema C m = .ok l) :
    (flatSchema l pks recs).names = fs.names := by
  have h1 := load_created hC h false
  unfold logicalSchema at hl
  rw [h1] at hl
  rw [← Except.ok.inj hl]
  have := assignFields_names fs 0
  unfold AFields.names at this
  unfold Schema.names flatSchema AFields.names
  dsimp only
  rw [← this]
  simp only [List.map_map]
  rfl

/-- `Storage.create` on a disk. -/
theorem createStore_ok {C : Codec} (hC : C.Faithful) {E : Env} {mkdir : Option Err} {cwd location : Str}
    {fs : AFields} (hn : fs.names.Nodup) {pks recs : List String}
    {plan : Option LogicalPlan} {d d' : Disk} {r : Except Err Handle} (hd : DiskOK C E d)
    (hp : ∀ lp, plan = some lp → PlanOK C d (place (rooted cwd) location) lp)
    (h : d.createStore C mkdir cwd location fs pks recs plan = (r, d')) :
    DiskOK C E d' ∧ DiskLe d d' ∧ d'.pickles = d.pickles ∧ ∀ x, r = .ok x → ∃ st m l,
      d'.stores.get? (place (rooted cwd) location) = some st ∧ st.made = some m ∧ m.plan = plan ∧
      createSchema C fs pks recs = .ok m.stored ∧ logicalSchema C m.stored = .ok l ∧
      m.flat = flatSchema l pks recs := by
  have hnames : ∀ x ∈ place (rooted cwd) location, Name x :=
    Paths.place_names (Paths.place_names (by simp) _) _
  unfold Disk.createStore at h
  cases h1 : createSchema C fs pks recs with
  | error e => rw [h1] at h; cases h; exact ⟨hd, .refl d, rfl, fun _ h => by cases h⟩
  | ok m =>
    rw [h1] at h
    dsimp only at h
    cases h2 : logicalSchema C m with
    | error e => rw [h2] at h; cases h; exact ⟨hd, .refl d, rfl, fun _ h => by cases h⟩
    | ok l =>
      rw [h2] at h
      dsimp only at h
      cases mkdir with
      | some e => cases h; exact ⟨hd, .refl d, rfl, fun _ h => by cases h⟩
      | none =>
        dsimp only at h
        have hst := hd.core.at (place (rooted cwd) location)
        have hflat : (flatSchema l pks recs).names.Nodup := by rw [flat_names hC h1 h2]; exact hn
        cases h3 : create (flatSchema l pks recs) ((d.stores.get? (place (rooted cwd) location)).getD {}).w with
        | mk r0 w =>
          rw [h3] at h
          rcases hst with ⟨a1, a2⟩ | ⟨m0, l0, σ, a1, a2, a3, a4, a5⟩
          · -- nothing was there
            cases r0 with
            | error e =>
              obtain ⟨md, b1, -⟩ := createHead_empty (s := flatSchema l pks recs) a2
              simp only [create, Bind.bind, M.andThen, b1, createTail, putFile, M.modify, Pure.pure, M.ret,
                Prod.mk.injEq] at h3
              cases h3.1
            | ok x =>
              cases h
              obtain ⟨q1, q2⟩ := hd.set (p := place (rooted cwd) location)
                (st := ⟨w, some ⟨m, flatSchema l pks recs, plan⟩⟩) hnames
                (Or.inr ⟨_, l, ⟨w, [⟨x, .idle⟩]⟩, rfl, h2, hflat, ⟨_, ⟨_, x, a2, h3, rfl⟩, .refl _⟩, rfl⟩)
                (fun st0 m0 e1 e2 => by rw [e1] at a1; exact absurd a1 (by simp [e2]))
                (fun m0 lp e1 e2 => by cases e1; exact hp lp e2)
              exact ⟨q1, q2, rfl, fun y _ => ⟨⟨w, some ⟨m, flatSchema l pks recs, plan⟩⟩,
                ⟨m, flatSchema l pks recs, plan⟩, l, by simp, rfl, rfl, rfl, h2, rfl⟩⟩
          · -- a storage was there
            rw [← a5] at h3
            obtain ⟨e1, -, e2⟩ := C16_partial a3 a4 h3
            subst e1
            cases h
            have hget : d.stores.get? (place (rooted cwd) location) =
                some ((d.stores.get? (place (rooted cwd) location)).getD {}) := by
              cases hg : d.stores.get? (place (rooted cwd) location) with
              | none => rw [hg] at a1; cases a1
              | some _ => rfl
            obtain ⟨q1, q2⟩ := hd.set (p := place (rooted cwd) location)
                (st := ⟨w, ((d.stores.get? (place (rooted cwd) location)).getD {}).made⟩) hnames
                (Or.inr ⟨m0, l0, ⟨w, σ.slots⟩, a1, a2, a3, e2, rfl⟩)
                (fun st0 m1 e1 e2 => by rw [e1]; exact e2)
                (fun m1 lp e1 e2 => hd.plans _ _ m1 lp hget e1 e2)
            exact ⟨q1, q2, rfl, fun _ h => by cases h⟩

/-- The handle a creation returns is on the metadata stored. -/
theorem createStore_handle {C : Codec} {E : Env} {mkdir : Option Err} {cwd location : Str}
    {fs : AFields} {pks recs : List String} {plan : Option LogicalPlan} {d d' : Disk} {x : Handle}
    (hd : CoreOK C E d) (h : d.createStore C mkdir cwd location fs pks recs plan = (.ok x, d')) :
    ∃ st, d'.stores.get? (place (rooted cwd) location) = some st ∧ st.w.stored = some x.md ∧
      x.branch = mainBranch := by
  unfold Disk.createStore at h
  cases h1 : createSchema C fs pks recs with
  | error e => rw [h1] at h; cases h
  | ok m =>
    rw [h1] at h
    dsimp only at h
    cases h2 : logicalSchema C m with
    | error e => rw [h2] at h; cases h
    | ok l =>
      rw [h2] at h
      dsimp only at h
      cases mkdir with
      | some e => cases h
      | none =>
        dsimp only at h
        have hst := hd.at (place (rooted cwd) location)
        cases h3 : create (flatSchema l pks recs) ((d.stores.get? (place (rooted cwd) location)).getD {}).w with
        | mk r0 w =>
          rw [h3] at h
          cases r0 with
          | error e => cases h
          | ok y =>
            cases h
            rcases hst with ⟨-, a2⟩ | ⟨m0, l0, σ, a1, a2, a3, a4, a5⟩
            · obtain ⟨b1, -, b2, -⟩ := create_ok a2 h3
              exact ⟨⟨w, some ⟨m, flatSchema l pks recs, plan⟩⟩, by simp, b1.storedEq, b2⟩
            · rw [← a5] at h3
              obtain ⟨e1, -⟩ := C16_partial a3 a4 h3
              cases e1

/-- Loading a dataset does not report a storage as not found: the catalog does. -/
theorem loadDataset_found {C : Codec} {E : Env} {d : Disk} (hd : CoreOK C E d) {cwd location : Str} :
    d.loadDataset C cwd location ≠ .error .storageNotFound := by
  intro h
  unfold Disk.loadDataset Disk.loadStore at h
  cases h1 : d.stores.get? (place (rooted cwd) location) with
  | none => rw [h1] at h; cases h
  | some st =>
    rw [h1] at h
    dsimp only at h
    cases h2 : st.made with
    | none =>
      rw [h2] at h
      cases h3 : Space.load st.w with
      | ok x => rw [h3] at h; cases h
      | error e =>
        rw [h3] at h
        cases h
        unfold Space.load readStored at h3
        split at h3
        · cases h3
          rename_i h4
          split at h4
          · cases h4
          · split at h4 <;> cases h4
        · cases h3
    | some m =>
      obtain ⟨x, l, b1, -, -, b2, -⟩ := (hd.stores _ _ h1).load h2
      rw [b1, h2] at h
      dsimp only at h
      rw [b2] at h
      cases h

theorem loadUdf_found {cwd location : Str} {lp : LogicalPlan} {files : Pickles} {p : CompactPlan} {c : FnCall} :
    loadUdf cwd location lp files p c ≠ .error .storageNotFound := by
  unfold loadUdf
  repeat' split
  all_goals simp

theorem lookAll_found {α β : Type} [DecidableEq α] {m : AMap α β} : ∀ {l : List α}, lookAll m l ≠ .error .storageNotFound
  | [] => by simp [lookAll]
  | x :: l => by
    intro h
    unfold lookAll at h
    split at h
    · cases h
    · cases h1 : lookAll m l with
      | ok y => simp [h1] at h
      | error e =>
        rw [h1] at h
        cases h
        exact lookAll_found h1

theorem loadRel_found {load : Str → Except Err Source} {cwd location : Str} {lp : LogicalPlan} {files : Pickles}
    {p : CompactPlan} (hload : ∀ n, load n ≠ .error .storageNotFound) : ∀ {r : Rel},
    loadRel load cwd location lp files p r ≠ .error .storageNotFound
  | .read names => by
    cases names with
    | nil => simp [loadRel]
    | cons n ns =>
      intro h
      unfold loadRel at h
      cases h1 : load n with
      | ok y => simp [h1] at h
      | error e => simp [h1] at h; exact hload n (by rw [h1, h])
  | .project input exprs => by
    cases exprs with
    | nil => simp [loadRel]
    | cons c cs =>
      intro h
      unfold loadRel at h
      dsimp only at h
      cases h1 : loadUdf cwd location lp files p c with
      | error e => rw [h1] at h; cases h; exact loadUdf_found h1
      | ok u =>
        rw [h1] at h
        cases h2 : loadRel load cwd location lp files p input with
        | error e =>
          simp only [Bind.bind, Except.bind, h2] at h
          cases h
          exact loadRel_found hload h2
        | ok v =>
          simp only [Bind.bind, Except.bind, h2] at h
          cases h3 : lookAll (idToName v.schema) c.args with
          | error e => rw [h3] at h; cases h; exact lookAll_found h3
          | ok fl => rw [h3] at h; cases h
  | .filter input c => by
    intro h
    unfold loadRel at h
    cases h1 : loadUdf cwd location lp files p c with
    | error e => rw [h1] at h; cases h; exact loadUdf_found h1
    | ok u =>
      rw [h1] at h
      cases h2 : loadRel load cwd location lp files p input with
      | error e =>
        simp only [Bind.bind, Except.bind, h2] at h
        cases h
        exact loadRel_found hload h2
      | ok v =>
        simp only [Bind.bind, Except.bind, h2] at h
        cases h3 : lookAll (idToName v.schema) c.args with
        | error e => rw [h3] at h; cases h; exact lookAll_found h3
        | ok fl => rw [h3] at h; cases h
  | .other => by simp [loadRel]

theorem loadView_found {load : Str → Except Err Source} {cwd location : Str} {lp : LogicalPlan} {files : Pickles}
    (hload : ∀ n, load n ≠ .error .storageNotFound) :
    loadView load cwd location lp files ≠ .error .storageNotFound := by
  unfold loadView
  split
  · simp
  · exact loadRel_found hload

/-- Dumping functions under new ids keeps the other pickles. -/
theorem dump_keeps {rnd : Nat → Str} {cwd location : Str} : ∀ (us : List (Str × Udf)) (files : Pickles)
    (paths : AMap Str Str), (∀ n ∈ us.map Prod.fst, ∃ i, n = str "udf_" ++ rnd i) →
    ∀ x, (∀ i, x ≠ place (rooted cwd) (pickleFile location (str "udf_" ++ rnd i))) →
    (dumpUdfs cwd location us files paths).1.get? x = files.get? x
  | [], _, _, _, _, _ => rfl
  | (n, u) :: us, files, paths, hn, x, hx => by
    unfold dumpUdfs
    dsimp only
    rw [dump_keeps us _ _ (fun n hn' => hn n (by simp only [List.map_cons]; exact List.mem_cons_of_mem _ hn')) x hx,
      AMap.get?_set_ne _ _ (fun he => ?_)]
    obtain ⟨i, rfl⟩ := hn n (by simp)
    exact hx i he

theorem materialize_pickles {rnd : Nat → Str} {cwd location : Str} {v : View} {d : Disk} {lp : LogicalPlan}
    {files : Pickles} (hid : NewIds rnd cwd location d)
    (h : v.materialize rnd cwd location d.pickles = .ok (lp, files)) :
    ∀ x u, d.pickles.get? x = some u → files.get? x = some u := by
  unfold View.materialize at h
  obtain ⟨⟨r, b⟩, h1, h2⟩ := Except.bind_ok h
  obtain ⟨hb1, -, -⟩ := toRelation_ok (BuilderOK.init rnd) h1
  dsimp only at h2
  cases h2
  intro x u hx
  rw [dump_keeps (rnd := rnd) _ _ _ (fun n hn => ?_) x (fun i he => ?_)]
  · exact hx
  · obtain ⟨k, -, hk⟩ := hb1.named n hn
    exact ⟨k, hk⟩
  · rw [he, hid.unused i] at hx
    cases hx

theorem ofList_toList : ∀ l : List AField, (AFields.ofList l).toList = l
  | [] => rfl
  | f :: l => by simp [AFields.ofList, AFields.toList, ofList_toList l]

/-- Materializing on a disk. -/
theorem materialize_ok {C : Codec} (hC : C.Faithful) {E : Env} {k : DirCatalog} {mkdir : Option Err}
    {rnd : Nat → Str} {name : Str} {v : View} {d d' : Disk} {r : Except Err Opened}
    (hcwd : isabs k.cwd = true) (hn : (v.schema.map AField.name).Nodup) (hb : Built C v)
    (hf : v.Found C k.cwd d) (hid : NewIds rnd k.cwd (k.location name) d)
    (h : k.materialize C mkdir rnd name v d = (r, d')) (hd : DiskOK C E d) :
    DiskOK C E d' ∧ DiskLe d d' ∧ ∀ x, r = .ok x → ∃ st m lp files,
      d'.stores.get? (place (rooted k.cwd) (k.location name)) = some st ∧ st.made = some m ∧
      m.plan = some lp ∧ v.materialize rnd k.cwd (k.location name) d.pickles = .ok (lp, files) ∧
      d'.pickles = files := by
  unfold DirCatalog.materialize at h
  cases mkdir with
  | some e => cases h; exact ⟨hd, .refl d, fun _ h => by cases h⟩
  | none =>
    dsimp only at h
    cases h1 : v.materialize rnd k.cwd (k.location name) d.pickles with
    | error e => rw [h1] at h; cases h; exact ⟨hd, .refl d, fun _ h => by cases h⟩
    | ok x =>
      obtain ⟨lp, files⟩ := x
      rw [h1] at h
      dsimp only at h
      have hpk := materialize_pickles hid h1
      have hc1 : CoreOK C E { d with pickles := files } := ⟨hd.core.keys, hd.core.names, hd.core.others, hd.core.stores⟩
      have hl1 : DiskLe d { d with pickles := files } := ⟨fun _ st _ a b => ⟨st, a, b⟩, hpk⟩
      have hd1 : DiskOK C E { d with pickles := files } :=
        ⟨hc1, fun p st m lp a1 a2 a3 => (hd.plans p st m lp a1 a2 a3).mono hc1 hl1⟩
      have hplan : PlanOK C { d with pickles := files } (place (rooted k.cwd) (k.location name)) lp :=
        ⟨k.cwd, k.location name, rnd, v, d.pickles, files, hcwd, rfl, hid.slash, hb, h1,
          fun s hs => loadDataset_mono hc1 hl1 (hf s hs), fun _ _ h => h⟩
      cases h2 : { d with pickles := files }.createStore C none k.cwd (k.location name) (.ofList v.schema)
          v.pks v.recs (some lp) with
      | mk r0 d2 =>
        rw [h2] at h
        obtain ⟨q1, q2, q3, q4⟩ := createStore_ok hC (E := E)
          (by unfold AFields.names; rw [ofList_toList]; exact hn) hd1
          (fun lp' e => by cases e; exact hplan) h2
        cases r0 with
        | error e => cases h; exact ⟨q1, hl1.trans q2, fun _ h => by cases h⟩
        | ok x =>
          cases h
          refine ⟨q1, hl1.trans q2, fun _ _ => ?_⟩
          obtain ⟨st, m, l, a1, a2, a3, -⟩ := q4 x rfl
          exact ⟨st, m, lp, files, a1, a2, a3, rfl, q3⟩

theorem createDataset_ok {C : Codec} (hC : C.Faithful) {E : Env} {k : DirCatalog} {mkdir : Option Err}
    {name : Str} {fs : AFields} {pks recs : List String} {d d' : Disk} {r : Except Err Opened}
    (hn : fs.names.Nodup)
    (h : k.createDataset C mkdir name fs pks recs d = (r, d')) (hd : DiskOK C E d) :
    DiskOK C E d' ∧ DiskLe d d' ∧ ∀ x, r = .ok x → ∃ st m l,
      d'.stores.get? (place (rooted k.cwd) (k.location name)) = some st ∧ st.made = some m ∧
      m.plan = none ∧ createSchema C fs pks recs = .ok m.stored ∧ logicalSchema C m.stored = .ok l ∧
      m.flat = flatSchema l pks recs := by
  unfold DirCatalog.createDataset at h
  cases h1 : d.createStore C mkdir k.cwd (k.location name) fs pks recs none with
  | mk r0 d1 =>
    rw [h1] at h
    obtain ⟨q1, q2, -, q4⟩ := createStore_ok hC hn hd (fun _ e => by cases e) h1
    cases r0 with
    | error e => cases h; exact ⟨q1, q2, fun _ h => by cases h⟩
    | ok x => cases h; exact ⟨q1, q2, fun _ _ => q4 x rfl⟩

/-- Every step keeps the invariant, and all storages. -/
theorem diskStep_ok {C : Codec} (hC : C.Faithful) {E : Env} {d d' : Disk} (hd : DiskOK C E d)
    (h : DiskStep C E d d') : DiskOK C E d' ∧ DiskLe d d' := by
  cases h with
  | create h1 h2 h3 =>
    obtain ⟨a, b, -⟩ := createDataset_ok hC h2 h3 hd
    exact ⟨a, b⟩
  | materialize h1 h2 h3 h4 h5 h6 =>
    obtain ⟨a, b, -⟩ := materialize_ok hC h1 h2 h3 h4 h5 h6 hd
    exact ⟨a, b⟩
  | @work _ p st m σ σ' h1 h2 h3 h4 h5 =>
    have hs := hd.core.stores _ _ h1
    rcases hs with ⟨a, -⟩ | ⟨m', l, σ0, a1, a2, a3, -, -⟩
    · rw [h2] at a; cases a
    rw [h2] at a1
    cases a1
    exact hd.set (hd.core.names _ (AMap.mem_keys_iff.mpr ⟨_, h1⟩))
      (Or.inr ⟨m, l, σ', rfl, a2, a3, h3.run h5, rfl⟩)
      (fun st0 m0 e1 e2 => by rw [h1] at e1; cases e1; rw [h2] at e2; exact e2)
      (fun m0 lp e1 e2 => by cases e1; exact hd.plans _ _ _ lp h1 h2 e2)
  | @scrap _ p w h1 h2 h3 =>
    have hs := hd.core.at p
    rcases hs with ⟨-, a⟩ | ⟨m', l, σ0, a1, -⟩
    · exact hd.set h1 (Or.inl ⟨rfl, h3.fresh a.fresh, h3.entry.trans a.noEntry⟩)
        (fun st0 m0 e1 e2 => by rw [e1] at h2; exact absurd h2 (by simp [e2]))
        (fun _ _ e => by cases e)
    · rw [h2] at a1; cases a1
  | @other _ x h1 =>
    have hc : CoreOK C E { d with others := x :: d.others } :=
      ⟨hd.core.keys, hd.core.names, fun y hy => by
        rcases List.mem_cons.mp hy with rfl | hy
        · exact h1
        · exact hd.core.others y hy, hd.core.stores⟩
    have hl : DiskLe d { d with others := x :: d.others } := ⟨fun _ st _ a b => ⟨st, a, b⟩, fun _ _ h => h⟩
    exact ⟨⟨hc, fun p st m lp a1 a2 a3 => (hd.plans p st m lp a1 a2 a3).mono hc hl⟩, hl⟩

theorem diskRun_ok {C : Codec} (hC : C.Faithful) {E : Env} {d d' : Disk} (hd : DiskOK C E d)
    (h : DiskRun C E d d') : DiskOK C E d' ∧ DiskLe d d' := by
  induction h with
  | refl => exact ⟨hd, .refl _⟩
  | step _ hs ih =>
    obtain ⟨a, b⟩ := ih
    obtain ⟨a', b'⟩ := diskStep_ok hC a hs
    exact ⟨a', b.trans b'⟩

theorem DiskOK.empty (C : Codec) (E : Env) : DiskOK C E {} :=
  ⟨⟨List.nodup_nil, by simp [AMap.keys], by simp, fun _ _ h => by cases h⟩, fun _ _ _ _ h => by cases h⟩

end Space
