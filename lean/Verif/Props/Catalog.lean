import Verif.CatalogLemmas

/-!
# C49: directory catalogs
-/

set_option autoImplicit false

namespace Space

open Paths (Str str join metadataDir entryPointPath place rooted isabs Name)

/-- The directory holds a storage: there is an entry point in it. -/
def Disk.Holds (d : Disk) (p : List Str) : Prop :=
  ∃ st, d.stores.get? p = some st ∧ (AMap.get? st.w.fs .entryPoint).isSome

/-- The directory a name of a catalog leads to. -/
def DirCatalog.dir (k : DirCatalog) (name : Str) : List Str := place (rooted k.cwd) (k.location name)

/-- **C49**, loading datasets.  On a disk that has come about by any steps, a dataset is created
under a name.  After any further steps (further creations under any names, work on the tables,
crashes) the catalog opens a dataset under the name: a handle on the metadata then stored in that
directory, with the schema given at the creation.  The same holds for another catalog and name
that lead to the same directory, from any working directory. -/
theorem C49_dataset {C : Codec} (hC : C.Faithful) {E : Env} {d d1 d2 : Disk} (h0 : DiskRun C E {} d)
    {k : DirCatalog} {mkdir : Option Err} {name : Str} {fs : AFields} (hn : fs.names.Nodup)
    {pks recs : List String} {o : Opened}
    (h1 : k.createDataset C mkdir name fs pks recs d = (.ok o, d1)) (h2 : DiskRun C E d1 d2)
    {k' : DirCatalog} {name' : Str} (hk : k'.dir name' = k.dir name) :
    ∃ h st m l, k'.dataset C name' d2 = .ok (.dataset (k'.location name') h) ∧
      d2.stores.get? (k.dir name) = some st ∧ st.w.stored = some h.md ∧
      createSchema C fs pks recs = .ok m ∧ logicalSchema C m = .ok l ∧
      h.md.schema = flatSchema l pks recs := by
  obtain ⟨a1, -⟩ := diskRun_ok hC (DiskOK.empty C E) h0
  obtain ⟨b1, -, b2⟩ := createDataset_ok hC hn h1 a1
  obtain ⟨st, m, l, c1, c2, c3, c4, c5, c6⟩ := b2 o rfl
  obtain ⟨d1', d2'⟩ := diskRun_ok hC b1 h2
  obtain ⟨st', e1, e2⟩ := d2'.stores _ _ _ c1 c2
  obtain ⟨h, -, f1, f2, f3, -, -⟩ := (d1'.core.stores _ _ e1).load e2
  refine ⟨h, st', m.stored, l, ?_, e1, f2, c4, c5, f3.trans c6⟩
  unfold DirCatalog.dataset Disk.loadStore
  unfold DirCatalog.dir at hk
  rw [hk, e1]
  dsimp only
  rw [f1, e2]
  dsimp only
  rw [c3]

/-- **C49**, what views find.  A dataset created under a name and loaded as the source of a view,
after any further steps and from any working directory in which the location leads to its
directory, has the logical schema of the fields, the primary keys and the record fields it was
created with. -/
theorem C49_source {C : Codec} (hC : C.Faithful) {E : Env} {d d1 d2 : Disk} (h0 : DiskRun C E {} d)
    {k : DirCatalog} {mkdir : Option Err} {name : Str} {fs : AFields} (hn : fs.names.Nodup)
    {pks recs : List String} {o : Opened}
    (h1 : k.createDataset C mkdir name fs pks recs d = (.ok o, d1)) (h2 : DiskRun C E d1 d2)
    {cwd location : Str} (hk : place (rooted cwd) location = k.dir name) :
    ∃ m l, createSchema C fs pks recs = .ok m ∧ logicalSchema C m = .ok l ∧
      d2.loadDataset C cwd location = .ok ⟨location, l, pks, recs⟩ := by
  obtain ⟨a1, -⟩ := diskRun_ok hC (DiskOK.empty C E) h0
  obtain ⟨b1, -, b2⟩ := createDataset_ok hC hn h1 a1
  obtain ⟨st, m, l, c1, c2, c3, c4, c5, c6⟩ := b2 o rfl
  obtain ⟨d1', d2'⟩ := diskRun_ok hC b1 h2
  obtain ⟨st', e1, e2⟩ := d2'.stores _ _ _ c1 c2
  obtain ⟨h, -, f1, -⟩ := (d1'.core.stores _ _ e1).load e2
  refine ⟨m.stored, l, c4, c5, ?_⟩
  have e : m.stored.pks = pks ∧ m.stored.recs = recs := by
    unfold createSchema at c4
    cases hv : validateSchema fs.toList pks recs with
    | error e => rw [hv] at c4; cases c4
    | ok _ =>
      rw [hv] at c4
      cases hs : substraitFields C (assignIds fs) with
      | error e => rw [hs] at c4; cases c4
      | ok x => rw [hs] at c4; have := Except.ok.inj c4; rw [← this]; exact ⟨rfl, rfl⟩
  unfold Disk.loadDataset Disk.loadStore
  rw [hk]
  unfold DirCatalog.dir
  simp only [e1, f1, e2, c5, e.1, e.2]

theorem loadDataset_cwd {C : Codec} {d : Disk} {cwd cwd' location : Str} (h : isabs location = true) :
    d.loadDataset C cwd location = d.loadDataset C cwd' location := by
  unfold Disk.loadDataset Disk.loadStore
  rw [Paths.place_abs h, Paths.place_abs h]

/-- **C49**, loading views.  A view created under a name is opened under the name after any
further steps, as the same view on the metadata then stored in that directory.  From another
working directory, the datasets the view reads must have absolute locations
(`C49_violated_cwd`). -/
theorem C49_view_partial {C : Codec} (hC : C.Faithful) {E : Env} {d d1 d2 : Disk} (h0 : DiskRun C E {} d)
    {k : DirCatalog} {mkdir : Option Err} {rnd : Nat → Str} {name : Str} {v : View}
    (hcwd : isabs k.cwd = true) (hn : (v.schema.map AField.name).Nodup) (hb : Built C v)
    (hf : v.Found C k.cwd d) (hid : NewIds rnd k.cwd (k.location name) d) {o : Opened}
    (h1 : k.materialize C mkdir rnd name v d = (.ok o, d1)) (h2 : DiskRun C E d1 d2)
    {k' : DirCatalog} {name' : Str} (hk : k'.dir name' = k.dir name)
    (hrel : k'.cwd = k.cwd ∨ ∀ s ∈ v.reads, isabs s.loc = true) :
    ∃ h st, k'.dataset C name' d2 = .ok (.view (k'.location name') h v) ∧
      d2.stores.get? (k.dir name) = some st ∧ st.w.stored = some h.md := by
  obtain ⟨a1, -⟩ := diskRun_ok hC (DiskOK.empty C E) h0
  obtain ⟨b1, b0, b2⟩ := materialize_ok hC hcwd hn hb hf hid h1 a1
  obtain ⟨st, m, lp, files, c1, c2, c3, c4, c5⟩ := b2 o rfl
  obtain ⟨d1', d2'⟩ := diskRun_ok hC b1 h2
  obtain ⟨st', e1, e2⟩ := d2'.stores _ _ _ c1 c2
  obtain ⟨h, -, f1, f2, f3, -, -⟩ := (d1'.core.stores _ _ e1).load e2
  have hv : loadView (d2.loadDataset C k'.cwd) k'.cwd (k'.location name') lp d2.pickles = .ok v := by
    refine C42 hC hid.slash hcwd hb c4 (fun s hs => ?_) (fun below u hu => ?_)
    · have := loadDataset_mono d1'.core (b0.trans d2') (hf s hs)
      rcases hrel with e | e
      · rw [e]; exact this
      · rw [loadDataset_cwd (e s hs)]; exact this
    · have e : place (rooted k'.cwd) (k'.location name') = place (rooted k.cwd) (k.location name) := hk
      rw [e]
      exact d2'.pickles _ _ (by rw [c5]; exact hu)
  refine ⟨h, st', ?_, e1, f2⟩
  unfold DirCatalog.dataset Disk.loadStore
  unfold DirCatalog.dir at hk
  rw [hk, e1]
  dsimp only
  rw [f1, e2]
  dsimp only
  rw [c3]
  dsimp only
  rw [hv]

/-- **C49**, what creating a dataset returns: a dataset at the location of the name, on the metadata
then stored in that directory. -/
theorem C49_created {C : Codec} (hC : C.Faithful) {E : Env} {d d1 : Disk} (h0 : DiskRun C E {} d)
    {k : DirCatalog} {mkdir : Option Err} {name : Str} {fs : AFields} {pks recs : List String} {o : Opened}
    (h1 : k.createDataset C mkdir name fs pks recs d = (.ok o, d1)) :
    ∃ h st, o = .dataset (k.location name) h ∧ d1.stores.get? (k.dir name) = some st ∧
      st.w.stored = some h.md ∧ h.branch = mainBranch := by
  obtain ⟨a1, -⟩ := diskRun_ok hC (DiskOK.empty C E) h0
  unfold DirCatalog.createDataset at h1
  cases h2 : d.createStore C mkdir k.cwd (k.location name) fs pks recs none with
  | mk r d' =>
    rw [h2] at h1
    cases r with
    | error e => cases h1
    | ok h =>
      cases h1
      obtain ⟨st, b1, b2, b3⟩ := createStore_handle a1.core h2
      exact ⟨h, st, rfl, b1, b2, b3⟩

/-- **C49**, what materializing returns: the view at the location of the name, on the metadata then
stored in that directory. -/
theorem C49_materialized {C : Codec} (hC : C.Faithful) {E : Env} {d d1 : Disk} (h0 : DiskRun C E {} d)
    {k : DirCatalog} {mkdir : Option Err} {rnd : Nat → Str} {name : Str} {v : View} {o : Opened}
    (h1 : k.materialize C mkdir rnd name v d = (.ok o, d1)) :
    ∃ h st, o = .view (k.location name) h v ∧ d1.stores.get? (k.dir name) = some st ∧
      st.w.stored = some h.md ∧ h.branch = mainBranch := by
  obtain ⟨a1, -⟩ := diskRun_ok hC (DiskOK.empty C E) h0
  unfold DirCatalog.materialize at h1
  cases mkdir with
  | some e => cases h1
  | none =>
    dsimp only at h1
    cases h3 : v.materialize rnd k.cwd (k.location name) d.pickles with
    | error e => rw [h3] at h1; cases h1
    | ok x =>
      obtain ⟨lp, files⟩ := x
      rw [h3] at h1
      dsimp only at h1
      have hc : CoreOK C E { d with pickles := files } :=
        ⟨a1.core.keys, a1.core.names, a1.core.others, a1.core.stores⟩
      cases h2 : { d with pickles := files }.createStore C none k.cwd (k.location name) (.ofList v.schema)
          v.pks v.recs (some lp) with
      | mk r d' =>
        rw [h2] at h1
        cases r with
        | error e => cases h1
        | ok h =>
          cases h1
          obtain ⟨st, b1, b2, b3⟩ := createStore_handle hc h2
          exact ⟨h, st, rfl, b1, b2, b3⟩

/-- **C49**, names are reported as not found exactly if nothing was created under them. -/
theorem C49_missing {C : Codec} (hC : C.Faithful) {E : Env} {d : Disk} (h0 : DiskRun C E {} d)
    (k : DirCatalog) (name : Str) :
    k.dataset C name d = .error .storageNotFound ↔ ¬ d.Holds (k.dir name) := by
  obtain ⟨a1, -⟩ := diskRun_ok hC (DiskOK.empty C E) h0
  constructor
  · rintro h ⟨st, e1, e2⟩
    have hok := a1.core.stores _ _ e1
    cases hm : st.made with
    | none =>
      have := hok.entry.mp e2
      rw [hm] at this
      cases this
    | some m =>
      obtain ⟨x, l, b1, -, -, b3, -⟩ := hok.load hm
      unfold DirCatalog.dataset Disk.loadStore at h
      unfold DirCatalog.dir at e1
      rw [e1] at h
      dsimp only at h
      rw [b1, hm] at h
      dsimp only at h
      cases hp : m.plan with
      | none => rw [hp] at h; cases h
      | some lp =>
        rw [hp] at h
        dsimp only at h
        cases hv : loadView (d.loadDataset C k.cwd) k.cwd (k.location name) lp d.pickles with
        | ok v => rw [hv] at h; cases h
        | error e =>
          rw [hv] at h
          cases h
          exact loadView_found (fun n => loadDataset_found a1.core) hv
  · intro h
    unfold DirCatalog.dataset Disk.loadStore
    cases hg : d.stores.get? (place (rooted k.cwd) (k.location name)) with
    | none => rfl
    | some st =>
      have he : AMap.get? st.w.fs .entryPoint = none := by
        cases he : AMap.get? st.w.fs .entryPoint with
        | none => rfl
        | some c => exact absurd ⟨st, hg, by rw [he]; rfl⟩ h
      simp [load, readStored, FS.entry, he]

theorem eraseDups_nodup {α : Type} [BEq α] [LawfulBEq α] : ∀ (n : Nat) (l : List α), l.length ≤ n → l.eraseDups.Nodup
  | _, [], _ => by simp
  | 0, _ :: _, h => by cases h
  | n + 1, a :: l, h => by
    rw [List.eraseDups_cons, List.nodup_cons]
    refine ⟨by simp, eraseDups_nodup n _ (Nat.le_trans (List.length_filter_le _ _) (by simpa using h))⟩

theorem isEntry_iff {C : Codec} {E : Env} {d : Disk} (hd : CoreOK C E d) {p : List Str} :
    d.isEntry (p ++ [str "metadata", str "entrypoint.txtpb"]) = true ↔ d.Holds p := by
  unfold Disk.isEntry Disk.Holds
  rw [List.any_eq_true]
  constructor
  · rintro ⟨⟨q, st⟩, h1, h2⟩
    simp only [Bool.and_eq_true, beq_iff_eq, List.append_cancel_right_eq] at h2
    obtain ⟨rfl, h3⟩ := h2
    exact ⟨st, AMap.get?_of_mem hd.keys h1, h3⟩
  · rintro ⟨st, h1, h2⟩
    exact ⟨(p, st), AMap.mem_of_get? h1, by simp [h2]⟩

/-- **C49**, listing.  On a disk that has come about by any steps, listing a catalog whose
directory exists returns each name once, with its location, and a name is listed exactly if it is
the name of a directory in the directory of the catalog that holds a storage.  Missing: storages
created under names with a slash (`C49_violated`). -/
theorem C49_lists_partial {C : Codec} (hC : C.Faithful) {E : Env} {d : Disk} (h0 : DiskRun C E {} d)
    (k : DirCatalog) (hdir : d.isDir (place (rooted k.cwd) k.base) = true) :
    ∃ l, k.datasets d = .ok l ∧ (l.map Prod.fst).Nodup ∧ (∀ x ∈ l, x.2 = k.location x.1) ∧
      ∀ n, n ∈ l.map Prod.fst ↔ Name n ∧ d.Holds (place (rooted k.cwd) k.base ++ [n]) := by
  obtain ⟨a1, -⟩ := diskRun_ok hC (DiskOK.empty C E) h0
  unfold DirCatalog.datasets Disk.listDir
  rw [if_pos hdir]
  refine ⟨_, rfl, ?_, ?_, fun n => ?_⟩
  · rw [List.map_map]
    show ((List.filter _ _).map fun n => n).Nodup
    rw [List.map_id']
    exact (eraseDups_nodup _ _ (Nat.le_refl _)).filter _
  · intro x hx
    obtain ⟨n, -, rfl⟩ := List.mem_map.mp hx
    rfl
  · rw [List.map_map]
    show n ∈ (List.filter _ _).map (fun n => n) ↔ _
    rw [List.map_id', List.mem_filter, List.mem_eraseDups, List.mem_filterMap]
    constructor
    · rintro ⟨⟨q, hq, h1⟩, h2⟩
      have hname : Name n := by
        split at h1
        · have hm : n ∈ q := List.mem_of_mem_drop (List.mem_of_head? h1)
          rcases List.mem_append.mp hq with hq | hq
          · exact a1.core.names q hq n hm
          · obtain ⟨x, hx, rfl⟩ := List.mem_map.mp hq
            exact a1.core.others x hx n hm
        · cases h1
      refine ⟨hname, ?_⟩
      rw [Bool.and_eq_true] at h2
      have h3 := h2.2
      rw [Paths.C33_entry] at h3
      unfold DirCatalog.location at h3
      rw [Paths.place_under hname] at h3
      exact (isEntry_iff a1.core).mp h3
    · rintro ⟨hname, st, h1, h2⟩
      have hloc : place (rooted k.cwd) (k.location n) = place (rooted k.cwd) k.base ++ [n] :=
        Paths.place_under hname
      refine ⟨⟨place (rooted k.cwd) k.base ++ [n], ?_, ?_⟩, ?_⟩
      · exact List.mem_append_left _ (AMap.mem_keys_iff.mpr ⟨st, h1⟩)
      · simp
      · rw [Bool.and_eq_true, Paths.C33_entry, hloc]
        refine ⟨?_, (isEntry_iff a1.core).mpr ⟨st, h1, h2⟩⟩
        unfold Disk.isDir
        rw [Bool.or_eq_true, List.any_eq_true]
        exact Or.inl ⟨_, AMap.mem_of_get? h1, by simp⟩

/-- **C49**, what was created is listed: after any further steps a dataset or view created under
a plain name is in the list. -/
theorem C49_listed_partial {C : Codec} (hC : C.Faithful) {E : Env} {d d1 d2 : Disk} (h0 : DiskRun C E {} d)
    {k : DirCatalog} {name : Str} (hname : Name name) {o : Opened}
    (h1 : (∃ (mkdir : Option Err) (fs : AFields) (pks recs : List String), fs.names.Nodup ∧ isabs k.cwd = true ∧
        k.createDataset C mkdir name fs pks recs d = (.ok o, d1)) ∨
      ∃ mkdir rnd v, isabs k.cwd = true ∧ (v.schema.map AField.name).Nodup ∧ Built C v ∧
        v.Found C k.cwd d ∧ NewIds rnd k.cwd (k.location name) d ∧
        k.materialize C mkdir rnd name v d = (.ok o, d1)) (h2 : DiskRun C E d1 d2) :
    ∃ l, k.datasets d2 = .ok l ∧ (name, k.location name) ∈ l := by
  obtain ⟨a1, -⟩ := diskRun_ok hC (DiskOK.empty C E) h0
  have hst : ∃ st m, d1.stores.get? (k.dir name) = some st ∧ st.made = some m := by
    rcases h1 with ⟨mkdir, fs, pks, recs, hn, -, h⟩ | ⟨mkdir, rnd, v, e1, e2, e3, e4, e5, h⟩
    · obtain ⟨-, -, b⟩ := createDataset_ok hC hn h a1
      obtain ⟨st, m, l, c1, c2, -⟩ := b o rfl
      exact ⟨st, m, c1, c2⟩
    · obtain ⟨-, -, b⟩ := materialize_ok hC e1 e2 e3 e4 e5 h a1
      obtain ⟨st, m, lp, files, c1, c2, -⟩ := b o rfl
      exact ⟨st, m, c1, c2⟩
  have h01 : DiskRun C E {} d1 := by
    rcases h1 with ⟨mkdir, fs, pks, recs, hn, hc, h⟩ | ⟨mkdir, rnd, v, e1, e2, e3, e4, e5, h⟩
    · exact .step h0 (.create hc hn h)
    · exact .step h0 (.materialize e1 e2 e3 e4 e5 h)
  have h02 : DiskRun C E {} d2 := by
    clear hst h1
    induction h2 with
    | refl => exact h01
    | step _ hs ih => exact .step ih hs
  obtain ⟨st, m, c1, c2⟩ := hst
  obtain ⟨a2, -⟩ := diskRun_ok hC (DiskOK.empty C E) h01
  obtain ⟨a3, hle⟩ := diskRun_ok hC a2 h2
  obtain ⟨st', e1, e2⟩ := hle.stores _ _ _ c1 c2
  have hloc : k.dir name = place (rooted k.cwd) k.base ++ [name] := Paths.place_under hname
  rw [hloc] at e1
  obtain ⟨l, f1, -, f2, f3⟩ := C49_lists_partial hC h02 k (by
    unfold Disk.isDir
    rw [Bool.or_eq_true, List.any_eq_true]
    exact Or.inl ⟨_, AMap.mem_of_get? e1, by simp⟩)
  refine ⟨l, f1, ?_⟩
  obtain ⟨x, hx, rfl⟩ := List.mem_map.mp ((f3 name).mpr ⟨hname, st', e1,
    ((a3.core.stores _ _ e1).entry).mpr (by rw [e2]; rfl)⟩)
  have : x = (x.1, k.location x.1) := Prod.ext rfl (f2 x hx)
  rw [← this]
  exact hx


/-! ### Examples, and where it fails -/

namespace Demo

/-- A catalog. -/
def shelf : DirCatalog := ⟨str "/home", str "cat/../shelf"⟩

/-- A disk with a dataset, after a second try to create it. -/
def disk1 : Disk :=
  (shelf.createDataset codec none (str "src") nested ["id"] []
    (shelf.createDataset codec none (str "src") nested ["id"] ["img"]
      { others := [([str "home", str "shelf", str "notes.txt"], false)] }).2).2

/-- The dataset as a view. -/
def found : Source := (disk1.loadDataset codec (str "/home") (shelf.location (str "src"))).toOption.getD ⟨[], [], [], []⟩

/-- A filter on it. -/
def viewed : View := ((View.dataset found).filterBy 1 none).toOption.getD (.dataset found)

/-- The filter is materialized. -/
def disk2 : Disk := (shelf.materialize codec none ids (str "mv") viewed disk1).2

/-- What kind of object was opened. -/
def isView : Except Err Opened → Option Bool
  | .ok (.dataset ..) => some false
  | .ok (.view _ _ v) => some (v = viewed)
  | .error _ => none


/-- The names, as strings. -/
def names (r : Except Err (List (Str × Str))) : Option (List Str) := r.toOption.map (·.map Prod.fst)

end Demo

open Demo in
theorem Demo.disk1_run (E : Env) : DiskRun codec E {} disk1 :=
  .step (.step (.step (.refl _) (.other (x := ([str "home", str "shelf", str "notes.txt"], false)) (by
      simp only [List.mem_cons, List.not_mem_nil, or_false]
      rintro y (rfl | rfl | rfl) <;> (unfold Name; decide))))
    (.create (k := shelf) (name := str "src") (fs := nested) (mkdir := none) (pks := ["id"]) (recs := ["img"])
      (by decide) (by decide) rfl))
    (.create (k := shelf) (name := str "src") (fs := nested) (mkdir := none) (pks := ["id"]) (recs := [])
      (by decide) (by decide) rfl)

/-- The hypotheses of `C49_view_partial` hold for the filter on the dataset. -/
theorem Demo.viewed_ok : Built Demo.codec Demo.viewed ∧ (Demo.viewed.schema.map AField.name).Nodup ∧
    Demo.viewed.Found Demo.codec (str "/home") Demo.disk1 ∧
    NewIds Demo.ids (str "/home") (Demo.shelf.location (str "mv")) Demo.disk1 := by
  refine ⟨.filter (v := .dataset Demo.found) (.dataset ?_) (fn := 1) (fields := none) rfl, by decide +kernel, ?_, ?_⟩
  · exact ⟨Demo.nested, (createSchema Demo.codec Demo.nested ["id"] ["img"]).toOption.get (by decide), rfl, rfl⟩
  · intro s hs
    cases List.mem_singleton.mp hs
    rfl
  · exact ⟨fun i => by simp [Demo.ids], fun i => rfl⟩

/-- Both are there after the second, failed creation of the dataset, and both are listed. -/
example : Demo.isView (Demo.shelf.dataset Demo.codec (str "src") Demo.disk2) = some false ∧
    Demo.isView (Demo.shelf.dataset Demo.codec (str "mv") Demo.disk2) = some true ∧
    Demo.names (Demo.shelf.datasets Demo.disk2) = some [str "src", str "mv"] := by decide +kernel

/-- The first dataset as the source of views, by another path to its directory. -/
example : (Demo.disk2.loadDataset Demo.codec Demo.shelf.cwd (str "shelf/src")).toOption.map (fun s => (s.loc, s.pks, s.recs)) =
    some (str "shelf/src", ["id"], ["img"]) := by decide +kernel

/-- The second creation failed. -/
example : ∃ d, Demo.shelf.createDataset Demo.codec none (str "src") Demo.nested ["id"] [] Demo.disk1 =
    (.error .storageExists, d) := ⟨_, rfl⟩

/-- A third dataset is created beside them, and is returned at its location. -/
example : ∃ h d, Demo.shelf.createDataset Demo.codec none (str "new") Demo.nested ["id"] [] Demo.disk2 =
    (.ok (.dataset (str "cat/../shelf/new") h), d) := ⟨_, _, rfl⟩

/-- Nothing is there before it. -/
example : Demo.shelf.dataset Demo.codec (str "new") Demo.disk2 = .error .storageNotFound := rfl

/-- C49 fails for names with a slash: a dataset is created under the name `a/b` and is opened under
it, but listing does not return it (`directory.py:69` looks at direct children only). -/
theorem C49_violated : ∃ (E : Env) (k : DirCatalog) (name : Str) (o o' : Opened) (d d1 : Disk) (l : List (Str × Str)),
    DiskRun Demo.codec E {} d ∧ DiskRun Demo.codec E d d1 ∧
    k.createDataset Demo.codec none name Demo.nested ["id"] [] d = (.ok o, d1) ∧
    k.dataset Demo.codec name d1 = .ok o' ∧ d1.Holds (k.dir name) ∧
    k.datasets d1 = .ok l ∧ name ∉ l.map Prod.fst := by
  refine ⟨Demo.env, Demo.shelf, str "a/b", _, _, {}, _, [], .refl _,
    .step (.refl _) (.create (k := Demo.shelf) (name := str "a/b") (fs := Demo.nested) (mkdir := none)
      (pks := ["id"]) (recs := []) (by decide) (by decide) rfl), rfl, rfl, ⟨_, rfl, rfl⟩, ?_, by simp⟩
  rfl

/-- Listing a catalog whose directory does not exist raises. -/
theorem C49_nodir (k : DirCatalog) (d : Disk) (h : d.isDir (place (rooted k.cwd) k.base) = false) :
    k.datasets d = .error (.other "FileNotFoundError") := by
  unfold DirCatalog.datasets Disk.listDir
  rw [h]
  rfl

/-- C49 fails for a view on a dataset with a relative location, opened from another working
directory through a catalog that leads to the same directory: the plan has the relative location
(`datasets.py:119-121`). -/
theorem C49_violated_cwd : ∃ (E : Env) (k k' : DirCatalog) (name : Str) (v : View) (rnd : Nat → Str) (o : Opened)
    (d d1 : Disk), DiskRun Demo.codec E {} d ∧ Built Demo.codec v ∧ (v.schema.map AField.name).Nodup ∧
    v.Found Demo.codec k.cwd d ∧ NewIds rnd k.cwd (k.location name) d ∧
    k.materialize Demo.codec none rnd name v d = (.ok o, d1) ∧ k'.dir name = k.dir name ∧
    k'.dataset Demo.codec name d1 = .error (.other "FileNotFoundError") := by
  obtain ⟨h1, h2, h3, h4⟩ := Demo.viewed_ok
  exact ⟨Demo.env, Demo.shelf, ⟨str "/", str "home/shelf"⟩, str "mv", Demo.viewed, Demo.ids, _, Demo.disk1, Demo.disk2,
    Demo.disk1_run _, h1, h2, h3, h4, rfl, by decide, rfl⟩

end Space
