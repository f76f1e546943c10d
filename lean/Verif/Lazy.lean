import Verif.TableRead
import Verif.History

/-!
# Reads consumed over time

`LocalRunner.read` (`core/runners.py:207-227`) reloads and lists the data files when
it is called and returns an iterator (`ops/read.py:93-135`) that opens each index file,
and the record files of each batch, only when the consumer asks for the batch.
`clock i j` is the file system at the `j`-th access made for the `i`-th file.
-/

namespace Space

/-- `readBatches` with batch `j` read at time `j`. -/
def lazyBatches (c : Nat → FS) (s : Schema) (cols : List String) (j : Nat) :
    List (List Row) → Except Err (List (List Row))
  | [] => .ok []
  | b :: bs =>
    match readBatch (c j) s cols b with
    | .error e => .error e
    | .ok t =>
      match lazyBatches c s cols (j + 1) bs with
      | .error e => .error e
      | .ok ts => .ok (t :: ts)

/-- `readFile` (`read.py:93-135`) with the index file opened at time 0 and the batches
at later times. -/
def lazyFile (E : Env) (c : Nat → FS) (s : Schema) (o : ReadOpts) (f : DataFile) :
    Except Err (List (List Row)) :=
  if (o.cols s).all (fun c => s.names.contains c) then
    match readTable E (c 0) f.path (o.cols s) o.filter with
    | .error e => .error e
    | .ok rows =>
      match selectRows f rows with
      | .error e => .error e
      | .ok rows =>
        if o.refRead then .ok [rows]
        else if f.slice.isSome then lazyBatches c s (o.cols s) 1 [rows]
        else lazyBatches c s (o.cols s) 1 (toBatches E o.batch rows)
  else .error (.other "ArrowInvalid")

/-- `readFiles` (`read.py:93-135`), file `i` read at the times of `clock i`. -/
def lazyFiles (E : Env) (clock : Nat → Nat → FS) (s : Schema) (o : ReadOpts) (i : Nat) :
    List DataFile → Except Err (List (List Row))
  | [] => .ok []
  | f :: files =>
    match lazyFile E (clock i) s o f with
    | .error e => .error e
    | .ok ts =>
      match lazyFiles E clock s o (i + 1) files with
      | .error e => .error e
      | .ok us => .ok (ts ++ us)

/-- `LocalRunner.read` up to the returned iterator (`core/runners.py:207-227`): the
schema and the files it will read. -/
def planRead (h : Handle) (w : World) (o : ReadOpts) (v : Option Version) :
    Except Err (Schema × List DataFile) :=
  match reload (h, w) with
  | (.error e, _) => .error e
  | (.ok _, (h', w')) =>
    match (match v with
      | none => .ok none
      | some v => (h'.md.versionId v).map some : Except Err (Option Nat)) with
    | .error e => .error e
    | .ok id =>
      match dataFiles w'.fs h' o.filter id with
      | .error e => .error e
      | .ok fset => .ok (h'.md.schema, fset.files)

/-- `read` called in `w` and consumed at the times of `clock`; all rows. -/
def lazyRead (E : Env) (h : Handle) (w : World) (clock : Nat → Nat → FS) (o : ReadOpts)
    (v : Option Version) : Except Err (List Row) :=
  match planRead h w o v with
  | .error e => .error e
  | .ok (s, files) => (lazyFiles E clock s o 0 files).map rowsOf

/-! ## Growth of the file system does not matter -/

theorem readTable_grow {E : Env} {fs fs' : FS} (hf : FSLe fs fs') {p : Path} {cols : List String}
    {filter : Option Expr} (h : (fs.parquet p).isSome) :
    readTable E fs' p cols filter = readTable E fs p cols filter := by
  obtain ⟨g, hg⟩ := Option.isSome_iff_exists.mp h
  simp [readTable, hg, hf.parquet hg]

theorem readRecordColumn_grow {fs fs' : FS} (hf : FSLe fs fs') {vs : List Val}
    (h : ∀ v ∈ vs, AddrVal fs.records v) : readRecordColumn fs' vs = readRecordColumn fs vs := by
  rw [readRecordColumn_eq h, readRecordColumn_eq fun v hv => (h v hv).mono hf.lookLe]
  congr 1
  exact List.map_congr_left fun v hv => derefVal_mono hf.lookLe (h v hv)

theorem addRecordCols_grow {fs fs' : FS} (hf : FSLe fs fs') {batch : List Row} :
    ∀ (cs : List String) (rows : List Row), (∀ c ∈ cs, ∀ r ∈ batch, AddrVal fs.records (r.val c)) →
    addRecordCols fs' batch cs rows = addRecordCols fs batch cs rows
  | [], _, _ => rfl
  | c :: cs, rows, h => by
    simp only [addRecordCols]
    rw [readRecordColumn_grow hf (by
      intro v hv
      obtain ⟨r, hr, rfl⟩ := List.mem_map.mp hv
      exact h c (List.mem_cons_self ..) r hr)]
    cases readRecordColumn fs (batch.map (·.val c)) with
    | error e => rfl
    | ok col => exact addRecordCols_grow hf cs _ fun c' hc => h c' (List.mem_cons_of_mem _ hc)

/-- Selected rows of stored rows. -/
def FromRows (L : Look) (s : Schema) (cols : List String) (b : List Row) : Prop :=
  ∀ x ∈ b, ∃ r, RowOK L s r ∧ x = r.select cols

theorem readBatch_grow {fs fs' : FS} (hf : FSLe fs fs') {s : Schema} {cols : List String}
    {b : List Row} (hc : ∀ c ∈ cols, c ∈ s.names) (h : FromRows fs.records s cols b) :
    readBatch fs' s cols b = readBatch fs s cols b := by
  unfold readBatch
  refine addRecordCols_grow hf _ _ fun c hcm x hx => ?_
  obtain ⟨r, hr, rfl⟩ := h x hx
  obtain ⟨h1, h2⟩ := List.mem_filter.mp hcm
  rw [select_val h1]
  exact hr.addrVal (by simpa using h2) (hc c h1)

theorem lazyBatches_grow {fs : FS} {c : Nat → FS} (hf : ∀ j, FSLe fs (c j)) {s : Schema}
    {cols : List String} (hc : ∀ c ∈ cols, c ∈ s.names) : ∀ (bs : List (List Row)) (j : Nat),
    (∀ b ∈ bs, FromRows fs.records s cols b) →
    lazyBatches c s cols j bs = readBatches fs s cols bs
  | [], _, _ => rfl
  | b :: bs, j, h => by
    simp only [lazyBatches, readBatches]
    rw [readBatch_grow (hf j) hc (h b (List.mem_cons_self ..)),
      lazyBatches_grow hf hc bs (j + 1) fun b' hb => h b' (List.mem_cons_of_mem _ hb)]
    rfl

/-- A plain data file as listed in a manifest: it exists and its rows fit. -/
def PlainOK (fs : FS) (s : Schema) (f : DataFile) : Prop :=
  ∃ g, fs.parquet f.path = some g ∧ ∀ r ∈ g.flatten, RowOK fs.records s r

theorem lazyFile_grow {E : Env} {fs : FS} {c : Nat → FS} (hf : ∀ j, FSLe fs (c j)) {s : Schema}
    {o : ReadOpts} {f : DataFile} (h : PlainOK fs s f) :
    lazyFile E c s o f = readFile E fs s o f := by
  obtain ⟨g, hg, hr⟩ := h
  unfold lazyFile readFile
  split
  · rename_i hc
    rw [readTable_grow (hf 0) (by simp [hg]), readTable_eq _ _ hg]
    simp only [selectRows_map]
    cases hs : selectRows f (filterRows E.I o.filter g.flatten) with
    | error e => rfl
    | ok rows =>
      simp only [Except.map]
      have hc' : ∀ c ∈ o.cols s, c ∈ s.names := by simpa using hc
      have hrows : FromRows fs.records s (o.cols s) (rows.map (·.select (o.cols s))) := by
        intro x hx
        obtain ⟨r, hrm, rfl⟩ := List.mem_map.mp hx
        exact ⟨r, hr r (filterRows_subset r (selectRows_subset hs r hrm)), rfl⟩
      split
      · rfl
      · split
        · exact lazyBatches_grow hf hc' _ 1 (by simpa using hrows)
        · refine lazyBatches_grow hf hc' _ 1 fun b hb x hx => hrows x ?_
          rw [← toBatches_flatten E o.batch (rows.map (·.select (o.cols s)))]
          exact List.mem_flatten.mpr ⟨b, hb, hx⟩
  · rfl

theorem lazyFiles_grow {E : Env} {fs : FS} {clock : Nat → Nat → FS}
    (hf : ∀ i j, FSLe fs (clock i j)) {s : Schema} {o : ReadOpts} :
    ∀ (files : List DataFile) (i : Nat), (∀ f ∈ files, PlainOK fs s f) →
    lazyFiles E clock s o i files = readFiles E fs s o files
  | [], _, _ => rfl
  | f :: files, i, h => by
    simp only [lazyFiles, readFiles]
    rw [lazyFile_grow (hf i) (h f (List.mem_cons_self ..)),
      lazyFiles_grow hf files (i + 1) fun g hg => h g (List.mem_cons_of_mem _ hg)]
    rfl

theorem lazyBatches_const {fs : FS} {s : Schema} {cols : List String} : ∀ (bs : List (List Row)) (j : Nat),
    lazyBatches (fun _ => fs) s cols j bs = readBatches fs s cols bs
  | [], _ => rfl
  | b :: bs, j => by simp only [lazyBatches, readBatches]; rw [lazyBatches_const bs (j + 1)]; rfl

theorem lazyFiles_const {E : Env} {fs : FS} {s : Schema} {o : ReadOpts} :
    ∀ (files : List DataFile) (i : Nat),
    lazyFiles E (fun _ _ => fs) s o i files = readFiles E fs s o files
  | [], _ => rfl
  | f :: files, i => by
    have : lazyFile E (fun _ => fs) s o f = readFile E fs s o f := by
      unfold lazyFile readFile
      simp only [lazyBatches_const]
      rfl
    simp only [lazyFiles, readFiles]
    rw [this, lazyFiles_const files (i + 1)]
    rfl

/-- Files listed for a well-formed snapshot. -/
theorem collectFiles_plain {fs : FS} {s : Schema} {snap : Snapshot} {mf : Option MExpr}
    (hok : SnapOK fs s snap) : ∃ fset, collectFiles fs mf snap.index 1 = .ok fset ∧
      ∀ f ∈ fset.files, PlainOK fs s f := by
  refine ⟨_, collectFiles_eq snap.index 1 (fun p hp => ?_), ?_⟩
  · obtain ⟨rows, h, -⟩ := hok.manifests p hp
    simp [h]
  · intro f hf
    obtain ⟨p, hp, m, hm, n, rfl, -⟩ := packFiles_mem hf
    obtain ⟨rows, h1, -, h3⟩ := hok.manifests p (List.mem_filter.mp hp).1
    have hm' := (List.mem_filter.mp hm).1
    obtain ⟨g, g1, -, -, g4⟩ := h3 m (by simpa [entriesOf, h1] using hm')
    exact ⟨g, g1, g4⟩

theorem collectFiles_grow {fs fs' : FS} (hf : FSLe fs fs') {mf : Option MExpr} : ∀ {ps : List Path}
    {mid : Nat}, (∀ p ∈ ps, (fs.imanifest p).isSome) →
    collectFiles fs' mf ps mid = collectFiles fs mf ps mid := by
  intro ps mid h
  rw [collectFiles_eq ps mid h]
  exact collectFiles_mono hf (collectFiles_eq ps mid h)

/-- A well-formed snapshot reads the same, or fails the same way, once files have
been added. -/
theorem readSnap_grow {E : Env} {fs fs' : FS} (hf : FSLe fs fs') {s : Schema} {o : ReadOpts}
    {snap : Snapshot} (hok : SnapOK fs s snap) : readSnap E fs' s o snap = readSnap E fs s o snap := by
  unfold readSnap
  cases manifestFilter s o.filter with
  | error e => rfl
  | ok mf =>
    obtain ⟨fset, h1, h2⟩ := collectFiles_plain (mf := mf) hok
    simp only
    rw [collectFiles_mono hf h1, h1]
    simp only
    rw [← lazyFiles_const fset.files 0, lazyFiles_grow (fun _ _ => hf) _ 0 h2]

theorem target_ok {s : Schema} {w : World} {md : Metadata} (hw : WOK s w md) {b : String}
    {v : Option Version} {snap : Snapshot} (ht : md.target b v = .ok snap) :
    SnapOK w.fs s snap ∧ ∃ n, md.snaps.get? n = some snap := by
  have key : ∀ n, md.snapshot n = .ok snap → SnapOK w.fs s snap ∧ ∃ n, md.snaps.get? n = some snap := by
    intro n hn
    unfold Metadata.snapshot at hn
    cases hg : md.snaps.get? n with
    | none => rw [hg] at hn; cases hn
    | some sn =>
      rw [hg] at hn
      cases hn
      exact ⟨hw.schema ▸ hw.ok.snaps n snap hg, n, hg⟩
  unfold Metadata.target at ht
  cases v with
  | none =>
    simp only at ht
    cases hc : md.currentId b with
    | error e => rw [hc] at ht; cases ht
    | ok n => rw [hc] at ht; exact key n ht
  | some v =>
    simp only at ht
    cases hc : md.versionId v with
    | error e => rw [hc] at ht; cases ht
    | ok n => rw [hc] at ht; exact key n ht

/-- Reads of the same version through handles on the same metadata agree, errors
included. -/
theorem tableRead_agree {E : Env} {s : Schema} {w w' : World} {md md' : Metadata} {h h' : Handle}
    (hw : WOK s w md) (hh : HandleOK s w h) (hw' : WOK s w' md') (hh' : HandleOK s w' h')
    (hf : FSLe w.fs w'.fs) {o : ReadOpts} {v v' : Option Version}
    (ht : md'.target h'.branch v' = md.target h.branch v) :
    tableRead E h' w' o v' = tableRead E h w o v := by
  rw [tableRead_target hw hh, tableRead_target hw' hh', ht]
  cases htt : md.target h.branch v with
  | error e => rfl
  | ok snap =>
    simp only
    rw [readSnap_grow hf (target_ok hw htt).1]

/-- The files a read will open. -/
theorem planRead_target {s : Schema} {w : World} {md : Metadata} {h : Handle}
    (hw : WOK s w md) (hh : HandleOK s w h) (o : ReadOpts) (v : Option Version) :
    planRead h w o v =
      match md.target h.branch v with
      | .error e => .error e
      | .ok snap =>
        match manifestFilter s o.filter with
        | .error e => .error e
        | .ok mf =>
          match collectFiles w.fs mf snap.index 1 with
          | .error e => .error e
          | .ok fset => .ok (s, fset.files) := by
  obtain ⟨b, h', hr, e1, e2, e3, -⟩ := reload_eq hw hh
  unfold planRead
  rw [hr]
  simp only
  have hs : h'.md.schema = s := e3.schema
  cases v with
  | none =>
    simp only [Metadata.target, dataFiles, Handle.snapshot, e1, e2]
    cases md.currentId h.branch with
    | error e => rfl
    | ok n =>
      simp only
      cases md.snapshot n with
      | error e => rfl
      | ok snap =>
        simp only [hw.schema]
        cases manifestFilter s o.filter with
        | error e => rfl
        | ok mf => simp only
  | some v =>
    simp only [Metadata.target, e1]
    cases md.versionId v with
    | error e => rfl
    | ok n =>
      simp only [Except.map, dataFiles, Handle.snapshot, e1]
      cases md.snapshot n with
      | error e => rfl
      | ok snap =>
        simp only [hw.schema]
        cases manifestFilter s o.filter with
        | error e => rfl
        | ok mf => simp only

/-- Consuming a read late gives the rows it would have given at once. -/
theorem lazyRead_eq {E : Env} {s : Schema} {w : World} {md : Metadata} {h : Handle}
    (hw : WOK s w md) (hh : HandleOK s w h) {clock : Nat → Nat → FS}
    (hf : ∀ i j, FSLe w.fs (clock i j)) (o : ReadOpts) (v : Option Version) :
    lazyRead E h w clock o v = tableRead E h w o v := by
  unfold lazyRead
  rw [planRead_target hw hh, tableRead_target hw hh]
  cases ht : md.target h.branch v with
  | error e => rfl
  | ok snap =>
    simp only [readSnap]
    cases manifestFilter s o.filter with
    | error e => rfl
    | ok mf =>
      obtain ⟨fset, h1, h2⟩ := collectFiles_plain (mf := mf) (target_ok hw ht).1
      simp only [h1]
      rw [lazyFiles_grow hf _ 0 h2]

end Space
