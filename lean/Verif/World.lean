import Verif.Filter

/-!
# File contents, metadata and the state of the file system
-/

namespace Space

/-! ## Errors -/

/-- `utils/errors.py:18-55`; `other` stands for Python and library exceptions
(KeyError, TypeError, ValueError, ArrowInvalid, FileNotFoundError, ...). -/
inductive Err where
  | userInput
  | versionNotFound
  | versionExists
  | pkExists
  | fileExists
  | storageExists
  | storageNotFound
  | runtime
  | other (kind : String)
deriving DecidableEq, Repr

/-- Caught by the `transactional` decorator (`core/runners.py:117`):
`SpaceRuntimeError` and `UserInputError` with their subclasses. -/
def Err.caught : Err → Bool
  | .other _ => false
  | _ => true

/-! ## Metadata messages -/

/-- `metadata.proto:145-157` `StorageStatistics`. -/
structure SStats where
  rows : Int := 0
  icb : Int := 0
  iub : Int := 0
  rub : Int := 0
deriving DecidableEq, Repr

/-- `update_index_storage_stats` (`ops/utils.py:29-36`). -/
def SStats.addIndex (base update : SStats) : SStats :=
  { base with rows := base.rows + update.rows, icb := base.icb + update.icb,
              iub := base.iub + update.iub }

/-- `update_record_stats_bytes` (`ops/utils.py:39-42`). -/
def SStats.addRecord (base update : SStats) : SStats := { base with rub := base.rub + update.rub }

/-- One row of an index manifest (`manifests/index.py:42-65`). -/
structure ManifestRow where
  file : Path
  numRows : Nat
  icb : Nat
  iub : Nat
  stats : Stats
deriving DecidableEq, Repr

/-- One row of a record manifest (`manifests/record.py:27-32`). -/
structure RecManifestRow where
  file : Path
  fid : Nat
  numRows : Nat
  bytes : Nat
deriving DecidableEq, Repr

/-- `metadata.proto:177-192` `RowBitmap`; the roaring bitmap is the list of its
row ids (empty when `allRows`). -/
structure RowBitmap where
  file : Path
  allRows : Bool
  numRows : Nat
  bits : List Nat
deriving DecidableEq, Repr

/-- `metadata.proto:162-171` `ChangeLog`. -/
structure ChangeLog where
  deleted : List RowBitmap := []
  added : List RowBitmap := []
deriving DecidableEq, Repr

/-- `metadata.proto:90-113` `Snapshot` (times left out). -/
structure Snapshot where
  id : Nat
  index : List Path := []
  recs : List Path := []
  stats : SStats := {}
  log : Option Path := none
  parent : Option Nat := none
deriving DecidableEq, Repr

/-- `metadata.proto:123-129` reference type. -/
inductive RefKind where
  | tag | branch
deriving DecidableEq, Repr

/-- `metadata.proto:116-131` `SnapshotReference`. -/
structure Ref where
  id : Nat
  kind : RefKind
deriving DecidableEq, Repr

/-- `metadata.proto:39-74` `StorageMetadata` (times, type and logical plan left
out; the plan is modelled in `Verif/Plans.lean`). -/
structure Metadata where
  schema : Schema
  current : Nat
  snaps : AMap Nat Snapshot
  refs : AMap String Ref
deriving DecidableEq, Repr

/-- `runtime.proto:71-83` `Patch`. -/
structure Patch where
  addIdx : List Path := []
  addRec : List Path := []
  delIdx : List Path := []
  stats : SStats := {}
  log : Option ChangeLog := none
deriving DecidableEq, Repr

/-- `runtime.proto:33-59` `DataFile`. -/
structure DataFile where
  path : Path
  stats : SStats := {}
  mid : Nat := 0
  slice : Option (Nat × Nat) := none
  bitmap : Option RowBitmap := none
deriving DecidableEq, Repr

/-- `runtime.proto:61-69` `FileSet`. -/
structure FileSet where
  files : List DataFile := []
  manifests : AMap Nat Path := []
deriving DecidableEq, Repr

/-! ## The file system -/

/-- Content of a file. A Parquet index file is its row groups, an ArrayRecord
file its records (byte strings). -/
inductive Content where
  | entry (metadataFile : Path)
  | mdata (md : Metadata)
  | log (cl : ChangeLog)
  | imanifest (rows : List ManifestRow)
  | rmanifest (rows : List RecManifestRow)
  | parquet (groups : List (List Row))
  | records (rs : List (List Nat))
deriving DecidableEq, Repr

/-- Files by path. -/
abbrev FS := AMap Path Content

/-- The state shared by all processes: files, and the next unused uuid.  The log
lists the files put in place, in order; nothing reads it, it serves to state what is
left by a process that dies half way. -/
structure World where
  fs : FS := []
  next : Nat := 0
  log : List (Path × Content) := []
deriving DecidableEq, Repr

/-- A file is in place. -/
def World.put (w : World) (p : Path) (c : Content) : World :=
  { w with fs := AMap.set w.fs p c, log := w.log ++ [(p, c)] }

/-- Typed file reads; a missing file or one of another kind is `none`. -/
def FS.parquet (fs : FS) (p : Path) : Option (List (List Row)) :=
  match AMap.get? fs p with
  | some (.parquet g) => some g
  | _ => none

@[inherit_doc FS.parquet] def FS.records (fs : FS) (p : Path) : Option (List (List Nat)) :=
  match AMap.get? fs p with
  | some (.records r) => some r
  | _ => none

@[inherit_doc FS.parquet] def FS.imanifest (fs : FS) (p : Path) : Option (List ManifestRow) :=
  match AMap.get? fs p with
  | some (.imanifest r) => some r
  | _ => none

@[inherit_doc FS.parquet] def FS.rmanifest (fs : FS) (p : Path) : Option (List RecManifestRow) :=
  match AMap.get? fs p with
  | some (.rmanifest r) => some r
  | _ => none

@[inherit_doc FS.parquet] def FS.log (fs : FS) (p : Path) : Option ChangeLog :=
  match AMap.get? fs p with
  | some (.log c) => some c
  | _ => none

@[inherit_doc FS.parquet] def FS.mdata (fs : FS) (p : Path) : Option Metadata :=
  match AMap.get? fs p with
  | some (.mdata m) => some m
  | _ => none

@[inherit_doc FS.parquet] def FS.entry (fs : FS) : Option Path :=
  match AMap.get? fs .entryPoint with
  | some (.entry p) => some p
  | _ => none

/-! ## Computations with exceptions; the state survives an exception -/

/-- Python statements: state in, result or exception and state out. -/
def M (σ α : Type) := σ → Except Err α × σ

namespace M
variable {σ α β : Type}

/-- return -/
def ret (a : α) : M σ α := fun s => (.ok a, s)
/-- raise -/
def raise (e : Err) : M σ α := fun s => (.error e, s)
/-- sequencing -/
def andThen (m : M σ α) (f : α → M σ β) : M σ β := fun s =>
  match m s with
  | (.ok a, s') => f a s'
  | (.error e, s') => (.error e, s')

instance : Monad (M σ) where
  pure := ret
  bind := andThen

/-- state access -/
def get : M σ σ := fun s => (.ok s, s)
/-- state update -/
def modify (f : σ → σ) : M σ Unit := fun s => (.ok (), f s)
/-- a pure result or exception -/
def lift (e : Except Err α) : M σ α := fun s => (e, s)

theorem bind_ok {m : M σ α} {f : α → M σ β} {s s' : σ} {b : β} :
    (m >>= f) s = (.ok b, s') ↔ ∃ a s1, m s = (.ok a, s1) ∧ f a s1 = (.ok b, s') := by
  show andThen m f s = _ ↔ _
  unfold andThen
  split
  · rename_i a s1 h
    constructor
    · intro h'; exact ⟨a, s1, h, h'⟩
    · rintro ⟨a', s1', h1, h2⟩
      rw [h] at h1
      cases h1
      exact h2
  · rename_i e s1 h
    constructor
    · intro h'; simp at h'
    · rintro ⟨a', s1', h1, h2⟩
      rw [h] at h1
      cases h1

theorem pure_apply (a : α) (s : σ) : (pure a : M σ α) s = (.ok a, s) := rfl
@[simp] theorem pure_ok {a b : α} {s s' : σ} : (pure a : M σ α) s = (.ok b, s') ↔ a = b ∧ s = s' := by
  simp [pure_apply]
@[simp] theorem raise_ok {e : Err} {b : α} {s s' : σ} : ¬ (raise e : M σ α) s = (.ok b, s') := by
  simp [raise]
@[simp] theorem get_ok {s s' t : σ} : (get : M σ σ) s = (.ok t, s') ↔ s = t ∧ s = s' := by
  simp [get]
@[simp] theorem modify_ok {f : σ → σ} {s s' : σ} {u : Unit} :
    (modify f : M σ Unit) s = (.ok u, s') ↔ f s = s' := by
  simp [modify]
@[simp] theorem lift_ok {e : Except Err α} {a : α} {s s' : σ} :
    (lift e : M σ α) s = (.ok a, s') ↔ e = .ok a ∧ s = s' := by
  simp [lift]

/-- A relation between state before and after that every run satisfies, whether
it returns or raises. -/
def Rel (R : σ → σ → Prop) (m : M σ α) : Prop := ∀ s, R s (m s).2

theorem Rel.bind {R : σ → σ → Prop} (ht : ∀ a b c, R a b → R b c → R a c)
    {m : M σ α} {f : α → M σ β} (hm : Rel R m) (hf : ∀ a, Rel R (f a)) : Rel R (m >>= f) := by
  intro s
  have h1 := hm s
  show R s (andThen m f s).2
  unfold andThen
  split
  · rename_i a s1 h
    rw [h] at h1
    exact ht _ _ _ h1 (hf a s1)
  · rename_i e s1 h
    rw [h] at h1
    exact h1

theorem Rel.pure {R : σ → σ → Prop} (hr : ∀ a, R a a) (a : α) : Rel R (Pure.pure a : M σ α) :=
  fun s => hr s
theorem Rel.raise {R : σ → σ → Prop} (hr : ∀ a, R a a) (e : Err) : Rel R (M.raise e : M σ α) :=
  fun s => hr s
theorem Rel.lift {R : σ → σ → Prop} (hr : ∀ a, R a a) (e : Except Err α) :
    Rel R (M.lift e : M σ α) := fun s => hr s
theorem Rel.get {R : σ → σ → Prop} (hr : ∀ a, R a a) : Rel R (M.get : M σ σ) := fun s => hr s
theorem Rel.modify {R : σ → σ → Prop} {f : σ → σ} (h : ∀ s, R s (f s)) :
    Rel R (M.modify f : M σ Unit) := fun s => h s

/-- A run that raised: either the first part raised or the second one did. -/
theorem bind_error {m : M σ α} {f : α → M σ β} {s s' : σ} {e : Err} :
    (m >>= f) s = (.error e, s') ↔
      m s = (.error e, s') ∨ ∃ a s1, m s = (.ok a, s1) ∧ f a s1 = (.error e, s') := by
  show andThen m f s = _ ↔ _
  unfold andThen
  split
  · rename_i a s1 h
    constructor
    · intro h'; exact Or.inr ⟨a, s1, h, h'⟩
    · rintro (h1 | ⟨a', s1', h1, h2⟩)
      · rw [h] at h1; cases h1
      · rw [h] at h1; cases h1; exact h2
  · rename_i e' s1 h
    constructor
    · intro h'; cases h'; exact Or.inl h
    · rintro (h1 | ⟨a', s1', h1, h2⟩)
      · rw [h] at h1; cases h1; rfl
      · rw [h] at h1; cases h1

end M

/-- Statements touching only files. -/
abbrev WM (α : Type) := M World α

/-- `uuid4()` (`utils/uuids.py`), assumed never to repeat. -/
def fresh : WM Nat := fun w => (.ok w.next, { w with next := w.next + 1 })

/-- Put a file in place (`fs/arrow.py:42-57` writes a temporary file and renames
it; Parquet and ArrayRecord writers at close). -/
def putFile (p : Path) (c : Content) : WM Unit := M.modify fun w => w.put p c

@[simp] theorem fresh_ok {w w' : World} {u : Nat} :
    fresh w = (.ok u, w') ↔ u = w.next ∧ w' = { w with next := w.next + 1 } := by
  simp [fresh, eq_comm]

@[simp] theorem putFile_ok {p : Path} {c : Content} {w w' : World} {u : Unit} :
    putFile p c w = (.ok u, w') ↔ w' = w.put p c := by
  simp only [putFile, M.modify_ok]; exact eq_comm

/-! ## Environment of an operation -/

/-- Sizes and layout decided by Arrow, of which only the stated laws are known,
and the thresholds of `FileOptions` (`core/options.py:60-99`). -/
structure Env where
  /-- `pa.Table.nbytes` -/
  tableBytes : List Row → Nat
  /-- `pa.ChunkedArray.nbytes` -/
  columnBytes : List Val → Nat
  /-- compressed and uncompressed size of a column of a row group -/
  colSize : List Row → Nat → Nat × Nat
  /-- row groups `ParquetWriter.write_table` cuts a table into -/
  rgSplit : List Row → List (List Row)
  rgSplit_flatten : ∀ t, (rgSplit t).flatten = t
  rgSplit_ne : ∀ t, ∀ g ∈ rgSplit t, g ≠ []
  /-- chunks of a table read back -/
  chunks : List Row → List (List Row)
  chunks_flatten : ∀ t, (chunks t).flatten = t
  /-- `max_uncompressed_row_group_bytes` -/
  rgMax : Nat
  /-- Parquet `max_uncompressed_file_bytes` -/
  fileMax : Nat
  /-- ArrayRecord `max_uncompressed_file_bytes` -/
  recMax : Nat
  /-- Arrow compute functions -/
  I : Interp
  /-- the order in which a Python set of numbers is iterated, given the order of insertion -/
  setOrder : List Nat → List Nat := id
  setOrder_perm : ∀ l, (setOrder l).Perm l := by exact fun l => List.Perm.refl l

end Space
