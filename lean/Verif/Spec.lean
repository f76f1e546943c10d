import Verif.Runner
import Verif.FilterLemmas

/-!
# Specification vocabulary

What a version reads as, stated directly on files, without batches, pruning,
writers or transactions.
-/

namespace Space

/-- Records of a record file, by path. -/
abbrev Look := Path → Option (List (List Nat))

/-- The value an address stands for. -/
def derefVal (L : Look) : Val → Val
  | .addr p i => Val.ofRecord ((L p).bind (fun rs => rs[i]?))
  | v => v

/-- The logical row of a physical row: addresses in record columns replaced by
the records they point to. -/
def deref (L : Look) (s : Schema) (r : Row) : Row :=
  r.map (fun x => (x.1, if s.recs.contains x.1 then derefVal L x.2 else x.2))

/-- Rows of an index file. -/
def fileRows (fs : FS) (p : Path) : List Row := ((fs.parquet p).getD []).flatten

/-- Rows of an index manifest. -/
def entriesOf (fs : FS) (p : Path) : List ManifestRow := (fs.imanifest p).getD []

/-- Rows of all files listed in the given manifests. -/
def physRows (fs : FS) (ms : List Path) : List Row :=
  ms.flatMap (fun p => (entriesOf fs p).flatMap (fun m => fileRows fs m.file))

/-- The logical rows of a snapshot. -/
def snapRows (fs : FS) (s : Schema) (snap : Snapshot) : List Row :=
  (physRows fs snap.index).map (deref fs.records s)

/-- Every address of a row points to an existing record. -/
def AddrOK (L : Look) (s : Schema) (r : Row) : Prop :=
  ∀ c ∈ s.recs, ∀ v, (c, v) ∈ r → ∃ p i rs, v = .addr p i ∧ L p = some rs ∧ i < rs.length

/-- A row fits the schema and its addresses resolve. -/
def RowOK (L : Look) (s : Schema) (r : Row) : Prop := s.conforms r = true ∧ AddrOK L s r

/-- A manifest entry describes a file: it exists, its rows fit, the row count and
the statistics are those of the file. -/
def EntryOK (fs : FS) (L : Look) (s : Schema) (m : ManifestRow) : Prop :=
  ∃ groups, fs.parquet m.file = some groups ∧ m.numRows = groups.flatten.length ∧
    fileStats s groups s.statsFields = .ok m.stats ∧ ∀ r ∈ groups.flatten, RowOK L s r

/-- A manifest exists and its entries describe their files. -/
def ManifestOK (fs : FS) (s : Schema) (p : Path) : Prop :=
  ∃ rows, fs.imanifest p = some rows ∧ rows ≠ [] ∧ ∀ m ∈ rows, EntryOK fs fs.records s m

/-- A record manifest exists and its entries count the records of existing files. -/
def RecManifestOK (fs : FS) (p : Path) : Prop :=
  ∃ rows, fs.rmanifest p = some rows ∧
    ∀ m ∈ rows, ∃ rs, fs.records m.file = some rs ∧ m.numRows = rs.length

/-- A row bitmap of a change log addresses rows of an existing index file. -/
def BitmapOK (fs : FS) (s : Schema) (b : RowBitmap) : Prop :=
  ∃ groups, fs.parquet b.file = some groups ∧ b.numRows = groups.flatten.length ∧
    (∀ i ∈ b.bits, i < b.numRows) ∧ ∀ r ∈ groups.flatten, RowOK fs.records s r

/-- All bitmaps of a change log address existing rows. -/
def LogOK (fs : FS) (s : Schema) (cl : ChangeLog) : Prop :=
  ∀ b, b ∈ cl.deleted ∨ b ∈ cl.added → BitmapOK fs s b

/-- A snapshot's manifests exist and describe their files. -/
structure SnapOK (fs : FS) (s : Schema) (snap : Snapshot) : Prop where
  manifests : ∀ p ∈ snap.index, ManifestOK fs s p
  records : ∀ p ∈ snap.recs, RecManifestOK fs p
  nodup : snap.index.Nodup
  nodupRecs : snap.recs.Nodup
  log : ∀ p, snap.log = some p → ∃ cl, fs.log p = some cl ∧ LogOK fs s cl

/-- Content other than an entry point. -/
def Content.isData : Content → Bool
  | .entry _ => false
  | _ => true

/-- Files only appear: nothing but the entry point is ever replaced. -/
def FSLe (fs fs' : FS) : Prop :=
  ∀ p c, c.isData = true → AMap.get? fs p = some c → AMap.get? fs' p = some c

/-- uuids not yet drawn name no file. -/
def World.Fresh (w : World) : Prop :=
  ∀ p u, p.uuid = some u → w.next ≤ u → AMap.get? w.fs p = none

/-- Files appeared and the entry point is as before. -/
structure Adds (w w' : World) : Prop where
  le : FSLe w.fs w'.fs
  next : w.next ≤ w'.next
  entry : AMap.get? w'.fs .entryPoint = AMap.get? w.fs .entryPoint
  fresh : w.Fresh → w'.Fresh

/-- Put files in place one after the other. -/
def applyOps (fs : FS) (ops : List (Path × Content)) : FS :=
  ops.foldl (fun fs x => AMap.set fs x.1 x.2) fs

/-- Files of each kind have names of their own, with a uuid. -/
def ownName : Path → Content → Bool
  | .metadata _, .mdata _ => true
  | .changeLog _, .log _ => true
  | .indexManifest _, .imanifest _ => true
  | .recordManifest _, .rmanifest _ => true
  | .index _, .parquet _ => true
  | .record _ _, .records _ => true
  | _, _ => false

/-- What a process did between two states, file by file: it replaced no file, not
even for a moment, did not touch the entry point, put no Parquet file without rows,
and put no file where one was. -/
def Traced (w w' : World) : Prop :=
  ∃ ops, w'.log = w.log ++ ops ∧ w'.fs = applyOps w.fs ops ∧
    (∀ k, FSLe w.fs (applyOps w.fs (ops.take k)) ∧
      AMap.get? (applyOps w.fs (ops.take k)) .entryPoint = AMap.get? w.fs .entryPoint) ∧
    (∀ p g, (p, Content.parquet g) ∈ ops → g.flatten ≠ []) ∧
    ∀ a p c b, ops = a ++ (p, c) :: b → ownName p c = true ∧ AMap.get? (applyOps w.fs a) p = none

/-- The file system grew and the entry point is as before. -/
structure Grows (w w' : World) : Prop where
  le : FSLe w.fs w'.fs
  next : w.next ≤ w'.next
  entry : AMap.get? w'.fs .entryPoint = AMap.get? w.fs .entryPoint
  fresh : w.Fresh → w'.Fresh
  trace : Traced w w'

/-- The last thing done is to replace the entry point. -/
def Installs (w w' : World) : Prop :=
  ∃ w2 p, Grows w w2 ∧ w' = w2.put .entryPoint (.entry p)

end Space
