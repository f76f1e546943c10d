import Verif.Read

/-!
# `core/ops/delete.py`: FileSetDeleteOp
-/

namespace Space

/-- The state of the loop in `delete` (`delete.py:87-127`). -/
structure DelState where
  op : AppendOp
  log : List RowBitmap := []
  files : List Path := []
  mids : List Nat := []
  deleted : Int := 0
  before : SStats := {}
deriving DecidableEq, Repr

/-- `_validate_files` (`delete.py:203-212`). -/
def validateFiles (fset : FileSet) : Bool :=
  fset.files.all (fun f => f.stats.rows != 0 && f.mid != 0) && fset.manifests.length > 0

/-- Rows kept by the reinsert filter `~filter` with their row ids
(`delete.py:77`, `:98-103`): those on which the negation is true. -/
def survivors (I : Interp) (e : Expr) (rows : List Row) : List (Row × Nat) :=
  rows.zipIdx.filter (fun x => kNot (e.truth I x.1) == some true)

/-- `_build_bitmap` (`delete.py:215-228`). -/
def buildBitmap (f : DataFile) (ids : List Nat) (allDeleted : Bool) : RowBitmap :=
  if allDeleted then { file := f.path, allRows := true, numRows := f.stats.rows.toNat, bits := [] }
  else { file := f.path, allRows := false, numRows := f.stats.rows.toNat,
         bits := (List.range f.stats.rows.toNat).filter (fun i => !ids.contains i) }

/-- `set.add`. -/
def addId (ids : List Nat) (n : Nat) : List Nat := if ids.contains n then ids else ids ++ [n]

/-- One iteration of the loop of `delete` (`delete.py:93-127`). -/
def deleteFile (E : Env) (s : Schema) (e : Expr) (d : DelState) (f : DataFile) : WM DelState := do
  let w ← M.get
  let d := { d with before := d.before.addIndex f.stats }
  match w.fs.parquet f.path with
  | none => M.raise (.other "FileNotFoundError")
  | some groups =>
    let kept := survivors E.I e groups.flatten
    if (kept.length : Int) = f.stats.rows then pure d
    else
      let allDeleted := kept.isEmpty
      let d := { d with
        deleted := d.deleted + (f.stats.rows - kept.length),
        log := d.log ++ [buildBitmap f (kept.map (·.2)) allDeleted],
        files := d.files ++ [f.path],
        mids := addId d.mids f.mid }
      if allDeleted then pure d
      else do
        let op ← d.op.write E s (kept.map (·.1))
        pure { d with op := op }

/-- The loop of `delete` (`delete.py:93-127`). -/
def deleteLoop (E : Env) (s : Schema) (e : Expr) : DelState → List DataFile → WM DelState
  | d, [] => pure d
  | d, f :: fs => do
    let d ← deleteFile E s e d f
    deleteLoop E s e d fs

/-- The manifests to delete (`delete.py:133-140`), in the order the ids are iterated. -/
def deletedManifests (m : AMap Nat Path) : List Nat → Except Err (List Path)
  | [] => .ok []
  | n :: ns =>
    match m.get? n with
    | none => .error .runtime
    | some p =>
      match deletedManifests m ns with
      | .error e => .error e
      | .ok ps => .ok (p :: ps)

/-- Rows of several manifests (`delete.py:146-148`, without the filter). -/
def manifestRows (fs : FS) : List Path → Except Err (List ManifestRow)
  | [] => .ok []
  | p :: ps =>
    match fs.imanifest p with
    | none => .error (.other "FileNotFoundError")
    | some rows =>
      match manifestRows fs ps with
      | .error e => .error e
      | .ok rest => .ok (rows ++ rest)

/-- `FileSetDeleteOp.delete` (`delete.py:84-180`), including the check of the
constructor (`delete.py:71-73`). -/
def deleteFiles (E : Env) (s : Schema) (fset : FileSet) (e : Expr) : WM (Option Patch) := do
  if !validateFiles fset then M.raise .runtime
  else do
    let d ← deleteLoop E s e { op := { addrInput := true } } fset.files
    if d.deleted = 0 then pure none
    else do
      let dms ← M.lift (deletedManifests fset.manifests (E.setOrder d.mids))
      let w ← M.get
      let rows ← M.lift (manifestRows w.fs dms)
      let surv := rows.filter (fun m => !d.files.contains m.file)
      let op := { d.op with carried := d.op.carried ++ surv }
      let rp ← op.finish E s
      let rstats : SStats := match rp with
        | some p => p.stats
        | none => {}
      let sIcb : Int := (surv.map (fun m => (m.icb : Int))).sum
      let sIub : Int := (surv.map (fun m => (m.iub : Int))).sum
      pure (some {
        addIdx := match rp with
          | some p => p.addIdx
          | none => [],
        delIdx := dms,
        stats := { rows := -d.deleted, icb := (rstats.icb + sIcb) - d.before.icb,
                   iub := (rstats.iub + sIub) - d.before.iub },
        log := some { deleted := d.log } })

/-- The body of `LocalRunner.delete` (`core/runners.py:281-286`). -/
def deleteBody (E : Env) (h : Handle) (e : Expr) : WM (Option Patch) := do
  let w ← M.get
  let fset ← M.lift (dataFiles w.fs h (some e) none)
  deleteFiles E h.md.schema fset e

end Space
