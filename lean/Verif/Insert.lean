import Verif.Delete

/-!
# `core/ops/insert.py` and `merge_patches`
-/

namespace Space

/-- Optional fields of a proto message merge to the later one's content appended
to the earlier one's. -/
def mergeLogs : Option ChangeLog → Option ChangeLog → Option ChangeLog
  | none, b => b
  | a, none => a
  | some a, some b => some { deleted := a.deleted ++ b.deleted, added := a.added ++ b.added }

/-- The loop of `merge_patches` (`ops/utils.py:100-112`): `MergeFrom` appends
repeated fields; statistics are summed. -/
def mergeLoop : List (Option Patch) → Patch → Bool → Patch × Bool
  | [], acc, empty => (acc, empty)
  | none :: ps, acc, empty => mergeLoop ps acc empty
  | some p :: ps, acc, _ =>
    mergeLoop ps
      { addIdx := acc.addIdx ++ p.addIdx, addRec := acc.addRec ++ p.addRec,
        delIdx := acc.delIdx ++ p.delIdx, log := mergeLogs acc.log p.log,
        stats := (acc.stats.addIndex p.stats).addRecord p.stats } false

/-- `merge_patches` (`ops/utils.py:94-118`). -/
def mergePatches (ps : List (Option Patch)) : Option Patch :=
  match mergeLoop ps {} true with
  | (_, true) => none
  | (p, false) => some p

/-- Primary key values of a row. -/
def keyOf (pks : List String) (r : Row) : List Val := pks.map r.val

/-- `row_filter` (`ops/utils.py:69-75`) for keys without nulls, as a left-nested
conjunction.  `none` for an empty key list. -/
def rowFilter : List (String × Scalar) → Option Expr
  | [] => none
  | (k, v) :: ks =>
    some (ks.foldl (fun acc x => .bin "and" acc (.bin "equal" (.sel x.1) (.lit x.2)))
      (.bin "equal" (.sel k) (.lit v)))

/-- Key columns with non-null values; null makes building the manifest filter
raise (`falsifiable_filters.py:292-295` on a null literal). -/
def keyPairs (r : Row) : List String → Option (List (String × Scalar))
  | [] => some []
  | k :: ks =>
    match r.val k with
    | .sc v => (keyPairs r ks).map ((k, v) :: ·)
    | _ => none

/-- The row filters of all rows. -/
def rowFilters (pks : List String) : List Row → Option (List Expr)
  | [] => some []
  | r :: rs =>
    match (keyPairs r pks).bind rowFilter with
    | none => none
    | some e => (rowFilters pks rs).map (e :: ·)

/-- `primary_key_filter` (`ops/utils.py:56-91`).  Duplicate detection compares the
printed filters; printing is assumed to distinguish different values of a column. -/
def primaryKeyFilter (pks : List String) (data : List Row) : Except Err (Option Expr) :=
  if data.all (fun r => pks.all (fun c => r.cols.contains c)) then
    if (data.map (keyOf pks)).Nodup then
      match rowFilters pks data with
      | none => .error (.other "ArrowInvalid")
      | some [] => .ok none
      | some (e :: es) => .ok (some (es.foldl (fun acc x => .bin "or" acc x) e))
    else .error .pkExists
  else .error (.other "KeyError")

/-- `filter_matched` (`insert.py:119-134`). -/
def filterMatched (E : Env) (fs : FS) (s : Schema) (files : List DataFile) (e : Expr) :
    Except Err Bool :=
  match readFiles E fs s { filter := some e, fields := some s.pks } files with
  | .error er => .error er
  | .ok bs => .ok (bs.any (fun b => !b.isEmpty))

/-- `InsertOptions.Mode` (`insert.py:42-47`). -/
inductive InsertMode where
  | insert | upsert
deriving DecidableEq, Repr

/-- `LocalInsertOp._write_arrow` (`insert.py:79-116`). -/
def insertBody (E : Env) (h : Handle) (mode : InsertMode) (data : List Row) : WM (Option Patch) := do
  if data = [] then pure none
  else do
    let fe ← M.lift (primaryKeyFilter h.md.schema.pks data)
    match fe with
    | none => M.raise (.other "AssertionError")
    | some e => do
      let w ← M.get
      let fset ← M.lift (dataFiles w.fs h (some e) none)
      let dp ← (if fset.files = [] then (pure none : WM (Option Patch))
        else match mode with
          | .insert => do
            let m ← M.lift (filterMatched E w.fs h.md.schema fset.files e)
            if m then M.raise .runtime else pure none
          | .upsert => deleteFiles E h.md.schema fset e)
      let op ← AppendOp.write E h.md.schema { addrInput := false } data
      let ap ← op.finish E h.md.schema
      pure (mergePatches [dp, ap])

end Space
