import Verif.Bodies
import Verif.Crash
import Verif.TxnLemmas

/-!
# Files a mutation puts in place, and what its patch says of them

A mutation puts data files and manifests in place before it commits.  Here each of them is followed
to the patch: the patch adds the manifest, or a manifest it adds lists the file.
-/

set_option autoImplicit false

namespace Space

/-- A file is one of the manifests, or one of the manifests lists it; `ops` are the files put in place. -/
def Uses (ops : List (Path × Content)) (idx recs : List Path) (q : Path) : Prop :=
  q ∈ idx ∨ q ∈ recs ∨
    (∃ p ∈ idx, ∃ rows, (p, Content.imanifest rows) ∈ ops ∧ ∃ m ∈ rows, m.file = q) ∨
    ∃ p ∈ recs, ∃ rows, (p, Content.rmanifest rows) ∈ ops ∧ ∃ m ∈ rows, m.file = q

theorem Uses.mono {ops ops' : List (Path × Content)} {idx idx' recs recs' : List Path} {q : Path}
    (h : Uses ops idx recs q) (ho : ∀ x ∈ ops, x ∈ ops') (hi : ∀ x ∈ idx, x ∈ idx') (hr : ∀ x ∈ recs, x ∈ recs') :
    Uses ops' idx' recs' q := by
  rcases h with h | h | ⟨p, hp, rows, h, hm⟩ | ⟨p, hp, rows, h, hm⟩
  · exact Or.inl (hi q h)
  · exact Or.inr (Or.inl (hr q h))
  · exact Or.inr (Or.inr (Or.inl ⟨p, hi p hp, rows, ho _ h, hm⟩))
  · exact Or.inr (Or.inr (Or.inr ⟨p, hr p hp, rows, ho _ h, hm⟩))

/-- Each file put in place from `w` to `w'` is used by one of the patches; index manifests need not be
if `ex`. -/
def CleanAll (ex : Prop) (w : World) (ps : List (Option Patch)) (w' : World) : Prop :=
  ∃ ops, w'.log = w.log ++ ops ∧ ∀ x ∈ ops, ∃ pt, some pt ∈ ps ∧
    (Uses ops pt.addIdx pt.addRec x.1 ∨ ex ∧ ∃ u, x.1 = .indexManifest u)

theorem CleanAll.refl {ex : Prop} {w w' : World} (h : w'.log = w.log) (ps : List (Option Patch)) :
    CleanAll ex w ps w' := ⟨[], by simp [h], by simp⟩

theorem CleanAll.append {ex : Prop} {w w1 w2 : World} {ps qs : List (Option Patch)} (h1 : CleanAll ex w ps w1)
    (h2 : CleanAll ex w1 qs w2) : CleanAll ex w (ps ++ qs) w2 := by
  obtain ⟨o1, l1, c1⟩ := h1
  obtain ⟨o2, l2, c2⟩ := h2
  refine ⟨o1 ++ o2, by rw [l2, l1, List.append_assoc], fun x hx => ?_⟩
  rcases List.mem_append.mp hx with hx | hx
  · obtain ⟨pt, hp, h⟩ := c1 x hx
    refine ⟨pt, List.mem_append_left _ hp, h.imp (fun h => h.mono (fun y hy => List.mem_append_left _ hy)
      (fun _ h => h) (fun _ h => h)) (fun h => h)⟩
  · obtain ⟨pt, hp, h⟩ := c2 x hx
    refine ⟨pt, List.mem_append_right _ hp, h.imp (fun h => h.mono (fun y hy => List.mem_append_right _ hy)
      (fun _ h => h) (fun _ h => h)) (fun h => h)⟩

theorem CleanAll.weaken {ex ex' : Prop} {w w' : World} {ps : List (Option Patch)} (h : CleanAll ex w ps w')
    (he : ex → ex') : CleanAll ex' w ps w' := by
  obtain ⟨ops, h1, h2⟩ := h
  refine ⟨ops, h1, fun x hx => ?_⟩
  obtain ⟨pt, hp, h⟩ := h2 x hx
  exact ⟨pt, hp, h.imp id fun ⟨a, b⟩ => ⟨he a, b⟩⟩

theorem mergeLoop_sub : ∀ (ps : List (Option Patch)) (acc : Patch) (b : Bool),
    (∀ q ∈ acc.addIdx, q ∈ (mergeLoop ps acc b).1.addIdx) ∧ (∀ q ∈ acc.addRec, q ∈ (mergeLoop ps acc b).1.addRec) ∧
      (b = false → (mergeLoop ps acc b).2 = false) ∧
      ∀ pt, some pt ∈ ps → (mergeLoop ps acc b).2 = false ∧
        (∀ q ∈ pt.addIdx, q ∈ (mergeLoop ps acc b).1.addIdx) ∧ ∀ q ∈ pt.addRec, q ∈ (mergeLoop ps acc b).1.addRec
  | [], acc, b => ⟨fun _ h => h, fun _ h => h, fun h => h, fun _ h => by cases h⟩
  | none :: ps, acc, b => by
    obtain ⟨h1, h2, h3, h4⟩ := mergeLoop_sub ps acc b
    exact ⟨h1, h2, h3, fun pt hp => h4 pt (by simpa using hp)⟩
  | some p :: ps, acc, b => by
    obtain ⟨h1, h2, h3, h4⟩ := mergeLoop_sub ps
      { addIdx := acc.addIdx ++ p.addIdx, addRec := acc.addRec ++ p.addRec,
        delIdx := acc.delIdx ++ p.delIdx, log := mergeLogs acc.log p.log,
        stats := (acc.stats.addIndex p.stats).addRecord p.stats } false
    refine ⟨fun q hq => h1 q (List.mem_append_left _ hq), fun q hq => h2 q (List.mem_append_left _ hq),
      fun _ => h3 rfl, fun pt hp => ?_⟩
    rcases List.mem_cons.mp hp with hp | hp
    · cases hp
      exact ⟨h3 rfl, fun q hq => h1 q (List.mem_append_right _ hq), fun q hq => h2 q (List.mem_append_right _ hq)⟩
    · exact h4 pt hp

theorem mergePatches_sub {ps : List (Option Patch)} {pt : Patch} (h : some pt ∈ ps) :
    ∃ p, mergePatches ps = some p ∧ (∀ q ∈ pt.addIdx, q ∈ p.addIdx) ∧ ∀ q ∈ pt.addRec, q ∈ p.addRec := by
  obtain ⟨-, -, -, h4⟩ := mergeLoop_sub ps {} true
  obtain ⟨h1, h2, h3⟩ := h4 pt h
  unfold mergePatches
  rcases hm : mergeLoop ps {} true with ⟨p, b⟩
  rw [hm] at h1 h2 h3
  simp only at h1 h2 h3
  subst h1
  exact ⟨p, rfl, h2, h3⟩

theorem CleanAll.merge {ex : Prop} {w w' : World} {ps : List (Option Patch)} (h : CleanAll ex w ps w') :
    CleanAll ex w [mergePatches ps] w' := by
  obtain ⟨ops, h1, h2⟩ := h
  refine ⟨ops, h1, fun x hx => ?_⟩
  obtain ⟨pt, hp, h⟩ := h2 x hx
  obtain ⟨p, e, hi, hr⟩ := mergePatches_sub hp
  exact ⟨p, by simp [e], h.imp (fun h => h.mono (fun _ h => h) hi hr) id⟩

/-! ## Append operations -/

namespace AppendOp

/-- A finished file of the operation. -/
def Lists (op : AppendOp) (q : Path) : Prop := (∃ m ∈ op.mf, m.file = q) ∨ ∃ m ∈ op.rmf, m.file = q

/-- Rows of the open index file. -/
def opened (op : AppendOp) : Nat := ((op.iw.map (·.groups.flatten)).getD []).length

/-- Number of rows given to the operation. -/
def count (op : AppendOp) : Int := op.stats.rows + op.opened + (op.cache.getD []).length

/-- Nothing was given to the operation. -/
structure Blank (op : AppendOp) : Prop where
  iw : op.iw = none
  rws : op.rws = []
  cache : op.cache = none
  mf : op.mf = []
  rmf : op.rmf = []
  rows : op.stats.rows = 0

end AppendOp

/-- What was put in place is listed, and nothing listed is forgotten. -/
structure Moves (w w' : World) (op op' : AppendOp) : Prop where
  ops : ∃ ops, w'.log = w.log ++ ops ∧ ∀ x ∈ ops, op'.Lists x.1
  lists : ∀ q, op.Lists q → op'.Lists q
  carried : op'.carried = op.carried
  addr : op'.addrInput = op.addrInput

theorem Moves.refl (w : World) (op : AppendOp) : Moves w w op op :=
  ⟨⟨[], by simp, by simp⟩, fun _ h => h, rfl, rfl⟩

theorem Moves.trans {w1 w2 w3 : World} {a b c : AppendOp} (h1 : Moves w1 w2 a b) (h2 : Moves w2 w3 b c) :
    Moves w1 w3 a c := by
  obtain ⟨o1, l1, c1⟩ := h1.ops
  obtain ⟨o2, l2, c2⟩ := h2.ops
  refine ⟨⟨o1 ++ o2, by rw [l2, l1, List.append_assoc], fun x hx => ?_⟩, fun q h => h2.lists q (h1.lists q h),
    h2.carried.trans h1.carried, h2.addr.trans h1.addr⟩
  rcases List.mem_append.mp hx with hx | hx
  · exact h2.lists _ (c1 x hx)
  · exact c2 x hx

/-- A step that puts nothing in place. -/
theorem Moves.quiet {w w' : World} {op op' : AppendOp} (hw : w'.log = w.log) (h1 : op'.mf = op.mf)
    (h2 : op'.rmf = op.rmf) (h3 : op'.carried = op.carried) (h4 : op'.addrInput = op.addrInput) : Moves w w' op op' :=
  ⟨⟨[], by simp [hw], by simp⟩, fun q h => by simpa only [AppendOp.Lists, h1, h2] using h, h3, h4⟩

/-- A step from an operation that differs from `op` in what is neither listed nor carried only. -/
theorem Moves.from {w w' : World} {op a op' : AppendOp} (h : Moves w w' a op') (h1 : a.mf = op.mf)
    (h2 : a.rmf = op.rmf) (h3 : a.carried = op.carried) (h4 : a.addrInput = op.addrInput) : Moves w w' op op' :=
  (Moves.quiet (w := w) rfl h1 h2 h3 h4).trans h

section
variable {E : Env} {s : Schema}

theorem maybeCreate_moves (op : AppendOp) (w : World) :
    Post (op.maybeCreate w) (fun op' w' => Moves w w' op op' ∧ op'.opened = op.opened ∧ op'.cache = op.cache ∧
      op'.stats = op.stats ∧ op'.rws = op.rws ∧ op'.rmf = op.rmf) (fun _ => True) := by
  unfold AppendOp.maybeCreate
  cases h : op.iw with
  | some iw => exact Post.pure ⟨Moves.refl w op, rfl, rfl, rfl, rfl, rfl⟩
  | none =>
    refine Post.bind (Q := fun _ w' => w'.log = w.log) (Post.fresh rfl) ?_
    intro u w' hw
    exact Post.pure ⟨Moves.quiet hw rfl rfl rfl rfl, by simp [AppendOp.opened, h], rfl, rfl, rfl, rfl⟩

theorem writeTable_moves (op : AppendOp) (rows : List Row) (w : World) :
    Post (op.writeTable E s rows w) (fun op' w' => Moves w w' op op' ∧ op'.opened = op.opened + rows.length ∧
      op'.cache = op.cache ∧ op'.stats = op.stats ∧ op'.rws = op.rws ∧ op'.rmf = op.rmf) (fun _ => True) := by
  unfold AppendOp.writeTable
  cases h : op.iw with
  | none => exact Post.raise trivial
  | some iw =>
    simp only
    split
    · refine Post.pure ⟨Moves.quiet rfl rfl rfl rfl rfl, ?_, rfl, rfl, rfl, rfl⟩
      simp [AppendOp.opened, h, List.flatten_append, E.rgSplit_flatten]
    · exact Post.raise trivial

theorem finishIndex_moves (op : AppendOp) (w : World) :
    Post (op.finishIndex E s w) (fun op' w' => Moves w w' op op' ∧ op'.opened = 0 ∧
      op'.cache = op.cache ∧ op'.stats.rows = op.stats.rows + op.opened ∧ op'.rws = op.rws ∧ op'.rmf = op.rmf ∧
      (op.iw = none → op' = op ∧ w' = w))
      (fun _ => True) := by
  unfold AppendOp.finishIndex
  cases h : op.iw with
  | none => exact Post.pure ⟨Moves.refl w op, by simp [AppendOp.opened, h], rfl, by simp [AppendOp.opened, h], rfl, rfl,
    fun _ => ⟨rfl, rfl⟩⟩
  | some iw =>
    refine Post.bind (Q := fun _ w' => w'.log = w.log ++ [(iw.path, .parquet iw.groups)]) (Post.put rfl) ?_
    intro _ w1 hw1
    refine Post.bind (Q := fun m w' => manifestRow E s iw.path iw.groups = .ok m ∧ w' = w1)
      (Post.lift (fun a ha => ⟨ha, rfl⟩) trivial) ?_
    rintro m w2 ⟨hm, rfl⟩
    obtain ⟨h1, h2, -⟩ := fileStats_ok hm
    refine Post.pure ⟨⟨⟨_, hw1, ?_⟩, ?_, rfl, rfl⟩, rfl, rfl, ?_, rfl, rfl, fun h => by cases h⟩
    · intro x hx
      rw [List.mem_singleton] at hx
      subst hx
      exact Or.inl ⟨m, by simp, h1⟩
    · rintro q (⟨m', hm', e⟩ | h)
      · exact Or.inl ⟨m', List.mem_append_left _ hm', e⟩
      · exact Or.inr h
    · simp [SStats.addIndex, ManifestRow.sstats, AppendOp.opened, h, h2]

theorem finishRecord_moves (f : Field) (rw : RecWriter) (op : AppendOp) (w : World) :
    Post (op.finishRecord f rw w) (fun op' w' => Moves w w' op op' ∧ op'.iw = op.iw ∧
      op'.cache = op.cache ∧ op'.stats.rows = op.stats.rows) (fun _ => True) := by
  unfold AppendOp.finishRecord
  refine Post.bind (Q := fun _ w' => w'.log = w.log ++ [(rw.path, .records rw.buf)]) (Post.put rfl) ?_
  intro _ w1 hw1
  refine Post.pure ⟨⟨⟨_, hw1, ?_⟩, ?_, rfl, rfl⟩, rfl, rfl, rfl⟩
  · intro x hx
    rw [List.mem_singleton] at hx
    subst hx
    exact Or.inr ⟨_, List.mem_append_right _ (List.mem_singleton.mpr rfl), rfl⟩
  · rintro q (h | ⟨m', hm', e⟩)
    · exact Or.inl h
    · exact Or.inr ⟨m', List.mem_append_left _ hm', e⟩

theorem writeRecordCol_moves (f : Field) (col : List Val) (op : AppendOp) (w : World) :
    Post (op.writeRecordCol E f col w) (fun x w' => Moves w w' op x.1 ∧ x.1.iw = op.iw ∧
      x.1.cache = op.cache ∧ x.1.stats.rows = op.stats.rows ∧ x.2.length = col.length) (fun _ => True) := by
  unfold AppendOp.writeRecordCol
  refine Post.bind (Q := fun _ w' => w'.log = w.log) ?_ ?_
  · unfold AppendOp.recWriter
    cases op.rws.get? f.name with
    | some rw => exact Post.pure rfl
    | none => exact Post.bind (Q := fun _ w' => w'.log = w.log) (Post.fresh rfl) fun _ _ h => Post.pure h
  · intro rw w1 hw1
    refine Post.bind (Q := fun _ w' => w'.log = w.log) (Post.lift (fun _ _ => hw1) trivial) ?_
    intro bs w2 hw2
    simp only
    split
    · refine Post.bind (finishRecord_moves f _ _ w2) ?_
      rintro op' w' ⟨h1, h2, h3, h4⟩
      exact Post.pure ⟨(Moves.quiet (op' := op) hw2 rfl rfl rfl rfl).trans (h1.from rfl rfl rfl rfl), h2, h3, h4, addressColumn_length ..⟩
    · exact Post.pure ⟨Moves.quiet hw2 rfl rfl rfl rfl, rfl, rfl, rfl, addressColumn_length ..⟩

theorem writeRecords_moves (data : List Row) : ∀ (fs : List Field) (op : AppendOp) (rows : List Row)
    (_ : rows.length = data.length) (w : World),
    Post (AppendOp.writeRecords E data fs op rows w) (fun x w' => Moves w w' op x.1 ∧ x.1.iw = op.iw ∧
      x.1.cache = op.cache ∧ x.1.stats.rows = op.stats.rows ∧ x.2.length = data.length) (fun _ => True)
  | [], op, rows, hl, w => Post.pure ⟨Moves.refl w op, rfl, rfl, rfl, hl⟩
  | f :: fs, op, rows, hl, w => by
    unfold AppendOp.writeRecords
    refine Post.bind (writeRecordCol_moves f _ op w) ?_
    rintro ⟨op1, addrs⟩ w1 ⟨h1, h2, h3, h4, h5⟩
    refine (writeRecords_moves data fs op1 _ ?_ w1).imp ?_ (fun _ h => h)
    · simp [appendColumn, hl, h5]
    · rintro ⟨op2, r2⟩ w2 ⟨k1, k2, k3, k4, k5⟩
      exact ⟨h1.trans k1, k2.trans h2, k3.trans h3, k4.trans h4, k5⟩

theorem cacheRows_moves (op : AppendOp) (rows : List Row) (w : World) :
    Post (op.cacheRows E s rows w) (fun op' w' => Moves w w' op op' ∧ op'.count = op.count + rows.length ∧
      op'.rws = op.rws ∧ op'.rmf = op.rmf) (fun _ => True) := by
  rw [cacheRows_eq]
  simp only
  split
  · refine Post.bind (writeTable_moves _ _ w) ?_
    rintro op1 w1 ⟨h1, h2, h3, h4, h5, h6⟩
    have h1 := h1.from (op := op) rfl rfl rfl rfl
    have e1 : op1.opened = op.opened + (op.cache.getD [] ++ rows).length := h2
    have e2 : op1.stats = op.stats := h4
    split
    · refine (finishIndex_moves _ w1).imp ?_ (fun _ h => h)
      rintro op2 w2 ⟨k1, k2, k3, k4, k5, k6, -⟩
      refine ⟨h1.trans (k1.from rfl rfl rfl rfl), ?_, k5.trans h5, k6.trans h6⟩
      have e3 : op2.stats.rows = op1.stats.rows + op1.opened := k4
      have e4 : op2.cache = none := k3
      simp only [AppendOp.count, k2, e4, e3, e2, e1, List.length_append, Option.getD_none, List.length_nil]
      omega
    · refine Post.pure ⟨h1.trans (Moves.quiet rfl rfl rfl rfl rfl), ?_, h5, h6⟩
      have e3 : ({ op1 with cache := none } : AppendOp).count = op1.stats.rows + op1.opened + 0 := rfl
      rw [e3, e2, e1]
      simp only [AppendOp.count, List.length_append]
      omega
  · refine Post.pure ⟨Moves.quiet rfl rfl rfl rfl rfl, ?_, rfl, rfl⟩
    simp only [AppendOp.count, AppendOp.opened, Option.getD_some, List.length_append]
    omega

theorem write_moves (op : AppendOp) (data : List Row) (w : World) :
    Post (op.write E s data w) (fun op' w' => Moves w w' op op' ∧ (data = [] → op' = op) ∧
      op'.count = op.count + data.length ∧ (op.addrInput = true → op'.rws = op.rws ∧ op'.rmf = op.rmf))
      (fun _ => True) := by
  unfold AppendOp.write
  split
  · rename_i hd
    exact Post.pure ⟨Moves.refl w op, fun _ => rfl, by simp [hd], fun _ => ⟨rfl, rfl⟩⟩
  · rename_i hd
    refine Post.bind (maybeCreate_moves op w) ?_
    rintro op1 w1 ⟨h1, h2, h3, h4, h5, h6⟩
    have hcount : op1.count = op.count := by simp only [AppendOp.count, h2, h3, h4]
    split
    · simp only
      split
      · refine (cacheRows_moves op1 _ w1).imp ?_ (fun _ h => h)
        rintro op2 w2 ⟨k1, k2, k3, k4⟩
        refine ⟨h1.trans k1, fun h => absurd h hd, ?_, fun _ => ⟨k3.trans h5, k4.trans h6⟩⟩
        rw [k2, hcount, List.length_map]
      · rename_i haddr
        refine Post.bind (writeRecords_moves data _ op1 _ (List.length_map ..) w1) ?_
        rintro ⟨op2, rows⟩ w2 ⟨k1, k2, k3, k4, k5⟩
        refine (cacheRows_moves op2 _ w2).imp ?_ (fun _ h => h)
        rintro op3 w3 ⟨l1, l2, -, -⟩
        refine ⟨h1.trans (k1.trans l1), fun h => absurd h hd, ?_, fun h => absurd (h1.addr.trans h) haddr⟩
        simp only at k2 k3 k4 k5
        rw [l2, k5, ← hcount]
        simp only [AppendOp.count, AppendOp.opened, k2, k3, k4]
    · exact Post.raise trivial

/-- The operation was started in `w0`: it lists what was put in place since, and it is blank or has
rows. -/
structure Keeps (w0 w : World) (op : AppendOp) : Prop where
  ops : ∃ ops, w.log = w0.log ++ ops ∧ ∀ x ∈ ops, op.Lists x.1
  used : op.Blank ∨ 0 < op.count
  carried : op.carried = []
  recs : op.addrInput = true → op.rws = [] ∧ op.rmf = []

theorem Keeps.init (w : World) (a : Bool) : Keeps w w { addrInput := a } :=
  ⟨⟨[], by simp, by simp⟩, Or.inl ⟨rfl, rfl, rfl, rfl, rfl, rfl⟩, rfl, fun _ => ⟨rfl, rfl⟩⟩

theorem AppendOp.Blank.count {op : AppendOp} (h : op.Blank) : op.count = 0 := by
  simp [AppendOp.count, AppendOp.opened, h.rows, h.iw, h.cache]

theorem write_used {op op' : AppendOp} {data : List Row} (hu : op.Blank ∨ 0 < op.count)
    (h2 : data = [] → op' = op) (h3 : op'.count = op.count + data.length) : op'.Blank ∨ 0 < op'.count := by
  by_cases hd : data = []
  · rw [h2 hd]
    exact hu
  · have hpos : 0 < data.length := List.length_pos_iff.mpr hd
    refine Or.inr ?_
    rw [h3]
    rcases hu with hb | hc
    · rw [hb.count]; omega
    · omega

theorem Keeps.write {w0 w : World} {op : AppendOp} (h : Keeps w0 w op) (data : List Row) :
    Post (op.write E s data w) (fun op' w' => Keeps w0 w' op' ∧ op'.addrInput = op.addrInput) (fun _ => True) := by
  refine (write_moves op data w).imp ?_ (fun _ h => h)
  rintro op' w' ⟨h1, h2, h3, h4⟩
  obtain ⟨o1, l1, c1⟩ := h.ops
  obtain ⟨o2, l2, c2⟩ := h1.ops
  refine ⟨⟨⟨o1 ++ o2, by rw [l2, l1, List.append_assoc], fun x hx => ?_⟩, write_used h.used h2 h3,
    h1.carried.trans h.carried, fun ha => ?_⟩, h1.addr⟩
  · rcases List.mem_append.mp hx with hx | hx
    · exact h1.lists _ (c1 x hx)
    · exact c2 x hx
  · rw [h1.addr] at ha
    exact ⟨(h4 ha).1.trans (h.recs ha).1, (h4 ha).2.trans (h.recs ha).2⟩

theorem Keeps.writeAll {w0 : World} : ∀ (ts : List (List Row)) {w : World} {op : AppendOp}, Keeps w0 w op →
    Post (AppendOp.writeAll E s op ts w) (fun op' w' => Keeps w0 w' op') (fun _ => True)
  | [], w, op, h => Post.pure h
  | t :: ts, w, op, h => by
    unfold AppendOp.writeAll
    exact Post.bind (h.write t) fun op' w' h' => Keeps.writeAll ts h'.1

/-! ## Closing -/

theorem finishRecords_moves : ∀ (fs : List Field) (op : AppendOp) (w : World),
    Post (AppendOp.finishRecords fs op w) (fun op' w' => Moves w w' op op' ∧ op'.iw = op.iw ∧
      op'.cache = op.cache ∧ op'.stats.rows = op.stats.rows ∧ (op.rws = [] → op' = op ∧ w' = w)) (fun _ => True)
  | [], op, w => Post.pure ⟨Moves.refl w op, rfl, rfl, rfl, fun _ => ⟨rfl, rfl⟩⟩
  | f :: fs, op, w => by
    unfold AppendOp.finishRecords
    cases h : op.rws.get? f.name with
    | none => exact finishRecords_moves fs op w
    | some rw =>
      refine Post.bind (finishRecord_moves f rw op w) ?_
      rintro op1 w1 ⟨h1, h2, h3, h4⟩
      refine (finishRecords_moves fs op1 w1).imp ?_ (fun _ h => h)
      rintro op2 w2 ⟨k1, k2, k3, k4, -⟩
      refine ⟨h1.trans k1, k2.trans h2, k3.trans h3, k4.trans h4, fun h0 => ?_⟩
      rw [h0] at h
      cases h

theorem flush_moves (op : AppendOp) (w : World) :
    Post (op.flush E s w) (fun op' w' => Moves w w' op op' ∧
      op'.opened = op.opened + (op.cache.getD []).length ∧ op'.stats.rows = op.stats.rows ∧
      op'.rmf = op.rmf ∧ (op.cache = none → op' = op ∧ w' = w)) (fun _ => True) := by
  unfold AppendOp.flush
  cases hc : op.cache with
  | none => exact Post.pure ⟨Moves.refl w op, by simp, rfl, rfl, fun _ => ⟨rfl, rfl⟩⟩
  | some c =>
    refine Post.bind (maybeCreate_moves op w) ?_
    rintro op1 w1 ⟨h1, h2, h3, h4, h5, h6⟩
    refine (writeTable_moves op1 c w1).imp ?_ (fun _ h => h)
    rintro op2 w2 ⟨k1, k2, k3, k4, k5, k6⟩
    exact ⟨h1.trans k1, by simp [k2, h2], by rw [k4, h4], k6.trans h6, fun h => by cases h⟩

theorem finishIndexManifest_puts (carried own : List ManifestRow) (w : World) :
    Post (finishIndexManifest carried own w) (fun im w' => ∃ ops, w'.log = w.log ++ ops ∧
      ((carried ++ own = [] ∧ im = none ∧ ops = []) ∨
        ∃ u, im = some (.indexManifest u) ∧ ops = [(.indexManifest u, .imanifest (carried ++ own))] ∧
          carried ++ own ≠ [])) (fun _ => True) := by
  unfold finishIndexManifest
  by_cases h : carried ++ own = []
  · simp only [h, if_true]
    exact Post.pure ⟨[], by simp, Or.inl ⟨trivial, rfl, rfl⟩⟩
  · simp only [h, if_false]
    refine Post.bind (Q := fun _ w' => w'.log = w.log) (Post.fresh rfl) ?_
    intro u w1 hw1
    refine Post.bind (Q := fun _ w' => w'.log = w.log ++ [(.indexManifest u, .imanifest (carried ++ own))])
      (Post.put (by simp [World.put, hw1])) ?_
    intro _ w2 hw2
    exact Post.pure ⟨_, hw2, Or.inr ⟨u, rfl, rfl, h⟩⟩

theorem finishRecordManifest_puts (rows : List RecManifestRow) (w : World) :
    Post (finishRecordManifest rows w) (fun rm w' => ∃ ops, w'.log = w.log ++ ops ∧
      ((rows = [] ∧ rm = none ∧ ops = []) ∨
        ∃ u, rm = some (.recordManifest u) ∧ ops = [(.recordManifest u, .rmanifest rows)] ∧ rows ≠ [])) (fun _ => True) := by
  unfold finishRecordManifest
  by_cases h : rows = []
  · simp only [h, if_true]
    exact Post.pure ⟨[], by simp, Or.inl ⟨trivial, rfl, rfl⟩⟩
  · simp only [h, if_false]
    refine Post.bind (Q := fun _ w' => w'.log = w.log) (Post.fresh rfl) ?_
    intro u w1 hw1
    refine Post.bind (Q := fun _ w' => w'.log = w.log ++ [(.recordManifest u, .rmanifest rows)])
      (Post.put (by simp [World.put, hw1])) ?_
    intro _ w2 hw2
    exact Post.pure ⟨_, hw2, Or.inr ⟨u, rfl, rfl, h⟩⟩

/-- `finish`: every file listed before or put in place now is used by the patch.  Without a patch the
operation had no rows; only the manifest of rows carried over may be left. -/
theorem finish_puts {op : AppendOp} (hu : op.Blank ∨ 0 < op.count) (w : World) :
    Post (op.finish E s w) (fun p w' => ∃ ops, w'.log = w.log ++ ops ∧
      (op.rws = [] → op.rmf = [] → ∀ pt, p = some pt → pt.addRec = []) ∧
      ∀ q, (op.Lists q ∨ q ∈ ops.map (·.1)) →
        (∃ pt, p = some pt ∧ Uses ops pt.addIdx pt.addRec q) ∨
        (p = none ∧ op.carried ≠ [] ∧ ∃ u, q = .indexManifest u)) (fun _ => True) := by
  unfold AppendOp.finish
  refine Post.bind (finishRecords_moves _ op w) ?_
  rintro op1 w1 ⟨h1, h2, h3, h4, h5⟩
  refine Post.bind (flush_moves op1 w1) ?_
  rintro op2 w2 ⟨k1, k2, k3, k4, k5⟩
  refine Post.bind (finishIndex_moves op2 w2) ?_
  rintro op3 w3 ⟨l1, -, -, l2, -, l3, l4⟩
  refine Post.bind (finishIndexManifest_puts _ _ w3) ?_
  rintro im w4 ⟨o4, log4, him⟩
  refine Post.bind (finishRecordManifest_puts _ w4) ?_
  rintro rm w5 ⟨o5, log5, hrm⟩
  have hm := h1.trans (k1.trans l1)
  obtain ⟨o3, log3, hl3⟩ := hm.ops
  have hlog : w5.log = w.log ++ (o3 ++ o4 ++ o5) := by rw [log5, log4, log3]; simp
  have hcount : op3.stats.rows = op.count := by
    rw [l2, k2, k3, h4, h3]
    simp only [AppendOp.count, AppendOp.opened, h2]
    omega
  have hcar : op3.carried = op.carried := hm.carried
  have hnone : op.rws = [] → op.rmf = [] → rm = none := by
    intro hr hf
    have e : op3.rmf = [] := by rw [l3, k4, (h5 hr).1]; exact hf
    rcases hrm with ⟨-, h, -⟩ | ⟨u, h, -, hne⟩
    · exact h
    · exact absurd e hne
  by_cases hz : op3.stats.rows = 0
  · simp only [hz, if_true]
    have hb : op.Blank := hu.resolve_right (by rw [← hcount, hz]; omega)
    obtain ⟨rfl, rfl⟩ := h5 hb.rws
    obtain ⟨rfl, rfl⟩ := k5 hb.cache
    obtain ⟨rfl, rfl⟩ := l4 hb.iw
    rw [hb.mf, List.append_nil] at him
    rcases hrm with ⟨-, -, ho5⟩ | ⟨u, -, -, hne⟩
    · refine Post.pure ⟨o4, by rw [log5, log4, ho5, List.append_nil], fun _ _ _ h => (by cases h), ?_⟩
      rintro q (h | h)
      · simp [AppendOp.Lists, hb.mf, hb.rmf] at h
      · rcases him with ⟨-, -, ho⟩ | ⟨u, -, ho, hne⟩
        · simp [ho] at h
        · simp only [ho, List.map_cons, List.map_nil, List.mem_singleton] at h
          exact Or.inr ⟨rfl, hne, u, h⟩
    · exact absurd hb.rmf hne
  · simp only [hz, if_false]
    refine Post.pure ⟨_, hlog, fun hr hf pt hp => ?_, fun q hq => Or.inl ⟨_, rfl, ?_⟩⟩
    · cases hp
      simp [hnone hr hf]
    · have hq' : op3.Lists q ∨ q ∈ o4.map (·.1) ∨ q ∈ o5.map (·.1) := by
        rcases hq with h | h
        · exact Or.inl (hm.lists q h)
        · simp only [List.map_append, List.mem_append] at h
          rcases h with (h | h) | h
          · obtain ⟨x, hx, rfl⟩ := List.mem_map.mp h
            exact Or.inl (hl3 x hx)
          · exact Or.inr (Or.inl h)
          · exact Or.inr (Or.inr h)
      rcases hq' with (⟨m, hm1, hm2⟩ | ⟨m, hm1, hm2⟩) | h | h
      · rcases him with ⟨h0, -, -⟩ | ⟨u, hu1, hu2, -⟩
        · simp [List.append_eq_nil_iff] at h0
          rw [h0.2] at hm1
          cases hm1
        · exact Or.inr (Or.inr (Or.inl ⟨.indexManifest u, by simp [hu1], op3.carried ++ op3.mf, by simp [hu2], m,
            List.mem_append_right _ hm1, hm2⟩))
      · rcases hrm with ⟨h0, -, -⟩ | ⟨u, hu1, hu2, -⟩
        · rw [h0] at hm1
          cases hm1
        · exact Or.inr (Or.inr (Or.inr ⟨.recordManifest u, by simp [hu1], op3.rmf, by simp [hu2], m, hm1, hm2⟩))
      · rcases him with ⟨-, -, ho⟩ | ⟨u, hu1, ho, -⟩
        · simp [ho] at h
        · exact Or.inl (by simp [ho] at h; simp [hu1, h])
      · rcases hrm with ⟨-, -, ho⟩ | ⟨u, hu1, ho, -⟩
        · simp [ho] at h
        · exact Or.inr (Or.inl (by simp [ho] at h; simp [hu1, h]))

/-- `finish` of an operation with nothing carried over. -/
theorem Keeps.finish {w0 w : World} {op : AppendOp} (h : Keeps w0 w op) :
    Post (op.finish E s w) (fun p w' => CleanAll False w0 [p] w') (fun _ => True) := by
  refine (finish_puts h.used w).imp ?_ (fun _ h => h)
  rintro p w' ⟨ops, hl, -, hq⟩
  obtain ⟨o1, l1, c1⟩ := h.ops
  refine ⟨o1 ++ ops, by rw [hl, l1, List.append_assoc], fun x hx => ?_⟩
  have hx' : op.Lists x.1 ∨ x.1 ∈ ops.map (·.1) :=
    (List.mem_append.mp hx).imp (c1 x) (fun h => List.mem_map.mpr ⟨x, h, rfl⟩)
  rcases hq x.1 hx' with ⟨pt, hp, hu⟩ | ⟨-, hc, -⟩
  · exact ⟨pt, by simp [hp], Or.inl (hu.mono (fun y hy => List.mem_append_right _ hy) (fun _ h => h) (fun _ h => h))⟩
  · exact absurd h.carried hc

/-! ## Deletes -/

theorem Keeps.deleteFile {w0 w : World} {e : Expr} {d : DelState} (h : Keeps w0 w d.op) (f : DataFile) :
    Post (deleteFile E s e d f w) (fun d' w' => Keeps w0 w' d'.op ∧ d'.op.addrInput = d.op.addrInput)
      (fun _ => True) := by
  unfold Space.deleteFile
  refine Post.bind (Q := fun a b => w = a ∧ w = b) (Post.get ⟨rfl, rfl⟩) ?_
  rintro a b ⟨rfl, hb⟩
  subst hb
  cases w.fs.parquet f.path with
  | none => exact Post.raise trivial
  | some g =>
    simp only
    split
    · exact Post.pure ⟨h, rfl⟩
    · split
      · exact Post.pure ⟨h, rfl⟩
      · exact Post.bind (h.write _) fun op' w' h' => Post.pure h'

theorem Keeps.deleteLoop {w0 : World} {e : Expr} : ∀ (files : List DataFile) {w : World} {d : DelState},
    Keeps w0 w d.op → d.op.addrInput = true →
    Post (deleteLoop E s e d files w) (fun d' w' => Keeps w0 w' d'.op ∧ d'.op.addrInput = true) (fun _ => True)
  | [], w, d, h, ha => Post.pure ⟨h, ha⟩
  | f :: files, w, d, h, ha => by
    unfold Space.deleteLoop
    exact Post.bind (h.deleteFile f) fun d' w' h' => Keeps.deleteLoop files h'.1 (h'.2.trans ha)

/-- With no row to delete the loop writes nothing. -/
theorem deleteLoop_idle {e : Expr} : ∀ (files : List DataFile) {w : World} {d : DelState},
    (∀ f ∈ files, modFile E.I e w.fs f = false) →
    Post (deleteLoop E s e d files w) (fun d' w' => w' = w ∧ d'.deleted = d.deleted) (fun _ => True)
  | [], w, d, _ => Post.pure ⟨rfl, rfl⟩
  | f :: files, w, d, h => by
    unfold deleteLoop
    refine Post.bind (Q := fun d' w' => w' = w ∧ d'.deleted = d.deleted) ?_ ?_
    · unfold deleteFile
      refine Post.bind (Q := fun a b => w = a ∧ w = b) (Post.get ⟨rfl, rfl⟩) ?_
      rintro a b ⟨rfl, hb⟩
      subst hb
      cases hg : w.fs.parquet f.path with
      | none => exact Post.raise trivial
      | some g =>
        have hm := h f (by simp)
        simp only [modFile, ne_eq, decide_eq_false_iff_not, Decidable.not_not] at hm
        have hl : ((survivors E.I e g.flatten).length : Int) = f.stats.rows := by
          rw [survivors_length, ← hm]
          simp [survRows, fileRows, hg]
        simp only [hl, if_true]
        exact Post.pure ⟨rfl, rfl⟩
    · rintro d' w' ⟨rfl, hd⟩
      refine (deleteLoop_idle files (fun g hg => h g (by simp [hg]))).imp ?_ (fun _ h => h)
      rintro d2 w2 ⟨h1, h2⟩
      exact ⟨h1, h2.trans hd⟩

theorem deleteFiles_some {e : Expr} (fset : FileSet) (w : World) :
    Post (deleteFiles E s fset e w) (fun p w' => p ≠ none → CleanAll True w [p] w') (fun _ => True) := by
  unfold deleteFiles
  split
  · exact Post.raise trivial
  refine Post.bind (Keeps.deleteLoop (w0 := w) fset.files (Keeps.init w true) rfl) ?_
  rintro d w1 ⟨hk, ha⟩
  split
  · exact Post.pure fun h => absurd rfl h
  · refine Post.bind (Q := fun _ b => b = w1) (Post.lift (fun _ _ => rfl) trivial) ?_
    rintro dms b rfl
    refine Post.bind (Q := fun a b' => b = a ∧ b = b') (Post.get ⟨rfl, rfl⟩) ?_
    rintro a b' ⟨rfl, hb⟩
    subst hb
    refine Post.bind (Q := fun _ b' => b' = b) (Post.lift (fun _ _ => rfl) trivial) ?_
    rintro rows b' rfl
    refine Post.bind (finish_puts ?_ b') ?_
    · exact hk.used.imp (fun hb => ⟨hb.iw, hb.rws, hb.cache, hb.mf, hb.rmf, hb.rows⟩) (fun h => h)
    · rintro rp w2 ⟨ops, hl, hrec, hq⟩
      refine Post.pure fun _ => ?_
      obtain ⟨o1, l1, c1⟩ := hk.ops
      refine ⟨o1 ++ ops, by rw [hl, l1, List.append_assoc], fun x hx => ⟨_, List.mem_singleton.mpr rfl, ?_⟩⟩
      have hx' : d.op.Lists x.1 ∨ x.1 ∈ ops.map (·.1) :=
        (List.mem_append.mp hx).imp (c1 x) (fun h => List.mem_map.mpr ⟨x, h, rfl⟩)
      rcases hq x.1 hx' with ⟨pt, rfl, hu⟩ | ⟨-, -, hu⟩
      · refine Or.inl (hu.mono (fun y hy => List.mem_append_right _ hy) (fun _ h => h) ?_)
        rw [hrec (hk.recs ha).1 (hk.recs ha).2 pt rfl]
        exact fun _ h => absurd h (by simp)
      · exact Or.inr ⟨trivial, hu⟩

theorem deleteFiles_clean {e : Expr} {w : World} {fset : FileSet}
    (hf : w.Fresh) (hfiles : ∀ f ∈ fset.files, FileOK w.fs s f)
    (hman : ∀ n q, fset.manifests.get? n = some q → ManifestOK w.fs s q) :
    Post (deleteFiles E s fset e w) (fun p w' => CleanAll True w [p] w' ∧ Grows w w' ∧ w'.Fresh) (fun _ => True) := by
  by_cases hidle : ∀ f ∈ fset.files, modFile E.I e w.fs f = false
  · unfold deleteFiles
    split
    · exact Post.raise trivial
    refine Post.bind (deleteLoop_idle fset.files hidle) ?_
    rintro d w' ⟨rfl, hd⟩
    have hd : d.deleted = 0 := hd
    simp only [hd, if_true]
    exact Post.pure ⟨CleanAll.refl rfl _, Grows.refl _, hf⟩
  · refine ((deleteFiles_some fset w).and (deleteFiles_post hf hfiles hman)).imp ?_ (fun _ _ => trivial)
    rintro p w' ⟨h1, h2, h3, h4⟩
    refine ⟨h1 ?_, h2, h3⟩
    rcases h4 with ⟨-, h4⟩ | ⟨q, dms, carried, mf, rmf, rp, rfl, -⟩
    · exact absurd h4 hidle
    · simp

theorem deleteSet_clean {e : Expr} {w : World} {index : List Path} {mf : Option MExpr} (hf : w.Fresh)
    (hok : ∀ q ∈ index, ManifestOK w.fs s q) :
    Post (deleteFiles E s (visited w.fs mf index) e w) (fun p w' => CleanAll True w [p] w' ∧ Grows w w' ∧ w'.Fresh)
      (fun _ => True) := by
  refine deleteFiles_clean hf ?_ ?_
  · intro f hfm
    obtain ⟨q, hq, m, hm, n, rfl, -, -⟩ := packFiles_mem hfm
    exact ((hok q (List.mem_filter.mp hq).1).entry (List.mem_filter.mp hm).1).fileOK n
  · intro n q hq
    exact hok q (List.mem_filter.mp (packFiles_manifest_mem hq)).1

theorem deleteBody_clean {e : Expr} {w : World} {h : Handle} (hf : w.Fresh) (hh : HandleOK s w h) :
    Post (deleteBody E h e w) (fun p w' => CleanAll True w [p] w') (fun _ => True) := by
  unfold deleteBody
  refine Post.bind (Q := fun a b => w = a ∧ w = b) (Post.get ⟨rfl, rfl⟩) ?_
  rintro a b ⟨rfl, hb⟩
  subst hb
  refine Post.bind (Q := fun a b => dataFiles w.fs h (some e) none = .ok a ∧ w = b)
    (Post.lift (fun a ha => ⟨ha, rfl⟩) trivial) ?_
  rintro fset b ⟨hd, hb⟩
  subst hb
  obtain ⟨snap, mf, h1, h2, rfl⟩ := dataFiles_ok hh hd
  rw [hh.schema]
  exact (deleteSet_clean hf (snapshot_manifests hh h1).manifests).imp (fun _ _ h => h.1) (fun _ h => h)

theorem rayDeleteLoop_clean {e : Expr} {w0 : World} {index : List Path} {man : AMap Nat Path}
    (hok : ∀ q ∈ index, ManifestOK w0.fs s q) (hman : ∀ n q, man.get? n = some q → q ∈ index) :
    ∀ (files : List DataFile) {w : World}, w.Fresh → Grows w0 w →
    (∀ f ∈ files, ∃ q, ∃ m ∈ entriesOf w0.fs q, f = toDataFile f.mid m ∧ man.get? f.mid = some q) →
    Post (rayDeleteLoop E s man e files w) (fun ps w' => CleanAll True w ps w') (fun _ => True)
  | [], w, hf, hg, hfs => Post.pure (CleanAll.refl rfl _)
  | f :: files, w, hf, hg, hfs => by
    unfold rayDeleteLoop
    obtain ⟨q, m, hm, hfe, hq⟩ := hfs f (by simp)
    have hq0 := hok q (hman _ _ hq)
    have hm' : m ∈ entriesOf w.fs q := by rw [entriesOf_mono hg.le hq0]; exact hm
    refine Post.bind (deleteFiles_clean (E := E) (e := e) hf (fset := { files := [f], manifests := man }) ?_ ?_) ?_
    · intro g hgm
      rw [List.mem_singleton] at hgm
      subst hgm
      rw [hfe]
      exact ((hq0.mono hg.le).entry hm').fileOK _
    · exact fun n q' hq' => (hok q' (hman _ _ hq')).mono hg.le
    · rintro p w1 ⟨c1, g1, f1⟩
      refine Post.bind (rayDeleteLoop_clean hok hman files f1 (hg.trans g1)
        (fun g hgm => hfs g (List.mem_cons_of_mem _ hgm))) ?_
      intro ps w2 c2
      exact Post.pure (c1.append c2)

theorem rayDeleteBody_clean {e : Expr} {w : World} {h : Handle} (hf : w.Fresh) (hh : HandleOK s w h) :
    Post (rayDeleteBody E h e w) (fun p w' => CleanAll True w [p] w') (fun _ => True) := by
  unfold rayDeleteBody
  refine Post.bind (Q := fun a b => w = a ∧ w = b) (Post.get ⟨rfl, rfl⟩) ?_
  rintro a b ⟨rfl, hb⟩
  subst hb
  refine Post.bind (Q := fun a b => dataFiles w.fs h (some e) none = .ok a ∧ w = b)
    (Post.lift (fun a ha => ⟨ha, rfl⟩) trivial) ?_
  rintro fset b ⟨hd, hb⟩
  subst hb
  obtain ⟨snap, mf, h1, h2, rfl⟩ := dataFiles_ok hh hd
  rw [hh.schema]
  refine Post.bind (rayDeleteLoop_clean (w0 := w) (index := snap.index) (snapshot_manifests hh h1).manifests ?_ _ hf
    (Grows.refl w) ?_) ?_
  · intro n q hq
    exact (List.mem_filter.mp (packFiles_manifest_mem hq)).1
  · intro f hfm
    obtain ⟨q, -, m, hm, n, rfl, -, hg⟩ := packFiles_mem hfm
    exact ⟨q, m, (List.mem_filter.mp hm).1, rfl, hg⟩
  · intro ps w' hc
    exact Post.pure hc.merge

/-! ## Actors -/

/-- What was put in place since `w0` is listed by one of the actors. -/
structure ActorsKeep (w0 w : World) (as : List Actor) : Prop where
  ops : ∃ ops, w.log = w0.log ++ ops ∧ ∀ x ∈ ops, ∃ a ∈ as, a.1.Lists x.1
  each : ∀ a ∈ as, (a.1.Blank ∨ 0 < a.1.count) ∧ a.1.carried = []

theorem ActorsKeep.step {w0 w : World} {as : List Actor} (h : ActorsKeep w0 w as) (i : Nat) :
    Post (actorStep E s i as w) (fun as' w' => ActorsKeep w0 w' as') (fun _ => True) := by
  unfold actorStep
  rcases hi : as[i]? with _ | ⟨op, _ | ⟨t, ts⟩⟩
  · exact Post.pure h
  · exact Post.pure h
  · obtain ⟨hlt, hget⟩ := List.getElem?_eq_some_iff.mp hi
    have hmem : (op, t :: ts) ∈ as := hget ▸ List.getElem_mem hlt
    refine Post.bind (write_moves op t w) ?_
    rintro op' w' ⟨h1, h2, h3, -⟩
    obtain ⟨o1, l1, c1⟩ := h.ops
    obtain ⟨o2, l2, c2⟩ := h1.ops
    have hnew : (op', ts) ∈ as.set i (op', ts) := List.mem_set hlt _
    refine Post.pure ⟨⟨o1 ++ o2, by rw [l2, l1, List.append_assoc], fun x hx => ?_⟩, ?_⟩
    · rcases List.mem_append.mp hx with hx | hx
      · obtain ⟨a, ha, hl⟩ := c1 x hx
        obtain ⟨j, hj, rfl⟩ := List.mem_iff_getElem.mp ha
        by_cases hij : i = j
        · subst hij
          rw [hget] at hl
          exact ⟨_, hnew, h1.lists _ hl⟩
        · refine ⟨as[j], ?_, hl⟩
          have : (as.set i (op', ts))[j]? = some as[j] := by
            rw [List.getElem?_set_ne hij]
            exact List.getElem?_eq_getElem hj
          exact List.mem_of_getElem? this
      · exact ⟨_, hnew, c2 x hx⟩
    · intro a ha
      rcases List.mem_or_eq_of_mem_set ha with ha | rfl
      · exact h.each a ha
      · obtain ⟨e1, e2⟩ := h.each _ hmem
        exact ⟨write_used e1 h2 h3, h1.carried.trans e2⟩

theorem ActorsKeep.run {w0 : World} : ∀ (is : List Nat) {w : World} {as : List Actor}, ActorsKeep w0 w as →
    Post (actorsRun E s is as w) (fun as' w' => ActorsKeep w0 w' as') (fun _ => True)
  | [], w, as, h => Post.pure h
  | i :: is, w, as, h => by
    unfold actorsRun
    exact Post.bind (h.step i) fun as' w' h' => ActorsKeep.run is h'

theorem finishActors_puts : ∀ (as : List Actor) (w : World),
    (∀ a ∈ as, (a.1.Blank ∨ 0 < a.1.count) ∧ a.1.carried = []) →
    Post (finishActors E s as w) (fun ps w' => ∃ ops, w'.log = w.log ++ ops ∧
      ∀ q, ((∃ a ∈ as, a.1.Lists q) ∨ q ∈ ops.map (·.1)) → ∃ pt, some pt ∈ ps ∧ Uses ops pt.addIdx pt.addRec q)
      (fun _ => True)
  | [], w, _ => Post.pure ⟨[], by simp, by simp⟩
  | (op, ts) :: as, w, h => by
    unfold finishActors
    obtain ⟨e1, e2⟩ := h (op, ts) (by simp)
    refine Post.bind (finish_puts e1 w) ?_
    rintro p w1 ⟨o1, l1, -, q1⟩
    refine Post.bind (finishActors_puts as w1 (fun a ha => h a (by simp [ha]))) ?_
    rintro ps w2 ⟨o2, l2, q2⟩
    refine Post.pure ⟨o1 ++ o2, by rw [l2, l1, List.append_assoc], fun q hq => ?_⟩
    have hq' : (op.Lists q ∨ q ∈ o1.map (·.1)) ∨ ((∃ a ∈ as, a.1.Lists q) ∨ q ∈ o2.map (·.1)) := by
      rcases hq with ⟨a, ha, hl⟩ | hq
      · rcases List.mem_cons.mp ha with rfl | ha
        · exact Or.inl (Or.inl hl)
        · exact Or.inr (Or.inl ⟨a, ha, hl⟩)
      · rw [List.map_append, List.mem_append] at hq
        exact hq.imp Or.inr Or.inr
    rcases hq' with hq | hq
    · rcases q1 q hq with ⟨pt, rfl, hu⟩ | ⟨-, hc, -⟩
      · exact ⟨pt, by simp, hu.mono (fun y hy => List.mem_append_left _ hy) (fun _ h => h) (fun _ h => h)⟩
      · exact absurd e2 hc
    · obtain ⟨pt, hp, hu⟩ := q2 q hq
      exact ⟨pt, by simp [hp], hu.mono (fun y hy => List.mem_append_right _ hy) (fun _ h => h) (fun _ h => h)⟩

theorem rayWrite_clean (sched : List Nat) (queues : List (List (List Row))) (w : World) :
    Post (rayWrite E s sched queues w) (fun p w' => CleanAll False w [p] w') (fun _ => True) := by
  unfold rayWrite
  have h0 : ActorsKeep w w (queues.map (fun q => (({ addrInput := false } : AppendOp), q))) := by
    refine ⟨⟨[], by simp, by simp⟩, fun a ha => ?_⟩
    obtain ⟨q, -, rfl⟩ := List.mem_map.mp ha
    exact ⟨(Keeps.init w false).used, rfl⟩
  refine Post.bind (h0.run sched) ?_
  intro as w1 h1
  refine Post.bind (h1.run (drain as)) ?_
  intro as' w2 h2
  refine Post.bind (finishActors_puts as' w2 h2.each) ?_
  rintro ps w3 ⟨ops, hl, hq⟩
  refine Post.pure (CleanAll.merge ?_)
  obtain ⟨o1, l1, c1⟩ := h2.ops
  refine ⟨o1 ++ ops, by rw [hl, l1, List.append_assoc], fun x hx => ?_⟩
  obtain ⟨pt, hp, hu⟩ := hq x.1 ((List.mem_append.mp hx).imp (c1 x) (fun h => List.mem_map.mpr ⟨x, h, rfl⟩))
  exact ⟨pt, hp, Or.inl (hu.mono (fun y hy => List.mem_append_right _ hy) (fun _ h => h) (fun _ h => h))⟩

theorem rayAppendBody_clean (n : Nat) (sched : List Nat) (rows : List Row) (w : World) :
    Post (rayAppendBody E s n sched rows w) (fun p w' => CleanAll False w [p] w') (fun _ => True) := by
  unfold rayAppendBody
  refine Post.bind (Q := fun _ b => b = w) (Post.lift (fun _ _ => rfl) trivial) ?_
  rintro qs b rfl
  exact rayWrite_clean sched qs b

theorem rayAppendFromAll_clean (n : Nat) (sched : List Nat) (sources : List (List (List Row))) (w : World) :
    Post (rayAppendFromAll E s n sched sources w) (fun p w' => CleanAll False w [p] w') (fun _ => True) := by
  unfold rayAppendFromAll
  refine Post.bind (Q := fun _ b => b = w) (Post.lift (fun _ _ => rfl) trivial) ?_
  rintro qs b rfl
  exact rayWrite_clean sched qs b

/-! ## Bodies -/

theorem appendBody_clean (ts : List (List Row)) (w : World) :
    Post (appendBody E s ts w) (fun p w' => CleanAll False w [p] w') (fun _ => True) := by
  unfold appendBody
  exact Post.bind (Keeps.writeAll ts (Keeps.init w false)) fun op w' h => h.finish

theorem appendParquetBody_clean (files : List Path) (w : World) :
    Post (appendParquetBody E s files w) (fun p w' => CleanAll False w [p] w') (fun _ => True) := by
  unfold appendParquetBody
  split
  · exact Post.raise trivial
  refine Post.bind (Q := fun a b => w = a ∧ w = b) (Post.get ⟨rfl, rfl⟩) ?_
  rintro a b ⟨rfl, hb⟩
  subst hb
  refine Post.bind (Q := fun _ b => b = w) (Post.lift (fun _ _ => rfl) trivial) ?_
  rintro rows b rfl
  refine Post.bind (finishIndexManifest_puts _ _ b) ?_
  rintro im w' ⟨ops, hl, hi⟩
  refine Post.pure ⟨ops, hl, fun x hx => ⟨_, List.mem_singleton.mpr rfl, Or.inl (Or.inl ?_)⟩⟩
  rcases hi with ⟨-, -, h⟩ | ⟨u, h1, h2, -⟩
  · simp [h] at hx
  · simp [h2] at hx
    simp [h1, hx]

theorem loadRecordFiles_keeps {w0 : World} (field : String) (fn : List Nat → Row) : ∀ (files : List Path)
    {w : World} {op : AppendOp} (n : Nat), Keeps w0 w op →
    Post (loadRecordFiles E s field fn files op n w) (fun x w' => Keeps w0 w' x.1) (fun _ => True)
  | [], w, op, n, h => Post.pure h
  | p :: ps, w, op, n, h => by
    unfold loadRecordFiles
    refine Post.bind (Q := fun a b => w = a ∧ w = b) (Post.get ⟨rfl, rfl⟩) ?_
    rintro a b ⟨rfl, hb⟩
    subst hb
    cases w.fs.records p with
    | none => exact Post.raise trivial
    | some rs => exact Post.bind (h.write _) fun op' w' h' => loadRecordFiles_keeps field fn ps _ h'.1

theorem appendArrayRecordBody_clean (fn : List Nat → Row) (files : List Path) (w : World) :
    Post (appendArrayRecordBody E s fn files w) (fun p w' => CleanAll False w [p] w') (fun _ => True) := by
  unfold appendArrayRecordBody
  rcases s.recFields with _ | ⟨f, _ | ⟨g, l⟩⟩
  · exact Post.raise trivial
  · refine Post.bind (loadRecordFiles_keeps f.name fn files 0 (Keeps.init w true)) ?_
    rintro ⟨op, bytes⟩ w1 h
    refine Post.bind h.finish ?_
    rintro p w2 ⟨ops, hl, hq⟩
    refine Post.pure ⟨ops, hl, fun x hx => ?_⟩
    obtain ⟨pt, hp, hu⟩ := hq x hx
    rw [List.mem_singleton] at hp
    subst hp
    exact ⟨_, List.mem_singleton.mpr rfl, hu⟩
  · exact Post.raise trivial

theorem insertBody_clean {w : World} {h : Handle} (hf : w.Fresh) (hh : HandleOK s w h) (mode : InsertMode)
    (data : List Row) :
    Post (insertBody E h mode data w) (fun p w' => CleanAll (mode = .upsert) w [p] w') (fun _ => True) := by
  unfold insertBody
  split
  · exact Post.pure (CleanAll.refl rfl _)
  refine Post.bind (Q := fun _ b => w = b) (Post.lift (fun _ _ => rfl) trivial) ?_
  rintro fe b rfl
  cases fe with
  | none => exact Post.raise trivial
  | some e =>
    refine Post.bind (Q := fun a b => w = a ∧ w = b) (Post.get ⟨rfl, rfl⟩) ?_
    rintro a b ⟨rfl, hb⟩
    subst hb
    refine Post.bind (Q := fun a b => dataFiles w.fs h (some e) none = .ok a ∧ w = b)
      (Post.lift (fun a ha => ⟨ha, rfl⟩) trivial) ?_
    rintro fset b ⟨hd, hb⟩
    subst hb
    obtain ⟨snap, mf, h1, h2, rfl⟩ := dataFiles_ok hh hd
    refine Post.bind (Q := fun p w' => CleanAll (mode = .upsert) w [p] w') ?_ ?_
    · split
      · exact Post.pure (CleanAll.refl rfl _)
      · cases mode with
        | insert =>
          refine Post.bind (Q := fun _ b => w = b) (Post.lift (fun _ _ => rfl) trivial) ?_
          rintro m b rfl
          cases m
          · exact Post.pure (CleanAll.refl rfl _)
          · exact Post.raise trivial
        | upsert =>
          rw [hh.schema]
          exact (deleteSet_clean hf (snapshot_manifests hh h1).manifests).imp
            (fun _ _ h => h.1.weaken fun _ => rfl) (fun _ h => h)
    · intro dp w1 c1
      refine Post.bind ((Keeps.init w1 false).write data) ?_
      rintro op w2 ⟨hk, -⟩
      refine Post.bind hk.finish ?_
      intro ap w3 c2
      exact Post.pure (c1.append (c2.weaken False.elim)).merge

theorem rayInsertBody_clean {w : World} {h : Handle} (hf : w.Fresh) (hh : HandleOK s w h) (mode : InsertMode)
    (n : Nat) (sched : List Nat) (data : List Row) :
    Post (rayInsertBody E h mode n sched data w) (fun p w' => CleanAll (mode = .upsert) w [p] w') (fun _ => True) := by
  unfold rayInsertBody
  split
  · exact Post.pure (CleanAll.refl rfl _)
  refine Post.bind (Q := fun _ b => w = b) (Post.lift (fun _ _ => rfl) trivial) ?_
  rintro fe b rfl
  cases fe with
  | none => exact Post.raise trivial
  | some e =>
    refine Post.bind (Q := fun a b => w = a ∧ w = b) (Post.get ⟨rfl, rfl⟩) ?_
    rintro a b ⟨rfl, hb⟩
    subst hb
    refine Post.bind (Q := fun a b => dataFiles w.fs h (some e) none = .ok a ∧ w = b)
      (Post.lift (fun a ha => ⟨ha, rfl⟩) trivial) ?_
    rintro fset b ⟨hd, hb⟩
    subst hb
    obtain ⟨snap, mf, h1, h2, rfl⟩ := dataFiles_ok hh hd
    refine Post.bind (Q := fun p w' => CleanAll (mode = .upsert) w [p] w') ?_ ?_
    · split
      · exact Post.pure (CleanAll.refl rfl _)
      · cases mode with
        | insert =>
          refine Post.bind (Q := fun _ b => w = b) (Post.lift (fun _ _ => rfl) trivial) ?_
          rintro m b rfl
          cases m
          · exact Post.pure (CleanAll.refl rfl _)
          · exact Post.raise trivial
        | upsert =>
          rw [hh.schema]
          exact (deleteSet_clean hf (snapshot_manifests hh h1).manifests).imp
            (fun _ _ h => h.1.weaken fun _ => rfl) (fun _ h => h)
    · intro dp w1 c1
      refine Post.bind (rayAppendBody_clean n sched data w1) ?_
      intro ap w3 c2
      exact Post.pure (c1.append (c2.weaken False.elim)).merge

theorem syncBody_clean {w : World} {h : Handle} (hf : w.Fresh) (hh : HandleOK s w h)
    (n : Nat) (sched : List Nat) (gone : List Row) (added : Option (List (List (List Row)))) :
    Post (syncBody E h n sched gone added w) (fun p w' => CleanAll (gone ≠ []) w [p] w') (fun _ => True) := by
  unfold syncBody
  refine Post.bind (Q := fun p w' => CleanAll (gone ≠ []) w [p] w') ?_ ?_
  · split
    · exact Post.pure (CleanAll.refl rfl _)
    · rename_i hg
      unfold syncDelete
      refine Post.bind (Q := fun _ b => w = b) (Post.lift (fun _ _ => rfl) trivial) ?_
      rintro fe b rfl
      cases fe with
      | none => exact Post.pure (CleanAll.refl rfl _)
      | some e => exact (deleteBody_clean hf hh).imp (fun _ _ h => h.weaken fun _ => hg) (fun _ h => h)
  · intro dp w1 c1
    refine Post.bind (Q := fun p w' => CleanAll False w1 [p] w') ?_ ?_
    · cases added with
      | none => exact Post.pure (CleanAll.refl rfl _)
      | some sources => exact rayAppendFromAll_clean n sched sources w1
    · intro ap w2 c2
      exact Post.pure (c1.append (c2.weaken False.elim)).merge

/-- The mutation may delete rows. -/
def Mutation.Deletes : Mutation → Prop
  | .upsert _ | .delete _ | .rayDelete _ => True
  | .rayInsert mode _ _ _ => mode = .upsert
  | .sync _ _ gone _ => gone ≠ []
  | _ => False

theorem body_clean {w : World} {h : Handle} (hf : w.Fresh) (hh : HandleOK s w h) (m : Mutation) :
    Post (m.body E h w) (fun p w' => CleanAll m.Deletes w [p] w') (fun _ => True) := by
  cases m with
  | append ts => exact appendBody_clean ts w
  | insert rows => exact (insertBody_clean hf hh .insert rows).imp (fun _ _ h => h.weaken (by simp)) (fun _ h => h)
  | upsert rows => exact (insertBody_clean hf hh .upsert rows).imp (fun _ _ h => h.weaken fun _ => trivial) (fun _ h => h)
  | delete e => exact deleteBody_clean hf hh
  | appendParquet files => exact appendParquetBody_clean files w
  | appendArrayRecord fn files => exact appendArrayRecordBody_clean fn files w
  | rayAppend n sched rows => exact rayAppendBody_clean n sched rows w
  | rayAppendFrom n sched sources => exact rayAppendFromAll_clean _ sched sources w
  | rayInsert mode n sched rows => exact rayInsertBody_clean hf hh mode n sched rows
  | sync n sched gone added => exact syncBody_clean hf hh n sched gone added
  | rayDelete e => exact rayDeleteBody_clean hf hh

/-! ## Files and the log -/

theorem applyOps_other {q : Path} : ∀ {ops : List (Path × Content)} {fs : FS}, q ∉ ops.map (·.1) →
    AMap.get? (applyOps fs ops) q = AMap.get? fs q
  | [], _, _ => rfl
  | x :: ops, fs, h => by
    simp only [List.map_cons, List.mem_cons, not_or] at h
    show AMap.get? (applyOps (AMap.set fs x.1 x.2) ops) q = _
    rw [applyOps_other h.2, AMap.get?_set_ne _ _ (by simpa using h.1)]

/-- Files put in place keep their content. -/
theorem traced_kept {w w' : World} (h : Traced w w') {ops : List (Path × Content)} (hl : w'.log = w.log ++ ops)
    {p : Path} {c : Content} (hp : (p, c) ∈ ops) : AMap.get? w'.fs p = some c := by
  obtain ⟨o, h1, h2, -, -, h3⟩ := h
  rw [hl] at h1
  have := List.append_cancel_left h1
  subst this
  obtain ⟨a, b, rfl⟩ := List.append_of_mem hp
  have hb : p ∉ b.map (·.1) := by
    intro hb
    obtain ⟨⟨p', c'⟩, hx, rfl⟩ := List.mem_map.mp hb
    obtain ⟨b1, b2, rfl⟩ := List.append_of_mem hx
    obtain ⟨-, h0⟩ := h3 (a ++ (p', c) :: b1) p' c' b2 (by simp)
    rw [applyOps_append] at h0
    have h1 : AMap.get? (applyOps (AMap.set (applyOps w.fs a) p' c) b1) p' = none := h0
    have := applyOps_none h1
    rw [AMap.get?_set_self] at this
    cases this
  rw [h2, applyOps_append]
  show AMap.get? (applyOps (AMap.set (applyOps w.fs a) p c) b) p = some c
  rw [applyOps_other hb, AMap.get?_set_self]

/-- A file that was not there before was put in place. -/
theorem traced_put {w w' : World} (h : Traced w w') {ops : List (Path × Content)} (hl : w'.log = w.log ++ ops)
    {q : Path} (h0 : AMap.get? w.fs q = none) (hq : AMap.get? w'.fs q ≠ none) : ∃ x ∈ ops, x.1 = q := by
  obtain ⟨o, h1, h2, -⟩ := h
  rw [hl] at h1
  have := List.append_cancel_left h1
  subst this
  by_cases hm : q ∈ ops.map (·.1)
  · obtain ⟨x, hx, e⟩ := List.mem_map.mp hm
    exact ⟨x, hx, e⟩
  · rw [h2, applyOps_other hm] at hq
    exact absurd h0 hq

/-- What the commit puts in place: the change log, the metadata file, the entry point. -/
theorem commit_puts {w : World} {h : Handle} {p : Patch} {branch : String} (hh : HandleOK s w h) :
    Post (commit p branch (h, w))
      (fun _ st => ∃ snap, st.1.md.snaps.get? st.1.maxId = some snap ∧ (∀ q ∈ p.addIdx, q ∈ snap.index) ∧
        (∀ q ∈ p.addRec, q ∈ snap.recs) ∧ AMap.get? st.2.fs .entryPoint = some (.entry st.1.mdFile) ∧
        ∀ q, AMap.get? w.fs q = none → AMap.get? st.2.fs q ≠ none →
          q = .entryPoint ∨ q = st.1.mdFile ∨ snap.log = some q)
      (fun _ => True) := by
  unfold commit
  refine Post.bind (Q := fun a st => h = a ∧ st = (h, w)) ⟨rfl, rfl⟩ ?_
  rintro a _ ⟨ha, rfl⟩
  subst ha
  refine Post.bind (Q := fun _ st => st = (({ h with maxId := h.maxId + 1 } : Handle), w)) (by exact rfl) ?_
  rintro _ _ rfl
  refine Post.bind (Q := fun a st => h.md.advance branch (h.maxId + 1) = .ok a ∧
    st = (({ h with maxId := h.maxId + 1 } : Handle), w)) (Post.lift (fun a ha => ⟨ha, rfl⟩) trivial) ?_
  rintro ⟨md1, cur⟩ _ ⟨hadv, rfl⟩
  obtain ⟨a1, a2, a3, a4, a5⟩ := advance_ok hh.ok hadv
  refine Post.bind (Q := fun a st => a = w.next ∧
    st = (({ h with maxId := h.maxId + 1 } : Handle), { w with next := w.next + 1 })) ⟨rfl, rfl⟩ ?_
  rintro _ _ ⟨rfl, rfl⟩
  refine Post.bind (Q := fun a st => patchManifests cur.index cur.recs p = .ok a ∧
    st = (({ h with maxId := h.maxId + 1 } : Handle), { w with next := w.next + 1 }))
    (Post.lift (fun a ha => ⟨ha, rfl⟩) trivial) ?_
  rintro ⟨idx, rc⟩ _ ⟨hpm, rfl⟩
  obtain ⟨b1, b2, -, -, -⟩ := patchManifests_ok (hh.ok.snaps _ _ a2).nodup hpm
  simp only at b1 b2
  refine Post.bind (Q := fun log st => st.1 = { h with maxId := h.maxId + 1 } ∧
    ∀ q, AMap.get? w.fs q = none → AMap.get? st.2.fs q ≠ none → log = some q) ?_ ?_
  · cases hl : p.log with
    | none => exact Post.pure ⟨rfl, fun q h1 h2 => absurd h1 h2⟩
    | some cl =>
      refine ⟨rfl, fun q h1 h2 => ?_⟩
      by_cases hq : q = .changeLog (w.next + 1)
      · rw [hq]
      · have h2 : AMap.get? (AMap.set w.fs (.changeLog (w.next + 1)) (.log cl)) q ≠ none := h2
        rw [AMap.get?_set_ne _ _ (by simpa using hq)] at h2
        exact absurd h1 h2
  rintro log ⟨h1, w1⟩ ⟨rfl, hlog⟩
  refine Post.bind (Q := fun _ st => st = (({ h with maxId := h.maxId + 1 } : Handle), w1.written w.next
    { md1 with
      snaps := md1.snaps.set (h.maxId + 1)
        { id := h.maxId + 1, index := idx, recs := rc,
          stats := (cur.stats.addIndex p.stats).addRecord p.stats,
          log := log, parent := some cur.id } })) (by exact rfl) ?_
  rintro _ _ rfl
  refine Post.bind (Q := fun a st => a = ({ h with maxId := h.maxId + 1 } : Handle) ∧ st = (({ h with maxId := h.maxId + 1 } : Handle), w1.written w.next
    { md1 with
      snaps := md1.snaps.set (h.maxId + 1)
        { id := h.maxId + 1, index := idx, recs := rc,
          stats := (cur.stats.addIndex p.stats).addRecord p.stats,
          log := log, parent := some cur.id } })) ⟨rfl, rfl⟩ ?_
  rintro _ _ ⟨rfl, rfl⟩
  refine ⟨_, AMap.get?_set_self .., ?_, ?_, ?_, ?_⟩
  · intro q hq
    simp only [b1]
    exact List.mem_append_right _ hq
  · intro q hq
    simp only [b2]
    exact List.mem_append_right _ hq
  · exact AMap.get?_set_self ..
  · intro q h1 h2
    by_cases hq : q = .entryPoint
    · exact Or.inl hq
    · have h2 : AMap.get? (AMap.set (AMap.set w1.fs (.metadata w.next) _) .entryPoint _) q ≠ none := h2
      rw [AMap.get?_set_ne _ _ (by simpa using hq)] at h2
      by_cases hq' : q = .metadata w.next
      · exact Or.inr (Or.inl hq')
      · rw [AMap.get?_set_ne _ _ (by simpa using hq')] at h2
        exact Or.inr (Or.inr (hlog q h1 h2))

/-- A call up to the end: what the body puts in place, and what the commit does. -/
theorem runMutation_puts {w : World} {md : Metadata} {h : Handle} (hw : WOK s w md) (hh : HandleOK s w h)
    (hn : s.names.Nodup) (m : Mutation) (hadm : m.Admissible s w.fs) :
    Post (runMutation E m (h, w)) (fun j st => (j = .skipped → st.2.fs = w.fs) ∧
      (j = .succeeded → ∃ w1 p snap, CleanAll m.Deletes w [some p] w1 ∧ Grows w w1 ∧
        st.1.md.snaps.get? st.1.maxId = some snap ∧ (∀ q ∈ p.addIdx, q ∈ snap.index) ∧
        (∀ q ∈ p.addRec, q ∈ snap.recs) ∧ FSLe w1.fs st.2.fs ∧
        AMap.get? st.2.fs .entryPoint = some (.entry st.1.mdFile) ∧
        ∀ q, AMap.get? w1.fs q = none → AMap.get? st.2.fs q ≠ none →
          q = .entryPoint ∨ q = st.1.mdFile ∨ snap.log = some q)) (fun _ => True) := by
  unfold runMutation
  refine Post.bind ((enter_post hw hh).imp (fun _ _ h => h) (fun _ _ => trivial)) ?_
  rintro t ⟨h1, w0⟩ ⟨rfl, h2, h3, h4, hfl, h5, h6, h7⟩
  refine Post.bind (Q := fun a st => h1 = a ∧ st = (h1, w0)) ⟨rfl, rfl⟩ ?_
  rintro _ _ ⟨he, rfl⟩
  subst he
  have hb := (body_post (E := E) hw.fresh h4 hn m hadm).and (body_clean (E := E) hw.fresh h4 m)
  refine Post.bind (Q := fun p st => h1 = st.1 ∧ Grows w0 st.2 ∧ CleanAll m.Deletes w0 [p] st.2 ∧
    ∀ q, p = some q → PatchOK st.2.fs s q) ?_ ?_
  · unfold liftW
    simp only
    cases hbody : m.body E h1 w0 with
    | mk r w1 =>
      rw [hbody] at hb
      cases r with
      | ok p => exact ⟨rfl, hb.1.1, hb.2, fun q hq => (hb.1.2.2 q hq).1⟩
      | error e => trivial
  rintro p ⟨hx, w1⟩ ⟨hx1, hg, hc, hp⟩
  simp only at hx1 hg hc hp
  subst hx1
  unfold Txn.commit
  refine Post.bind ((check_post (t := t) (hw.grows hg) (h4.mono hg.le)).imp (fun _ _ h => h) (fun _ _ => trivial)) ?_
  rintro b ⟨h1', w1'⟩ ⟨rfl, k2, k3, k4, kfl, k5, k6⟩
  cases b with
  | false => exact Post.pure ⟨fun h => (by cases h), fun h => by cases h⟩
  | true =>
    cases p with
    | none =>
      refine Post.pure ⟨fun _ => ?_, fun h => by cases h⟩
      obtain ⟨ops, hl, hq⟩ := hc
      have hops : ops = [] := by
        cases ops with
        | nil => rfl
        | cons x ops =>
          obtain ⟨pt, hpt, -⟩ := hq x (by simp)
          simp at hpt
      subst hops
      obtain ⟨o, o1, o2, -⟩ := hg.trace
      simp only at hl o1
      rw [hl] at o1
      have := List.append_cancel_left o1
      subst this
      exact o2
    | some p =>
      refine Post.bind (((commit_post (branch := t.branch) (hw.grows hg |> fun h => k2 ▸ h) k4 kfl (hp p rfl)).and
        (commit_puts (p := p) (branch := t.branch) k4)).imp (fun _ _ h => h) (fun _ _ => trivial)) ?_
      rintro _ st ⟨⟨cur, snap0, hle, -⟩, snap, c1, c2, c3, c4, c5⟩
      exact Post.pure ⟨fun h => (by cases h), fun _ => ⟨w1', p, snap, hc, hg, c1, c2, c3, hle, c4, c5⟩⟩

end
end Space
