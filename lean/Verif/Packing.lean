import Verif.Listed

/-!
# How an append divides its tables into files
-/

set_option autoImplicit false

namespace Space

/-- No beginning of `xs` is larger than `limit`. -/
def Under {α : Type} (size : List α → Nat) (limit : Nat) (xs : List α) : Prop :=
  ∀ ys zs, xs = ys ++ zs → ys ≠ [] → size ys ≤ limit

/-- `xs` was closed with the element that made it larger than `limit`. -/
def CutAt {α : Type} (size : List α → Nat) (limit : Nat) (xs : List α) : Prop :=
  ∃ init last, xs = init ++ [last] ∧ Under size limit init ∧ limit < size xs

theorem Under.nil {α : Type} {size : List α → Nat} {limit : Nat} : Under size limit [] := by
  intro ys zs h hne
  exact absurd (List.append_eq_nil_iff.mp h.symm).1 hne

theorem Under.snoc {α : Type} {size : List α → Nat} {limit : Nat} {xs : List α} {x : α}
    (h : Under size limit xs) (hx : size (xs ++ [x]) ≤ limit) : Under size limit (xs ++ [x]) := by
  intro ys zs he hne
  rcases List.eq_nil_or_concat zs with rfl | ⟨zs', z, rfl⟩
  · rw [List.append_nil] at he
    rwa [← he]
  · rw [List.concat_eq_append, ← List.append_assoc] at he
    exact h ys zs' (List.append_inj' he rfl).1 hne

/-- Size of the rows that become a row group, given the tables they come from. -/
def groupSize (E : Env) (tables : List (List Row)) : Nat := E.tableBytes tables.flatten

/-- Size of the tables of a file. -/
def fileSize (E : Env) (groups : List (List (List Row))) : Nat := (groups.flatten.map E.tableBytes).sum

/-- The row groups of a file. -/
def stored (E : Env) (groups : List (List (List Row))) : List (List Row) :=
  groups.flatMap fun g => E.rgSplit g.flatten

/-- A division of tables into files and of the tables of a file into row groups, as the size limits say: a
row group is closed with the table that makes it too large, a file with the row group that makes it too large; only the
last file, and its last row group, may be smaller. -/
def Packed (E : Env) (files : List (List (List (List Row)))) : Prop :=
  ∃ full rest, files = full ++ rest ∧
    (∀ f ∈ full, CutAt (fileSize E) E.fileMax f ∧ ∀ g ∈ f, CutAt (groupSize E) E.rgMax g) ∧
    (rest = [] ∨ ∃ gs tail, rest = [gs ++ tail] ∧ gs ++ tail ≠ [] ∧ Under (fileSize E) E.fileMax gs ∧
      (∀ g ∈ gs, CutAt (groupSize E) E.rgMax g) ∧
      (tail = [] ∨ ∃ g, g ≠ [] ∧ tail = [g] ∧ Under (groupSize E) E.rgMax g))

/-- The state of an operation: finished files, row groups of the open file, and tables waiting. -/
structure Filling (E : Env) (fs : FS) (op : AppendOp) (full : List (List (List (List Row))))
    (gs : List (List (List Row))) (wait : List (List Row)) : Prop where
  files : op.mf.map (fun m => fs.parquet m.file) = full.map (fun f => some (stored E f))
  opened : (op.iw.map (·.groups)).getD [] = stored E gs
  closed : op.iw = none → gs = [] ∧ wait = []
  cache : op.cache = if wait = [] then none else some wait.flatten
  bytes : op.fileBytes = fileSize E gs + (wait.map E.tableBytes).sum
  full : ∀ f ∈ full, CutAt (fileSize E) E.fileMax f ∧ ∀ g ∈ f, CutAt (groupSize E) E.rgMax g
  groups : ∀ g ∈ gs, CutAt (groupSize E) E.rgMax g
  file : Under (fileSize E) E.fileMax gs
  waiting : Under (groupSize E) E.rgMax wait

theorem stored_flatten (E : Env) (gs : List (List (List Row))) : (stored E gs).flatten = gs.flatten.flatten := by
  induction gs with
  | nil => rfl
  | cons g gs ih =>
    show (E.rgSplit g.flatten ++ stored E gs).flatten = _
    simp [ih, E.rgSplit_flatten]

theorem stored_snoc (E : Env) (gs : List (List (List Row))) (g : List (List Row)) :
    stored E (gs ++ [g]) = stored E gs ++ E.rgSplit g.flatten := by
  simp [stored]

theorem fileSize_snoc (E : Env) (gs : List (List (List Row))) (g : List (List Row)) :
    fileSize E (gs ++ [g]) = fileSize E gs + (g.map E.tableBytes).sum := by
  simp [fileSize]

section
variable {E : Env} {s : Schema} {w0 w : World} {op : AppendOp} {full : List (List (List (List Row)))}
  {gs : List (List (List Row))} {wait : List (List Row)}

theorem Filling.rows {fs : FS} (h : Filling E fs op full gs wait) :
    op.rows fs = ((full.flatten ++ gs).flatten ++ wait).flatten := by
  have h1 : op.mf.flatMap (fun m => fileRows fs m.file) = full.flatten.flatten.flatten := by
    have e : op.mf.flatMap (fun m => fileRows fs m.file) =
        (op.mf.map (fun m => fs.parquet m.file)).flatMap (fun g => (g.getD []).flatten) := by
      rw [List.flatMap_map]; rfl
    rw [e, h.files, List.flatMap_map]
    clear e h
    induction full with
    | nil => rfl
    | cons f full ih =>
      rw [List.flatMap_cons, ih]
      simp only [Option.getD_some, stored_flatten, List.flatten_cons, List.flatten_append]
  have h2 : (op.iw.map (·.groups.flatten)).getD [] = gs.flatten.flatten := by
    rw [← stored_flatten E, ← h.opened]
    cases op.iw <;> rfl
  have h3 : op.cache.getD [] = wait.flatten := by
    rw [h.cache]
    split
    · rename_i e; rw [e]; rfl
    · rfl
  unfold AppendOp.rows
  rw [h1, h2, h3]
  simp

theorem Filling.mono {fs fs' : FS} (h : Filling E fs op full gs wait) (hle : FSLe fs fs') :
    Filling E fs' op full gs wait := by
  refine { h with files := ?_ }
  rw [← h.files]
  refine List.map_congr_left fun m hm => ?_
  have : fs.parquet m.file ∈ full.map (fun f => some (stored E f)) := by
    rw [← h.files]; exact List.mem_map_of_mem hm
  obtain ⟨f, -, hf⟩ := List.mem_map.mp this
  rw [← hf]
  exact hle.parquet hf.symm

/-- Parts of the operation that steps about records leave alone. -/
def SameIndex (op op' : AppendOp) : Prop :=
  op'.mf = op.mf ∧ op'.iw = op.iw ∧ op'.cache = op.cache ∧ op'.fileBytes = op.fileBytes

theorem Filling.same {fs : FS} {op' : AppendOp} (h : Filling E fs op full gs wait) (hs : SameIndex op op') :
    Filling E fs op' full gs wait := by
  obtain ⟨h1, h2, h3, h4⟩ := hs
  exact ⟨by rw [h1]; exact h.files, by rw [h2]; exact h.opened, by rw [h2]; exact h.closed, by rw [h3]; exact h.cache,
    by rw [h4]; exact h.bytes, h.full, h.groups, h.file, h.waiting⟩

theorem finishRecord_same (f : Field) (rw : RecWriter) (op : AppendOp) (w : World) :
    Post (op.finishRecord f rw w) (fun op' _ => SameIndex op op') (fun _ => True) := by
  unfold AppendOp.finishRecord
  exact Post.bind (Q := fun _ _ => True) (Post.put trivial) fun _ _ _ => Post.pure ⟨rfl, rfl, rfl, rfl⟩

theorem writeRecordCol_same (f : Field) (col : List Val) (op : AppendOp) (w : World) :
    Post (op.writeRecordCol E f col w) (fun x _ => SameIndex op x.1) (fun _ => True) := by
  unfold AppendOp.writeRecordCol
  refine Post.bind (Q := fun _ _ => True) ?_ ?_
  · unfold AppendOp.recWriter
    cases op.rws.get? f.name with
    | some rw => exact Post.pure trivial
    | none => exact Post.bind (Q := fun _ _ => True) (Post.fresh trivial) fun _ _ h => Post.pure h
  · intro rw w1 _
    refine Post.bind (Q := fun _ _ => True) (Post.lift (fun _ _ => trivial) trivial) ?_
    intro bs w2 _
    simp only
    split
    · exact Post.bind (finishRecord_same f _ _ w2) fun op' w' h => Post.pure h
    · exact Post.pure ⟨rfl, rfl, rfl, rfl⟩

theorem writeRecords_same (data : List Row) : ∀ (fs : List Field) (op : AppendOp) (rows : List Row) (w : World),
    Post (AppendOp.writeRecords E data fs op rows w) (fun x _ => SameIndex op x.1) (fun _ => True)
  | [], op, rows, w => Post.pure ⟨rfl, rfl, rfl, rfl⟩
  | f :: fs, op, rows, w => by
    unfold AppendOp.writeRecords
    refine Post.bind (writeRecordCol_same f _ op w) ?_
    rintro ⟨op1, addrs⟩ w1 ⟨h1, h2, h3, h4⟩
    refine (writeRecords_same data fs op1 _ w1).imp ?_ (fun _ h => h)
    rintro ⟨op2, r2⟩ w2 ⟨k1, k2, k3, k4⟩
    exact ⟨k1.trans h1, k2.trans h2, k3.trans h3, k4.trans h4⟩

theorem finishRecords_same : ∀ (fs : List Field) (op : AppendOp) (w : World),
    Post (AppendOp.finishRecords fs op w) (fun op' _ => SameIndex op op') (fun _ => True)
  | [], op, w => Post.pure ⟨rfl, rfl, rfl, rfl⟩
  | f :: fs, op, w => by
    unfold AppendOp.finishRecords
    cases op.rws.get? f.name with
    | none => exact finishRecords_same fs op w
    | some rw =>
      refine Post.bind (finishRecord_same f rw op w) ?_
      rintro op1 w1 ⟨h1, h2, h3, h4⟩
      refine (finishRecords_same fs op1 w1).imp ?_ (fun _ h => h)
      rintro op2 w2 ⟨k1, k2, k3, k4⟩
      exact ⟨k1.trans h1, k2.trans h2, k3.trans h3, k4.trans h4⟩

theorem maybeCreate_fill (h : Filling E w.fs op full gs wait) :
    Post (op.maybeCreate w) (fun op' w' => Filling E w'.fs op' full gs wait ∧ op'.iw.isSome) (fun _ => True) := by
  unfold AppendOp.maybeCreate
  cases hi : op.iw with
  | some iw => exact Post.pure ⟨h, by simp [hi]⟩
  | none =>
    refine Post.bind (Q := fun _ w' => w'.fs = w.fs) (Post.fresh rfl) ?_
    rintro u w' hw
    refine Post.pure ⟨?_, rfl⟩
    rw [hw]
    refine { h with opened := ?_, closed := fun h => by cases h }
    rw [(h.closed hi).1]
    rfl

/-- Closing the open file. -/
theorem finishIndex_fill {iw : IdxWriter} (hi : op.iw = some iw) (hfree : AMap.get? w.fs iw.path = none) :
    Post (op.finishIndex E s w)
      (fun op' w' => FSLe w.fs w'.fs ∧ (∃ m, op'.mf = op.mf ++ [m] ∧ w'.fs.parquet m.file = some iw.groups) ∧
        op'.iw = none ∧ op'.fileBytes = 0 ∧ op'.cache = op.cache) (fun _ => True) := by
  unfold AppendOp.finishIndex
  rw [hi]
  refine Post.bind (Q := fun _ w' => w' = w.put iw.path (.parquet iw.groups)) (Post.put rfl) ?_
  rintro _ w1 rfl
  refine Post.bind (Q := fun m w' => manifestRow E s iw.path iw.groups = .ok m ∧ w' = w.put iw.path (.parquet iw.groups))
    (Post.lift (fun a ha => ⟨ha, rfl⟩) trivial) ?_
  rintro m w2 ⟨hm, rfl⟩
  obtain ⟨h1, -⟩ := fileStats_ok hm
  refine Post.pure ⟨FSLe.set hfree, ⟨m, rfl, ?_⟩, rfl, rfl, rfl⟩
  rw [h1]
  simp [World.put, FS.parquet, AMap.get?_set_self]

theorem cacheRows_fill (h : Filling E w.fs op full gs wait) {iw : IdxWriter} (hi : op.iw = some iw)
    (hfree : AMap.get? w.fs iw.path = none) (t : List Row) :
    Post (op.cacheRows E s t w)
      (fun op' w' => ∃ full' gs' wait', Filling E w'.fs op' full' gs' wait' ∧
        (full'.flatten ++ gs').flatten ++ wait' = (full.flatten ++ gs).flatten ++ wait ++ [t]) (fun _ => True) := by
  have hcache : op.cache.getD [] ++ t = (wait ++ [t]).flatten := by
    rw [h.cache]
    split
    · rename_i e; simp [e]
    · simp
  have hbytes : op.fileBytes + E.tableBytes t = fileSize E (gs ++ [wait ++ [t]]) := by
    rw [h.bytes, fileSize_snoc]
    simp [Nat.add_assoc]
  have hop : iw.groups = stored E gs := by
    have := h.opened
    rwa [hi] at this
  rw [cacheRows_eq]
  simp only [hcache, hbytes]
  split
  · rename_i hbig
    have hcut : CutAt (groupSize E) E.rgMax (wait ++ [t]) := ⟨wait, t, rfl, h.waiting, hbig⟩
    have hgs : ∀ g ∈ gs ++ [wait ++ [t]], CutAt (groupSize E) E.rgMax g := by
      intro g hg
      rcases List.mem_append.mp hg with hg | hg
      · exact h.groups g hg
      · rw [List.mem_singleton] at hg
        rwa [hg]
    refine Post.bind (Q := fun op' w' => w' = w ∧ op'.mf = op.mf ∧ op'.fileBytes = fileSize E (gs ++ [wait ++ [t]]) ∧
      op'.iw = some { iw with groups := stored E (gs ++ [wait ++ [t]]) }) ?_ ?_
    · unfold AppendOp.writeTable
      simp only [hi]
      split
      · refine Post.pure ⟨rfl, rfl, rfl, ?_⟩
        rw [stored_snoc, hop]
      · exact Post.raise trivial
    rintro op1 w1 ⟨rfl, h1, h2, h3⟩
    split
    · rename_i hfull
      refine (finishIndex_fill (op := { op1 with cache := none }) h3 hfree).imp ?_ (fun _ h => h)
      rintro op2 w2 ⟨k1, ⟨m, k2, k3⟩, k4, k5, k6⟩
      refine ⟨full ++ [gs ++ [wait ++ [t]]], [], [], ?_, by simp⟩
      refine ⟨?_, by rw [k4]; rfl, fun _ => ⟨rfl, rfl⟩, by rw [k6]; rfl, by rw [k5]; rfl, ?_, by simp, .nil, .nil⟩
      · have := (h.mono k1).files
        rw [k2, List.map_append, List.map_append]
        simp only [h1, this, List.map_cons, List.map_nil, k3]
      · intro f hf
        rcases List.mem_append.mp hf with hf | hf
        · exact h.full f hf
        · rw [List.mem_singleton] at hf
          subst hf
          exact ⟨⟨gs, _, rfl, h.file, hfull⟩, hgs⟩
    · rename_i hsmall
      refine Post.pure ⟨full, gs ++ [wait ++ [t]], [], ?_, by simp⟩
      refine ⟨by rw [show ({ op1 with cache := none } : AppendOp).mf = op.mf from h1]; exact h.files, ?_, ?_, rfl, ?_,
        h.full, hgs, h.file.snoc (Nat.le_of_not_lt hsmall), .nil⟩
      · simp only [h3]; rfl
      · intro h0; simp only [h3] at h0; cases h0
      · simp only [h2]; simp
  · rename_i hsmall
    refine Post.pure ⟨full, gs, wait ++ [t], ?_, by simp⟩
    refine ⟨h.files, h.opened, ?_, ?_, ?_, h.full, h.groups, h.file, h.waiting.snoc (Nat.le_of_not_lt hsmall)⟩
    · intro h0; simp only [hi] at h0; cases h0
    · simp
    · simp only [fileSize_snoc]

/-- The tables of an operation, in order. -/
def tablesOf (full : List (List (List (List Row)))) (gs : List (List (List Row))) (wait : List (List Row)) :
    List (List Row) := (full.flatten ++ gs).flatten ++ wait

theorem write_fill (h : OpOK E s w0 w op) (ha : op.addrInput = false) (hf : Filling E w.fs op full gs wait)
    (data : List Row) :
    Post (op.write E s data w)
      (fun op' w' => ∃ full' gs' wait' new, Filling E w'.fs op' full' gs' wait' ∧
        tablesOf full' gs' wait' = tablesOf full gs wait ++ new ∧
        if data = [] then new = [] else ∃ t, new = [t]) (fun _ => True) := by
  unfold AppendOp.write
  split
  · rename_i hd
    exact Post.pure ⟨full, gs, wait, [], hf, by simp, rfl⟩
  · rename_i hdne
    refine Post.bind (((maybeCreate_post h.toOpPre).and (maybeCreate_fill hf)).imp (fun _ _ h => h) (fun _ _ => trivial)) ?_
    rintro op1 w1 ⟨⟨h1, h2, h3, h4, h5, h6⟩, f1, -⟩
    split
    · dsimp only
      rw [show op1.addrInput = false from h2.addr.trans ha]
      simp only [Bool.false_eq_true, ite_false]
      refine Post.bind (((writeRecords_post s.recFields (fun f hf => hf) h1
        (rows := data.map (·.select s.idxNames)) (done := s.idxNames) ?_ ?_).and (writeRecords_same data _ op1 _ w1)).imp
          (fun _ _ h => h) (fun _ _ => trivial)) ?_
      · intro r hr
        obtain ⟨d, -, rfl⟩ := List.mem_map.mp hr
        exact select_idx_addr d
      · rw [List.map_map]
        exact List.map_congr_left fun d _ => select_idx_deref d
      rintro ⟨op2, rows⟩ w2 ⟨⟨a1, a2, a3, a4, a5, a6, a7⟩, same⟩
      obtain ⟨iw, hi⟩ := Option.isSome_iff_exists.mp h4
      obtain ⟨u, -, -, -, hfree⟩ := a1.iw iw (a4.trans hi)
      refine (cacheRows_fill ((f1.mono a2.grows.le).same same) (a4.trans hi) hfree rows).imp ?_ (fun _ h => h)
      rintro op3 w3 ⟨full', gs', wait', k1, k2⟩
      exact ⟨full', gs', wait', [rows], k1, k2, rows, rfl⟩
    · exact Post.raise trivial

theorem write_fill_addr (h : OpOK E s w0 w op) (ha : op.addrInput = true) (hf : Filling E w.fs op full gs wait)
    (data : List Row) :
    Post (op.write E s data w)
      (fun op' w' => ∃ full' gs' wait' new, Filling E w'.fs op' full' gs' wait' ∧
        tablesOf full' gs' wait' = tablesOf full gs wait ++ new ∧
        if data = [] then new = [] else ∃ t, new = [t]) (fun _ => True) := by
  unfold AppendOp.write
  split
  · exact Post.pure ⟨full, gs, wait, [], hf, by simp, rfl⟩
  · refine Post.bind (((maybeCreate_post h.toOpPre).and (maybeCreate_fill hf)).imp (fun _ _ h => h) (fun _ _ => trivial)) ?_
    rintro op1 w1 ⟨⟨h1, h2, h3, h4, h5, h6⟩, f1, -⟩
    split
    · dsimp only
      rw [show op1.addrInput = true from h2.addr.trans ha]
      simp only [ite_true]
      obtain ⟨iw, hi⟩ := Option.isSome_iff_exists.mp h4
      obtain ⟨u, -, -, -, hfree⟩ := h1.iw iw hi
      refine (cacheRows_fill f1 hi hfree _).imp ?_ (fun _ h => h)
      rintro op3 w3 ⟨full', gs', wait', k1, k2⟩
      exact ⟨full', gs', wait', _, k1, k2, _, rfl⟩
    · exact Post.raise trivial

/-- The tables written stand for the tables given that have rows. -/
theorem writeAll_fill : ∀ (tables : List (List Row)) {w : World} {op : AppendOp} {full : List (List (List (List Row)))}
    {gs : List (List (List Row))} {wait : List (List Row)}
    (_ : OpOK E s w0 w op) (_ : op.addrInput = false) (_ : Filling E w.fs op full gs wait),
    Post (AppendOp.writeAll E s op tables w)
      (fun op' w' => ∃ full' gs' wait' new, Filling E w'.fs op' full' gs' wait' ∧
        tablesOf full' gs' wait' = tablesOf full gs wait ++ new ∧
        new.map (·.map (deref (op'.look w'.fs) s)) =
          (tables.filter (fun t => decide (t ≠ []))).map (·.map (·.select s.writeNames))) (fun _ => True)
  | [], w, op, full, gs, wait, _, _, hf => by
    unfold AppendOp.writeAll
    exact Post.pure ⟨full, gs, wait, [], hf, by simp, rfl⟩
  | t :: ts, w, op, full, gs, wait, h, ha, hf => by
    unfold AppendOp.writeAll
    refine Post.bind (((write_post h (data := t) (by simp [ha])).and (write_fill h ha hf t)).imp (fun _ _ h => h)
      (fun _ _ => trivial)) ?_
    rintro op1 w1 ⟨⟨h1, h2, P, h3, -, h4⟩, full1, gs1, wait1, new, f1, f2, f3⟩
    have h4 := h4 ha
    refine (((writeAll_post ts h1 (h2.addr.trans ha)).and (writeAll_fill ts h1 (h2.addr.trans ha) f1))).imp ?_
      (fun _ _ => trivial)
    rintro op2 w2 ⟨⟨-, a2, -⟩, full2, gs2, wait2, new2, g1, g2, g3⟩
    refine ⟨full2, gs2, wait2, new ++ new2, g1, by rw [g2, f2, List.append_assoc], ?_⟩
    have hP : new.flatten = P := by
      rw [f1.rows, hf.rows] at h3
      have e := congrArg List.flatten f2
      unfold tablesOf at e
      rw [e, List.flatten_append] at h3
      exact List.append_cancel_left h3
    have hA : ∀ r ∈ P, AddrOK (op1.look w1.fs) s r :=
      fun r hr => h1.rowsAddr r (by rw [h3]; exact List.mem_append_right _ hr)
    rw [List.map_append, g3]
    by_cases ht : t = []
    · rw [if_pos ht] at f3
      subst f3
      simp [ht]
    · rw [if_neg ht] at f3
      obtain ⟨u, rfl⟩ := f3
      simp only [List.flatten_cons, List.flatten_nil, List.append_nil] at hP
      subst hP
      rw [List.filter_cons_of_pos (by simpa using ht)]
      simp only [List.map_cons, List.map_nil, List.singleton_append, List.cons.injEq, and_true]
      rw [map_deref_mono a2.look hA, h4]

/-- Flushing the tables that wait. -/
theorem flush_fill (h : Filling E w.fs op full gs wait) :
    Post (op.flush E s w) (fun op' w' => w'.fs = w.fs ∧ op'.mf = op.mf ∧ op'.iw.isSome = op.iw.isSome ∧
      (op'.iw.map (·.groups)).getD [] = stored E (gs ++ if wait = [] then [] else [wait])) (fun _ => True) := by
  unfold AppendOp.flush
  rw [h.cache]
  by_cases hw : wait = []
  · simp only [hw, ite_true]
    refine Post.pure ⟨rfl, rfl, rfl, ?_⟩
    rw [List.append_nil]
    exact h.opened
  · simp only [hw, ite_false]
    cases hi : op.iw with
    | none => exact absurd (h.closed hi).2 hw
    | some iw =>
      have ho := h.opened
      rw [hi] at ho
      unfold AppendOp.maybeCreate
      simp only [hi]
      refine Post.bind (Q := fun op' w' => op' = op ∧ w' = w) (Post.pure ⟨rfl, rfl⟩) ?_
      rintro op1 w1 ⟨rfl, rfl⟩
      unfold AppendOp.writeTable
      simp only [hi]
      split
      · refine Post.pure ⟨rfl, rfl, rfl, ?_⟩
        rw [stored_snoc, ← ho]
        rfl
      · exact Post.raise trivial

/-- The files of a finished operation. -/
theorem finish_fill_carried (h : OpOK E s w0 w op) (hf : Filling E w.fs op full gs wait) :
    Post (op.finish E s w)
      (fun p w' => ∀ q, p = some q → ∃ files, Packed E files ∧ files.flatten.flatten = tablesOf full gs wait ∧
        ((q.addIdx.flatMap (entriesOf w'.fs)).drop op.carried.length).map (fun m => w'.fs.parquet m.file) =
          files.map (fun f => some (stored E f))) (fun _ => True) := by
  unfold AppendOp.finish
  refine Post.bind (((finishRecords_post s.recFields (fun f hf => hf) h ?_).and (finishRecords_same s.recFields op w)).imp
    (fun _ _ h => h) (fun _ _ => trivial)) ?_
  · intro g rw hg
    obtain ⟨_, _, _, _, _, _, _, _, hfl⟩ := h.rws g rw hg
    exact hfl
  rintro op1 w1 ⟨⟨h1, st1, r1, n1⟩, same⟩
  have f1 := (hf.mono st1.grows.le).same same
  refine Post.bind (((flush_post h1).and (flush_fill f1)).imp (fun _ _ h => h) (fun _ _ => trivial)) ?_
  rintro op2 w2 ⟨⟨h2, st2, r2, n2⟩, e1, e2, e3, e4⟩
  have hpre := h2.toOpPre
  refine Post.bind (Q := fun op3 w3 => (OpOK E s w0 w3 { op3 with cache := none } ∧ op3.carried = op.carried) ∧
    ∃ files, Packed E files ∧ files.flatten.flatten = tablesOf full gs wait ∧
      op3.mf.map (fun m => w3.fs.parquet m.file) = files.map (fun f => some (stored E f))) ?_ ?_
  · cases hi : op2.iw with
    | none =>
      rw [hi] at e3
      have hn : op1.iw = none := by
        cases h : op1.iw with
        | none => rfl
        | some x => rw [h] at e3; cases e3
      obtain ⟨rfl, rfl⟩ := f1.closed hn
      unfold AppendOp.finishIndex
      rw [hi]
      refine Post.pure ⟨⟨h2, (st1.trans st2).carried⟩, full, ⟨full, [], by simp, f1.full, Or.inl rfl⟩, by simp [tablesOf], ?_⟩
      rw [e1, e2]
      exact f1.files
    | some iw =>
      obtain ⟨u, -, -, -, hfree⟩ := h2.iw iw hi
      refine (((finishIndex_post' h2).and (finishIndex_fill (E := E) (s := s) hi hfree)).imp ?_ (fun _ _ => trivial))
      rintro op3 w3 ⟨⟨h3, st3, -⟩, k1, ⟨m, k2, k3⟩, -⟩
      rw [hi] at e4
      have hne : gs ++ (if wait = [] then [] else [wait]) ≠ [] := by
        intro h0
        have h5 : (iw.groups.flatten ++ ([] : List Row)) ≠ [] := h2.full.1 iw hi
        rw [h0] at e4
        have e5 : iw.groups = [] := e4
        rw [e5] at h5
        exact h5 rfl
      refine ⟨⟨h3, ((st1.trans st2).trans st3).carried⟩, full ++ [gs ++ if wait = [] then [] else [wait]], ?_, ?_, ?_⟩
      · refine ⟨full, _, rfl, f1.full, Or.inr ⟨gs, _, rfl, hne, f1.file, f1.groups, ?_⟩⟩
        by_cases hw : wait = []
        · exact Or.inl (by rw [if_pos hw])
        · exact Or.inr ⟨wait, hw, by rw [if_neg hw], f1.waiting⟩
      · by_cases hw : wait = [] <;> simp [tablesOf, hw]
      · have := (f1.mono (e1 ▸ k1 : FSLe w1.fs w3.fs)).files
        rw [k2, e2, List.map_append, List.map_append, this]
        simp only [List.map_cons, List.map_nil, k3]
        congr 3
  · rintro op3 w3 ⟨⟨h3, hc3⟩, files, p1, p2, p3⟩
    refine Post.bind (finishIndexManifest_post op3.carried op3.mf h3.fresh) ?_
    rintro im w4 ⟨g4, -, im4⟩
    refine Post.bind (finishRecordManifest_post op3.rmf (g4.fresh h3.fresh)) ?_
    rintro rm w5 ⟨g5, -, -⟩
    split
    · exact Post.pure (by simp)
    · refine Post.pure ?_
      rintro q hq
      cases hq
      refine ⟨files, p1, p2, ?_⟩
      have hents : im.toList.flatMap (entriesOf w5.fs) = op.carried ++ op3.mf := by
        rw [hc3] at im4
        rcases im4 with ⟨h0, rfl⟩ | ⟨rfl, hmf⟩
        · rw [h0]; rfl
        · simp [entriesOf, g5.le.imanifest hmf]
      show ((im.toList.flatMap (entriesOf w5.fs)).drop _).map _ = _
      rw [hents, List.drop_left, ← p3]
      refine List.map_congr_left fun m hm => ?_
      obtain ⟨g, hg, -⟩ := h3.mf m hm
      rw [hg]
      exact (g4.trans g5).le.parquet hg

theorem finish_fill (h : OpOK E s w0 w op) (hf : Filling E w.fs op full gs wait) (hc : op.carried = []) :
    Post (op.finish E s w)
      (fun p w' => ∀ q, p = some q → ∃ files, Packed E files ∧ files.flatten.flatten = tablesOf full gs wait ∧
        (q.addIdx.flatMap (entriesOf w'.fs)).map (fun m => w'.fs.parquet m.file) =
          files.map (fun f => some (stored E f))) (fun _ => True) := by
  have := finish_fill_carried h hf
  rw [hc] at this
  exact this

/-- The files of an append. -/
theorem appendBody_packed (hf : w.Fresh) (tables : List (List Row)) :
    Post (appendBody E s tables w)
      (fun p w' => ∀ q, p = some q → ∃ files, Packed E files ∧
        files.flatten.flatten.map (·.map (deref w'.fs.records s)) =
          (tables.filter (fun t => decide (t ≠ []))).map (·.map (·.select s.writeNames)) ∧
        (q.addIdx.flatMap (entriesOf w'.fs)).map (fun m => w'.fs.parquet m.file) =
          files.map (fun f => some (stored E f))) (fun _ => True) := by
  unfold appendBody
  have init : Filling E w.fs { addrInput := false } [] [] [] :=
    ⟨rfl, rfl, fun _ => ⟨rfl, rfl⟩, rfl, rfl, by simp, by simp, .nil, .nil⟩
  refine Post.bind (((writeAll_post tables (OpOK.init false hf) rfl).and
    (writeAll_fill tables (OpOK.init (E := E) (s := s) false hf) rfl init)).imp (fun _ _ h => h) (fun _ _ => trivial)) ?_
  rintro op w1 ⟨⟨h1, h2, -⟩, full, gs, wait, new, k1, k2, k3⟩
  refine ((finish_post h1).and (finish_fill h1 k1 h2.carried)).imp ?_ (fun _ _ => trivial)
  rintro p w2 ⟨⟨-, -, -, a4, -⟩, k4⟩ q hq
  obtain ⟨files, p1, p2, p3⟩ := k4 q hq
  refine ⟨files, p1, ?_, p3⟩
  have hr : (tablesOf full gs wait).flatten = op.rows w1.fs := k1.rows.symm
  rw [p2, ← k3]
  have e : tablesOf full gs wait = new := by simpa [tablesOf] using k2
  rw [e] at hr ⊢
  refine List.map_congr_left fun t ht => ?_
  refine map_deref_mono a4 fun r hrt => h1.rowsAddr r ?_
  rw [← hr]
  exact List.mem_flatten.mpr ⟨t, ht, hrt⟩

end

end Space
