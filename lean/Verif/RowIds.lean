import Verif.StatsInv

/-!
# How large row ids of record addresses get
-/

namespace Space

/-- Row ids of the addresses in record columns are below `R`. -/
def Below (s : Schema) (R : Nat) (r : Row) : Prop :=
  ∀ c p i, c ∈ s.recs → (c, Val.addr p i) ∈ r → i < R

/-- Size limits: every value counts at least `b` bytes, and a record file of at most
`recMax` counted bytes has room for another batch of `B` rows below `R`. -/
structure Limits (E : Env) (b B R : Nat) : Prop where
  size : ∀ col, b * col.length ≤ E.columnBytes col
  fit : ∀ n, b * n ≤ E.recMax → n + B ≤ R

/-- The rows of a file are below. -/
def FileBelow (s : Schema) (R : Nat) (fs : FS) (p : Path) : Prop :=
  ∀ g, fs.parquet p = some g → ∀ r ∈ g.flatten, Below s R r

/-- An append operation all of whose rows are below. -/
structure OpBelow (E : Env) (s : Schema) (b R : Nat) (w : World) (op : AppendOp) : Prop where
  addr : op.addrInput = false
  rws : ∀ n rw, op.rws.get? n = some rw → b * rw.nextRow ≤ rw.bytes ∧ rw.bytes ≤ E.recMax
  cache : ∀ c, op.cache = some c → ∀ r ∈ c, Below s R r
  iw : ∀ iw, op.iw = some iw → ∀ r ∈ iw.groups.flatten, Below s R r
  mf : ∀ m ∈ op.carried ++ op.mf, FileBelow s R w.fs m.file

section
variable {E : Env} {s : Schema} {b B R : Nat} {w : World} {op : AppendOp}

theorem parquet_put {p q : Path} {c : Content} :
    FS.parquet (w.put p c).fs q = if q = p then (match c with
      | .parquet g => some g
      | _ => none) else FS.parquet w.fs q := by
  unfold FS.parquet World.put
  by_cases h : q = p
  · subst h
    simp only [AMap.get?_set_self, if_true]
    cases c <;> rfl
  · rw [if_neg h]
    simp only [AMap.get?_set_ne _ _ h]

theorem FileBelow.put {p q : Path} {c : Content} (h : FileBelow s R w.fs q)
    (hc : ∀ g, c = .parquet g → ∀ r ∈ g.flatten, Below s R r) : FileBelow s R (w.put p c).fs q := by
  intro g hg
  rw [parquet_put] at hg
  split at hg
  · split at hg
    · cases hg; exact hc _ rfl
    · cases hg
  · exact h g hg

theorem OpBelow.put (h : OpBelow E s b R w op) {p : Path} {c : Content}
    (hc : ∀ g, c = .parquet g → ∀ r ∈ g.flatten, Below s R r) : OpBelow E s b R (w.put p c) op :=
  ⟨h.addr, h.rws, h.cache, h.iw, fun m hm => (h.mf m hm).put hc⟩

theorem OpBelow.next (h : OpBelow E s b R w op) (n : Nat) : OpBelow E s b R { w with next := n } op :=
  ⟨h.addr, h.rws, h.cache, h.iw, h.mf⟩

abbrev anyEnd : World → Prop := fun _ => True

theorem maybeCreate_below (h : OpBelow E s b R w op) :
    Post (op.maybeCreate w) (fun op' w' => OpBelow E s b R w' op') anyEnd := by
  unfold AppendOp.maybeCreate
  cases hiw : op.iw with
  | some _ => exact Post.pure h
  | none =>
    refine Post.bind (Post.fresh (Q := fun _ w' => w' = { w with next := w.next + 1 }) rfl) ?_
    rintro u w' rfl
    refine Post.pure ⟨h.addr, h.rws, h.cache, ?_, h.mf⟩
    intro iw hiw
    cases hiw
    simp

theorem writeTable_below (h : OpBelow E s b R w op) {rows : List Row} (hr : ∀ r ∈ rows, Below s R r) :
    Post (op.writeTable E s rows w) (fun op' w' => OpBelow E s b R w' op') anyEnd := by
  unfold AppendOp.writeTable
  cases hiw : op.iw with
  | none => exact Post.raise trivial
  | some iw =>
    simp only
    split
    · refine Post.pure ⟨h.addr, h.rws, h.cache, ?_, h.mf⟩
      intro iw' hiw'
      cases hiw'
      intro r hrm
      simp only [List.flatten_append, List.mem_append, E.rgSplit_flatten] at hrm
      rcases hrm with hrm | hrm
      · exact h.iw iw hiw r hrm
      · exact hr r hrm
    · exact Post.raise trivial

theorem manifestRow_file {p : Path} {g : List (List Row)} {m : ManifestRow}
    (h : manifestRow E s p g = .ok m) : m.file = p := by
  unfold manifestRow at h
  split at h
  · cases h
  · cases h; rfl

theorem finishIndex_below (h : OpBelow E s b R w op) :
    Post (op.finishIndex E s w) (fun op' w' => OpBelow E s b R w' op') anyEnd := by
  unfold AppendOp.finishIndex
  cases hiw : op.iw with
  | none => exact Post.pure h
  | some iw =>
    have hg : ∀ g, Content.parquet iw.groups = .parquet g → ∀ r ∈ g.flatten, Below s R r := by
      rintro g hg
      cases hg
      exact h.iw iw hiw
    refine Post.bind (Post.put (Q := fun _ w' => w' = w.put iw.path (.parquet iw.groups)) rfl) ?_
    rintro _ w' rfl
    refine Post.bind (Q := fun m w' => m.file = iw.path ∧ w' = w.put iw.path (.parquet iw.groups))
      (Post.lift (fun m hm => ⟨manifestRow_file hm, rfl⟩) trivial) ?_
    rintro m w' ⟨hm, rfl⟩
    refine Post.pure ⟨h.addr, h.rws, h.cache, (fun _ hx => by cases hx), ?_⟩
    intro m' hm'
    simp only [List.mem_append, List.mem_singleton] at hm'
    rcases hm' with hm' | hm' | rfl
    · exact (h.mf m' (List.mem_append_left _ hm')).put hg
    · exact (h.mf m' (List.mem_append_right _ hm')).put hg
    · intro g hgg
      rw [parquet_put, if_pos hm] at hgg
      cases hgg
      exact hg _ rfl

theorem finishRecord_below (h : OpBelow E s b R w op) (f : Field) (rw : RecWriter) :
    Post (AppendOp.finishRecord f rw op w) (fun op' w' => OpBelow E s b R w' op') anyEnd := by
  unfold AppendOp.finishRecord
  refine Post.bind (Post.put (Q := fun _ w' => w' = w.put rw.path (.records rw.buf)) rfl) ?_
  rintro _ w' rfl
  have h' := h.put (p := rw.path) (c := .records rw.buf) (fun g hg => by cases hg)
  refine Post.pure ⟨h'.addr, ?_, h'.cache, h'.iw, h'.mf⟩
  intro n rw' hrw
  refine h.rws n rw' ?_
  by_cases hn : n = f.name
  · subst hn
    rw [AMap.get?_erase_self] at hrw
    cases hrw
  · rwa [AMap.get?_erase_ne _ hn] at hrw

/-- `address_column` below. -/
theorem addressColumn_below {p : Path} {a n : Nat} (h : a + n ≤ R) :
    ∀ v ∈ addressColumn p a n, ∀ q i, v = .addr q i → i < R := by
  intro v hv q i hvi
  simp only [addressColumn, List.mem_map, List.mem_range] at hv
  obtain ⟨j, hj, rfl⟩ := hv
  cases hvi
  omega

theorem writeRecordCol_below (hl : Limits E b B R) (h : OpBelow E s b R w op) (f : Field) {col : List Val}
    (hc : col.length ≤ B) :
    Post (AppendOp.writeRecordCol E f col op w)
      (fun x w' => OpBelow E s b R w' x.1 ∧ ∀ v ∈ x.2, ∀ q i, v = .addr q i → i < R) anyEnd := by
  unfold AppendOp.writeRecordCol
  refine Post.bind (Q := fun rw w' => OpBelow E s b R w' op ∧ b * rw.nextRow ≤ rw.bytes ∧ rw.bytes ≤ E.recMax) ?_ ?_
  · unfold AppendOp.recWriter
    cases hrw : op.rws.get? f.name with
    | some rw => exact Post.pure ⟨h, h.rws _ _ hrw⟩
    | none =>
      refine Post.bind (Post.fresh (Q := fun _ w' => w' = { w with next := w.next + 1 }) rfl) ?_
      rintro u w' rfl
      exact Post.pure ⟨h.next _, by simp, by simp⟩
  rintro rw w1 ⟨h1, h2, h3⟩
  refine Post.bind (Q := fun _ w' => w' = w1) (Post.lift (fun _ _ => rfl) trivial) ?_
  rintro bs w' rfl
  have hb := addressColumn_below (p := rw.path) (a := rw.nextRow) (n := col.length) (R := R)
    (by have := hl.fit rw.nextRow (by omega); omega)
  have hrw' : b * (rw.nextRow + col.length) ≤ rw.bytes + E.columnBytes col := by
    have := hl.size col
    rw [Nat.mul_add]
    omega
  simp only
  split
  · -- closed at once: the writer leaves the table
    unfold AppendOp.finishRecord
    refine Post.bind (Q := fun op' w' => OpBelow E s b R w' op') ?_ (fun op' w' h' => Post.pure ⟨h', hb⟩)
    refine Post.bind (Post.put (Q := fun _ w'' => w'' = w'.put rw.path (.records (rw.buf ++ bs))) rfl) ?_
    rintro _ w'' rfl
    have h' := h1.put (p := rw.path) (c := .records (rw.buf ++ bs)) (fun g hg => by cases hg)
    refine Post.pure ⟨h'.addr, ?_, h'.cache, h'.iw, h'.mf⟩
    intro n rw' hrw
    refine h1.rws n rw' ?_
    by_cases hn : n = f.name
    · subst hn
      rw [AMap.get?_erase_self] at hrw
      cases hrw
    · rw [AMap.get?_erase_ne _ hn] at hrw
      exact (AMap.get?_set_ne _ _ hn).symm.trans hrw
  · rename_i hle
    refine Post.pure ⟨⟨h1.addr, ?_, h1.cache, h1.iw, h1.mf⟩, hb⟩
    intro n rw' hrw
    by_cases hn : n = f.name
    · subst hn
      rw [AMap.get?_set_self] at hrw
      cases hrw
      exact ⟨hrw', by simpa using hle⟩
    · rw [AMap.get?_set_ne _ _ hn] at hrw
      exact h1.rws n rw' hrw

theorem appendColumn_below {n : String} {rows : List Row} {col : List Val}
    (hr : ∀ r ∈ rows, Below s R r) (hc : ∀ v ∈ col, ∀ q i, v = .addr q i → i < R) :
    ∀ r ∈ appendColumn n rows col, Below s R r := by
  intro r hrm
  rw [appendColumn_eq, List.mem_iff_getElem] at hrm
  obtain ⟨i, hi, rfl⟩ := hrm
  simp only [List.length_zipWith] at hi
  intro c p j hcr hm
  simp only [List.getElem_zipWith, List.mem_append, List.mem_singleton, Prod.mk.injEq] at hm
  rcases hm with hm | ⟨-, hm⟩
  · exact hr _ (List.getElem_mem (by omega)) c p j hcr hm
  · exact hc _ (List.getElem_mem (by omega)) p j hm.symm

theorem writeRecords_below (hl : Limits E b B R) {data : List Row} (hd : data.length ≤ B) :
    ∀ (fs : List Field) {w : World} {op : AppendOp} {rows : List Row}, OpBelow E s b R w op →
    (∀ r ∈ rows, Below s R r) →
    Post (AppendOp.writeRecords E data fs op rows w)
      (fun x w' => OpBelow E s b R w' x.1 ∧ ∀ r ∈ x.2, Below s R r) anyEnd
  | [], w, op, rows, h, hr => by unfold AppendOp.writeRecords; exact Post.pure ⟨h, hr⟩
  | f :: fs, w, op, rows, h, hr => by
    unfold AppendOp.writeRecords
    refine Post.bind (writeRecordCol_below hl h f (by simpa using hd)) ?_
    rintro ⟨op1, addrs⟩ w1 ⟨h1, h2⟩
    exact writeRecords_below hl hd fs h1 (appendColumn_below hr h2)

theorem cacheRows_below (h : OpBelow E s b R w op) {rows : List Row} (hr : ∀ r ∈ rows, Below s R r) :
    Post (op.cacheRows E s rows w) (fun op' w' => OpBelow E s b R w' op') anyEnd := by
  cases hop : op.cache with
  | none =>
    unfold AppendOp.cacheRows
    rw [hop]
    simp only
    split
    · have h0 : OpBelow E s b R w { op with fileBytes := op.fileBytes + E.tableBytes rows, cache := some rows } :=
        ⟨h.addr, h.rws, (fun c hcc => (by cases hcc; exact hr)), h.iw, h.mf⟩
      refine Post.bind (writeTable_below h0 hr) ?_
      intro op1 w1 h1
      have h2 : OpBelow E s b R w1 { op1 with cache := none } :=
        ⟨h1.addr, h1.rws, (fun _ hx => by cases hx), h1.iw, h1.mf⟩
      split
      · exact finishIndex_below h2
      · exact Post.pure h2
    · exact Post.pure ⟨h.addr, h.rws, (fun c hcc => (by cases hcc; exact hr)), h.iw, h.mf⟩
  | some c0 =>
    have hc : ∀ r ∈ c0 ++ rows, Below s R r := by
      intro r hrm
      rcases List.mem_append.mp hrm with hrm | hrm
      · exact h.cache c0 hop r hrm
      · exact hr r hrm
    unfold AppendOp.cacheRows
    rw [hop]
    simp only
    split
    · have h0 : OpBelow E s b R w { op with fileBytes := op.fileBytes + E.tableBytes rows, cache := some (c0 ++ rows) } :=
        ⟨h.addr, h.rws, (fun c hcc => (by cases hcc; exact hc)), h.iw, h.mf⟩
      refine Post.bind (writeTable_below h0 hc) ?_
      intro op1 w1 h1
      have h2 : OpBelow E s b R w1 { op1 with cache := none } :=
        ⟨h1.addr, h1.rws, (fun _ hx => by cases hx), h1.iw, h1.mf⟩
      split
      · exact finishIndex_below h2
      · exact Post.pure h2
    · exact Post.pure ⟨h.addr, h.rws, (fun c hcc => (by cases hcc; exact hc)), h.iw, h.mf⟩

theorem select_idx_below (r : Row) : Below s R (r.select s.idxNames) := by
  intro c p i hc hm
  exfalso
  simp only [Row.select, List.mem_map, Schema.idxNames, Schema.idxFields, List.mem_filter,
    Schema.isRec] at hm
  obtain ⟨c', ⟨f, ⟨-, hf⟩, rfl⟩, he⟩ := hm
  simp only [Prod.mk.injEq] at he
  rw [he.1] at hf
  simp [hc] at hf

theorem write_below (hl : Limits E b B R) (h : OpBelow E s b R w op) {data : List Row} (hd : data.length ≤ B) :
    Post (op.write E s data w) (fun op' w' => OpBelow E s b R w' op') anyEnd := by
  unfold AppendOp.write
  split
  · exact Post.pure h
  refine Post.bind (maybeCreate_below h) ?_
  intro op1 w1 h1
  split
  · rw [h1.addr]
    simp only [Bool.false_eq_true, if_false]
    refine Post.bind (writeRecords_below hl hd s.recFields h1 ?_) ?_
    · intro r hr
      obtain ⟨r', -, rfl⟩ := List.mem_map.mp hr
      exact select_idx_below r'
    · rintro ⟨op2, rows⟩ w2 ⟨h2, h3⟩
      exact cacheRows_below h2 h3
  · exact Post.raise trivial

theorem writeAll_below (hl : Limits E b B R) : ∀ {tables : List (List Row)} {w : World} {op : AppendOp},
    OpBelow E s b R w op → (∀ t ∈ tables, t.length ≤ B) →
    Post (op.writeAll E s tables w) (fun op' w' => OpBelow E s b R w' op') anyEnd
  | [], _, _, h, _ => by unfold AppendOp.writeAll; exact Post.pure h
  | t :: ts, _, _, h, ht => by
    unfold AppendOp.writeAll
    refine Post.bind (write_below hl h (ht t (List.mem_cons_self ..))) ?_
    intro op1 w1 h1
    exact writeAll_below hl h1 (fun t' h' => ht t' (List.mem_cons_of_mem _ h'))

theorem finishRecords_below : ∀ (fs : List Field) {w : World} {op : AppendOp}, OpBelow E s b R w op →
    Post (AppendOp.finishRecords fs op w) (fun op' w' => OpBelow E s b R w' op') anyEnd
  | [], _, _, h => by unfold AppendOp.finishRecords; exact Post.pure h
  | f :: fs, w, op, h => by
    unfold AppendOp.finishRecords
    cases hrw : op.rws.get? f.name with
    | none => exact finishRecords_below fs h
    | some rw =>
      refine Post.bind (finishRecord_below h f rw) ?_
      intro op1 w1 h1
      exact finishRecords_below fs h1

theorem flush_below (h : OpBelow E s b R w op) :
    Post (op.flush E s w) (fun op' w' => OpBelow E s b R w' op') anyEnd := by
  unfold AppendOp.flush
  cases hc : op.cache with
  | none => exact Post.pure h
  | some c =>
    refine Post.bind (maybeCreate_below h) ?_
    intro op1 w1 h1
    exact writeTable_below h1 (h.cache c hc)

theorem finish_below (h : OpBelow E s b R w op) :
    Post (op.finish E s w) (fun p w' => ∀ q, p = some q → ∀ r ∈ physRows w'.fs q.addIdx, Below s R r) anyEnd := by
  unfold AppendOp.finish
  refine Post.bind (finishRecords_below s.recFields h) ?_
  intro op1 w1 h1
  refine Post.bind (flush_below h1) ?_
  intro op2 w2 h2
  refine Post.bind (finishIndex_below h2) ?_
  intro op3 w3 h3
  refine Post.bind (Q := fun im w' => ∀ m q, im = some q → m ∈ entriesOf w'.fs q → FileBelow s R w'.fs m.file) ?_ ?_
  · unfold finishIndexManifest
    split
    · exact Post.pure (fun _ _ hx => by cases hx)
    · refine Post.bind (Post.fresh (Q := fun u w' => u = w3.next ∧ w' = { w3 with next := w3.next + 1 })
        ⟨rfl, rfl⟩) ?_
      rintro u w' ⟨rfl, rfl⟩
      refine Post.bind (Post.put (Q := fun _ w' => w' =
        ({ w3 with next := w3.next + 1 } : World).put (.indexManifest w3.next) (.imanifest (op3.carried ++ op3.mf)))
        rfl) ?_
      rintro _ w' rfl
      refine Post.pure ?_
      intro m q hq hm
      cases hq
      have : m ∈ op3.carried ++ op3.mf := by
        simpa [entriesOf, World.put] using hm
      exact ((h3.next _).mf m this).put (fun g hg => by cases hg)
  intro im w4 h4
  refine Post.bind (Q := fun _ w' => ∀ m q, im = some q → m ∈ entriesOf w'.fs q → FileBelow s R w'.fs m.file) ?_ ?_
  · unfold finishRecordManifest
    split
    · exact Post.pure h4
    · refine Post.bind (Post.fresh (Q := fun u w' => u = w4.next ∧ w' = { w4 with next := w4.next + 1 })
        ⟨rfl, rfl⟩) ?_
      rintro u w' ⟨rfl, rfl⟩
      refine Post.bind (Post.put (Q := fun _ w' => w' =
        ({ w4 with next := w4.next + 1 } : World).put (.recordManifest w4.next) (.rmanifest op3.rmf))
        rfl) ?_
      rintro _ w' rfl
      refine Post.pure ?_
      intro m q hq hm
      refine FileBelow.put (h4 m q hq ?_) (fun g hg => by cases hg)
      simp only [entriesOf, FS.imanifest, World.put] at hm ⊢
      by_cases hqp : q = .recordManifest w4.next
      · subst hqp
        simp at hm
      · rwa [AMap.get?_set_ne _ _ hqp] at hm
  intro rm w5 h5
  split
  · exact Post.pure (fun _ hx => by cases hx)
  · refine Post.pure ?_
    intro q hq r hr
    cases hq
    simp only [physRows, List.mem_flatMap] at hr
    obtain ⟨q, hq, m, hm, hr⟩ := hr
    have hb := h5 m q (by simpa using hq) hm
    unfold fileRows at hr
    cases hg : w5.fs.parquet m.file with
    | none => simp [hg] at hr
    | some g => exact hb g hg r (by simpa [hg] using hr)

theorem OpBelow.init : OpBelow E s b R w { addrInput := false } :=
  ⟨rfl, fun _ _ h => (by cases h), fun _ h => (by cases h), fun _ h => (by cases h), fun m hm => by simp at hm⟩

/-- Others write meanwhile. -/
theorem OpBelow.frame {w0 w' : World} (h : OpBelow E s b R w op) (hok : OpOK E s w0 w op) (hc : op.carried = [])
    (hle : FSLe w.fs w'.fs) : OpBelow E s b R w' op := by
  refine ⟨h.addr, h.rws, h.cache, h.iw, fun m hm g hg => ?_⟩
  have hm' : m ∈ op.mf := by rw [hc] at hm; simpa using hm
  obtain ⟨g', hg', -⟩ := hok.mf m hm'
  have := hle.parquet hg'
  rw [this] at hg
  cases hg
  exact h.mf m hm _ hg'

/-- Actors all of whose rows are below. -/
def ActorsBelow (E : Env) (s : Schema) (b B R : Nat) (w : World) (as : List Actor) : Prop :=
  ∀ a ∈ as, OpBelow E s b R w a.1 ∧ ∀ t ∈ a.2, t.length ≤ B

theorem actorStep_below (hl : Limits E b B R) {n : Nat} {as : List Actor} {qs : List (List (List Row))}
    (h : ActorsOK E s n w as qs) (hb : ActorsBelow E s b B R w as) (i : Nat) :
    Post (actorStep E s i as w) (fun as' w' => (ActorsOK E s n w' as' qs ∧
      (∀ j, (as'[j]?.map (·.2.length)).getD 0 = (as[j]?.map (·.2.length)).getD 0 - if j = i then 1 else 0)) ∧
      ActorsBelow E s b B R w' as') anyEnd := by
  have key : Post (actorStep E s i as w) (fun as' w' => FSLe w.fs w'.fs → ActorsBelow E s b B R w' as') anyEnd := by
    unfold actorStep
    cases ha : as[i]? with
    | none => exact Post.pure fun _ => hb
    | some a =>
      obtain ⟨op, q⟩ := a
      cases q with
      | nil => exact Post.pure fun _ => hb
      | cons t ts =>
        have hi := hb _ (List.mem_of_getElem? ha)
        refine Post.bind (write_below hl hi.1 (hi.2 t (List.mem_cons_self ..))) ?_
        intro op' w' h1
        refine Post.pure fun hle a hmem => ?_
        obtain ⟨j, hj⟩ := List.mem_iff_getElem?.mp hmem
        by_cases hij : i = j
        · subst hij
          rw [List.getElem?_set_self (List.getElem?_eq_some_iff.mp ha).1] at hj
          cases hj
          exact ⟨h1, fun t' ht' => hi.2 t' (List.mem_cons_of_mem _ ht')⟩
        · rw [List.getElem?_set_ne hij] at hj
          have hja := hb _ (List.mem_of_getElem? hj)
          obtain ⟨o1, -, o3, -⟩ := h.ops j a.1 a.2 hj
          exact ⟨hja.1.frame o1 o3 hle, hja.2⟩
  refine ((actorStep_post h i).and key).imp ?_ (fun _ _ => trivial)
  rintro as' w' ⟨⟨h1, h2, h3⟩, h4⟩
  exact ⟨⟨h2, h3⟩, h4 h1.le⟩

theorem actorsRun_below (hl : Limits E b B R) {n : Nat} : ∀ (sched : List Nat) {w : World} {as : List Actor}
    {qs : List (List (List Row))} (_ : ActorsOK E s n w as qs) (_ : ActorsBelow E s b B R w as),
    Post (actorsRun E s sched as w) (fun as' w' => (ActorsOK E s n w' as' qs ∧
      ∀ j, leftOver as' j = leftOver as j - sched.count j) ∧ ActorsBelow E s b B R w' as') anyEnd
  | [], w, as, qs, h, hb => Post.pure ⟨⟨h, fun j => by simp⟩, hb⟩
  | i :: sched, w, as, qs, h, hb => by
    unfold actorsRun
    refine Post.bind (actorStep_below hl h hb i) ?_
    rintro as1 w1 ⟨⟨h1, h2⟩, h3⟩
    refine (actorsRun_below hl sched h1 h3).imp ?_ (fun _ _ => trivial)
    rintro as2 w2 ⟨⟨h4, h5⟩, h6⟩
    refine ⟨⟨h4, fun j => ?_⟩, h6⟩
    have := h2 j
    rw [h5 j, List.count_cons]
    unfold leftOver
    rw [this]
    by_cases hj : j = i
    · subst hj; simp; omega
    · have : (i == j) = false := by simp [Ne.symm hj]
      simp [hj, this]

theorem finishActors_below {n : Nat} : ∀ (as : List Actor) {w : World} {qs : List (List (List Row))}
    (_ : ActorsOK E s n w as qs) (_ : ∀ j, leftOver as j = 0) (_ : ActorsBelow E s b B R w as),
    Post (finishActors E s as w) (fun ps w' =>
      ∀ q, mergePatches ps = some q → ∀ r ∈ physRows w'.fs q.addIdx, Below s R r) anyEnd
  | [], w, qs, _, _, _ => Post.pure fun q hq => by cases hq
  | (op, q) :: as, w, qs, h, hz, hb => by
    unfold finishActors
    obtain ⟨hop, haddr, hcar, done, hq, hrows⟩ := h.ops 0 op q rfl
    obtain ⟨q1, qs', rfl⟩ : ∃ a b, qs = a :: b := by
      cases qs with
      | nil => cases hq
      | cons a b => exact ⟨a, b, rfl⟩
    refine Post.bind ((((finish_post hop).and (finish_sep (E := E) (s := s) (w := w) (op := op))).and
      (finish_below (hb _ (List.mem_cons_self ..)).1)).imp (fun _ _ h => h) (fun _ _ => trivial)) ?_
    rintro p w1 ⟨⟨⟨-, g1, f1, hlook, mf, rmf, hfin⟩, ⟨op', hsep⟩, hlater⟩, hbel⟩
    rw [hcar] at hfin
    have hgath := hfin.gathered h.fresh hlater
    have h1 : ActorsOK E s n w1 as qs' := h.tail g1 f1 hsep
    have hb1 : ActorsBelow E s b B R w1 as := by
      intro a ha
      have hba := hb a (List.mem_cons_of_mem _ ha)
      obtain ⟨i, hi⟩ := List.mem_iff_getElem?.mp ha
      obtain ⟨o1, -, o3, -⟩ := h.ops (i + 1) a.1 a.2 (by simpa using hi)
      exact ⟨hba.1.frame o1 o3 g1.le, hba.2⟩
    refine Post.bind (((finishActors_post as h1 (fun j => hz (j + 1))).and
      (finishActors_below as h1 (fun j => hz (j + 1)) hb1)).imp (fun _ _ h => h) (fun _ _ => trivial)) ?_
    rintro ps w2 ⟨⟨g2, -⟩, hP⟩
    refine Post.pure ?_
    intro x hx r hr
    rw [mergePatches_cons] at hx
    have first : ∀ a, p = some a → r ∈ physRows w2.fs a.addIdx → Below s R r := by
      intro a ha hra
      rw [physRows_mono g2.le (hgath.ok a ha).idx] at hra
      exact hbel a ha r hra
    cases hp : p with
    | none =>
      rw [hp] at hx
      cases hps : mergePatches ps with
      | none => rw [hps] at hx; cases hx
      | some c => rw [hps] at hx; cases hx; exact hP _ hps r hr
    | some a =>
      rw [hp] at hx
      cases hps : mergePatches ps with
      | none => rw [hps] at hx; cases hx; exact first _ hp hr
      | some c =>
        rw [hps] at hx
        cases hx
        simp only [joinPatch, physRows_append, List.mem_append] at hr
        rcases hr with hr | hr
        · exact first a hp hr
        · exact hP c hps r hr

theorem rayWrite_below (hl : Limits E b B R) (hf : w.Fresh) (sched : List Nat) {qs : List (List (List Row))}
    (hq : ∀ q ∈ qs, ∀ t ∈ q, t.length ≤ B) :
    Post (rayWrite E s sched qs w)
      (fun p w' => ∀ q, p = some q → ∀ r ∈ physRows w'.fs q.addIdx, Below s R r) anyEnd := by
  unfold rayWrite
  refine Post.bind (actorsRun_below (b := b) hl sched (ActorsOK.init (E := E) (s := s) hf qs) ?_) ?_
  · intro a ha
    obtain ⟨q, hqm, rfl⟩ := List.mem_map.mp ha
    exact ⟨OpBelow.init, hq q hqm⟩
  rintro as1 w1 ⟨⟨h1, -⟩, hb1⟩
  refine Post.bind (actorsRun_below hl (drain as1) h1 hb1) ?_
  rintro as2 w2 ⟨⟨h2, h3⟩, hb2⟩
  refine Post.bind (finishActors_below as2 h2 (fun j => by rw [h3 j, drain_count]; omega) hb2) ?_
  intro ps w3 h4
  exact Post.pure h4

theorem shardLoop_length (rows : List Row) (size : Nat) : ∀ (k off : Nat),
    ∀ t ∈ (shardLoop rows size k off).1, t.length ≤ rows.length
  | 0, off, t, h => by simp [shardLoop] at h
  | k + 1, off, t, h => by
    have h0 : ((rows.drop off).take size).length ≤ rows.length := by
      rw [List.length_take, List.length_drop]; omega
    unfold shardLoop at h
    dsimp only at h
    split at h
    · simp only [List.mem_singleton] at h
      subst h
      exact h0
    · rcases List.mem_cons.mp h with h | h
      · subst h
        exact h0
      · exact shardLoop_length rows size k _ t h

/-- The rows a Ray append adds are below. -/
theorem rayAppendBody_below (hl : Limits E b B R) (hf : w.Fresh) (n : Nat) (sched : List Nat) {rows : List Row}
    (hr : rows.length ≤ B) :
    Post (rayAppendBody E s n sched rows w)
      (fun p w' => ∀ q, p = some q → ∀ r ∈ physRows w'.fs q.addIdx, Below s R r) anyEnd := by
  unfold rayAppendBody
  refine Post.bind (Q := fun qs w' => shardQueues n rows = .ok qs ∧ w = w') (Post.lift (fun a ha => ⟨ha, rfl⟩) trivial) ?_
  rintro qs w' ⟨hq, rfl⟩
  refine rayWrite_below hl hf sched ?_
  unfold shardQueues at hq
  split at hq
  · cases hq
  · cases hq
    intro q hqm t ht
    obtain ⟨i, -, rfl⟩ := List.mem_map.mp hqm
    rcases List.mem_append.mp ht with ht | ht
    · have := List.mem_of_getElem? (Option.mem_toList.mp ht)
      exact Nat.le_trans (shardLoop_length _ _ _ _ t this) hr
    · split at ht
      · simp only [List.mem_singleton] at ht
        subst ht
        rw [List.length_drop]
        omega
      · cases ht

/-- The rows a Ray append of sources adds are below. -/
theorem rayAppendFromAll_below (hl : Limits E b B R) (hf : w.Fresh) (n : Nat) (sched : List Nat)
    {sources : List (List (List Row))} (hr : ∀ src ∈ sources, ∀ t ∈ src, t.length ≤ B) :
    Post (rayAppendFromAll E s n sched sources w)
      (fun p w' => ∀ q, p = some q → ∀ r ∈ physRows w'.fs q.addIdx, Below s R r) anyEnd := by
  unfold rayAppendFromAll
  refine Post.bind (Q := fun qs w' => sourceQueues n sources = .ok qs ∧ w = w')
    (Post.lift (fun a ha => ⟨ha, rfl⟩) trivial) ?_
  rintro qs w' ⟨hq, rfl⟩
  refine rayWrite_below hl hf sched ?_
  unfold sourceQueues at hq
  split at hq
  · cases hq
  · cases hq
    intro q hqm t ht
    obtain ⟨i, -, rfl⟩ := List.mem_map.mp hqm
    obtain ⟨x, hx, htx⟩ := List.mem_flatMap.mp ht
    have := (List.mem_filter.mp hx).1
    exact hr x.1 (List.fst_mem_of_mem_zipIdx this) t htx

/-- The rows an append adds are below. -/
theorem appendBody_below (hl : Limits E b B R) {tables : List (List Row)} (ht : ∀ t ∈ tables, t.length ≤ B) :
    Post (appendBody E s tables w)
      (fun p w' => ∀ q, p = some q → ∀ r ∈ physRows w'.fs q.addIdx, Below s R r) anyEnd := by
  unfold appendBody
  refine Post.bind (writeAll_below (b := b) hl ⟨rfl, ?_, ?_, ?_, ?_⟩ ht) ?_
  · intro n rw h; cases h
  · intro c h; cases h
  · intro c h; cases h
  · intro m hm; simp at hm
  · intro op1 w1 h1
    exact finish_below h1

end

end Space

namespace Space

section
variable {E : Env} {s : Schema} {m : Mutation} {h h' h1 : Handle} {wb w w' w1 : World} {p : Patch}
  {cur snap : Snapshot} {b B R : Nat}

/-- Mutations with batches of at most `B` rows and user record files of at most `R` records. -/
def Mutation.Sized (B R : Nat) (fs : FS) : Mutation → Prop
  | .append tables => ∀ t ∈ tables, t.length ≤ B
  | .insert data => data.length ≤ B
  | .upsert data => data.length ≤ B
  | .rayAppend _ _ rows => rows.length ≤ B
  | .rayAppendFrom _ _ sources => ∀ src ∈ sources, ∀ t ∈ src, t.length ≤ B
  | .rayInsert _ _ _ data => data.length ≤ B
  | .sync _ _ _ added => ∀ sources, added = some sources → ∀ src ∈ sources, ∀ t ∈ src, t.length ≤ B
  | .appendArrayRecord _ files => ∀ q ∈ files, (∃ x, q = .external x) ∧
      ∀ rs, fs.records q = some rs → rs.length ≤ R
  | _ => True

theorem DeleteOut.sub {e : Expr} {index : List Path} {mf : Option MExpr} {dp : Option Patch}
    (hn : s.names.Nodup) (hi : index.Nodup) (hok : ∀ q ∈ index, ManifestOK w.fs s q) (hg : Grows w w1)
    (h : DeleteOut E s e w w1 index mf dp) :
    ∀ r ∈ physRows w1.fs (index.filter (fun q => !((dp.map (·.delIdx)).getD []).contains q) ++
        (dp.map (·.addIdx)).getD []), r ∈ physRows w.fs index := by
  intro r hr
  rcases h.out with ⟨rfl, -⟩ | ⟨q, dms, carried, mf', rmf, rp, rfl, hd⟩
  · simp only [Option.map_none, Option.getD_none, filter_none, List.append_nil] at hr
    rwa [physRows_mono hg.le hok] at hr
  · obtain ⟨lost, hperm, -⟩ := hd.rowsLost hn hi hok hg
    have := hperm.subset (List.mem_append_left _ hr)
    rw [physRows_entries]
    exact (flatMap_sublist (fun m => afterRows_sub m) _).subset this

theorem indexRows_below {f : Field} (hrf : s.recFields = [f]) {fn : List Nat → Row} {q : Path} {rs : List (List Nat)}
    (hlen : rs.length ≤ R) : ∀ r ∈ indexRows s f.name fn q rs, Below s R (r.select s.writeNames) := by
  intro r hr c p i hc hm
  have hok := indexRows_addr (L := fun x => if x = q then some rs else none) hrf (fn := fn) (p := q) (rs := rs)
    (by simp) r hr c hc _ hm
  obtain ⟨p', i', rs', h1, h2, h3⟩ := hok
  cases h1
  dsimp only at h2
  split at h2
  · cases h2; omega
  · cases h2

/-- Row ids stay below. -/
theorem Success.below (hl : Limits E b B R) (hn : s.names.Nodup)
    (hs : Success E s m h wb w h' w' h1 w1 p cur snap) (hz : m.Sized B R wb.fs)
    (hcur : ∀ r ∈ physRows wb.fs cur.index, Below s R r) : ∀ r ∈ physRows w'.fs snap.index, Below s R r := by
  rw [physRows_mono hs.earlier hs.curOK.manifests] at hcur
  have hm : ∀ q ∈ snap.index, ManifestOK w1.fs s q := by
    intro q hq
    rw [hs.index] at hq
    rcases List.mem_append.mp hq with hq | hq
    · exact (hs.curOK.manifests q (List.mem_filter.mp hq).1).mono hs.grows.le
    · exact hs.patch.idx q hq
  rw [physRows_mono hs.le hm, hs.index]
  have adds : p.delIdx = [] → (∀ r ∈ physRows w1.fs p.addIdx, Below s R r) →
      ∀ r ∈ physRows w1.fs (cur.index.filter (fun m => !p.delIdx.contains m) ++ p.addIdx), Below s R r := by
    intro hd ha r hr
    rw [hd, filter_none, physRows_append, physRows_mono hs.grows.le hs.curOK.manifests] at hr
    rcases List.mem_append.mp hr with hr | hr
    · exact hcur r hr
    · exact ha r hr
  have inserted : ∀ {mode : InsertMode} {data : List Row}, m.inserts = some (mode, data) →
      (∀ w0 : World, w0.Fresh → Post (m.writer E s w0)
        (fun p w' => ∀ q, p = some q → ∀ r ∈ physRows w'.fs q.addIdx, Below s R r) anyEnd) →
      ∀ r ∈ physRows w1.fs (cur.index.filter (fun m => !p.delIdx.contains m) ++ p.addIdx), Below s R r := by
    intro mode data hmi hw
    obtain ⟨e, mf, hout⟩ := hs.insertedG hmi
    obtain ⟨w0, dp, ap, P, g1, f1, g2, hp, hfin, hP, hins, hups, hrun⟩ := hout.out
    obtain ⟨hd, ha, -⟩ := merge_delIdx hp (fun q hq => hfin.del q hq)
    have hnew : ∀ r ∈ physRows w1.fs ((ap.map (·.addIdx)).getD []), Below s R r := by
      have := Post.elim (hw w0 f1) hrun
      cases ap with
      | none => intro r hr; simp [physRows] at hr
      | some q => intro r hr; exact this q rfl r (by simpa using hr)
    cases mode with
    | insert =>
      obtain ⟨rfl, rfl, -⟩ := hins rfl
      exact adds (by simpa using hd) (by rw [ha]; simpa using hnew)
    | upsert =>
      have hdel := hups rfl
      rw [hd, ha, ← List.append_assoc, physRows_append]
      intro r hr
      rcases List.mem_append.mp hr with hr | hr
      · rw [physRows_mono g2.le (hdel.manifests hn hs.curOK.manifests g1)] at hr
        exact hcur r (hdel.sub hn hs.curOK.nodup hs.curOK.manifests g1 r hr)
      · exact hnew r hr
  cases m with
  | append tables =>
    obtain ⟨hd, -⟩ := hs.append
    refine adds hd ?_
    have hb := hs.body
    simp only [Mutation.body, hs.schema] at hb
    exact Post.elim (appendBody_below (w := w) (s := s) hl hz) hb p rfl
  | rayAppend n sched rows =>
    obtain ⟨P, hg, -⟩ := hs.addedG rfl
    refine adds (hg.del p rfl) ?_
    have hb := hs.body
    simp only [Mutation.body, hs.schema] at hb
    exact Post.elim (rayAppendBody_below (w := w) (s := s) hl hs.fresh n sched hz) hb p rfl
  | rayAppendFrom n sched sources =>
    obtain ⟨P, hg, -⟩ := hs.addedG rfl
    refine adds (hg.del p rfl) ?_
    have hb := hs.body
    simp only [Mutation.body, hs.schema] at hb
    exact Post.elim (rayAppendFromAll_below (w := w) (s := s) hl hs.fresh _ sched hz) hb p rfl
  | insert data =>
    exact inserted rfl fun w0 _ => appendBody_below hl (by simpa [Mutation.Sized] using hz)
  | upsert data =>
    exact inserted rfl fun w0 _ => appendBody_below hl (by simpa [Mutation.Sized] using hz)
  | rayInsert mode n sched data =>
    exact inserted rfl fun w0 hf => rayAppendBody_below hl hf n sched hz
  | appendParquet files =>
    obtain ⟨hr, hd, -⟩ := hs.loadParquet
    refine adds hd ?_
    intro r _ c p i hc
    rw [hr] at hc
    cases hc
  | appendArrayRecord fn files =>
    obtain ⟨f, mf, rmf, p0, hrf, hrec, hf, hadd, hd, -⟩ := hs.loadRecords
    refine adds hd ?_
    have hphys : physRows w1.fs p.addIdx =
        (recordIndexRows w1.fs s f.name fn files).map (·.select s.writeNames) := by
      rw [hadd]
      rcases hf.addRows with ha | ⟨q, hq, hr, -⟩
      · cases ha.1
      · cases hq; exact hr
    rw [hphys]
    intro r hr
    obtain ⟨r', hr', rfl⟩ := List.mem_map.mp hr
    obtain ⟨q, hq, hrq⟩ := List.mem_flatMap.mp hr'
    obtain ⟨rs, hrs⟩ := Option.isSome_iff_exists.mp (hrec q hq)
    rw [hrs] at hrq
    refine indexRows_below hrf ?_ r' hrq
    obtain ⟨⟨x, rfl⟩, hsz⟩ := hz q hq
    refine hsz rs ?_
    cases hw : w.fs.records (.external x) with
    | some rs' =>
      have := hs.grows.le.records hw
      rw [this] at hrs
      cases hrs
      exact hs.earlier.records hw
    | none =>
      obtain ⟨m, hm, hmf⟩ := hf.recAll _ _ hrs hw
      obtain ⟨f', u', h6, -⟩ := hf.recNew m hm
      rw [hmf] at h6
      cases h6
  | delete e =>
    have hb := hs.body
    simp only [Mutation.body] at hb
    obtain ⟨-, -, cur', mf, hc, hm, hout⟩ := Post.elim (deleteBody_post (E := E) (e := e) hs.fresh hs.handle) hb
    rw [hs.base] at hc
    cases hc
    intro r hr
    exact hcur r (hout.sub hn hs.curOK.nodup hs.curOK.manifests hs.grows r hr)
  | sync n sched gone added =>
    obtain ⟨w0, dp, ap, P, g1, f1, g2, hp, hfin, hP, hdp, hrun⟩ := hs.syncedG.out
    obtain ⟨hd, ha, -⟩ := merge_delIdx hp (fun q hq => hfin.del q hq)
    have hnew : ∀ r ∈ physRows w1.fs ((ap.map (·.addIdx)).getD []), Below s R r := by
      cases ap with
      | none => intro r hr; simp [physRows] at hr
      | some q =>
        cases added with
        | none => cases hrun
        | some sources =>
          have := Post.elim (rayAppendFromAll_below (w := w0) (s := s) hl f1 n sched (hz sources rfl)) hrun
          intro r hr
          exact this q rfl r (by simpa using hr)
    rw [hd, ha, ← List.append_assoc, physRows_append]
    intro r hr
    rcases List.mem_append.mp hr with hr | hr
    · rw [physRows_mono g2.le (hdp.manifests hn hs.curOK.manifests g1)] at hr
      rcases hdp with ⟨-, rfl, rfl⟩ | ⟨e, mf, hkey, hmf, hdel⟩
      · simp only [Option.map_none, Option.getD_none, filter_none, List.append_nil] at hr
        exact hcur r hr
      · exact hcur r (hdel.sub hn hs.curOK.nodup hs.curOK.manifests g1 r hr)
    · exact hnew r hr
  | rayDelete e =>
    obtain ⟨mf, -, hd⟩ := hs.rayDeleted hn
    intro r hr
    exact hcur r (hd.sub hs.curOK.manifests hs.grows r hr)

end

end Space
