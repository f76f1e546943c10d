import Verif.WorldLemmas

/-! # Invariants of the append operation -/

namespace Space

/-! ## Small facts -/

theorem appendColumn_eq (name : String) (rows : List Row) (col : List Val) :
    appendColumn name rows col = List.zipWith (fun r v => r ++ [(name, v)]) rows col := rfl

theorem addressColumn_length (p : Path) (a n : Nat) : (addressColumn p a n).length = n := by
  simp [addressColumn]

theorem colBytes_ok {vs : List Val} {bs : List (List Nat)} (h : colBytes vs = .ok bs) :
    vs = bs.map (fun b => Val.sc (.bytes b)) := by
  induction vs generalizing bs with
  | nil => simp only [colBytes, Except.ok.injEq] at h; simp [← h]
  | cons v vs ih =>
    simp only [colBytes] at h
    split at h
    · rename_i b bs' hb hbs
      cases h
      rw [ih hbs]
      cases v with
      | sc x => cases x <;> simp_all [Val.toBytes]
      | _ => simp_all [Val.toBytes]
    · cases h
    · cases h

theorem fileStats_ok {E : Env} {s : Schema} {p : Path} {g : List (List Row)} {m : ManifestRow}
    (h : manifestRow E s p g = .ok m) :
    m.file = p ∧ m.numRows = g.flatten.length ∧ fileStats s g s.statsFields = .ok m.stats ∧
      m.icb = (fileBytes E s g).1 ∧ m.iub = (fileBytes E s g).2 := by
  unfold manifestRow at h
  split at h
  · cases h
  · rename_i st hst
    simp only [Except.ok.injEq] at h
    subst h
    exact ⟨rfl, rfl, hst, rfl, rfl⟩

/-- The sizes in a manifest row are those of the key columns of its file. -/
def SizeOK (E : Env) (s : Schema) (fs : FS) (m : ManifestRow) : Prop :=
  ∃ g, fs.parquet m.file = some g ∧ m.icb = (fileBytes E s g).1 ∧ m.iub = (fileBytes E s g).2

theorem SizeOK.mono {E : Env} {s : Schema} {fs fs' : FS} {m : ManifestRow} (h : SizeOK E s fs m)
    (hle : FSLe fs fs') : SizeOK E s fs' m := by
  obtain ⟨g, h1, h2⟩ := h
  exact ⟨g, hle.parquet h1, h2⟩

/-! ## What addresses resolve to during an append -/

/-- Open record writers overlay the files. -/
def overlay (rws : AMap String RecWriter) (fs : FS) : Look := fun p =>
  match p with
  | .record f u =>
    match rws.get? f with
    | some rw => if rw.path = .record f u then some rw.buf else fs.records (.record f u)
    | none => fs.records (.record f u)
  | p => fs.records p

/-- Lookups during an append. -/
def AppendOp.look (op : AppendOp) (fs : FS) : Look := overlay op.rws fs

theorem overlay_of_records {rws : AMap String RecWriter} {fs : FS} {p : Path} {rs : List (List Nat)}
    (h : fs.records p = some rs)
    (hr : ∀ f rw, rws.get? f = some rw → AMap.get? fs rw.path = none) :
    overlay rws fs p = some rs := by
  unfold overlay
  split
  · split
    · rename_i f u _ rw hg
      split
      · rename_i hp
        have := hr _ _ hg
        rw [hp] at this
        simp [FS.records, this] at h
      · exact h
    · exact h
  · exact h

theorem overlay_mono {rws : AMap String RecWriter} {fs fs' : FS} (h : FSLe fs fs') :
    LookLe (overlay rws fs) (overlay rws fs') := by
  intro p rs hp
  refine ⟨[], ?_⟩
  rw [List.append_nil]
  unfold overlay at hp ⊢
  split at hp
  · rename_i f u
    cases hg : rws.get? f with
    | some rw =>
      simp only [hg] at hp ⊢
      split at hp
      · rename_i he; simpa [he] using hp
      · rename_i he; simpa [he] using h.records hp
    | none =>
      simp only [hg] at hp ⊢
      exact h.records hp
  · exact h.records hp

theorem overlay_records {rws : AMap String RecWriter} {fs : FS} (h : ∀ f, rws.get? f = none) :
    overlay rws fs = fs.records := by
  funext p
  unfold overlay
  split <;> simp [h]

/-- Writing to a record writer only extends what is found. -/
theorem overlay_set {rws : AMap String RecWriter} {fs : FS} {f : String} {u : Nat}
    {rw rw' : RecWriter} {more : List (List Nat)}
    (hold : (rws.get? f = some rw) ∨ (rws.get? f = none ∧ rw.buf = []))
    (hp : rw.path = .record f u) (hp' : rw'.path = rw.path) (hb : rw'.buf = rw.buf ++ more)
    (hn : AMap.get? fs rw.path = none) :
    LookLe (overlay rws fs) (overlay (rws.set f rw') fs) := by
  intro p rs h
  unfold overlay at h ⊢
  split at h
  · rename_i g v
    simp only [AMap.get?_set]
    by_cases hg : g = f
    · subst hg
      simp only [ite_true]
      rcases hold with hold | ⟨hold, hbuf⟩
      · simp only [hold] at h
        by_cases he : rw.path = .record g v
        · simp only [he, ite_true, Option.some.injEq] at h
          refine ⟨more, ?_⟩
          simp [hp', he, hb, h]
        · simp only [he, ite_false] at h
          exact ⟨[], by simp [hp', he, h]⟩
      · simp only [hold] at h
        by_cases he : rw.path = .record g v
        · rw [he] at hn
          simp [FS.records, hn, World.put] at h
        · exact ⟨[], by simp [hp', he, h]⟩
    · simp only [hg, ite_false]
      exact ⟨[], by simpa using h⟩
  · exact ⟨[], by simpa using h⟩

theorem overlay_get {rws : AMap String RecWriter} {fs : FS} {f : String} {u : Nat}
    {rw : RecWriter} (hp : rw.path = .record f u) : overlay (rws.set f rw) fs rw.path = some rw.buf := by
  rw [hp]
  simp [overlay, hp]

/-- Closing a record writer keeps what is found. -/
theorem overlay_close {rws : AMap String RecWriter} {fs : FS} {f : String} {u : Nat}
    {rw : RecWriter} (hg : rws.get? f = some rw) (hp : rw.path = .record f u) :
    overlay (rws.erase f) (AMap.set fs rw.path (.records rw.buf)) = overlay rws fs := by
  funext p
  unfold overlay
  split
  · rename_i g v
    by_cases h : g = f
    · subst h
      simp only [AMap.get?_erase_self, hg]
      by_cases he : rw.path = .record g v
      · simp [he]
      · simp only [he, ite_false]
        exact records_set_ne (fun h => he h.symm)
    · simp only [AMap.get?_erase_ne _ h]
      have hne : Path.record g v ≠ rw.path := by
        rw [hp]; intro hc; injection hc with h1 h2; exact h h1
      rw [records_set_ne hne]
  · rename_i p hne
    exact records_set_ne (by rw [hp]; rintro rfl; exact hne _ _ rfl)

/-! ## The invariant -/

/-- A value as a record. -/
def recVal (b : List Nat) : Val := .sc (.bytes b)

/-- The byte count of a record file is the sum of the sizes of the columns
written to it. -/
def BytesOf (E : Env) (buf : List (List Nat)) (bytes : Nat) : Prop :=
  ∃ cols : List (List (List Nat)), cols.flatten = buf ∧
    bytes = (cols.map (fun c => E.columnBytes (c.map recVal))).sum

/-- Rows handed to the operation so far, in order. -/
def AppendOp.rows (op : AppendOp) (fs : FS) : List Row :=
  op.mf.flatMap (fun m => fileRows fs m.file) ++
    ((op.iw.map (·.groups.flatten)).getD [] ++ op.cache.getD [])

/-- The change log entry of a file added as a whole. -/
def wholeFile (m : ManifestRow) : RowBitmap :=
  { file := m.file, allRows := true, numRows := m.numRows, bits := [] }

/-- Sums of manifest columns. -/
def sumRows (ms : List ManifestRow) : Int := (ms.map (fun m => (m.numRows : Int))).sum
@[inherit_doc sumRows] def sumIcb (ms : List ManifestRow) : Int := (ms.map (fun m => (m.icb : Int))).sum
@[inherit_doc sumRows] def sumIub (ms : List ManifestRow) : Int := (ms.map (fun m => (m.iub : Int))).sum
@[inherit_doc sumRows] def sumRub (ms : List RecManifestRow) : Int := (ms.map (fun m => (m.bytes : Int))).sum

/-- A record manifest row describes its file. -/
def RecEntryOK (E : Env) (fs : FS) (s : Schema) (m : RecManifestRow) : Prop :=
  ∃ f ∈ s.recFields, ∃ u rs, m.file = .record f.name u ∧ m.fid = f.fid ∧
    fs.records m.file = some rs ∧ m.numRows = rs.length ∧ BytesOf E rs m.bytes

theorem RecEntryOK.mono {E : Env} {fs fs' : FS} {s : Schema} {m : RecManifestRow}
    (h : FSLe fs fs') (hm : RecEntryOK E fs s m) : RecEntryOK E fs' s m := by
  obtain ⟨f, hf, u, rs, h1, h2, h3, h4⟩ := hm
  exact ⟨f, hf, u, rs, h1, h2, h.records h3, h4⟩

/-- Invariant of an append operation started in `w0`, in the middle of a write. -/
structure OpPre (E : Env) (s : Schema) (w0 w : World) (op : AppendOp) : Prop where
  grows : Grows w0 w
  fresh : w.Fresh
  iw : ∀ iw, op.iw = some iw → ∃ u, iw.path = .index u ∧ w0.next ≤ u ∧ u < w.next ∧
    AMap.get? w.fs iw.path = none
  iwRows : ∀ iw, op.iw = some iw → ∀ r ∈ iw.groups.flatten, RowOK (op.look w.fs) s r
  rws : ∀ f rw, op.rws.get? f = some rw → ∃ u, rw.path = .record f u ∧ w0.next ≤ u ∧
    u < w.next ∧ AMap.get? w.fs rw.path = none ∧ rw.buf.length = rw.nextRow ∧
    rw.rows = rw.nextRow ∧ BytesOf E rw.buf rw.bytes ∧ ∃ fl ∈ s.recFields, fl.name = f
  cache : ∀ r ∈ op.cache.getD [], AddrOK (op.look w.fs) s r
  mf : ∀ m ∈ op.mf, EntryOK w.fs (op.look w.fs) s m
  mfNew : ∀ m ∈ op.mf, ∃ u, m.file = .index u ∧ w0.next ≤ u
  mfSize : ∀ m ∈ op.mf, SizeOK E s w.fs m
  mfNodup : (op.mf.map (·.file)).Nodup
  rmf : ∀ m ∈ op.rmf, RecEntryOK E w.fs s m
  rmfNew : ∀ m ∈ op.rmf, ∃ f u, m.file = .record f u ∧ w0.next ≤ u
  rmfAll : ∀ p rs, w.fs.records p = some rs → w0.fs.records p = none → ∃ m ∈ op.rmf, m.file = p
  rmfNodup : (op.rmf.map (·.file)).Nodup
  stRows : op.stats.rows = sumRows op.mf
  stIcb : op.stats.icb = sumIcb op.mf
  stIub : op.stats.iub = sumIub op.mf
  stRub : op.stats.rub = sumRub op.rmf
  added : op.added = op.mf.map wholeFile

/-- Files open for writing have rows, or rows wait for them. -/
def AppendOp.Full (op : AppendOp) : Prop :=
  (∀ iw, op.iw = some iw → iw.groups.flatten ++ op.cache.getD [] ≠ []) ∧ ∀ c, op.cache = some c → c ≠ []

/-- Invariant of an append operation started in `w0`, between writes. -/
structure OpOK (E : Env) (s : Schema) (w0 w : World) (op : AppendOp) : Prop extends OpPre E s w0 w op where
  full : op.Full

/-- Steps that change neither the open file nor the cache. -/
theorem OpPre.ok {E : Env} {s : Schema} {w0 w : World} {op op' : AppendOp} (h : OpPre E s w0 w op') (hf : op.Full)
    (h1 : op'.iw = op.iw) (h2 : op'.cache = op.cache) : OpOK E s w0 w op' :=
  ⟨h, by unfold AppendOp.Full at *; rw [h1, h2]; exact hf⟩

theorem OpOK.init {E : Env} {s : Schema} {w : World} (a : Bool) (hf : w.Fresh) :
    OpOK E s w w { addrInput := a } where
  full := ⟨by simp, by simp⟩
  grows := Grows.refl w
  fresh := hf
  iw := by simp
  iwRows := by simp
  rws := by simp
  cache := by simp
  mf := by simp
  mfNew := by simp
  mfSize := by simp
  mfNodup := by simp
  rmf := by simp
  rmfNew := by simp
  rmfAll := by intro p rs h h'; rw [h] at h'; cases h'
  rmfNodup := by simp
  stRows := rfl
  stIcb := rfl
  stIub := rfl
  stRub := rfl
  added := rfl

/-- What a step of the operation does to earlier results. -/
structure OpStep (w w' : World) (op op' : AppendOp) : Prop where
  grows : Grows w w'
  look : LookLe (op.look w.fs) (op'.look w'.fs)
  addr : op'.addrInput = op.addrInput
  carried : op'.carried = op.carried
  files : ∀ m ∈ op'.mf, m ∈ op.mf ∨ w.fs.parquet m.file = none

theorem OpStep.refl (w : World) (op : AppendOp) : OpStep w w op op :=
  ⟨Grows.refl w, LookLe.refl _, rfl, rfl, fun _ => Or.inl⟩

theorem OpStep.trans {w w' w'' : World} {a b c : AppendOp} (h : OpStep w w' a b)
    (h' : OpStep w' w'' b c) : OpStep w w'' a c :=
  ⟨h.grows.trans h'.grows, h.look.trans h'.look, h'.addr.trans h.addr, h'.carried.trans h.carried, fun m hm => by
    rcases h'.files m hm with hm | hm
    · exact h.files m hm
    · cases hc : w.fs.parquet m.file with
      | none => exact Or.inr rfl
      | some c => rw [h.grows.le.parquet hc] at hm; cases hm⟩

theorem fileRows_mem {fs : FS} {L : Look} {s : Schema} {m : ManifestRow} (h : EntryOK fs L s m) :
    ∀ r ∈ fileRows fs m.file, RowOK L s r := by
  obtain ⟨g, h1, _, _, h4⟩ := h
  intro r hr
  exact h4 r (by simpa [fileRows, h1] using hr)

/-- All rows so far have resolvable addresses. -/
theorem OpPre.rowsAddr {E : Env} {s : Schema} {w0 w : World} {op : AppendOp}
    (h : OpPre E s w0 w op) : ∀ r ∈ op.rows w.fs, AddrOK (op.look w.fs) s r := by
  intro r hr
  simp only [AppendOp.rows, List.mem_append, List.mem_flatMap] at hr
  rcases hr with ⟨m, hm, hr⟩ | hr | hr
  · exact (fileRows_mem (h.mf m hm) r hr).2
  · cases hiw : op.iw with
    | none => simp [hiw] at hr
    | some iw =>
      simp only [hiw, Option.map_some, Option.getD_some] at hr
      exact (h.iwRows iw hiw r hr).2
  · exact h.cache r hr

/-- Rows of finished files do not change. -/
theorem OpPre.mfRows {E : Env} {s : Schema} {w0 w : World} {op : AppendOp} {fs' : FS}
    (h : OpPre E s w0 w op) (hf : FSLe w.fs fs') :
    op.mf.flatMap (fun m => fileRows fs' m.file) = op.mf.flatMap (fun m => fileRows w.fs m.file) := by
  rw [List.flatMap_def, List.flatMap_def]
  congr 1
  exact List.map_congr_left fun m hm => fileRows_mono hf (h.mf m hm)

/-! ## Steps -/

variable {E : Env} {s : Schema} {w0 w : World} {op : AppendOp}

/-- `_maybe_create_index_writer`. -/
theorem maybeCreate_post (h : OpPre E s w0 w op) :
    Post (op.maybeCreate w)
      (fun op' w' => OpPre E s w0 w' op' ∧ OpStep w w' op op' ∧ op'.rows w'.fs = op.rows w.fs ∧
        op'.iw.isSome ∧ op'.cache = op.cache ∧ op'.rws = op.rws)
      (fun w' => Grows w0 w') := by
  unfold AppendOp.maybeCreate
  cases hiw : op.iw with
  | some iw =>
    exact Post.pure ⟨h, OpStep.refl _ _, rfl, by simp [hiw], rfl, rfl⟩
  | none =>
    refine Post.bind (Post.fresh (Q := fun u w' => u = w.next ∧ w' = { w with next := w.next + 1 })
      ⟨rfl, rfl⟩) ?_
    rintro u w' ⟨rfl, rfl⟩
    refine Post.pure ⟨?_, ⟨Grows.fresh' w, LookLe.refl _, rfl, rfl, fun _ => Or.inl⟩, ?_, rfl, rfl, rfl⟩
    · exact
      { grows := h.grows.trans (Grows.fresh' w)
        fresh := (Grows.fresh' w).fresh h.fresh
        iw := by
          intro iw hi
          simp only [Option.some.injEq] at hi
          subst hi
          exact ⟨w.next, rfl, h.grows.next, Nat.lt_succ_self _,
            h.fresh _ w.next rfl (Nat.le_refl _)⟩
        iwRows := by
          intro iw hi
          simp only [Option.some.injEq] at hi
          subst hi
          simp
        rws := by
          intro f rw hr
          obtain ⟨u, h1, h2, h3, h4⟩ := h.rws f rw hr
          exact ⟨u, h1, h2, Nat.lt_succ_of_lt h3, h4⟩
        cache := h.cache
        mf := h.mf
        mfNew := h.mfNew
        mfSize := h.mfSize
        mfNodup := h.mfNodup
        rmf := h.rmf
        rmfNew := h.rmfNew
        rmfAll := h.rmfAll
        rmfNodup := h.rmfNodup
        stRows := h.stRows
        stIcb := h.stIcb
        stIub := h.stIub
        stRub := h.stRub
        added := h.added }
    · simp [AppendOp.rows, hiw]

/-- `ParquetWriter.write_table` of the whole cache. -/
theorem writeTable_post (h : OpPre E s w0 w op) {c : List Row} (hc : op.cache = some c) :
    Post (op.writeTable E s c w)
      (fun op' w' => w' = w ∧ (∀ r ∈ c, s.conforms r = true) ∧
        OpPre E s w0 w { op' with cache := none } ∧ OpStep w w op { op' with cache := none } ∧
        { op' with cache := none }.rows w.fs = op.rows w.fs ∧ (c ≠ [] → { op' with cache := none }.Full))
      (fun w' => Grows w0 w') := by
  unfold AppendOp.writeTable
  cases hiw : op.iw with
  | none => exact Post.raise h.grows
  | some iw =>
    dsimp only
    split
    · rename_i hall
      have hall' : ∀ r ∈ c, s.conforms r = true := by simpa using hall
      refine Post.pure ⟨rfl, hall', ?_, ⟨Grows.refl w, LookLe.refl _, rfl, rfl, fun _ => Or.inl⟩, ?_⟩
      · exact
        { grows := h.grows
          fresh := h.fresh
          iw := by
            intro iw' hi
            simp only [Option.some.injEq] at hi
            subst hi
            exact h.iw iw hiw
          iwRows := by
            intro iw' hi
            simp only [Option.some.injEq] at hi
            subst hi
            intro r hr
            simp only [List.flatten_append, E.rgSplit_flatten, List.mem_append] at hr
            rcases hr with hr | hr
            · exact h.iwRows iw hiw r hr
            · exact ⟨hall' r hr, h.cache r (by simpa [hc] using hr)⟩
          rws := h.rws
          cache := by simp
          mf := h.mf
          mfNew := h.mfNew
          mfSize := h.mfSize
          mfNodup := h.mfNodup
          rmf := h.rmf
          rmfNew := h.rmfNew
          rmfAll := h.rmfAll
          rmfNodup := h.rmfNodup
          stRows := h.stRows
          stIcb := h.stIcb
          stIub := h.stIub
          stRub := h.stRub
          added := h.added }
      · refine ⟨by simp [AppendOp.rows, hiw, hc, E.rgSplit_flatten], fun hne => ⟨?_, by simp⟩⟩
        intro iw' hi
        simp only [Option.some.injEq] at hi
        subst hi
        simp [E.rgSplit_flatten, hne]
    · exact Post.raise h.grows

theorem sumRows_append (a b : List ManifestRow) : sumRows (a ++ b) = sumRows a + sumRows b := by
  simp [sumRows]
theorem sumIcb_append (a b : List ManifestRow) : sumIcb (a ++ b) = sumIcb a + sumIcb b := by
  simp [sumIcb]
theorem sumIub_append (a b : List ManifestRow) : sumIub (a ++ b) = sumIub a + sumIub b := by
  simp [sumIub]
theorem sumRub_append (a b : List RecManifestRow) : sumRub (a ++ b) = sumRub a + sumRub b := by
  simp [sumRub]

/-- `_finish_index_writer`. -/
theorem finishIndex_post (h : OpOK E s w0 w op) (hc : op.cache = none) :
    Post (op.finishIndex E s w)
      (fun op' w' => OpOK E s w0 w' op' ∧ OpStep w w' op op' ∧ op'.rows w'.fs = op.rows w.fs ∧
        op'.iw = none ∧ op'.cache = none ∧ op'.rws = op.rws)
      (fun w' => Grows w0 w') := by
  unfold AppendOp.finishIndex
  cases hiw : op.iw with
  | none =>
    exact Post.pure ⟨h, OpStep.refl _ _, rfl, hiw, hc, rfl⟩
  | some iw =>
    obtain ⟨u, hp, hu0, hu, hnone⟩ := h.iw iw hiw
    have hg : Grows w (w.put iw.path (.parquet iw.groups)) :=
      Grows.put (u := u) (by simp [hp, Path.uuid]) hu hnone (by
        rintro g ⟨⟩
        simpa [hc] using h.full.1 iw hiw) (by rw [hp]; rfl)
    have hl : LookLe (op.look w.fs) (op.look (AMap.set w.fs iw.path (.parquet iw.groups))) :=
      overlay_mono hg.le
    refine Post.bind (Post.put (Q := fun _ w' =>
      w' = (w.put iw.path (.parquet iw.groups))) rfl) ?_
    rintro _ w' rfl
    refine Post.bind (Post.lift (Q := fun m w' => manifestRow E s iw.path iw.groups = .ok m ∧
      w' = (w.put iw.path (.parquet iw.groups))) ?_ ?_) ?_
    · intro m hm; exact ⟨hm, rfl⟩
    · exact h.grows.trans hg
    rintro m w' ⟨hm, rfl⟩
    obtain ⟨m1, m2, m3, m4, m5⟩ := fileStats_ok hm
    have hrec : ∀ p, FS.records (AMap.set w.fs iw.path (.parquet iw.groups)) p = w.fs.records p := by
      intro p
      by_cases hpp : p = iw.path
      · subst hpp
        simp [FS.records, hnone]
      · exact records_set_ne hpp
    refine Post.pure ⟨?_, ⟨hg, hl, rfl, rfl, fun m' hm' => by
      rcases List.mem_append.mp hm' with hm' | hm'
      · exact Or.inl hm'
      · rw [List.mem_singleton.mp hm', m1]
        exact Or.inr (by simp [FS.parquet, hnone])⟩, ?_, rfl, hc, rfl⟩
    · exact
      { grows := h.grows.trans hg
        fresh := hg.fresh h.fresh
        iw := by simp
        iwRows := by simp
        rws := by
          intro f rw hr
          obtain ⟨v, h1, h2, h3, h4, h5⟩ := h.rws f rw hr
          refine ⟨v, h1, h2, h3, ?_, h5⟩
          simp only [World.put]
          rw [AMap.get?_set_ne]
          · exact h4
          · rw [h1, hp]; exact fun hc => by cases hc
        cache := by simp [hc]
        mf := by
          intro m' hm'
          simp only [List.mem_append, List.mem_singleton] at hm'
          rcases hm' with hm' | rfl
          · exact (h.mf m' hm').mono hg.le hl
          · refine ⟨iw.groups, ?_, m2, m3, ?_⟩
            · rw [m1]; exact parquet_set _
            · exact fun r hr => (h.iwRows iw hiw r hr).mono hl
        mfNew := by
          intro m' hm'
          simp only [List.mem_append, List.mem_singleton] at hm'
          rcases hm' with hm' | rfl
          · exact h.mfNew m' hm'
          · exact ⟨u, m1.trans hp, hu0⟩
        mfSize := by
          intro m' hm'
          simp only [List.mem_append, List.mem_singleton] at hm'
          rcases hm' with hm' | rfl
          · exact (h.mfSize m' hm').mono hg.le
          · exact ⟨iw.groups, by rw [m1]; exact parquet_set _, m4, m5⟩
        mfNodup := by
          simp only [List.map_append, List.map_cons, List.map_nil]
          rw [List.nodup_append]
          refine ⟨h.mfNodup, by simp, ?_⟩
          intro a ha b hb' heq
          simp only [List.mem_singleton] at hb'
          subst hb' heq
          simp only [List.mem_map] at ha
          obtain ⟨m', hm', hm''⟩ := ha
          obtain ⟨g, h3, _⟩ := h.mf m' hm'
          rw [hm'', m1] at h3
          simp [FS.parquet, hnone] at h3
        rmf := fun m' hm' => (h.rmf m' hm').mono hg.le
        rmfNew := h.rmfNew
        rmfAll := by
          intro p rs h1 h2
          simp only [World.put] at h1
          rw [hrec] at h1
          exact h.rmfAll p rs h1 h2
        rmfNodup := h.rmfNodup
        stRows := by
          simp only [SStats.addIndex, ManifestRow.sstats, sumRows_append, h.stRows]
          simp [sumRows]
        stIcb := by
          simp only [SStats.addIndex, ManifestRow.sstats, sumIcb_append, h.stIcb]
          simp [sumIcb]
        stIub := by
          simp only [SStats.addIndex, ManifestRow.sstats, sumIub_append, h.stIub]
          simp [sumIub]
        stRub := h.stRub
        added := by simp [h.added, wholeFile, m1]
        full := ⟨by simp, by simp [hc]⟩ }
    · simp only [AppendOp.rows, List.flatMap_append, h.mfRows hg.le, hiw, hc]
      simp [fileRows, m1, World.put]

/-- `_finish_record_writer`. -/
theorem finishRecord_post (h : OpPre E s w0 w op) {f : Field} {rw : RecWriter}
    (hg : op.rws.get? f.name = some rw) (hf : f ∈ s.recFields) :
    Post (op.finishRecord f rw w)
      (fun op' w' => OpPre E s w0 w' op' ∧ OpStep w w' op op' ∧ op'.rows w'.fs = op.rows w.fs ∧
        op'.iw = op.iw ∧ op'.cache = op.cache ∧ op'.rws = op.rws.erase f.name ∧
        op'.look w'.fs = op.look w.fs)
      (fun w' => Grows w0 w') := by
  unfold AppendOp.finishRecord
  obtain ⟨u, hp, hu0, hu, hnone, hlen, hrows, hb, -⟩ := h.rws _ _ hg
  have hgr : Grows w (w.put rw.path (.records rw.buf)) :=
    Grows.put (u := u) (by simp [hp, Path.uuid]) hu hnone (hk := by rw [hp]; rfl)
  have hlk : overlay (op.rws.erase f.name) (AMap.set w.fs rw.path (.records rw.buf)) =
      op.look w.fs := overlay_close hg hp
  refine Post.bind (Post.put (Q := fun _ w' =>
      w' = (w.put rw.path (.records rw.buf))) rfl) ?_
  rintro _ w' rfl
  have hl : LookLe (op.look w.fs) (overlay (op.rws.erase f.name)
      (AMap.set w.fs rw.path (.records rw.buf))) := by rw [hlk]; exact LookLe.refl _
  refine Post.pure ⟨?_, ⟨hgr, hl, rfl, rfl, fun _ => Or.inl⟩, ?_, rfl, rfl, rfl, hlk⟩
  · exact
    { grows := h.grows.trans hgr
      fresh := hgr.fresh h.fresh
      iw := by
        intro iw hiw
        obtain ⟨v, h1, h2, h3, h4⟩ := h.iw iw hiw
        refine ⟨v, h1, h2, h3, ?_⟩
        simp only [World.put]
        rw [AMap.get?_set_ne]
        · exact h4
        · rw [h1, hp]; exact fun hc => by cases hc
      iwRows := fun iw hiw r hr => (h.iwRows iw hiw r hr).mono hl
      rws := by
        intro g rw' hr
        simp only [AMap.get?_erase] at hr
        split at hr
        · cases hr
        · rename_i hne
          obtain ⟨v, h1, h2, h3, h4, h5⟩ := h.rws g rw' hr
          refine ⟨v, h1, h2, h3, ?_, h5⟩
          simp only [World.put]
          rw [AMap.get?_set_ne]
          · exact h4
          · rw [h1, hp]; intro hc; injection hc with hc _; exact hne hc
      cache := fun r hr => (h.cache r hr).mono hl
      mf := fun m hm => (h.mf m hm).mono hgr.le hl
      mfNew := h.mfNew
      mfSize := fun m hm => (h.mfSize m hm).mono hgr.le
      mfNodup := h.mfNodup
      rmf := by
        intro m hm
        simp only [List.mem_append, List.mem_singleton] at hm
        rcases hm with hm | rfl
        · exact (h.rmf m hm).mono hgr.le
        · exact ⟨f, hf, u, rw.buf, hp, rfl, records_set _, hrows.trans hlen.symm, hb⟩
      rmfNew := by
        intro m hm
        simp only [List.mem_append, List.mem_singleton] at hm
        rcases hm with hm | rfl
        · exact h.rmfNew m hm
        · exact ⟨_, u, hp, by assumption⟩
      rmfAll := by
        intro p rs h1 h2
        by_cases hpp : p = rw.path
        · exact ⟨_, List.mem_append_right _ (List.mem_singleton.mpr rfl), hpp.symm⟩
        · simp only [World.put, records_set_ne hpp] at h1
          obtain ⟨m, hm, hm'⟩ := h.rmfAll p rs h1 h2
          exact ⟨m, List.mem_append_left _ hm, hm'⟩
      rmfNodup := by
        simp only [List.map_append, List.map_cons, List.map_nil]
        rw [List.nodup_append]
        refine ⟨h.rmfNodup, by simp, ?_⟩
        intro a ha b hb' heq
        simp only [List.mem_singleton] at hb'
        subst hb' heq
        simp only [List.mem_map] at ha
        obtain ⟨m, hm, hm'⟩ := ha
        obtain ⟨_, _, _, rs, _, _, h3, _⟩ := h.rmf m hm
        rw [hm'] at h3
        simp [FS.records, hnone] at h3
      stRows := h.stRows
      stIcb := h.stIcb
      stIub := h.stIub
      stRub := by
        simp only [SStats.addRecord, sumRub_append, h.stRub]
        simp [sumRub]
      added := h.added }
  · simp only [AppendOp.rows, h.mfRows hgr.le]

/-- An address that resolves. -/
def AddrVal (L : Look) (v : Val) : Prop := ∃ p i rs, v = .addr p i ∧ L p = some rs ∧ i < rs.length

theorem AddrVal.mono {L L' : Look} {v : Val} (hl : LookLe L L') (h : AddrVal L v) : AddrVal L' v := by
  obtain ⟨p, i, rs, h1, h2, h3⟩ := h
  obtain ⟨m, hm⟩ := hl p rs h2
  exact ⟨p, i, rs ++ m, h1, hm, by simp; omega⟩

theorem derefVal_mono {L L' : Look} {v : Val} (hl : LookLe L L') (h : AddrVal L v) :
    derefVal L' v = derefVal L v := by
  obtain ⟨p, i, rs, rfl, h2, h3⟩ := h
  obtain ⟨m, hm⟩ := hl p rs h2
  simp [derefVal, h2, hm, List.getElem?_append_left h3]

/-- Addresses handed out resolve to the values written. -/
theorem addressColumn_deref {L : Look} {p : Path} {old bs : List (List Nat)}
    (h : L p = some (old ++ bs)) :
    (addressColumn p old.length bs.length).map (derefVal L) = bs.map recVal := by
  apply List.ext_getElem
  · simp [addressColumn]
  · intro i h1 h2
    have hi : i < bs.length := by simpa using h2
    simp [addressColumn, derefVal, h, Val.ofRecord, recVal, List.getElem?_append_right, hi]

theorem addressColumn_ok {L : Look} {p : Path} {old bs : List (List Nat)}
    (h : L p = some (old ++ bs)) : ∀ v ∈ addressColumn p old.length bs.length, AddrVal L v := by
  intro v hv
  simp only [addressColumn, List.mem_map, List.mem_range] at hv
  obtain ⟨i, hi, rfl⟩ := hv
  exact ⟨p, old.length + i, _, rfl, h, by simp; omega⟩

/-- Replacing the writer of a field by an extended one. -/
theorem OpPre.extend (h : OpPre E s w0 w op) {f : Field} (hf : f ∈ s.recFields) {rw rw' : RecWriter}
    {more : List (List Nat)} {u : Nat}
    (hold : (op.rws.get? f.name = some rw) ∨ (op.rws.get? f.name = none ∧ rw.buf = []))
    (hp : rw.path = .record f.name u) (hu0 : w0.next ≤ u) (hu : u < w.next)
    (hnone : AMap.get? w.fs rw.path = none) (hp' : rw'.path = rw.path)
    (hb : rw'.buf = rw.buf ++ more) (hlen : rw'.buf.length = rw'.nextRow)
    (hrows : rw'.rows = rw'.nextRow) (hbytes : BytesOf E rw'.buf rw'.bytes) :
    OpPre E s w0 w { op with rws := op.rws.set f.name rw' } ∧
      LookLe (op.look w.fs) (overlay (op.rws.set f.name rw') w.fs) := by
  have hl : LookLe (op.look w.fs) (overlay (op.rws.set f.name rw') w.fs) :=
    overlay_set hold hp hp' hb hnone
  refine ⟨?_, hl⟩
  exact
  { grows := h.grows
    fresh := h.fresh
    iw := h.iw
    iwRows := fun iw hiw r hr => (h.iwRows iw hiw r hr).mono hl
    rws := by
      intro g rw1 hr
      simp only [AMap.get?_set] at hr
      split at hr
      · rename_i he
        subst he
        cases hr
        exact ⟨u, hp'.trans hp, hu0, hu, by rw [hp']; exact hnone, hlen, hrows, hbytes, f, hf, rfl⟩
      · exact h.rws g rw1 hr
    cache := fun r hr => (h.cache r hr).mono hl
    mf := fun m hm => (h.mf m hm).mono (FSLe.refl _) hl
    mfNew := h.mfNew
    mfSize := h.mfSize
    mfNodup := h.mfNodup
    rmf := h.rmf
    rmfNew := h.rmfNew
    rmfAll := h.rmfAll
    rmfNodup := h.rmfNodup
    stRows := h.stRows
    stIcb := h.stIcb
    stIub := h.stIub
    stRub := h.stRub
    added := h.added }

/-- The counter moved on. -/
theorem OpPre.skip (h : OpPre E s w0 w op) : OpPre E s w0 { w with next := w.next + 1 } op :=
  { grows := h.grows.trans (Grows.fresh' w)
    fresh := (Grows.fresh' w).fresh h.fresh
    iw := fun iw hiw => by
      obtain ⟨u, h1, h2, h3, h4⟩ := h.iw iw hiw
      exact ⟨u, h1, h2, Nat.lt_succ_of_lt h3, h4⟩
    iwRows := h.iwRows
    rws := fun f rw hr => by
      obtain ⟨u, h1, h2, h3, h4⟩ := h.rws f rw hr
      exact ⟨u, h1, h2, Nat.lt_succ_of_lt h3, h4⟩
    cache := h.cache
    mf := h.mf
    mfNew := h.mfNew
    mfSize := h.mfSize
    mfNodup := h.mfNodup
    rmf := h.rmf
    rmfNew := h.rmfNew
    rmfAll := h.rmfAll
    rmfNodup := h.rmfNodup
    stRows := h.stRows
    stIcb := h.stIcb
    stIub := h.stIub
    stRub := h.stRub
    added := h.added }

theorem BytesOf.add {old : List (List Nat)} {n : Nat} (h : BytesOf E old n) (bs : List (List Nat)) :
    BytesOf E (old ++ bs) (n + E.columnBytes (bs.map recVal)) := by
  obtain ⟨cols, h1, h2⟩ := h
  exact ⟨cols ++ [bs], by simp [h1], by simp [h2]⟩

/-- `_write_record_column`. -/
theorem writeRecordCol_post (h : OpPre E s w0 w op) {f : Field} (hf : f ∈ s.recFields)
    (col : List Val) :
    Post (op.writeRecordCol E f col w)
      (fun x w' => OpPre E s w0 w' x.1 ∧ OpStep w w' op x.1 ∧ x.1.rows w'.fs = op.rows w.fs ∧
        x.1.iw = op.iw ∧ x.1.cache = op.cache ∧
        x.2.map (derefVal (x.1.look w'.fs)) = col ∧ ∀ v ∈ x.2, AddrVal (x.1.look w'.fs) v)
      (fun w' => Grows w0 w') := by
  unfold AppendOp.writeRecordCol
  refine Post.bind (Q := fun rw w1 => OpPre E s w0 w1 op ∧ Grows w w1 ∧ w1.fs = w.fs ∧
    ∃ u, rw.path = .record f.name u ∧ w0.next ≤ u ∧ u < w1.next ∧
      AMap.get? w1.fs rw.path = none ∧ rw.buf.length = rw.nextRow ∧ rw.rows = rw.nextRow ∧
      BytesOf E rw.buf rw.bytes ∧
      ((op.rws.get? f.name = some rw) ∨ (op.rws.get? f.name = none ∧ rw.buf = []))) ?_ ?_
  · unfold AppendOp.recWriter
    cases hg : op.rws.get? f.name with
    | some rw =>
      obtain ⟨u, h1, h2, h3, h4, h5, h6, h7, -⟩ := h.rws _ _ hg
      exact Post.pure ⟨h, Grows.refl w, rfl, u, h1, h2, h3, h4, h5, h6, h7, Or.inl rfl⟩
    | none =>
      refine Post.bind (Post.fresh (Q := fun u w' => u = w.next ∧ w' = { w with next := w.next + 1 })
        ⟨rfl, rfl⟩) ?_
      rintro u w' ⟨rfl, rfl⟩
      exact Post.pure ⟨h.skip, Grows.fresh' w, rfl, w.next, rfl, h.grows.next, Nat.lt_succ_self _,
        h.fresh _ w.next rfl (Nat.le_refl _), rfl, rfl, ⟨[], rfl, rfl⟩, Or.inr ⟨rfl, rfl⟩⟩
  · rintro rw w1 ⟨h1, hg1, hfs, u, hp, hu0, hu, hnone, hlen, hrows, hb, hold⟩
    refine Post.bind (Post.lift (Q := fun bs w' => colBytes col = .ok bs ∧ w' = w1) ?_ h1.grows) ?_
    · intro bs hbs; exact ⟨hbs, rfl⟩
    rintro bs w' ⟨hbs, rfl⟩
    have hcol := colBytes_ok hbs
    have hcl : col.length = bs.length := by rw [hcol]; simp
    have hcb : E.columnBytes col = E.columnBytes (bs.map recVal) := by rw [hcol]; rfl
    obtain ⟨h2, hl⟩ := h1.extend hf (rw' := { rw with
        buf := rw.buf ++ bs, nextRow := rw.nextRow + col.length, rows := rw.rows + col.length,
        bytes := rw.bytes + E.columnBytes col }) hold hp hu0 hu hnone rfl rfl
        (by simp [hlen, hcl]) (by simp [hrows]) (by simp only; rw [hcb]; exact hb.add bs)
    have hstep : OpStep w w' op { op with rws := op.rws.set f.name { rw with
        buf := rw.buf ++ bs, nextRow := rw.nextRow + col.length, rows := rw.rows + col.length,
        bytes := rw.bytes + E.columnBytes col } } :=
      ⟨hg1, by rw [← hfs]; exact hl, rfl, rfl, fun _ => Or.inl⟩
    have hget : overlay (op.rws.set f.name { rw with
        buf := rw.buf ++ bs, nextRow := rw.nextRow + col.length, rows := rw.rows + col.length,
        bytes := rw.bytes + E.columnBytes col }) w'.fs rw.path = some (rw.buf ++ bs) :=
      overlay_get (u := u) (rw := { rw with
        buf := rw.buf ++ bs, nextRow := rw.nextRow + col.length, rows := rw.rows + col.length,
        bytes := rw.bytes + E.columnBytes col }) hp
    have hd := addressColumn_deref hget
    have hok := addressColumn_ok hget
    have e1 : addressColumn rw.path rw.nextRow col.length =
        addressColumn rw.path rw.buf.length bs.length := by rw [hlen, hcl]
    dsimp only
    split
    · refine Post.bind (finishRecord_post h2 (AMap.get?_set_self _ _ _) hf) ?_
      rintro op' w2 ⟨a1, a2, a3, a4, a5, a6, a7⟩
      refine Post.pure ⟨a1, hstep.trans a2, ?_, a4, a5, ?_, ?_⟩
      · rw [a3]; simp only [AppendOp.rows, hfs]
      · simp only [a7]
        rw [e1]
        exact hd.trans hcol.symm
      · simp only [a7]
        rw [e1]
        exact hok
    · refine Post.pure ⟨h2, hstep, ?_, rfl, rfl, ?_, ?_⟩
      · simp only [AppendOp.rows, hfs]
      · show List.map (derefVal (overlay _ _)) _ = _
        rw [e1]
        exact hd.trans hcol.symm
      · rw [e1]
        exact hok

theorem deref_append (L : Look) (s : Schema) (a b : Row) :
    deref L s (a ++ b) = deref L s a ++ deref L s b := by simp [deref]

theorem select_append (r : Row) (a b : List String) :
    r.select (a ++ b) = r.select a ++ r.select b := by simp [Row.select]

theorem appendColumn_deref {L : Look} {n : String} (hn : s.recs.contains n = true)
    {done : List String} : ∀ {rows : List Row} {data : List Row} {addrs : List Val},
    rows.map (deref L s) = data.map (·.select done) → addrs.map (derefVal L) = data.map (·.val n) →
    (appendColumn n rows addrs).map (deref L s) = data.map (·.select (done ++ [n]))
  | [], [], [], _, _ => rfl
  | r :: rows, d :: data, a :: addrs, h1, h2 => by
    simp only [List.map_cons, List.cons.injEq] at h1 h2
    have ih := appendColumn_deref hn h1.2 h2.2
    rw [appendColumn_eq] at ih ⊢
    simp only [List.zipWith_cons_cons, List.map_cons, List.cons.injEq]
    refine ⟨?_, ih⟩
    rw [deref_append, h1.1, select_append]
    simp only [deref, List.map_cons, List.map_nil, hn, ite_true, h2.1, Row.select]
  | [], [], _ :: _, _, h => by simp at h
  | [], _ :: _, _, h, _ => by simp at h
  | _ :: _, [], _, h, _ => by simp at h
  | _ :: _, _ :: _, [], _, h => by simp at h

theorem appendColumn_addr {L : Look} {n : String} {rows : List Row} {addrs : List Val}
    (h : ∀ r ∈ rows, AddrOK L s r) (ha : ∀ v ∈ addrs, AddrVal L v) :
    ∀ r ∈ appendColumn n rows addrs, AddrOK L s r := by
  intro r hr
  rw [appendColumn_eq, List.mem_iff_getElem] at hr
  obtain ⟨i, hi, rfl⟩ := hr
  simp only [List.length_zipWith] at hi
  intro c hc v hv
  simp only [List.getElem_zipWith, List.mem_append, List.mem_singleton, Prod.mk.injEq] at hv
  rcases hv with hv | ⟨-, rfl⟩
  · exact h _ (List.getElem_mem (by omega)) c hc v hv
  · exact ha _ (List.getElem_mem (by omega))

theorem recFields_isRec {f : Field} (h : f ∈ s.recFields) : s.recs.contains f.name = true := by
  simp only [Schema.recFields, List.mem_filter, Schema.isRec] at h
  exact h.2

/-- Writing all record columns. -/
theorem writeRecords_post {data : List Row} : ∀ (fs : List Field) (_ : ∀ f ∈ fs, f ∈ s.recFields)
    {w : World} {op : AppendOp} (_ : OpPre E s w0 w op) {rows : List Row} {done : List String}
    (_ : ∀ r ∈ rows, AddrOK (op.look w.fs) s r)
    (_ : rows.map (deref (op.look w.fs) s) = data.map (·.select done)),
    Post (AppendOp.writeRecords E data fs op rows w)
      (fun x w' => OpPre E s w0 w' x.1 ∧ OpStep w w' op x.1 ∧ x.1.rows w'.fs = op.rows w.fs ∧
        x.1.iw = op.iw ∧ x.1.cache = op.cache ∧
        (∀ r ∈ x.2, AddrOK (x.1.look w'.fs) s r) ∧
        x.2.map (deref (x.1.look w'.fs) s) = data.map (·.select (done ++ fs.map (·.name))))
      (fun w' => Grows w0 w')
  | [], _, w, op, h, rows, done, ha, hd => by
    unfold AppendOp.writeRecords
    exact Post.pure ⟨h, OpStep.refl _ _, rfl, rfl, rfl, ha, by simpa using hd⟩
  | f :: fs, hfs, w, op, h, rows, done, ha, hd => by
    unfold AppendOp.writeRecords
    refine Post.bind (writeRecordCol_post h (hfs f (List.mem_cons_self ..)) _) ?_
    rintro ⟨op', addrs⟩ w' ⟨h1, h2, h3, h4, h5, h6, h7⟩
    have hr := recFields_isRec (hfs f (List.mem_cons_self ..))
    have ih := writeRecords_post fs (fun g hg => hfs g (List.mem_cons_of_mem _ hg)) h1
      (rows := appendColumn f.name rows addrs) (done := done ++ [f.name])
      (appendColumn_addr (fun r hr => (ha r hr).mono h2.look) h7)
      (appendColumn_deref hr (by rw [map_deref_mono h2.look ha]; exact hd) h6)
    refine ih.imp ?_ (fun _ h => h)
    rintro ⟨op2, out⟩ w2 ⟨a1, a2, a3, a4, a5, a6, a7⟩
    exact ⟨a1, h2.trans a2, a3.trans h3, a4.trans h4, a5.trans h5, a6, by simpa using a7⟩

/-- Changing the cache. -/
theorem OpPre.withCache (h : OpPre E s w0 w op) {c : Option (List Row)} {n : Nat}
    (hc : ∀ r ∈ c.getD [], AddrOK (op.look w.fs) s r) :
    OpPre E s w0 w { op with cache := c, fileBytes := n } :=
  { grows := h.grows, fresh := h.fresh, iw := h.iw, iwRows := h.iwRows, rws := h.rws
    cache := hc
    mf := h.mf, mfNew := h.mfNew, mfSize := h.mfSize, mfNodup := h.mfNodup, rmf := h.rmf, rmfNew := h.rmfNew, rmfAll := h.rmfAll, rmfNodup := h.rmfNodup
    stRows := h.stRows, stIcb := h.stIcb, stIub := h.stIub, stRub := h.stRub, added := h.added }

theorem cacheRows_eq (op : AppendOp) (rows : List Row) : op.cacheRows E s rows =
    let cache := op.cache.getD [] ++ rows
    let fileBytes := op.fileBytes + E.tableBytes rows
    if E.tableBytes cache > E.rgMax then do
      let op ← { op with fileBytes := fileBytes, cache := some cache }.writeTable E s cache
      let op := { op with cache := none }
      if fileBytes > E.fileMax then op.finishIndex E s else pure op
    else pure { op with fileBytes := fileBytes, cache := some cache } := by
  unfold AppendOp.cacheRows
  cases op.cache <;> simp

/-- The tail of `_write_arrow`. -/
theorem cacheRows_post (h : OpPre E s w0 w op) {rows : List Row} (hne : rows ≠ [])
    (hr : ∀ r ∈ rows, AddrOK (op.look w.fs) s r) :
    Post (op.cacheRows E s rows w)
      (fun op' w' => OpOK E s w0 w' op' ∧ OpStep w w' op op' ∧
        op'.rows w'.fs = op.rows w.fs ++ rows)
      (fun w' => Grows w0 w') := by
  rw [cacheRows_eq]
  generalize hc1 : op.cache.getD [] ++ rows = cache
  replace hc1 := hc1.symm
  have hcne : cache ≠ [] := by rw [hc1]; simp [hne]
  have hok : OpOK E s w0 w { op with
      cache := some cache, fileBytes := op.fileBytes + E.tableBytes rows } := by
    refine ⟨h.withCache ?_, fun iw _ => by simp [hcne], fun c hc => by cases hc; exact hcne⟩
    simp only [Option.getD_some, hc1, List.mem_append]
    rintro r (hr' | hr')
    · exact h.cache r hr'
    · exact hr r hr'
  have hrows : { op with
      cache := some cache, fileBytes := op.fileBytes + E.tableBytes rows }.rows w.fs = op.rows w.fs ++ rows := by
    simp [AppendOp.rows, hc1]
  dsimp only
  split
  · refine Post.bind (writeTable_post hok.toOpPre rfl) ?_
    rintro op' w' ⟨rfl, -, h2, h3, h4, h5⟩
    split
    · refine (finishIndex_post ⟨h2, h5 hcne⟩ rfl).imp ?_ (fun _ h => h)
      rintro op2 w2 ⟨a1, a2, a3, -⟩
      exact ⟨a1, OpStep.trans ⟨h3.grows, h3.look, h3.addr, h3.carried, h3.files⟩ a2, by rw [a3, h4, hrows]⟩
    · exact Post.pure ⟨⟨h2, h5 hcne⟩, ⟨h3.grows, h3.look, h3.addr, h3.carried, h3.files⟩, by rw [h4, hrows]⟩
  · exact Post.pure ⟨hok, ⟨Grows.refl w, LookLe.refl _, rfl, rfl, fun _ => Or.inl⟩, hrows⟩

/-- Index columns hold no addresses. -/
theorem select_idx_addr {L : Look} {s : Schema} (r : Row) : AddrOK L s (r.select s.idxNames) := by
  intro c hc v hv
  simp only [Row.select, List.mem_map, Schema.idxNames, Schema.idxFields, List.mem_filter,
    Schema.isRec] at hv
  obtain ⟨c', ⟨f, ⟨-, h1⟩, rfl⟩, h2⟩ := hv
  simp only [Prod.mk.injEq] at h2
  rw [h2.1] at h1
  simp [hc] at h1

theorem select_idx_deref {L : Look} {s : Schema} (r : Row) :
    deref L s (r.select s.idxNames) = r.select s.idxNames := by
  unfold deref Row.select
  rw [List.map_map]
  apply List.map_congr_left
  intro c hc
  simp only [Schema.idxNames, Schema.idxFields, List.mem_map, List.mem_filter, Schema.isRec] at hc
  obtain ⟨f, ⟨-, h1⟩, rfl⟩ := hc
  have : s.recs.contains f.name = false := by simpa using h1
  simp only [Function.comp_apply, this, Bool.false_eq_true, ite_false]

/-- Columns of a written row. -/
def Schema.writeNames (s : Schema) : List String := s.idxNames ++ s.recNames

/-- `_write_arrow`: the rows stored stand for the rows given. -/
theorem write_post (h : OpOK E s w0 w op) {data : List Row}
    (haddr : op.addrInput = true →
      ∀ r ∈ data, AddrOK (op.look w.fs) s (r.select s.writeNames)) :
    Post (op.write E s data w)
      (fun op' w' => OpOK E s w0 w' op' ∧ OpStep w w' op op' ∧
        ∃ P, op'.rows w'.fs = op.rows w.fs ++ P ∧
          (op.addrInput = true → P = data.map (·.select s.writeNames)) ∧
          (op.addrInput = false →
            P.map (deref (op'.look w'.fs) s) = data.map (·.select s.writeNames)))
      (fun w' => Grows w0 w') := by
  unfold AppendOp.write
  split
  · rename_i hd
    subst hd
    exact Post.pure ⟨h, OpStep.refl _ _, [], by simp, by simp, by simp⟩
  · rename_i hdne
    refine Post.bind (maybeCreate_post h.toOpPre) ?_
    rintro op1 w1 ⟨h1, h2, h3, h4, h5, h6⟩
    split
    · dsimp only
      cases hai : op1.addrInput with
      | true =>
        simp only [ite_true]
        have hai' : op.addrInput = true := h2.addr ▸ hai
        refine (cacheRows_post h1 (rows := data.map (·.select s.writeNames)) (by simpa using hdne) ?_).imp ?_ (fun _ h => h)
        · intro r hr
          obtain ⟨d, hd, rfl⟩ := List.mem_map.mp hr
          exact (haddr hai' d hd).mono h2.look
        · rintro op2 w2 ⟨a1, a2, a3⟩
          exact ⟨a1, h2.trans a2, _, by rw [a3, h3], fun _ => rfl, by simp [hai']⟩
      | false =>
        have hai' : op.addrInput = false := h2.addr ▸ hai
        refine Post.bind (writeRecords_post s.recFields (fun f hf => hf) h1
          (rows := data.map (·.select s.idxNames)) (done := s.idxNames) ?_ ?_) ?_
        · intro r hr
          obtain ⟨d, -, rfl⟩ := List.mem_map.mp hr
          exact select_idx_addr d
        · rw [List.map_map]
          exact List.map_congr_left fun d _ => select_idx_deref d
        rintro ⟨op2, rows⟩ w2 ⟨a1, a2, a3, a4, a5, a6, a7⟩
        have hne : rows ≠ [] := by
          intro h0
          rw [h0] at a7
          exact hdne (List.map_eq_nil_iff.mp a7.symm)
        refine (cacheRows_post a1 hne a6).imp ?_ (fun _ h => h)
        rintro op3 w3 ⟨b1, b2, b3⟩
        refine ⟨b1, (h2.trans a2).trans b2, rows, by rw [b3, a3, h3], by simp [hai'], fun _ => ?_⟩
        rw [map_deref_mono b2.look a6]
        exact a7
    · exact Post.raise h1.grows

/-- Several writes of logical tables. -/
theorem writeAll_post : ∀ (tables : List (List Row)) {w : World} {op : AppendOp}
    (_ : OpOK E s w0 w op) (_ : op.addrInput = false),
    Post (AppendOp.writeAll E s op tables w)
      (fun op' w' => OpOK E s w0 w' op' ∧ OpStep w w' op op' ∧
        ∃ P, op'.rows w'.fs = op.rows w.fs ++ P ∧
          P.map (deref (op'.look w'.fs) s) = tables.flatten.map (·.select s.writeNames))
      (fun w' => Grows w0 w')
  | [], w, op, h, _ => by
    unfold AppendOp.writeAll
    exact Post.pure ⟨h, OpStep.refl _ _, [], by simp, by simp⟩
  | t :: ts, w, op, h, ha => by
    unfold AppendOp.writeAll
    refine Post.bind (write_post h (by simp [ha])) ?_
    rintro op1 w1 ⟨h1, h2, P, h3, -, h4⟩
    refine (writeAll_post ts h1 (h2.addr.trans ha)).imp ?_ (fun _ h => h)
    rintro op2 w2 ⟨a1, a2, P', a3, a4⟩
    refine ⟨a1, h2.trans a2, P ++ P', by rw [a3, h3, List.append_assoc], ?_⟩
    have hP : ∀ r ∈ P, AddrOK (op1.look w1.fs) s r :=
      fun r hr => h1.rowsAddr r (by rw [h3]; exact List.mem_append_right _ hr)
    rw [List.map_append, map_deref_mono a2.look hP, h4 ha, a4]
    simp

/-- Closing the record writers. -/
theorem finishRecords_post : ∀ (fs : List Field) (_ : ∀ f ∈ fs, f ∈ s.recFields)
    {w : World} {op : AppendOp} (_ : OpOK E s w0 w op)
    (_ : ∀ g rw, op.rws.get? g = some rw → ∃ f ∈ fs, f.name = g),
    Post (AppendOp.finishRecords fs op w)
      (fun op' w' => OpOK E s w0 w' op' ∧ OpStep w w' op op' ∧ op'.rows w'.fs = op.rows w.fs ∧
        ∀ g, op'.rws.get? g = none)
      (fun w' => Grows w0 w')
  | [], _, w, op, h, hall => by
    unfold AppendOp.finishRecords
    refine Post.pure ⟨h, OpStep.refl _ _, rfl, fun g => ?_⟩
    cases hg : op.rws.get? g with
    | none => rfl
    | some rw => obtain ⟨f, hf, -⟩ := hall g rw hg; simp at hf
  | f :: fs, hfs, w, op, h, hall => by
    unfold AppendOp.finishRecords
    cases hg : op.rws.get? f.name with
    | none =>
      refine finishRecords_post fs (fun g hg => hfs g (List.mem_cons_of_mem _ hg)) h ?_
      intro g rw hgr
      obtain ⟨f', hf', he⟩ := hall g rw hgr
      rcases List.mem_cons.mp hf' with rfl | hf'
      · rw [he] at hg; rw [hg] at hgr; cases hgr
      · exact ⟨f', hf', he⟩
    | some rw =>
      refine Post.bind (finishRecord_post h.toOpPre hg (hfs f (List.mem_cons_self ..))) ?_
      rintro op1 w1 ⟨h1, h2, h3, h4, h5, h6, -⟩
      refine (finishRecords_post fs (fun g hg => hfs g (List.mem_cons_of_mem _ hg)) (h1.ok h.full h4 h5) ?_).imp ?_
        (fun _ h => h)
      · intro g rw' hgr
        rw [h6, AMap.get?_erase] at hgr
        split at hgr
        · cases hgr
        · rename_i hne
          obtain ⟨f', hf', he⟩ := hall g rw' hgr
          rcases List.mem_cons.mp hf' with rfl | hf'
          · exact absurd he.symm hne
          · exact ⟨f', hf', he⟩
      · rintro op2 w2 ⟨a1, a2, a3, a4⟩
        exact ⟨a1, h2.trans a2, a3.trans h3, a4⟩

/-- Flushing the cache. -/
theorem flush_post (h : OpOK E s w0 w op) :
    Post (op.flush E s w)
      (fun op' w' => OpOK E s w0 w' { op' with cache := none } ∧
        OpStep w w' op { op' with cache := none } ∧
        { op' with cache := none }.rows w'.fs = op.rows w.fs ∧ op'.rws = op.rws)
      (fun w' => Grows w0 w') := by
  unfold AppendOp.flush
  cases hc : op.cache with
  | none =>
    have e : { op with cache := none } = op := by cases op; simp_all
    refine Post.pure ⟨?_, ?_, ?_, rfl⟩
    · rw [e]; exact h
    · rw [e]; exact OpStep.refl _ _
    · rw [e]
  | some c =>
    refine Post.bind (maybeCreate_post h.toOpPre) ?_
    rintro op1 w1 ⟨h1, h2, h3, h4, h5, h6⟩
    have hw := writeTable_post h1 (h5.trans hc)
    unfold AppendOp.writeTable at hw ⊢
    cases hiw : op1.iw with
    | none => simp [hiw] at h4
    | some iw =>
      rw [hiw] at hw
      dsimp only at hw ⊢
      split
      · rename_i hall
        simp only [hall, ite_true] at hw
        obtain ⟨-, -, b1, b2, b3, b4⟩ := hw
        exact Post.pure ⟨⟨b1, b4 (h.full.2 c hc)⟩, h2.trans b2, b3.trans h3, h6⟩
      · exact Post.raise h1.grows

/-- The cache plays no role in `_finish_index_writer`. -/
theorem finishIndex_cache (op : AppendOp) (w : World) : op.finishIndex E s w =
    match ({ op with cache := none } : AppendOp).finishIndex E s w with
    | (.ok op', w') => (.ok { op' with cache := op.cache }, w')
    | (.error e, w') => (.error e, w') := by
  unfold AppendOp.finishIndex
  cases hiw : op.iw with
  | none =>
    cases op
    simp only at hiw
    subst hiw
    rfl
  | some iw =>
    simp only [Bind.bind, M.andThen, putFile, M.modify, M.lift]
    cases manifestRow E s iw.path iw.groups <;> rfl

theorem finishIndex_post' (h : OpOK E s w0 w { op with cache := none }) :
    Post (op.finishIndex E s w)
      (fun op' w' => OpOK E s w0 w' { op' with cache := none } ∧
        OpStep w w' { op with cache := none } { op' with cache := none } ∧
        { op' with cache := none }.rows w'.fs = { op with cache := none }.rows w.fs ∧
        op'.iw = none ∧ op'.rws = op.rws)
      (fun w' => Grows w0 w') := by
  rw [finishIndex_cache]
  have hp := finishIndex_post h rfl
  unfold Post at hp ⊢
  split at hp
  · rename_i op' w' he
    rw [he]
    obtain ⟨h1, h2, h3, h4, h5, h6⟩ := hp
    have e : { op' with cache := none } = op' := by cases op'; simp_all
    simp only
    rw [e]
    exact ⟨h1, h2, h3, h4, h6⟩
  · rename_i er w' he
    rw [he]
    exact hp

/-- What a finished append operation leaves behind. -/
structure Finished (E : Env) (s : Schema) (w0 w' : World) (rows : List Row)
    (carried : List ManifestRow) (mf : List ManifestRow) (rmf : List RecManifestRow)
    (p : Option Patch) : Prop where
  ents : ∀ m ∈ mf, EntryOK w'.fs w'.fs.records s m
  entsNew : ∀ m ∈ mf, ∃ u, m.file = .index u ∧ w0.next ≤ u
  sizes : ∀ m ∈ mf, SizeOK E s w'.fs m
  entsNodup : (mf.map (·.file)).Nodup
  rowsEq : mf.flatMap (fun m => fileRows w'.fs m.file) = rows
  recEnts : ∀ m ∈ rmf, RecEntryOK E w'.fs s m
  recNew : ∀ m ∈ rmf, ∃ f u, m.file = .record f u ∧ w0.next ≤ u
  recAll : ∀ p rs, w'.fs.records p = some rs → w0.fs.records p = none → ∃ m ∈ rmf, m.file = p
  recNodup : (rmf.map (·.file)).Nodup
  none_iff : p = none ↔ sumRows mf = 0
  del : ∀ q, p = some q → q.delIdx = []
  stats : ∀ q, p = some q →
    q.stats = { rows := sumRows mf, icb := sumIcb mf, iub := sumIub mf, rub := sumRub rmf }
  log : ∀ q, p = some q → q.log = some { added := mf.map wholeFile }
  idx : ∀ q, p = some q → ∃ u, w0.next ≤ u ∧ q.addIdx = [.indexManifest u] ∧
    w'.fs.imanifest (.indexManifest u) = some (carried ++ mf)
  recs : ∀ q, p = some q → (rmf = [] ∧ q.addRec = []) ∨
    ∃ v, w0.next ≤ v ∧ q.addRec = [.recordManifest v] ∧
      w'.fs.rmanifest (.recordManifest v) = some rmf

/-- Writing the index manifest. -/
theorem finishIndexManifest_post {w : World} (carried own : List ManifestRow) (hf : w.Fresh)
    {F : World → Prop} :
    Post (finishIndexManifest carried own w)
      (fun im w' => Grows w w' ∧ (∀ p, w'.fs.records p = w.fs.records p) ∧
        ((carried ++ own = [] ∧ im = none) ∨
          (im = some (.indexManifest w.next) ∧
            w'.fs.imanifest (.indexManifest w.next) = some (carried ++ own)))) F := by
  unfold finishIndexManifest
  split
  · rename_i h; exact Post.pure ⟨Grows.refl w, fun _ => rfl, Or.inl ⟨h, rfl⟩⟩
  · refine Post.bind (Post.fresh (Q := fun u w' => u = w.next ∧ w' = { w with next := w.next + 1 })
      ⟨rfl, rfl⟩) ?_
    rintro u w' ⟨rfl, rfl⟩
    have hn : AMap.get? w.fs (.indexManifest w.next) = none := hf _ w.next rfl (Nat.le_refl _)
    refine Post.bind (Post.put (Q := fun _ w' => w' =
      ({ w with next := w.next + 1 } : World).put (.indexManifest w.next) (.imanifest (carried ++ own)))
      rfl) ?_
    rintro _ w' rfl
    refine Post.pure ⟨(Grows.fresh' w).trans (Grows.put (u := w.next) rfl (Nat.lt_succ_self _) hn),
      ?_, Or.inr ⟨rfl, imanifest_set _⟩⟩
    intro p
    by_cases hp : p = .indexManifest w.next
    · subst hp
      simp [FS.records, hn, World.put]
    · exact records_set_ne hp

/-- Writing the record manifest. -/
theorem finishRecordManifest_post {w : World} (rows : List RecManifestRow) (hf : w.Fresh)
    {F : World → Prop} :
    Post (finishRecordManifest rows w)
      (fun rm w' => Grows w w' ∧ (∀ p, w'.fs.records p = w.fs.records p) ∧
        ((rows = [] ∧ rm = none) ∨
          (rm = some (.recordManifest w.next) ∧
            w'.fs.rmanifest (.recordManifest w.next) = some rows))) F := by
  unfold finishRecordManifest
  split
  · rename_i h; exact Post.pure ⟨Grows.refl w, fun _ => rfl, Or.inl ⟨h, rfl⟩⟩
  · refine Post.bind (Post.fresh (Q := fun u w' => u = w.next ∧ w' = { w with next := w.next + 1 })
      ⟨rfl, rfl⟩) ?_
    rintro u w' ⟨rfl, rfl⟩
    have hn : AMap.get? w.fs (.recordManifest w.next) = none := hf _ w.next rfl (Nat.le_refl _)
    refine Post.bind (Post.put (Q := fun _ w' => w' =
      ({ w with next := w.next + 1 } : World).put (.recordManifest w.next) (.rmanifest rows))
      rfl) ?_
    rintro _ w' rfl
    refine Post.pure ⟨(Grows.fresh' w).trans (Grows.put (u := w.next) rfl (Nat.lt_succ_self _) hn),
      ?_, Or.inr ⟨rfl, rmanifest_set _⟩⟩
    intro p
    by_cases hp : p = .recordManifest w.next
    · subst hp
      simp [FS.records, hn, World.put]
    · exact records_set_ne hp

/-- `finish`.  The files it lists are those finished before or new. -/
theorem finish_files (h : OpOK E s w0 w op) :
    Post (op.finish E s w)
      (fun p w' => Grows w0 w' ∧ Grows w w' ∧ w'.Fresh ∧ LookLe (op.look w.fs) w'.fs.records ∧
        ∃ mf rmf, Finished E s w0 w' (op.rows w.fs) op.carried mf rmf p ∧
          ∀ m ∈ mf, m ∈ op.mf ∨ w.fs.parquet m.file = none)
      (fun w' => Grows w0 w') := by
  unfold AppendOp.finish
  refine Post.bind (finishRecords_post s.recFields (fun f hf => hf) h ?_) ?_
  · intro g rw hg
    obtain ⟨_, _, _, _, _, _, _, _, hfl⟩ := h.rws g rw hg
    exact hfl
  rintro op1 w1 ⟨h1, st1, r1, n1⟩
  refine Post.bind (flush_post h1) ?_
  rintro op2 w2 ⟨h2, st2, r2, n2⟩
  refine Post.bind (finishIndex_post' h2) ?_
  rintro op3 w3 ⟨h3, st3, r3, i3, n3⟩
  have hst := (st1.trans st2).trans st3
  have hl3 : op3.rws = op1.rws := n3.trans n2
  have hlk : ({ op3 with cache := none } : AppendOp).look w3.fs = w3.fs.records := by
    refine overlay_records ?_
    intro g
    simp only [hl3, n1]
  have hr3 : op3.mf.flatMap (fun m => fileRows w3.fs m.file) = op.rows w.fs := by
    rw [← r1, ← r2, ← r3]
    simp [AppendOp.rows, i3]
  refine Post.bind (finishIndexManifest_post op3.carried op3.mf h3.fresh) ?_
  rintro im w4 ⟨g4, rec4, im4⟩
  refine Post.bind (finishRecordManifest_post op3.rmf (g4.fresh h3.fresh)) ?_
  rintro rm w5 ⟨g5, rec5, rm5⟩
  have g35 := g4.trans g5
  have hcar : op3.carried = op.carried := hst.carried
  have hgr : Grows w w5 := hst.grows.trans g35
  have hlook : LookLe (op.look w.fs) w5.fs.records := by
    have := hst.look
    rw [hlk] at this
    exact this.trans g35.le.lookLe
  have base : ∀ p : Option Patch,
      (p = none ↔ sumRows op3.mf = 0) →
      (∀ q, p = some q → sumRows op3.mf ≠ 0 ∧ q = {
        addIdx := im.toList, addRec := rm.toList, stats := op3.stats,
        log := if op3.added = [] then none else some { added := op3.added } }) →
      Finished E s w0 w5 (op.rows w.fs) op.carried op3.mf op3.rmf p := by
    intro p hnone hsome
    have hne : ∀ q, p = some q → op3.mf ≠ [] := by
      intro q hq hc
      have := (hsome q hq).1
      rw [hc] at this
      exact this rfl
    exact
    { ents := by
        intro m hm
        have := h3.mf m hm
        rw [hlk] at this
        exact this.mono g35.le g35.le.lookLe
      entsNew := h3.mfNew
      sizes := fun m hm => (h3.mfSize m hm).mono g35.le
      entsNodup := h3.mfNodup
      rowsEq := by rw [← hr3]; exact h3.mfRows g35.le
      recEnts := fun m hm => (h3.rmf m hm).mono g35.le
      recNew := h3.rmfNew
      recAll := by
        intro q rs hq hq'
        rw [rec5, rec4] at hq
        exact h3.rmfAll q rs hq hq'
      recNodup := h3.rmfNodup
      none_iff := hnone
      del := by
        intro q hq
        rw [(hsome q hq).2]
      stats := by
        intro q hq
        rw [(hsome q hq).2]
        have a := h3.stRows
        have b := h3.stIcb
        have c := h3.stIub
        have d := h3.stRub
        simp only at a b c d
        simp only [← a, ← b, ← c, ← d]
      log := by
        intro q hq
        have hadd : op3.added = op3.mf.map wholeFile := h3.added
        rw [(hsome q hq).2]
        simp only
        rw [if_neg (by rw [hadd]; simpa using hne q hq), hadd]
      idx := by
        intro q hq
        rcases im4 with ⟨h0, -⟩ | ⟨him, hmf⟩
        · exact absurd (List.append_eq_nil_iff.mp h0).2 (hne q hq)
        · refine ⟨w3.next, h3.grows.next, ?_, ?_⟩
          · rw [(hsome q hq).2, him]; rfl
          · rw [← hcar]; exact g5.le.imanifest hmf
      recs := by
        intro q hq
        rcases rm5 with ⟨h0, hr⟩ | ⟨hr, hmf⟩
        · exact Or.inl ⟨h0, by rw [(hsome q hq).2, hr]; rfl⟩
        · exact Or.inr ⟨w4.next, Nat.le_trans h3.grows.next g4.next,
            by rw [(hsome q hq).2, hr]; rfl, hmf⟩ }
  have hw0 := h.grows.trans hgr
  have hsr : op3.stats.rows = sumRows op3.mf := h3.stRows
  split
  · rename_i h0
    refine Post.pure ⟨hw0, hgr, g35.fresh h3.fresh, hlook, op3.mf, op3.rmf, ?_, hst.files⟩
    exact base none (by simp [← hsr, h0]) (by simp)
  · rename_i h0
    refine Post.pure ⟨hw0, hgr, g35.fresh h3.fresh, hlook, op3.mf, op3.rmf, ?_, hst.files⟩
    refine base _ (by simp [← hsr, h0]) ?_
    intro q hq
    simp only [Option.some.injEq] at hq
    exact ⟨by rw [← hsr]; exact h0, hq.symm⟩

theorem finish_post (h : OpOK E s w0 w op) :
    Post (op.finish E s w)
      (fun p w' => Grows w0 w' ∧ Grows w w' ∧ w'.Fresh ∧ LookLe (op.look w.fs) w'.fs.records ∧
        ∃ mf rmf, Finished E s w0 w' (op.rows w.fs) op.carried mf rmf p)
      (fun w' => Grows w0 w') := by
  refine (finish_files h).imp ?_ (fun _ h => h)
  rintro p w' ⟨a1, a2, a3, a4, mf, rmf, a5, -⟩
  exact ⟨a1, a2, a3, a4, mf, rmf, a5⟩

/-- `append` and `append_from`. -/
theorem appendBody_post {w : World} (hf : w.Fresh) (tables : List (List Row)) :
    Post (appendBody E s tables w)
      (fun p w' => Grows w w' ∧ w'.Fresh ∧ ∃ P mf rmf, Finished E s w w' P [] mf rmf p ∧
        P.map (deref w'.fs.records s) = tables.flatten.map (·.select s.writeNames))
      (fun w' => Grows w w') := by
  unfold appendBody
  refine Post.bind (writeAll_post tables (OpOK.init false hf) rfl) ?_
  rintro op w1 ⟨h1, h2, P, h3, h4⟩
  refine (finish_post h1).imp ?_ (fun _ h => h)
  rintro p w2 ⟨a1, a2, a3, a4, mf, rmf, a5⟩
  have hrows : op.rows w1.fs = P := by rw [h3]; rfl
  refine ⟨a1, a3, P, mf, rmf, ?_, ?_⟩
  · rw [← hrows]
    have : op.carried = [] := h2.carried
    rw [← this]
    exact a5
  · rw [← h4]
    refine map_deref_mono a4 ?_
    rw [← hrows]
    exact h1.rowsAddr

end Space
