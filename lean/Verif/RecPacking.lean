import Verif.Packing
import Verif.Orphans

/-!
# How an append divides record columns into files
-/

set_option autoImplicit false

namespace Space

/-- Size of columns of records. -/
def recSize (E : Env) (cols : List (List (List Nat))) : Nat := (cols.map fun c => E.columnBytes (c.map recVal)).sum

/-- A division of the columns of a record field into files, as the size limit says: a file is closed with the column
that makes it too large; only the last may be smaller. -/
def RecPacked (E : Env) (files : List (List (List (List Nat)))) : Prop :=
  ∃ full rest, files = full ++ rest ∧ (∀ f ∈ full, CutAt (recSize E) E.recMax f) ∧
    (rest = [] ∨ ∃ f, f ≠ [] ∧ rest = [f] ∧ Under (recSize E) E.recMax f)

/-- A record file of a field. -/
def Path.ofField (c : String) : Path → Bool
  | .record f _ => f == c
  | _ => false

/-- The record files of a field that manifest rows name. -/
def recFilesOf (c : String) (ms : List RecManifestRow) : List Path := (ms.map (·.file)).filter (·.ofField c)

/-- The state of the record files of a field: finished files and columns of the open file. -/
structure RecFilling (E : Env) (fs : FS) (op : AppendOp) (c : String) (full : List (List (List (List Nat))))
    (cols : List (List (List Nat))) : Prop where
  files : (recFilesOf c op.rmf).map fs.records = full.map (fun f => some f.flatten)
  closed : op.rws.get? c = none → cols = []
  opened : ∀ rw, op.rws.get? c = some rw → rw.buf = cols.flatten ∧ rw.bytes = recSize E cols ∧ cols ≠ []
  full : ∀ f ∈ full, CutAt (recSize E) E.recMax f
  file : Under (recSize E) E.recMax cols

section
variable {E : Env} {s : Schema} {w0 w : World} {op : AppendOp} {c : String} {full : List (List (List (List Nat)))}
  {cols : List (List (List Nat))}

theorem RecFilling.mono {fs fs' : FS} (h : RecFilling E fs op c full cols) (hle : FSLe fs fs') :
    RecFilling E fs' op c full cols := by
  refine { h with files := ?_ }
  rw [← h.files]
  refine List.map_congr_left fun q hq => ?_
  have : fs.records q ∈ full.map (fun f => some f.flatten) := by
    rw [← h.files]; exact List.mem_map_of_mem hq
  obtain ⟨f, -, hf⟩ := List.mem_map.mp this
  rw [← hf]
  exact hle.records hf.symm

theorem RecFilling.same {fs : FS} {op' : AppendOp} (h : RecFilling E fs op c full cols)
    (h1 : recFilesOf c op'.rmf = recFilesOf c op.rmf) (h2 : op'.rws.get? c = op.rws.get? c) :
    RecFilling E fs op' c full cols :=
  ⟨by rw [h1]; exact h.files, by rw [h2]; exact h.closed, by rw [h2]; exact h.opened, h.full, h.file⟩

theorem recSize_snoc (E : Env) (cols : List (List (List Nat))) (b : List (List Nat)) :
    recSize E (cols ++ [b]) = recSize E cols + E.columnBytes (b.map recVal) := by
  simp [recSize]

/-- What `_write_record_column` does to the record files. -/
theorem writeRecordCol_exact (hrw : ∀ rw, op.rws.get? c = some rw → ∃ u, rw.path = .record c u)
    (f : Field) (hf : f.name = c) (col : List Val) :
    Post (op.writeRecordCol E f col w)
      (fun x w' => ∃ rw bs u, (op.rws.get? c = some rw ∨ (op.rws.get? c = none ∧ rw.buf = [] ∧ rw.bytes = 0)) ∧
        rw.path = .record c u ∧ bs.map recVal = col ∧
        if rw.bytes + E.columnBytes col > E.recMax then
          (∃ m : RecManifestRow, m.file = rw.path ∧ x.1.rmf = op.rmf ++ [m]) ∧
            w'.fs.records rw.path = some (rw.buf ++ bs) ∧ x.1.rws.get? c = none
        else x.1.rmf = op.rmf ∧ ∃ rw', x.1.rws.get? c = some rw' ∧ rw'.buf = rw.buf ++ bs ∧
          rw'.bytes = rw.bytes + E.columnBytes col) (fun _ => True) := by
  subst hf
  unfold AppendOp.writeRecordCol
  refine Post.bind (Q := fun rw _ => (op.rws.get? f.name = some rw ∨ (op.rws.get? f.name = none ∧ rw.buf = [] ∧ rw.bytes = 0)) ∧
    ∃ u, rw.path = .record f.name u) ?_ ?_
  · unfold AppendOp.recWriter
    cases hg : op.rws.get? f.name with
    | some rw => exact Post.pure ⟨Or.inl rfl, hrw rw hg⟩
    | none => exact Post.bind (Q := fun _ _ => True) (Post.fresh trivial) fun u _ _ => Post.pure ⟨Or.inr ⟨rfl, rfl, rfl⟩, u, rfl⟩
  · rintro rw w1 ⟨h1, u, h2⟩
    refine Post.bind (Q := fun bs _ => bs.map recVal = col) (Post.lift (fun bs hb => (colBytes_ok hb).symm) trivial) ?_
    intro bs w2 hb
    simp only
    split
    · rename_i hbig
      unfold AppendOp.finishRecord
      refine Post.bind (Q := fun x w' => (∃ m : RecManifestRow, m.file = rw.path ∧ x.rmf = op.rmf ++ [m]) ∧
            w'.fs.records rw.path = some (rw.buf ++ bs) ∧ x.rws.get? f.name = none) ?_ ?_
      · refine Post.bind (Q := fun _ w' => w' = w2.put rw.path (.records (rw.buf ++ bs))) (Post.put rfl) ?_
        rintro _ w3 rfl
        refine Post.pure ⟨⟨_, ?_, rfl⟩, ?_, ?_⟩
        · rfl
        · simp [World.put, FS.records, AMap.get?_set_self]
        · simp
      · intro x w3 hx
        exact Post.pure ⟨rw, bs, u, h1, h2, hb, by rw [if_pos hbig]; exact hx⟩
    · rename_i hsmall
      exact Post.pure ⟨rw, bs, u, h1, h2, hb, by
        rw [if_neg hsmall]
        exact ⟨rfl, _, AMap.get?_set_self .., rfl, rfl⟩⟩

/-- Other fields are not touched. -/
theorem writeRecordCol_other (f : Field) (hf : f.name ≠ c) 
    (hrw : ∀ rw, op.rws.get? f.name = some rw → ∃ u, rw.path = .record f.name u) (col : List Val) :
    Post (op.writeRecordCol E f col w)
      (fun x _ => recFilesOf c x.1.rmf = recFilesOf c op.rmf ∧ x.1.rws.get? c = op.rws.get? c) (fun _ => True) := by
  have hc : c ≠ f.name := fun h => hf h.symm
  unfold AppendOp.writeRecordCol
  refine Post.bind (Q := fun rw _ => ∃ u, rw.path = .record f.name u) ?_ ?_
  · unfold AppendOp.recWriter
    cases hg : op.rws.get? f.name with
    | some rw => exact Post.pure (hrw rw hg)
    | none => exact Post.bind (Q := fun _ _ => True) (Post.fresh trivial) fun u _ _ => Post.pure ⟨u, rfl⟩
  · rintro rw w1 ⟨u, h2⟩
    refine Post.bind (Q := fun _ _ => True) (Post.lift (fun _ _ => trivial) trivial) ?_
    intro bs w2 _
    simp only
    split
    · unfold AppendOp.finishRecord
      refine Post.bind (Q := fun x w' => recFilesOf c x.rmf = recFilesOf c op.rmf ∧ x.rws.get? c = op.rws.get? c) ?_
        (fun x w3 hx => Post.pure hx)
      refine Post.bind (Q := fun _ _ => True) (Post.put trivial) fun _ w3 _ => Post.pure ⟨?_, ?_⟩
      · simp [recFilesOf, h2, Path.ofField, hf]
      · simp only [AMap.get?_erase, hc, ite_false]
        exact AMap.get?_set_ne _ _ hc
    · exact Post.pure ⟨rfl, AMap.get?_set_ne _ _ hc⟩

theorem OpPre.rwPath (h : OpPre E s w0 w op) (g : String) (rw : RecWriter) (hg : op.rws.get? g = some rw) :
    ∃ u, rw.path = .record g u := by
  obtain ⟨u, hu, -⟩ := h.rws g rw hg
  exact ⟨u, hu⟩

theorem writeRecordCol_rec (h : OpPre E s w0 w op) (hr : RecFilling E w.fs op c full cols) {f : Field}
    (hf : f ∈ s.recFields) (col : List Val) :
    Post (op.writeRecordCol E f col w)
      (fun x w' => ∃ full' cols' new, RecFilling E w'.fs x.1 c full' cols' ∧
        full'.flatten ++ cols' = full.flatten ++ cols ++ new ∧
        if f.name = c then ∃ bs, new = [bs] ∧ bs.map recVal = col else new = []) (fun _ => True) := by
  by_cases hc : f.name = c
  · refine ((writeRecordCol_post h hf col).and (writeRecordCol_exact (E := E) (h.rwPath c) f hc col)).imp ?_ (fun _ _ => trivial)
    rintro x w' ⟨⟨-, st, -⟩, rw, bs, u, h1, h2, h3, h4⟩
    have hbuf : rw.buf = cols.flatten ∧ rw.bytes = recSize E cols := by
      rcases h1 with h1 | ⟨h1, e1, e2⟩
      · exact ⟨(hr.opened rw h1).1, (hr.opened rw h1).2.1⟩
      · rw [hr.closed h1]; exact ⟨e1, e2⟩
    have hsz : rw.bytes + E.columnBytes col = recSize E (cols ++ [bs]) := by
      rw [recSize_snoc, hbuf.2, h3]
    simp only [hc, ite_true]
    rw [hsz] at h4
    split at h4
    · rename_i hbig
      obtain ⟨⟨m, k1, k2⟩, k3, k4⟩ := h4
      refine ⟨full ++ [cols ++ [bs]], [], [bs], ⟨?_, fun _ => rfl, by simp [k4], ?_, .nil⟩, by simp, bs, rfl, h3⟩
      · have e : recFilesOf c x.1.rmf = recFilesOf c op.rmf ++ [rw.path] := by
          simp [recFilesOf, k2, k1, h2, Path.ofField]
        rw [e, List.map_append, (hr.mono st.grows.le).files]
        simp [k3, hbuf.1]
      · intro g hg
        rcases List.mem_append.mp hg with hg | hg
        · exact hr.full g hg
        · rw [List.mem_singleton] at hg
          subst hg
          exact ⟨cols, bs, rfl, hr.file, hbig⟩
    · rename_i hsmall
      obtain ⟨k1, rw', k2, k3, k4⟩ := h4
      refine ⟨full, cols ++ [bs], [bs], ⟨?_, by simp [k2], ?_, hr.full, hr.file.snoc (Nat.le_of_not_lt hsmall)⟩, by simp, bs, rfl, h3⟩
      · rw [k1]; exact (hr.mono st.grows.le).files
      · intro rw2 h5
        rw [k2] at h5
        cases h5
        exact ⟨by rw [k3, hbuf.1]; simp, k4, by simp⟩
  · refine ((writeRecordCol_post h hf col).and (writeRecordCol_other (E := E) f hc (h.rwPath f.name) col)).imp ?_ (fun _ _ => trivial)
    rintro x w' ⟨⟨-, st, -⟩, h1, h2⟩
    exact ⟨full, cols, [], (hr.mono st.grows.le).same h1 h2, by simp, by rw [if_neg hc]⟩

theorem writeRecords_rec (data : List Row) : ∀ (fs : List Field) (_ : ∀ f ∈ fs, f ∈ s.recFields)
    (_ : (fs.map (·.name)).Nodup) {w : World} {op : AppendOp} {full : List (List (List (List Nat)))}
    {cols : List (List (List Nat))} (rows : List Row) (_ : OpPre E s w0 w op) (_ : RecFilling E w.fs op c full cols),
    Post (AppendOp.writeRecords E data fs op rows w)
      (fun x w' => ∃ full' cols' new, RecFilling E w'.fs x.1 c full' cols' ∧
        full'.flatten ++ cols' = full.flatten ++ cols ++ new ∧
        if c ∈ fs.map (·.name) then ∃ bs, new = [bs] ∧ bs.map recVal = data.map (·.val c) else new = []) (fun _ => True)
  | [], _, _, w, op, full, cols, rows, h, hr => Post.pure ⟨full, cols, [], hr, by simp, by simp⟩
  | f :: fs, hfs, hn, w, op, full, cols, rows, h, hr => by
    unfold AppendOp.writeRecords
    have hf := hfs f (List.mem_cons_self ..)
    refine Post.bind (((writeRecordCol_post h hf (data.map (·.val f.name))).and
      (writeRecordCol_rec h hr hf _)).imp (fun _ _ h => h) (fun _ _ => trivial)) ?_
    rintro ⟨op1, addrs⟩ w1 ⟨⟨h1, -⟩, full1, cols1, new, k1, k2, k3⟩
    rw [List.map_cons, List.nodup_cons] at hn
    refine (writeRecords_rec data fs (fun g hg => hfs g (List.mem_cons_of_mem _ hg)) hn.2 _ h1 k1).imp ?_ (fun _ h => h)
    rintro ⟨op2, r2⟩ w2 ⟨full2, cols2, new2, j1, j2, j3⟩
    refine ⟨full2, cols2, new ++ new2, j1, by rw [j2, k2]; simp, ?_⟩
    by_cases hc : f.name = c
    · simp only [hc, ite_true] at k3
      subst hc
      rw [if_neg hn.1] at j3
      obtain ⟨bs, rfl, hb⟩ := k3
      simp only [List.map_cons, List.mem_cons, true_or, ite_true]
      exact ⟨bs, by rw [j3]; rfl, hb⟩
    · simp only [hc, ite_false] at k3
      subst k3
      have hc' : ¬ c = f.name := fun h => hc h.symm
      simpa only [List.map_cons, List.mem_cons, hc', false_or, List.nil_append] using j3

theorem write_rec (hn : (s.recFields.map (·.name)).Nodup) (hc : c ∈ s.recNames) (h : OpOK E s w0 w op)
    (ha : op.addrInput = false) (hr : RecFilling E w.fs op c full cols) (data : List Row) :
    Post (op.write E s data w)
      (fun op' w' => ∃ full' cols' new, RecFilling E w'.fs op' c full' cols' ∧
        full'.flatten ++ cols' = full.flatten ++ cols ++ new ∧
        if data = [] then new = [] else ∃ bs, new = [bs] ∧ bs.map recVal = data.map (·.val c)) (fun _ => True) := by
  unfold AppendOp.write
  split
  · rename_i hd
    exact Post.pure ⟨full, cols, [], hr, by simp, rfl⟩
  · rename_i hdne
    refine Post.bind (((maybeCreate_post h.toOpPre).and (maybeCreate_moves op w)).imp (fun _ _ h => h) (fun _ _ => trivial)) ?_
    rintro op1 w1 ⟨⟨h1, h2, h3, h4, h5, h6⟩, -, -, -, -, -, m6⟩
    have r1 : RecFilling E w1.fs op1 c full cols := (hr.mono h2.grows.le).same (by rw [m6]) (by rw [h6])
    split
    · dsimp only
      rw [show op1.addrInput = false from h2.addr.trans ha]
      simp only [Bool.false_eq_true, ite_false]
      refine Post.bind (((writeRecords_post s.recFields (fun f hf => hf) h1
        (rows := data.map (·.select s.idxNames)) (done := s.idxNames) ?_ ?_).and
          (writeRecords_rec data s.recFields (fun f hf => hf) hn _ h1 r1)).imp
          (fun _ _ h => h) (fun _ _ => trivial)) ?_
      · intro r hr
        obtain ⟨d, -, rfl⟩ := List.mem_map.mp hr
        exact select_idx_addr d
      · rw [List.map_map]
        exact List.map_congr_left fun d _ => select_idx_deref d
      rintro ⟨op2, rows⟩ w2 ⟨⟨a1, a2, a3, a4, a5, a6, a7⟩, full', cols', new, k1, k2, k3⟩
      have hne : rows ≠ [] := by
        intro h0
        rw [h0] at a7
        exact hdne (List.map_eq_nil_iff.mp a7.symm)
      refine ((cacheRows_post a1 hne a6).and (cacheRows_moves (E := E) (s := s) op2 rows w2)).imp ?_ (fun _ _ => trivial)
      rintro op3 w3 ⟨⟨-, b2, -⟩, -, -, b5, b6⟩
      exact ⟨full', cols', new, (k1.mono b2.grows.le).same (by rw [b6]) (by rw [b5]), k2, by
        rw [if_pos (show c ∈ s.recFields.map (·.name) from hc)] at k3
        exact k3⟩
    · exact Post.raise trivial

theorem writeAll_rec (hn : (s.recFields.map (·.name)).Nodup) (hc : c ∈ s.recNames) : ∀ (tables : List (List Row))
    {w : World} {op : AppendOp} {full : List (List (List (List Nat)))} {cols : List (List (List Nat))}
    (_ : OpOK E s w0 w op) (_ : op.addrInput = false) (_ : RecFilling E w.fs op c full cols),
    Post (AppendOp.writeAll E s op tables w)
      (fun op' w' => ∃ full' cols' new, RecFilling E w'.fs op' c full' cols' ∧
        full'.flatten ++ cols' = full.flatten ++ cols ++ new ∧
        new.map (·.map recVal) = (tables.filter (fun t => decide (t ≠ []))).map (·.map (·.val c))) (fun _ => True)
  | [], w, op, full, cols, _, _, hr => by
    unfold AppendOp.writeAll
    exact Post.pure ⟨full, cols, [], hr, by simp, rfl⟩
  | t :: ts, w, op, full, cols, h, ha, hr => by
    unfold AppendOp.writeAll
    refine Post.bind (((write_post h (data := t) (by simp [ha])).and (write_rec hn hc h ha hr t)).imp (fun _ _ h => h)
      (fun _ _ => trivial)) ?_
    rintro op1 w1 ⟨⟨h1, h2, -⟩, full1, cols1, new, f1, f2, f3⟩
    refine (writeAll_rec hn hc ts h1 (h2.addr.trans ha) f1).imp ?_ (fun _ h => h)
    rintro op2 w2 ⟨full2, cols2, new2, g1, g2, g3⟩
    refine ⟨full2, cols2, new ++ new2, g1, by rw [g2, f2]; simp, ?_⟩
    rw [List.map_append, g3]
    by_cases ht : t = []
    · rw [if_pos ht] at f3
      subst f3
      simp [ht]
    · rw [if_neg ht] at f3
      obtain ⟨bs, rfl, hb⟩ := f3
      rw [List.filter_cons_of_pos (by simpa using ht)]
      simp [hb]

theorem finishRecord_rec (h : OpPre E s w0 w op) (hr : RecFilling E w.fs op c full cols) {f : Field} {rw : RecWriter}
    (hf : f ∈ s.recFields) (hg : op.rws.get? f.name = some rw) :
    Post (op.finishRecord f rw w)
      (fun op' w' => RecFilling E w'.fs op' c full cols ∧ f.name ≠ c ∨
        f.name = c ∧ op'.rws.get? c = none ∧ cols ≠ [] ∧
          (recFilesOf c op'.rmf).map w'.fs.records = (full ++ [cols]).map (fun f => some f.flatten)) (fun _ => True) := by
  obtain ⟨u, hu⟩ := h.rwPath _ rw hg
  refine ((finishRecord_post h hg hf).and (Q' := fun op' w' => (∃ m : RecManifestRow, m.file = rw.path ∧ op'.rmf = op.rmf ++ [m]) ∧
    w'.fs.records rw.path = some rw.buf) (F' := fun _ => True) ?_).imp ?_ (fun _ _ => trivial)
  · unfold AppendOp.finishRecord
    refine Post.bind (Q := fun _ w' => w' = w.put rw.path (.records rw.buf)) (Post.put rfl) ?_
    rintro _ w3 rfl
    refine Post.pure ⟨⟨_, ?_, rfl⟩, ?_⟩
    · rfl
    · simp [World.put]
  · rintro op' w' ⟨⟨-, st, -, -, -, e, -⟩, ⟨m, m1, m2⟩, m3⟩
    have hm := hr.mono st.grows.le
    by_cases hc : f.name = c
    · rw [hc] at hg hu e
      refine Or.inr ⟨hc, by rw [e, AMap.get?_erase, if_pos rfl], (hr.opened rw hg).2.2, ?_⟩
      have e2 : recFilesOf c op'.rmf = recFilesOf c op.rmf ++ [rw.path] := by
        simp [recFilesOf, m2, m1, hu, Path.ofField]
      rw [e2, List.map_append, hm.files]
      simp [m3, (hr.opened rw hg).1]
    · have hc' : ¬ c = f.name := fun h => hc h.symm
      refine Or.inl ⟨hm.same ?_ (by rw [e, AMap.get?_erase, if_neg hc']), hc⟩
      simp [recFilesOf, m2, m1, hu, Path.ofField, hc]

/-- Other fields closed. -/
theorem finishRecords_other : ∀ (fs : List Field) {w : World} {op : AppendOp}
    (_ : ∀ f ∈ fs, f ∈ s.recFields) (_ : OpPre E s w0 w op) {x : List (Option (List (List Nat)))}
    (_ : op.rws.get? c = none) (_ : (recFilesOf c op.rmf).map w.fs.records = x) (_ : ∀ y ∈ x, y.isSome),
    Post (AppendOp.finishRecords fs op w)
      (fun op' w' => (recFilesOf c op'.rmf).map w'.fs.records = x) (fun _ => True)
  | [], w, op, _, _, x, _, hx, _ => Post.pure hx
  | f :: fs, w, op, hfs, h, x, h0, hx, hs => by
    unfold AppendOp.finishRecords
    have hfs' := fun g hg => hfs g (List.mem_cons_of_mem f hg)
    cases hg : op.rws.get? f.name with
    | none => exact finishRecords_other fs hfs' h h0 hx hs
    | some rw =>
      have hc : f.name ≠ c := fun hc => by rw [hc, h0] at hg; cases hg
      have hc' : ¬ c = f.name := fun h => hc h.symm
      obtain ⟨u, hu⟩ := h.rwPath _ rw hg
      refine Post.bind (((finishRecord_post h hg (hfs f (List.mem_cons_self ..))).and (Q' := fun op' _ =>
        ∃ m : RecManifestRow, m.file = rw.path ∧ op'.rmf = op.rmf ++ [m]) (F' := fun _ => True) ?_).imp (fun _ _ h => h)
        (fun _ _ => trivial)) ?_
      · unfold AppendOp.finishRecord
        exact Post.bind (Q := fun _ _ => True) (Post.put trivial) fun _ _ _ => Post.pure ⟨_, rfl, rfl⟩
      · rintro op1 w1 ⟨⟨h1, st, -, -, -, e, -⟩, m, m1, m2⟩
        refine finishRecords_other fs hfs' h1 (by rw [e, AMap.get?_erase, if_neg hc', h0]) ?_ hs
        have e2 : recFilesOf c op1.rmf = recFilesOf c op.rmf := by
          simp [recFilesOf, m2, m1, hu, Path.ofField, hc]
        rw [e2, ← hx]
        refine List.map_congr_left fun q hq => ?_
        have := hs _ (hx ▸ List.mem_map_of_mem hq)
        obtain ⟨y, hy⟩ := Option.isSome_iff_exists.mp this
        rw [hy]
        exact st.grows.le.records hy

/-- Closing the record files. -/
theorem finishRecords_rec : ∀ (fs : List Field) {w : World} {op : AppendOp}
    (_ : ∀ f ∈ fs, f ∈ s.recFields) (_ : OpPre E s w0 w op) (_ : RecFilling E w.fs op c full cols)
    (_ : op.rws.get? c ≠ none → c ∈ fs.map (·.name)),
    Post (AppendOp.finishRecords fs op w)
      (fun op' w' => ∃ files, RecPacked E files ∧ files.flatten = full.flatten ++ cols ∧
        (recFilesOf c op'.rmf).map w'.fs.records = files.map (fun f => some f.flatten)) (fun _ => True)
  | [], w, op, _, h, hr, hin => by
    have h0 : op.rws.get? c = none := by
      cases hg : op.rws.get? c with
      | none => rfl
      | some rw => simp [hg] at hin
    have := hr.closed h0
    subst this
    exact Post.pure ⟨full, ⟨full, [], by simp, hr.full, Or.inl rfl⟩, by simp, hr.files⟩
  | f :: fs, w, op, hfs, h, hr, hin => by
    unfold AppendOp.finishRecords
    have hfs' := fun g hg => hfs g (List.mem_cons_of_mem f hg)
    have hf := hfs f (List.mem_cons_self ..)
    cases hg : op.rws.get? f.name with
    | none =>
      refine finishRecords_rec fs hfs' h hr fun h0 => ?_
      rcases List.mem_cons.mp (hin h0) with e | e
      · rw [e] at h0; exact absurd hg h0
      · exact e
    | some rw =>
      refine Post.bind (((finishRecord_post h hg hf).and (finishRecord_rec h hr hf hg)).imp (fun _ _ h => h)
        (fun _ _ => trivial)) ?_
      rintro op1 w1 ⟨⟨h1, st, -, -, -, e, -⟩, ⟨r1, hc⟩ | ⟨hc, h0, hne, hx⟩⟩
      · have hc' : ¬ c = f.name := fun h => hc h.symm
        refine finishRecords_rec fs hfs' h1 r1 fun h0 => ?_
        rw [e, AMap.get?_erase, if_neg hc'] at h0
        rcases List.mem_cons.mp (hin h0) with e | e
        · exact absurd e hc'
        · exact e
      · refine (finishRecords_other fs hfs' h1 h0 hx ?_).imp ?_ (fun _ h => h)
        · intro y hy
          obtain ⟨z, -, rfl⟩ := List.mem_map.mp hy
          rfl
        · intro op2 w2 h2
          exact ⟨full ++ [cols], ⟨full, [cols], rfl, hr.full, Or.inr ⟨cols, hne, rfl, hr.file⟩⟩, by simp, h2⟩

/-- The record files of a finished operation. -/
theorem finish_rec (hc : c ∈ s.recNames) (h : OpOK E s w0 w op) (hr : RecFilling E w.fs op c full cols) :
    Post (op.finish E s w)
      (fun p w' => ∀ q, p = some q → ∃ files, RecPacked E files ∧ files.flatten = full.flatten ++ cols ∧
        (recFilesOf c (q.addRec.flatMap (fun p => (w'.fs.rmanifest p).getD []))).map w'.fs.records =
          files.map (fun f => some f.flatten)) (fun _ => True) := by
  unfold AppendOp.finish
  refine Post.bind (((finishRecords_post s.recFields (fun f hf => hf) h ?_).and
    (finishRecords_rec s.recFields (fun f hf => hf) h.toOpPre hr (fun _ => hc))).imp
    (fun _ _ h => h) (fun _ _ => trivial)) ?_
  · intro g rw hg
    obtain ⟨_, _, _, _, _, _, _, _, hfl⟩ := h.rws g rw hg
    exact hfl
  rintro op1 w1 ⟨⟨h1, st1, r1, n1⟩, files, p1, p2, p3⟩
  refine Post.bind (((flush_post h1).and (flush_moves (E := E) (s := s) op1 w1)).imp (fun _ _ h => h) (fun _ _ => trivial)) ?_
  rintro op2 w2 ⟨⟨h2, st2, -⟩, -, -, -, e2, -⟩
  refine Post.bind (((finishIndex_post' h2).and (finishIndex_moves (E := E) (s := s) op2 w2)).imp (fun _ _ h => h)
    (fun _ _ => trivial)) ?_
  rintro op3 w3 ⟨⟨h3, st3, -⟩, -, -, -, -, -, e3, -⟩
  refine Post.bind (finishIndexManifest_post op3.carried op3.mf h3.fresh) ?_
  rintro im w4 ⟨g4, -, -⟩
  refine Post.bind (finishRecordManifest_post op3.rmf (g4.fresh h3.fresh)) ?_
  rintro rm w5 ⟨g5, -, rm5⟩
  have hle : FSLe w1.fs w5.fs := ((st2.trans st3).grows.trans (g4.trans g5)).le
  split
  · exact Post.pure (by simp)
  · refine Post.pure ?_
    rintro q hq
    cases hq
    refine ⟨files, p1, p2, ?_⟩
    have hents : rm.toList.flatMap (fun p => (w5.fs.rmanifest p).getD []) = op1.rmf := by
      rw [e3, e2] at rm5
      rcases rm5 with ⟨h0, rfl⟩ | ⟨rfl, hmf⟩
      · rw [h0]; rfl
      · simp [hmf]
    show (recFilesOf c (rm.toList.flatMap (fun p => (w5.fs.rmanifest p).getD []))).map _ = _
    rw [hents, ← p3]
    refine List.map_congr_left fun x hx => ?_
    have : w1.fs.records x ∈ files.map (fun f => some f.flatten) := by
      rw [← p3]; exact List.mem_map_of_mem hx
    obtain ⟨y, -, hy⟩ := List.mem_map.mp this
    rw [← hy]
    exact hle.records hy.symm

/-- The record files of an append. -/
theorem appendBody_recs (hn : s.names.Nodup) (hc : c ∈ s.recNames) (hf : w.Fresh) (tables : List (List Row)) :
    Post (appendBody E s tables w)
      (fun p w' => ∀ q, p = some q → ∃ files, RecPacked E files ∧
        files.flatten.map (·.map recVal) = (tables.filter (fun t => decide (t ≠ []))).map (·.map (·.val c)) ∧
        (recFilesOf c (q.addRec.flatMap (fun p => (w'.fs.rmanifest p).getD []))).map w'.fs.records =
          files.map (fun f => some f.flatten)) (fun _ => True) := by
  unfold appendBody
  have hn' : (s.recFields.map (·.name)).Nodup := hn.sublist (List.Sublist.map _ List.filter_sublist)
  have init : RecFilling E w.fs { addrInput := false } c [] [] :=
    ⟨rfl, fun _ => rfl, fun _ h => (by cases h), by simp, .nil⟩
  refine Post.bind (((writeAll_post tables (OpOK.init false hf) rfl).and
    (writeAll_rec hn' hc tables (OpOK.init (E := E) (s := s) false hf) rfl init)).imp (fun _ _ h => h) (fun _ _ => trivial)) ?_
  rintro op w1 ⟨⟨h1, h2, -⟩, full, cols, new, k1, k2, k3⟩
  refine (finish_rec hc h1 k1).imp ?_ (fun _ h => h)
  intro p w2 k4 q hq
  obtain ⟨files, p1, p2, p3⟩ := k4 q hq
  refine ⟨files, p1, ?_, p3⟩
  have e : full.flatten ++ cols = new := by simpa using k2
  rw [p2, e, k3]

end

end Space
