import Verif.Props.Ray

/-!
# C71: the row counts that Ray read tasks announce
-/

set_option autoImplicit false

namespace Space

open Demo

/-- Each number that is announced for a read task of the dataset is the number of rows that this task
yields whenever it succeeds; no number is announced only where some rows of the file are selected by a bitmap or the
file has no rows; and `count` gives the number of rows of the dataset. -/
structure Announces (E : Env) (R : RayEnv) (fs : FS) (s : Schema) (ray : RayOpts) (d : RayDataset) : Prop where
  length : (d.counts ray).length = (d.tasks ray).length
  each : ∀ (k : Nat) (t : DataFile) (n : Nat) (bs : List (List Row)), (d.tasks ray)[k]? = some t →
    (d.counts ray)[k]? = some (some n) → readFile E fs s d.opts t = .ok bs → bs.flatten.length = n
  unknown : ∀ (k : Nat) (t : DataFile), (d.tasks ray)[k]? = some t → (d.counts ray)[k]? = some none →
    (∃ bm, t.bitmap = some bm ∧ bm.allRows = false) ∨ fileRows fs t.path = []
  count : ∀ (at_ : List Nat) (bs : List (List Row)), d.blocks E R fs s ray at_ = .ok bs →
    rayCount (d.counts ray) bs.flatten.length = bs.flatten.length

section
variable {E : Env} {fs : FS} {s : Schema} {f : DataFile} {rows : List Row}

/-- A task and its number. -/
def Told (E : Env) (fs : FS) (s : Schema) (o : ReadOpts) (x : DataFile × Option Nat) : Prop :=
  (∀ n bs, x.2 = some n → readFile E fs s o x.1 = .ok bs → bs.flatten.length = n) ∧
    (x.2 = none → (∃ bm, x.1.bitmap = some bm ∧ bm.allRows = false) ∨ fileRows fs x.1.path = [])

theorem marked_true (h : f.marked = true) : ∃ bm, f.bitmap = some bm ∧ bm.allRows = false := by
  unfold DataFile.marked at h
  cases hb : f.bitmap with
  | none => rw [hb] at h; cases h
  | some bm => rw [hb] at h; exact ⟨bm, rfl, by simpa using h⟩

theorem fileCounts_length (rowRange : Bool) (batch : Nat) (f : DataFile) :
    (fileCounts rowRange batch f).length = (fileTasks rowRange batch f).length := by
  unfold fileCounts fileTasks
  repeat' split
  all_goals simp

theorem told_of {o : ReadOpts} {t : DataFile} {rows : List Row} {n : Option Nat} (hp : (fs.parquet t.path).isSome)
    (hv : visibleRows E fs o.filter t = .ok rows) (hr : ∀ r ∈ rows, RowOK fs.records s r)
    (hn : ∀ m, n = some m → rows.length = m)
    (hu : n = none → t.marked = true ∨ fileRows fs t.path = []) : Told E fs s o (t, n) := by
  refine ⟨?_, fun h => (hu h).imp_left marked_true⟩
  intro m bs h1 h2
  by_cases hc : ∀ c ∈ o.cols s, c ∈ s.names
  · obtain ⟨bs', h3, h4⟩ := readFile_out hp hv hr hc
    rw [h3] at h2
    cases h2
    rw [h4, List.length_map]
    exact hn m h1
  · simp only at h2
    unfold readFile at h2
    rw [if_neg (by simpa using hc)] at h2
    cases h2

theorem file_told {o : ReadOpts} (hf : o.filter = none) (hw : WholeFile E fs s none f rows) (rowRange : Bool) :
    ∀ x ∈ (fileTasks rowRange o.batch f).zip (fileCounts rowRange o.batch f), Told E fs s o x := by
  have hn : f.stats.rows.toNat = (fileRows fs f.path).length := by rw [hw.count]; rfl
  have hv : visibleRows E fs o.filter f = .ok rows := by rw [hf]; exact hw.visible
  have whole : ∀ n : Option Nat, (∀ m, n = some m → rows.length = m) →
      (n = none → f.marked = true ∨ fileRows fs f.path = []) →
      ∀ x ∈ [f].zip [n], Told E fs s o x := by
    intro n h h' x hx
    simp only [List.zip_cons_cons, List.zip_nil_right, List.mem_singleton] at hx
    subst hx
    exact told_of hw.exists_ hv hw.good h h'
  have plain : f.marked = false → rows = fileRows fs f.path := by
    intro hm
    have h := hw.visible
    unfold visibleRows selectRows at h
    rw [hw.noSlice] at h
    unfold DataFile.marked at hm
    cases hb : f.bitmap with
    | none => rw [hb] at h; simpa [filterRows] using (Except.ok.inj h).symm
    | some bm =>
      rw [hb] at h hm
      simp only [Bool.not_eq_false'] at hm
      simp only [hm, if_true] at h
      simpa [filterRows] using (Except.ok.inj h).symm
  unfold fileTasks fileCounts
  split
  · rename_i h0
    refine whole none (by simp) fun _ => .inr ?_
    rw [h0] at hn
    exact List.length_eq_zero_iff.mp hn.symm
  · split
    · rename_i hb
      simp only [Bool.and_eq_true, decide_eq_true_eq] at hb
      intro x hx
      rw [List.zip_map', List.mem_map] at hx
      obtain ⟨i, hi, rfl⟩ := hx
      obtain ⟨part, h1, h2⟩ := visible_slice hw (batch := o.batch) (by omega)
      refine told_of (rows := part i) hw.exists_ (by rw [hf]; exact h1 i)
        (fun r hr => hw.good r (by rw [← h2]; exact List.mem_flatMap.mpr ⟨i, hi, hr⟩)) ?_ (fun h => .inl (by
          cases hmk : f.marked with
          | true => exact hmk
          | false => rw [hmk] at h; cases h))
      intro m hm
      cases hmk : f.marked with
      | true => rw [hmk] at hm; cases hm
      | false =>
        rw [hmk] at hm
        simp only [Bool.false_eq_true, if_false, Option.some.injEq] at hm
        have h := h1 i
        have hp : part i = sliceRows (fileRows fs f.path) (i * o.batch) (min ((i + 1) * o.batch) f.stats.rows.toNat) := by
          unfold visibleRows selectRows at h
          unfold DataFile.marked at hmk
          cases hb : f.bitmap with
          | none => simp only [hb] at h; simpa [filterRows] using (Except.ok.inj h).symm
          | some bm =>
            rw [hb] at hmk
            simp only [Bool.not_eq_false'] at hmk
            simp only [hb, hmk, if_true] at h
            simpa [filterRows] using (Except.ok.inj h).symm
        rw [hp, sliceRows, List.length_take, List.length_drop, hn]
        omega
    · refine whole _ ?_ (fun h => .inl (by
        cases hmk : f.marked with
        | true => rfl
        | false => rw [hmk] at h; cases h))
      intro m hm
      cases hmk : f.marked with
      | true => rw [hmk] at hm; cases hm
      | false =>
        rw [hmk] at hm
        simp only [Bool.false_eq_true, if_false, Option.some.injEq] at hm
        rw [plain hmk, ← hm, hn]

theorem zip_told {o : ReadOpts} (rowRange : Bool) : ∀ files : List DataFile,
    (∀ f ∈ files, ∀ x ∈ (fileTasks rowRange o.batch f).zip (fileCounts rowRange o.batch f), Told E fs s o x) →
    (files.flatMap (fileCounts rowRange o.batch)).length = (files.flatMap (fileTasks rowRange o.batch)).length ∧
    ∀ x ∈ (files.flatMap (fileTasks rowRange o.batch)).zip (files.flatMap (fileCounts rowRange o.batch)), Told E fs s o x
  | [], _ => ⟨rfl, by simp⟩
  | f :: files, h => by
    obtain ⟨h1, h2⟩ := zip_told rowRange files (fun g hg => h g (List.mem_cons_of_mem _ hg))
    refine ⟨by simp only [List.flatMap_cons, List.length_append, fileCounts_length, h1], ?_⟩
    simp only [List.flatMap_cons]
    rw [List.zip_append (fileCounts_length ..).symm]
    intro x hx
    rcases List.mem_append.mp hx with hx | hx
    · exact h f (List.mem_cons_self ..) x hx
    · exact h2 x hx

theorem told_sum {o : ReadOpts} : ∀ (ts : List DataFile) (ns : List (Option Nat)) (bs : List (List Row)),
    ns.length = ts.length → (∀ x ∈ ts.zip ns, Told E fs s o x) → readFiles E fs s o ts = .ok bs →
    ns.all (·.isSome) = true → (ns.map (·.getD 0)).sum = bs.flatten.length
  | [], ns, bs, h1, _, h3, _ => by
    cases ns with
    | nil => simp only [readFiles, Except.ok.injEq] at h3; subst h3; rfl
    | cons n ns => cases h1
  | t :: ts, [], bs, h1, _, _, _ => by cases h1
  | t :: ts, n :: ns, bs, h1, h2, h3, h4 => by
    simp only [List.all_cons, Bool.and_eq_true] at h4
    unfold readFiles at h3
    cases h5 : readFile E fs s o t with
    | error e => rw [h5] at h3; cases h3
    | ok b1 =>
      rw [h5] at h3
      simp only at h3
      cases h6 : readFiles E fs s o ts with
      | error e => rw [h6] at h3; cases h3
      | ok b2 =>
        rw [h6] at h3
        cases h3
        have := told_sum ts ns b2 (by simpa using h1) (fun x hx => h2 x (by simp [hx])) h6 h4.2
        obtain ⟨m, rfl⟩ := Option.isSome_iff_exists.mp h4.1
        have hb := (h2 (t, some m) (by simp)).1 m b1 rfl h5
        simp only [List.map_cons, List.sum_cons, this, Option.getD_some, List.flatten_append, List.length_append, hb]

theorem announces_of {R : RayEnv} {ray : RayOpts} {d : RayDataset} (hf : d.opts.filter = none)
    (h : ∀ f ∈ d.files, ∃ rows, WholeFile E fs s none f rows) : Announces E R fs s ray d := by
  obtain ⟨h1, h2⟩ := zip_told (E := E) (fs := fs) (s := s) (o := d.opts) ray.rowRange d.files (fun f hm => by
    obtain ⟨rows, hw⟩ := h f hm
    exact file_told hf hw ray.rowRange)
  refine ⟨h1, ?_, ?_, ?_⟩
  · intro k t n bs ht hn hr
    refine (h2 (t, some n) ?_).1 n bs rfl hr
    refine List.mem_of_getElem? (i := k) ?_
    rw [List.getElem?_zip_eq_some]
    exact ⟨ht, hn⟩
  · intro k t ht hn
    refine (h2 (t, none) ?_).2 rfl
    refine List.mem_of_getElem? (i := k) ?_
    rw [List.getElem?_zip_eq_some]
    exact ⟨ht, hn⟩
  · intro at_ bs hb
    unfold RayDataset.blocks at hb
    cases hr : readFiles E fs s d.opts (d.tasks ray) with
    | error e => rw [hr] at hb; cases hb
    | ok bs' =>
      rw [hr] at hb
      simp only [Except.map, Except.ok.injEq] at hb
      unfold rayCount
      split
      · rename_i hall
        rw [← hb, (R.deliver_perm at_ bs').length_eq]
        exact told_sum _ _ _ h1 h2 hr hall
      · rfl

end

/-- C71: reading without a filter, in any reachable state: the datasets of any stored snapshot and of any stored
change announce the rows they yield.  Missing: reads with a filter, see `C71_violated` and `C71_filter`. -/
theorem C71_partial {E : Env} {s : Schema} (hn : s.names.Nodup) {σ : Sys} (h : Reach E s anyStep σ) {sl : Slot}
    (hsl : sl ∈ σ.slots) (R : RayEnv) (ray : RayOpts) :
    (∀ (o : ReadOpts) (id : Option Nat) (fset : FileSet), o.filter = none →
      dataFiles σ.w.fs sl.h o.filter id = .ok fset →
        Announces E R σ.w.fs s ray ⟨fset.files, o⟩ ∧ ∀ f ∈ fset.files, f.bitmap = none) ∧
    (∀ (batch id : Nat) (cs : List RayChange), rayChanges σ.w.fs sl.h.md ray batch id = .ok cs →
      ∀ c ∈ cs, ∀ d ∈ c.data, Announces E R σ.w.fs s ray d) := by
  obtain ⟨md, hok⟩ := reach_ok hn h
  have hh := (hok.slots sl hsl).1
  constructor
  · intro o id fset hf hd
    rw [hf] at hd
    cases hsn : sl.h.snapshot id with
    | error e => simp [dataFiles, hsn] at hd
    | ok snap =>
      have hsnok : SnapOK σ.w.fs s snap := by
        rw [← hh.schema]
        unfold Handle.snapshot Metadata.snapshot at hsn
        repeat' split at hsn
        all_goals first | cases hsn | skip
        all_goals
          rename_i hget
          exact hh.ok.snaps _ _ hget
      obtain ⟨fset', h1, h2⟩ := snap_files (E := E) (o := o) hsnok (mf := none)
      have : fset' = fset := by
        have e : manifestFilter sl.h.md.schema none = .ok none := rfl
        simp only [dataFiles, hsn, e] at hd
        rw [h1] at hd
        exact Except.ok.inj hd
      subst this
      refine ⟨announces_of hf fun f hm => ⟨_, by have := h2 f hm; rw [hf] at this; exact this⟩, fun f hm => ?_⟩
      rw [collectFiles_eq snap.index 1 fun p hp => by
        obtain ⟨rows, h, -⟩ := hsnok.manifests p hp
        simp [h]] at h1
      cases h1
      obtain ⟨p, hp, m, hm', n, rfl, -, -⟩ := packFiles_mem hm
      rfl
  · intro batch id cs hc c hcm d hd
    unfold rayChanges at hc
    cases hg : sl.h.md.snaps.get? id with
    | none => rw [hg] at hc; cases hc
    | some snap =>
      rw [hg] at hc
      simp only at hc
      have hsn := hh.ok.snaps _ _ hg
      rw [hh.schema] at hsn
      cases hl : snap.log.bind σ.w.fs.log with
      | none => rw [hl] at hc; cases hc
      | some cl =>
        rw [hl] at hc
        simp only at hc
        obtain ⟨p, hp, hpl⟩ := Option.bind_eq_some_iff.mp hl
        obtain ⟨cl', h1, h2⟩ := hsn.log p hp
        rw [hpl] at h1
        cases h1
        have bits : ∀ (bs : List RowBitmap) (o : ReadOpts), o.filter = none → (∀ b ∈ bs, BitmapOK σ.w.fs s b) →
            Announces E R σ.w.fs s ray ⟨bs.map bitmapFile, o⟩ := by
          intro bs o hf hb
          refine announces_of hf fun f hm => ?_
          obtain ⟨b, hbm, rfl⟩ := List.mem_map.mp hm
          exact ⟨_, bitmap_whole (hb b hbm)⟩
        have dels : ∀ c ∈ (if cl.deleted = [] then [] else
            [⟨id, .delete, [⟨cl.deleted.map bitmapFile, { fields := some sl.h.md.schema.pks, batch := batch }⟩]⟩] :
              List RayChange), ∀ d ∈ c.data, Announces E R σ.w.fs s ray d := by
          intro c hcm d hd
          split at hcm
          · cases hcm
          · simp only [List.mem_singleton] at hcm
            subst hcm
            simp only [List.mem_singleton] at hd
            subst hd
            exact bits _ _ rfl fun b hb => h2 b (.inl hb)
        split at hc
        · cases hc
          exact dels c hcm d hd
        · cases hsh : addShards ray.parallelism cl.added with
          | error e => rw [hsh] at hc; cases hc
          | ok shards =>
            rw [hsh] at hc
            cases hc
            rcases List.mem_append.mp hcm with hcm | hcm
            · exact dels c hcm d hd
            · simp only [List.mem_singleton] at hcm
              subst hcm
              obtain ⟨bs, hbs, rfl⟩ := List.mem_map.mp hd
              refine bits _ _ rfl fun b hb => h2 b (.inr ?_)
              rw [← (addShards_flatten hsh).1]
              exact List.mem_flatten.mpr ⟨bs, hbs, hb⟩

/-- The numbers announced for the current files without and with slices, and what `count` and a read find. -/
def Demo.announced (ray : RayOpts) (o : ReadOpts) (fs : FS) (h : Handle) : Option (List (Option Nat) × Nat × Nat) :=
  match dataFiles fs h o.filter none with
  | .error _ => none
  | .ok fset =>
    match (RayDataset.mk fset.files o).blocks env rayEnv fs schema ray [] with
    | .error _ => none
    | .ok bs => some ((RayDataset.mk fset.files o).counts ray,
        rayCount ((RayDataset.mk fset.files o).counts ray) bs.flatten.length, bs.flatten.length)

/-- Seven rows in files of five and two rows; after the rows with `b` are deleted, there is one file of four rows.
For the files of the deleted rows nothing is announced. -/
example : ∃ σ sl, Reach env schema anyStep σ ∧ sl ∈ σ.slots ∧
    announced { rowRange := false } {} σ.w.fs sl.h = some ([some 4], 4, 4) ∧
    announced {} { batch := 3 } σ.w.fs sl.h = some ([some 3, some 1], 4, 4) ∧
    (rayChanges σ.w.fs sl.h.md { parallelism := 1 } 2 1).toOption.map (·.map (fun c => c.data.map (·.counts {}))) =
      some [[[some 2, some 2, some 1]]] ∧
    (rayChanges σ.w.fs sl.h.md {} 2 3).toOption.map (·.map (fun c => c.data.map (·.counts {}))) =
      some [[[none, none, none, none]]] := by
  let σ := after env anyB schema (seven ++ [.call 0 (.mutate (.delete (.bin "equal" (.sel "txt") (.lit (.str "b")))))])
  obtain ⟨sl, -, h1, h2⟩ := slot_of (σ := σ) (i := 0) (f := fun sl =>
      decide (announced { rowRange := false } {} σ.w.fs sl.h = some ([some 4], 4, 4)) &&
      decide (announced {} { batch := 3 } σ.w.fs sl.h = some ([some 3, some 1], 4, 4)) &&
      decide ((rayChanges σ.w.fs sl.h.md { parallelism := 1 } 2 1).toOption.map
        (·.map (fun c => c.data.map (·.counts {}))) = some [[[some 2, some 2, some 1]]]) &&
      decide ((rayChanges σ.w.fs sl.h.md {} 2 3).toOption.map (·.map (fun c => c.data.map (·.counts {}))) =
        some [[[none, none, none, none]]])) (x := true) (by decide +kernel)
  simp only [Bool.and_eq_true, decide_eq_true_eq] at h2
  exact ⟨σ, sl, after_reach (fun _ _ _ => trivial) _, h1, h2.1.1.1, h2.1.1.2, h2.1.2, h2.2⟩

section
variable {E : Env} {fs : FS} {s : Schema} {f : DataFile}

/-- What a task yields from a file without bitmap: at most what is announced. -/
theorem told_most {o : ReadOpts} (hb : f.bitmap = none)
    (hw : WholeFile E fs s o.filter f (filterRows E.I o.filter (fileRows fs f.path))) (rowRange : Bool)
    {t : DataFile} {n : Nat} {bs : List (List Row)}
    (hx : (t, some n) ∈ (fileTasks rowRange o.batch f).zip (fileCounts rowRange o.batch f))
    (hr : readFile E fs s o t = .ok bs) : bs.flatten.length ≤ n := by
  have hn : f.stats.rows.toNat = (fileRows fs f.path).length := by rw [hw.count]; rfl
  have hmk : f.marked = false := by simp [DataFile.marked, hb]
  have out : ∀ rows, (fs.parquet t.path).isSome → visibleRows E fs o.filter t = .ok rows →
      (∀ r ∈ rows, RowOK fs.records s r) → bs.flatten.length = rows.length := by
    intro rows hp hv hg
    by_cases hc : ∀ c ∈ o.cols s, c ∈ s.names
    · obtain ⟨bs', h3, h4⟩ := readFile_out hp hv hg hc
      rw [h3] at hr
      cases hr
      rw [h4, List.length_map]
    · unfold readFile at hr
      rw [if_neg (by simpa using hc)] at hr
      cases hr
  unfold fileTasks fileCounts at hx
  split at hx
  · simp at hx
  · split at hx
    · rename_i h0
      simp only [Bool.and_eq_true, decide_eq_true_eq] at h0
      rw [List.zip_map', List.mem_map] at hx
      obtain ⟨i, hi, hx⟩ := hx
      simp only [hmk, Bool.false_eq_true, if_false, Prod.mk.injEq, Option.some.injEq] at hx
      obtain ⟨rfl, rfl⟩ := hx
      obtain ⟨part, h1, h2⟩ := visible_slice hw (batch := o.batch) (by omega)
      rw [out _ hw.exists_ (h1 i)
        (fun r hr => hw.good r (by rw [← h2]; exact List.mem_flatMap.mpr ⟨i, hi, hr⟩))]
      have h := h1 i
      simp only [visibleRows, selectRows, hb, Except.ok.injEq] at h
      rw [← h, sliceRows, List.length_take]
      exact Nat.min_le_left ..
    · simp only [hmk, Bool.false_eq_true, if_false, List.zip_cons_cons, List.zip_nil_right, List.mem_singleton,
        Prod.mk.injEq, Option.some.injEq] at hx
      obtain ⟨rfl, rfl⟩ := hx
      rw [out _ hw.exists_ hw.visible hw.good, hn]
      exact filterRows_length

end

theorem flatMap_filter_length {α : Type} (p : Row → Bool) (rows : α → List Row) : ∀ l : List α,
    (l.flatMap fun f => (rows f).filter p).length ≤ (l.flatMap rows).length ∧
      ((l.flatMap fun f => (rows f).filter p).length = (l.flatMap rows).length ↔ ∀ f ∈ l, ∀ r ∈ rows f, p r = true)
  | [] => by simp
  | f :: l => by
    obtain ⟨h1, h2⟩ := flatMap_filter_length p rows l
    have h3 := List.length_filter_le p (rows f)
    have h4 : ((rows f).filter p).length = (rows f).length ↔ ∀ r ∈ rows f, p r = true := List.length_filter_eq_length_iff
    simp only [List.flatMap_cons, List.length_append, List.forall_mem_cons]
    refine ⟨by omega, ?_⟩
    rw [← h2, ← h4]
    omega

/-- C71, reads with a filter: a task announces all rows of its part of the file and yields at most so many.  If no
opened file is empty, `count` gives the rows of all opened files, which is at least the number of rows of the dataset,
and is that number exactly if the filter is true of all rows of the opened files. -/
theorem C71_filter {E : Env} {s : Schema} (hn : s.names.Nodup) {σ : Sys} (h : Reach E s anyStep σ) {sl : Slot}
    (hsl : sl ∈ σ.slots) (R : RayEnv) (ray : RayOpts) {o : ReadOpts} {e : Expr} (he : o.filter = some e)
    {id : Option Nat} {fset : FileSet} (hd : dataFiles σ.w.fs sl.h o.filter id = .ok fset) :
    ((RayDataset.mk fset.files o).counts ray).length = ((RayDataset.mk fset.files o).tasks ray).length ∧
    (∀ (k : Nat) (t : DataFile) (n : Nat) (bs : List (List Row)), ((RayDataset.mk fset.files o).tasks ray)[k]? = some t →
      ((RayDataset.mk fset.files o).counts ray)[k]? = some (some n) → readFile E σ.w.fs s o t = .ok bs →
        bs.flatten.length ≤ n) ∧
    ((∀ f ∈ fset.files, fileRows σ.w.fs f.path ≠ []) → ∀ (at_ : List Nat) (bs : List (List Row)),
      (RayDataset.mk fset.files o).blocks E R σ.w.fs s ray at_ = .ok bs →
        rayCount ((RayDataset.mk fset.files o).counts ray) bs.flatten.length =
          (fset.files.flatMap fun f => fileRows σ.w.fs f.path).length ∧
        bs.flatten.length ≤ rayCount ((RayDataset.mk fset.files o).counts ray) bs.flatten.length ∧
        (bs.flatten.length = rayCount ((RayDataset.mk fset.files o).counts ray) bs.flatten.length ↔
          ∀ f ∈ fset.files, ∀ r ∈ fileRows σ.w.fs f.path, e.holds E.I r = true)) := by
  obtain ⟨md, hok⟩ := reach_ok hn h
  have hh := (hok.slots sl hsl).1
  cases hsn : sl.h.snapshot id with
  | error e => simp [dataFiles, hsn] at hd
  | ok snap =>
    have hsnok : SnapOK σ.w.fs s snap := by
      rw [← hh.schema]
      unfold Handle.snapshot Metadata.snapshot at hsn
      repeat' split at hsn
      all_goals first | cases hsn | skip
      all_goals
        rename_i hget
        exact hh.ok.snaps _ _ hget
    cases hmf : manifestFilter sl.h.md.schema o.filter with
    | error e => simp [dataFiles, hsn, hmf] at hd
    | ok mf =>
      simp only [dataFiles, hsn, hmf] at hd
      obtain ⟨fset', h1, h2⟩ := snap_files (E := E) (o := o) hsnok (mf := mf)
      obtain ⟨fset'', h1', h3⟩ := snap_files (E := E) (o := { batch := o.batch }) hsnok (mf := mf)
      rw [h1] at h1' hd
      cases h1'
      cases hd
      have hbm : ∀ f ∈ fset.files, f.bitmap = none := by
        intro f hm
        rw [collectFiles_eq snap.index 1 fun p hp => by
          obtain ⟨rows, h, -⟩ := hsnok.manifests p hp
          simp [h]] at h1
        cases h1
        obtain ⟨p, hp, m, hm', n, rfl, -, -⟩ := packFiles_mem hm
        rfl
      have ann : Announces E R σ.w.fs s ray ⟨fset.files, { batch := o.batch }⟩ :=
        announces_of rfl fun f hm => ⟨_, h3 f hm⟩
      refine ⟨ann.length, ?_, ?_⟩
      · intro k t n bs ht hc hr
        have hz : (t, some n) ∈ (fset.files.flatMap (fileTasks ray.rowRange o.batch)).zip
            (fset.files.flatMap (fileCounts ray.rowRange o.batch)) := by
          refine List.mem_of_getElem? (i := k) ?_
          rw [List.getElem?_zip_eq_some]
          exact ⟨ht, hc⟩
        have split : ∀ l : List DataFile, (t, some n) ∈ (l.flatMap (fileTasks ray.rowRange o.batch)).zip
            (l.flatMap (fileCounts ray.rowRange o.batch)) →
            ∃ f ∈ l, (t, some n) ∈ (fileTasks ray.rowRange o.batch f).zip (fileCounts ray.rowRange o.batch f) := by
          intro l
          induction l with
          | nil => simp
          | cons f l ih =>
            intro hx
            simp only [List.flatMap_cons] at hx
            rw [List.zip_append (fileCounts_length ..).symm] at hx
            rcases List.mem_append.mp hx with hx | hx
            · exact ⟨f, List.mem_cons_self .., hx⟩
            · obtain ⟨g, hg, hx⟩ := ih hx
              exact ⟨g, List.mem_cons_of_mem _ hg, hx⟩
        obtain ⟨f, hf, hx⟩ := split _ hz
        exact told_most (hbm f hf) (h2 f hf) _ hx hr
      · intro hne at_ bs hb
        have hall : ((RayDataset.mk fset.files o).counts ray).all (·.isSome) = true := by
          rw [List.all_eq_true]
          intro x hx
          obtain ⟨k, hk⟩ := List.getElem?_of_mem hx
          cases x with
          | some _ => rfl
          | none =>
            have hlt : k < ((RayDataset.mk fset.files { batch := o.batch }).tasks ray).length := by
              rw [← ann.length]
              exact (List.getElem?_eq_some_iff.mp hk).1
            have ht := List.getElem?_eq_getElem hlt
            have hmem := List.getElem_mem hlt
            obtain ⟨f, hf, htf⟩ := List.mem_flatMap.mp hmem
            have hp : ∀ t ∈ fileTasks ray.rowRange o.batch f, t.path = f.path ∧ t.bitmap = f.bitmap := by
              intro t ht
              unfold fileTasks at ht
              repeat' split at ht
              all_goals first
                | (obtain ⟨i, -, rfl⟩ := List.mem_map.mp ht; exact ⟨rfl, rfl⟩)
                | (simp only [List.mem_singleton] at ht; subst ht; exact ⟨rfl, rfl⟩)
            obtain ⟨p1, p2⟩ := hp _ htf
            rcases ann.unknown k _ ht hk with ⟨bm, hbm', -⟩ | h0
            · rw [p2, hbm f hf] at hbm'; cases hbm'
            · rw [p1] at h0; exact absurd h0 (hne f hf)
        obtain ⟨bs0, r1, r2⟩ := tasks_read (E := E) (fs := σ.w.fs) (s := s) (o := { batch := o.batch })
          (by simp [ReadOpts.cols]) ray.rowRange fset.files (fun f => fileRows σ.w.fs f.path)
          (fun f hf => h3 f hf)
        have hsum : (((RayDataset.mk fset.files o).counts ray).map (·.getD 0)).sum =
            (fset.files.flatMap fun f => fileRows σ.w.fs f.path).length := by
          have hz := zip_told (E := E) (fs := σ.w.fs) (s := s) (o := { batch := o.batch }) ray.rowRange fset.files
            (fun f hm => file_told rfl (h3 f hm) ray.rowRange)
          have := told_sum _ _ _ hz.1 hz.2 r1 hall
          rw [r2, List.length_map] at this
          exact this
        have hcount : rayCount ((RayDataset.mk fset.files o).counts ray) bs.flatten.length =
            (fset.files.flatMap fun f => fileRows σ.w.fs f.path).length := by
          unfold rayCount
          rw [if_pos hall, hsum]
        have hlen : bs.flatten.length =
            (fset.files.flatMap fun f => (fileRows σ.w.fs f.path).filter fun r => e.holds E.I r).length := by
          unfold RayDataset.blocks at hb
          cases hr : readFiles E σ.w.fs s o ((RayDataset.mk fset.files o).tasks ray) with
          | error e => rw [hr] at hb; cases hb
          | ok bs' =>
            rw [hr] at hb
            simp only [Except.map, Except.ok.injEq] at hb
            rw [← hb, (R.deliver_perm at_ bs').length_eq]
            by_cases hc : ∀ c ∈ o.cols s, c ∈ s.names
            · obtain ⟨bs1, q1, q2⟩ := tasks_read (E := E) hc ray.rowRange fset.files
                (fun f => filterRows E.I o.filter (fileRows σ.w.fs f.path)) h2
              rw [RayDataset.tasks, q1] at hr
              cases hr
              rw [q2, List.length_map, he]
              rfl
            · have ht : (RayDataset.mk fset.files o).tasks ray = [] := by
                cases ht : (RayDataset.mk fset.files o).tasks ray with
                | nil => rfl
                | cons t ts =>
                  rw [ht] at hr
                  unfold readFiles readFile at hr
                  rw [if_neg (by simpa using hc)] at hr
                  cases hr
              have hf0 : fset.files = [] := by
                cases hf : fset.files with
                | nil => rfl
                | cons f fl =>
                  rw [hf] at ht
                  simp only [RayDataset.tasks, List.flatMap_cons, List.append_eq_nil_iff] at ht
                  exact absurd ht.1 (fileTasks_ne _ _ (by
                    rw [(h3 f (by rw [hf]; exact List.mem_cons_self ..)).count]; exact Int.natCast_nonneg _))
              rw [ht] at hr
              cases hr
              rw [hf0]
              rfl
        have := flatMap_filter_length (fun r => e.holds E.I r) (fun f : DataFile => fileRows σ.w.fs f.path) fset.files
        rw [hcount, hlen]
        exact ⟨rfl, this.1, this.2⟩

/-- `id >= 6` opens the second file only, whose rows all match: the number is right; `txt = "a"` opens both, and
no opened file is empty. -/
example : ∃ σ sl, Reach env schema anyStep σ ∧ sl ∈ σ.slots ∧
    announced {} { batch := 2, filter := some (.bin "gte" (.sel "id") (.lit (.int 6))) } σ.w.fs sl.h =
      some ([some 2], 2, 2) ∧
    announced {} { batch := 2, filter := some (.bin "equal" (.sel "txt") (.lit (.str "a"))) } σ.w.fs sl.h =
      some ([some 2, some 2, some 1, some 2], 7, 4) ∧
    (dataFiles σ.w.fs sl.h (some (.bin "equal" (.sel "txt") (.lit (.str "a")))) none).toOption.map
      (fun fset => fset.files.map fun f => (fileRows σ.w.fs f.path).length) = some [5, 2] := by
  let σ := after env anyB schema seven
  obtain ⟨sl, -, h1, h2⟩ := slot_of (σ := σ) (i := 0) (f := fun sl =>
      decide (announced {} { batch := 2, filter := some (.bin "gte" (.sel "id") (.lit (.int 6))) } σ.w.fs sl.h =
        some ([some 2], 2, 2)) &&
      decide (announced {} { batch := 2, filter := some (.bin "equal" (.sel "txt") (.lit (.str "a"))) } σ.w.fs sl.h =
        some ([some 2, some 2, some 1, some 2], 7, 4)) &&
      decide ((dataFiles σ.w.fs sl.h (some (.bin "equal" (.sel "txt") (.lit (.str "a")))) none).toOption.map
        (fun fset => fset.files.map fun f => (fileRows σ.w.fs f.path).length) = some [5, 2]))
      (x := true) (by decide +kernel)
  simp only [Bool.and_eq_true, decide_eq_true_eq] at h2
  exact ⟨σ, sl, after_reach (fun _ _ _ => trivial) _, h1, h2.1.1, h2.1.2, h2.2⟩

/-- C71 is false with a filter: tasks announce all rows of their files, and `count` gives seven, where the four rows
with `a` are read. -/
theorem C71_violated : ∃ σ sl, Reach env schema anyStep σ ∧ sl ∈ σ.slots ∧ ∃ fset,
    dataFiles σ.w.fs sl.h (some (.bin "equal" (.sel "txt") (.lit (.str "a")))) none = .ok fset ∧
    ¬ Announces env rayEnv σ.w.fs schema {}
      ⟨fset.files, { batch := 2, filter := some (.bin "equal" (.sel "txt") (.lit (.str "a"))) }⟩ ∧
    announced {} { batch := 2, filter := some (.bin "equal" (.sel "txt") (.lit (.str "a"))) } σ.w.fs sl.h =
      some ([some 2, some 2, some 1, some 2], 7, 4) := by
  let σ := after env anyB schema seven
  obtain ⟨sl, -, h1, h2⟩ := slot_of (σ := σ) (i := 0) (f := fun sl =>
      announced {} { batch := 2, filter := some (.bin "equal" (.sel "txt") (.lit (.str "a"))) } σ.w.fs sl.h)
      (x := some ([some 2, some 2, some 1, some 2], 7, 4)) (by decide +kernel)
  refine ⟨σ, sl, after_reach (fun _ _ _ => trivial) _, h1, ?_⟩
  have h3 := h2
  unfold announced at h3
  simp only at h3
  split at h3
  · cases h3
  · rename_i fset hf
    refine ⟨fset, hf, fun ha => ?_, h2⟩
    split at h3
    · cases h3
    · rename_i bs hb
      have h4 := ha.count [] bs hb
      simp only [Option.some.injEq, Prod.mk.injEq] at h3
      rw [h3.2.1, h3.2.2] at h4
      cases h4

end Space
