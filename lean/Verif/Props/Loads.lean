import Verif.Props.Append

/-!
# C34: externally written files
-/

set_option autoImplicit false

namespace Space

open Demo

theorem deref_plain {L : Look} {s : Schema} (h : s.recs = []) (r : Row) : deref L s r = r := by
  simp only [deref, h]
  conv => rhs; rw [← List.map_id r]
  exact List.map_congr_left fun x _ => by simp

theorem writeNames_plain {s : Schema} (h : s.recs = []) : s.writeNames = s.names := by
  simp only [Schema.writeNames, Schema.idxNames, Schema.recNames, Schema.idxFields, Schema.recFields,
    Schema.isRec, h, Schema.names, List.contains_nil]
  have h1 : s.fields.filter (fun _ => !false) = s.fields := List.filter_eq_self.mpr fun _ _ => rfl
  have h2 : s.fields.filter (fun _ => false) = [] := List.filter_eq_nil_iff.mpr fun _ _ => by simp
  rw [h1, h2]
  simp

theorem writeNames_nodup {s : Schema} (hn : s.names.Nodup) : s.writeNames.Nodup := by
  have : s.writeNames.Perm s.names := by
    simp only [Schema.writeNames, Schema.idxNames, Schema.recNames, ← List.map_append, Schema.names]
    refine List.Perm.map _ ?_
    exact List.perm_append_comm.trans (List.filter_append_perm (fun f => s.isRec f) s.fields)
  exact this.nodup_iff.mpr hn

/-- C34, Parquet: when `append_parquet` takes effect, every handle on the branch reads the
rows it read before followed by the rows of the matched files, in the order matched.  Files
are named here by what they resolve to; how stored names resolve is `C34_resolves`. -/
theorem C34_parquet_partial {E : Env} {s : Schema} (hn : s.names.Nodup) {i : Nat} {files : List Path}
    {σ σ' : Sys} (h : Done E s i (.appendParquet files) σ σ') :
    ∃ sl old, σ.slots[i]? = some sl ∧ Reads E σ sl.h.branch old ∧ FSLe σ.w.fs σ'.w.fs ∧
      (∀ f ∈ files, (σ'.w.fs.parquet f).isSome) ∧
      Reads E σ' sl.h.branch (old ++ (files.flatMap (fileRows σ'.w.fs))) := by
  obtain ⟨sl, sl', w, h1, w1, p, cur, snap, hl, hr, hr'⟩ := h.landing hn
  obtain ⟨ev, hst⟩ := h.reach.2
  obtain ⟨md, hok⟩ := reach_ok hn h.reach.1
  obtain ⟨hrecs, hdel, -, -, rows, he, hfiles, hents, -, hphys⟩ := hl.succ.loadParquet
  have hgot : ∀ f ∈ files, ∃ g, w1.fs.parquet f = some g ∧ ∀ r ∈ g.flatten, s.conforms r = true := by
    intro f hf
    rw [← hfiles] at hf
    obtain ⟨m, hm, rfl⟩ := List.mem_map.mp hf
    obtain ⟨g, hg, -, -, hc⟩ := hents m hm
    exact ⟨g, hg, fun r hr => (hc r hr).1⟩
  have hfr : files.flatMap (fileRows w1.fs) = files.flatMap (fileRows σ'.w.fs) := by
    simp only [List.flatMap]
    congr 1
    refine List.map_congr_left fun f hf => ?_
    obtain ⟨g, hg, -⟩ := hgot f hf
    simp [fileRows, hg, hl.succ.le.parquet hg]
  refine ⟨sl, _, hl.slot, hr, (step_ok hn hok hst).choose_spec.2.1, ?_, ?_⟩
  · intro f hf
    obtain ⟨g, hg, -⟩ := hgot f hf
    simp [hl.succ.le.parquet hg]
  · rw [hl.succ.adds hdel, List.map_append, hphys, List.map_map] at hr'
    have : (files.flatMap (fileRows w1.fs)).map ((·.select s.writeNames) ∘ deref w1.fs.records s) =
        files.flatMap (fileRows σ'.w.fs) := by
      rw [← hfr, writeNames_plain hrecs, ← List.map_map]
      rw [show (files.flatMap (fileRows w1.fs)).map (deref w1.fs.records s) = files.flatMap (fileRows w1.fs) from
        (List.map_congr_left fun r _ => deref_plain hrecs r).trans (List.map_id _)]
      refine select_rows hn fun r hr => ?_
      obtain ⟨f, hf, hrf⟩ := List.mem_flatMap.mp hr
      obtain ⟨g, hg, hc⟩ := hgot f hf
      exact conforms_cols (hc r (by simpa [fileRows, hg] using hrf))
    rw [this] at hr'
    exact hr'

/-- What `append_array_record` makes of a record: the index columns computed by the
user's function, and the record itself. -/
def loadedRow (s : Schema) (field : String) (fn : List Nat → Row) (rec : List Nat) : Row :=
  s.writeNames.map (fun c => (c, if c = field then .sc (.bytes rec) else (fn rec).val c))

theorem indexRows_deref {L : Look} {s : Schema} {f : Field} (hrf : s.recFields = [f])
    {fn : List Nat → Row} {p : Path} {rs : List (List Nat)} (hl : L p = some rs) :
    ((indexRows s f.name fn p rs).map (·.select s.writeNames)).map (deref L s) =
      rs.map (loadedRow s f.name fn) := by
  rw [List.map_map]
  apply List.ext_getElem
  · simp [indexRows, appendColumn, addressColumn]
  intro i h1 h2
  have hi : i < rs.length := by simpa using h2
  simp only [indexRows, appendColumn, addressColumn, List.getElem_map, List.getElem_zipWith,
    List.getElem_range, Nat.zero_add, Function.comp_apply, loadedRow, Row.select, deref, List.map_map]
  refine List.map_congr_left fun c hc => ?_
  simp only [Function.comp_apply, Prod.mk.injEq, true_and]
  have hcn : c ∈ s.names := writeNames_sub.mp hc
  by_cases hcf : c = f.name
  · subst hcf
    have hrec := recFields_isRec (s := s) (f := f) (by simp [hrf])
    rw [if_pos rfl, if_pos (by simpa using hrec), val_append_right (by simp [Row.cols])]
    simp [derefVal, hl, Val.ofRecord, hi]
  · have hnr : s.recs.contains c = false := by
      cases hb : s.recs.contains c with
      | false => rfl
      | true =>
        obtain ⟨g, hg, rfl⟩ := List.mem_map.mp hcn
        have : g ∈ s.recFields := by
          simp only [Schema.recFields, List.mem_filter, Schema.isRec]
          exact ⟨hg, hb⟩
        rw [hrf, List.mem_singleton] at this
        exact absurd (congrArg _ this) hcf
    rw [if_neg hcf, if_neg (by simp only [hnr]; simp)]
    have hm : c ∈ s.names.filter (fun c => c ≠ f.name) := by simp [hcn, hcf]
    rw [val_append_left (r := List.map _ _) (by simpa [Row.cols] using And.intro hcn hcf)]
    exact select_val hm

/-- C34, ArrayRecord: when `append_array_record` takes effect, every handle on the branch
reads the rows it read before followed by one row for every record of the matched files:
the record in the record column, the other columns from the user's function. -/
theorem C34_records_partial {E : Env} {s : Schema} (hn : s.names.Nodup) {i : Nat} {fn : List Nat → Row}
    {files : List Path} {σ σ' : Sys} (h : Done E s i (.appendArrayRecord fn files) σ σ') :
    ∃ sl old f, σ.slots[i]? = some sl ∧ Reads E σ sl.h.branch old ∧ FSLe σ.w.fs σ'.w.fs ∧
      s.recFields = [f] ∧ (∀ q ∈ files, (σ'.w.fs.records q).isSome) ∧
      Reads E σ' sl.h.branch (old ++
        (files.flatMap (fun q => (σ'.w.fs.records q).getD [])).map (loadedRow s f.name fn)) := by
  obtain ⟨sl, sl', w, h1, w1, p, cur, snap, hl, hr, hr'⟩ := h.landing hn
  obtain ⟨ev, hst⟩ := h.reach.2
  obtain ⟨md, hok⟩ := reach_ok hn h.reach.1
  obtain ⟨f, mf, rmf, p0, hrf, hrec, hf, hadd, hdel, -⟩ := hl.succ.loadRecords
  have hgot : ∀ q ∈ files, ∃ rs, w1.fs.records q = some rs ∧ σ'.w.fs.records q = some rs := by
    intro q hq
    obtain ⟨rs, hrs⟩ := Option.isSome_iff_exists.mp (hrec q hq)
    exact ⟨rs, hrs, hl.succ.le.records hrs⟩
  have hphys : physRows w1.fs p.addIdx =
      (recordIndexRows w1.fs s f.name fn files).map (·.select s.writeNames) := by
    rw [hadd]
    rcases hf.addRows with ha | ⟨q, hq, hr, -⟩
    · cases ha.1
    · cases hq; exact hr
  refine ⟨sl, _, f, hl.slot, hr, (step_ok hn hok hst).choose_spec.2.1, hrf, ?_, ?_⟩
  · intro q hq
    obtain ⟨rs, -, h⟩ := hgot q hq
    simp [h]
  · rw [hl.succ.adds hdel, List.map_append, hphys] at hr'
    have : ((recordIndexRows w1.fs s f.name fn files).map (·.select s.writeNames)).map (deref w1.fs.records s) =
        (files.flatMap (fun q => (σ'.w.fs.records q).getD [])).map (loadedRow s f.name fn) := by
      simp only [recordIndexRows, List.map_flatMap]
      simp only [List.flatMap]
      congr 1
      refine List.map_congr_left fun q hq => ?_
      obtain ⟨rs, h3, h4⟩ := hgot q hq
      rw [h3, h4]
      exact indexRows_deref hrf h3
    rw [this] at hr'
    have hsel : ∀ rs : List (List Nat), (rs.map (loadedRow s f.name fn)).map (·.select s.writeNames) =
        rs.map (loadedRow s f.name fn) := by
      intro rs
      have hwn : s.writeNames.Nodup := writeNames_nodup hn
      refine select_rows hwn fun r hr => ?_
      obtain ⟨x, -, rfl⟩ := List.mem_map.mp hr
      simp only [loadedRow, Row.cols, List.map_map]
      exact List.map_id'' (fun _ => rfl) _
    rw [hsel] at hr'
    exact hr'

/-- A schema without record fields, and one row of it. -/
def Demo.plain : Schema := { fields := [⟨"id", 0, .int⟩, ⟨"txt", 1, .str⟩], pks := ["id"], recs := [] }

def Demo.prow (i : Int) (t : String) : Row := [("id", .sc (.int i)), ("txt", .sc (.str t))]

/-- A user's file appears. -/
def Demo.placed (σ : Sys) (x : String) (c : Content) : Sys :=
  ⟨{ σ.w with fs := AMap.set σ.w.fs (.external x) c }, σ.slots⟩

theorem Demo.placed_reach {E : Env} {s : Schema} {σ : Sys} (h : Reach E s anyStep σ) {x : String} (c : Content)
    (hx : AMap.get? σ.w.fs (.external x) = none) : Reach E s anyStep (placed σ x c) := by
  obtain ⟨a, b, h⟩ := h
  exact ⟨a, b, .step h trivial (.external hx)⟩

/-- The system after a call. -/
def Demo.calling (E : Env) (σ : Sys) (i : Nat) (c : Call) : Sys :=
  match σ.slots[i]? with
  | some sl => match exec E c sl.h σ.w with
    | (_, h', w') => ⟨w', σ.slots.set i ⟨h', .idle⟩⟩
  | none => σ

def Demo.idleB : Phase → Bool
  | .idle => true
  | _ => false

theorem Demo.calling_step {E : Env} {s : Schema} {σ : Sys} {i : Nat} {c : Call} {r : Result}
    (ha : c.Admissible s σ.w.fs)
    (h : (σ.slots[i]?).map (fun sl => (idleB sl.phase, (exec E c sl.h σ.w).1)) = some (true, r)) :
    Step E s σ (.call i c r) (calling E σ i c) := by
  obtain ⟨w, slots⟩ := σ
  obtain ⟨⟨h1, ph⟩, hs, -, hf⟩ := slot_of h
  simp only [Prod.mk.injEq] at hf
  cases ph <;> simp only [idleB, Bool.false_eq_true, false_and] at hf
  simp only at hs
  simp only [calling, hs]
  exact .call hs ha (by rw [← hf.2])

/-- What all handles read, as an equation that can be computed. -/
theorem Demo.reads_all {E : Env} {σ : Sys} {b : String} {rows : List Row}
    (h : σ.slots.all (fun sl => decide (tableRead E sl.h σ.w {} none = .ok rows)) = true) : Reads E σ b rows := by
  intro sl hsl _
  simpa using List.all_eq_true.mp h sl hsl

/-- A user's file with two row groups, loaded after an append. -/
example : ∃ σ σ', Done env plain 0 (.appendParquet [.external "/in/a.parquet"]) σ σ' ∧
    Reads env σ mainBranch [prow 1 "a"] ∧
    Reads env σ' mainBranch [prow 1 "a", prow 2 "b", prow 3 "c", prow 2 "d"] := by
  let σ := placed (after env anyB plain [.call 0 (.mutate (.append [[prow 1 "a"]]))]) "/in/a.parquet"
    (.parquet [[prow 2 "b"], [prow 3 "c", prow 2 "d"]])
  have hr : Reach env plain anyStep σ := placed_reach (after_reach (fun _ _ _ => trivial) _) _ (by decide +kernel)
  have hadm : (Call.mutate (.appendParquet [.external "/in/a.parquet"])).Admissible plain σ.w.fs := by
    intro p hp g hg
    simp only [List.mem_singleton] at hp
    subst hp
    have : σ.w.fs.parquet (.external "/in/a.parquet") = some [[prow 2 "b"], [prow 3 "c", prow 2 "d"]] := by
      decide +kernel
    rw [this] at hg
    cases hg
    decide
  exact ⟨σ, _, .call hr (calling_step hadm (by decide +kernel)), reads_all (by decide +kernel), reads_all (by decide +kernel)⟩

/-- A user's record file, loaded after an append. -/
example : ∃ (fn : List Nat → Row) (σ σ' : Sys), Done env schema 0 (.appendArrayRecord fn [.external "/in/a.array_record"]) σ σ' ∧
    Reads env σ mainBranch [row 1 "a" [1]] ∧
    Reads env σ' mainBranch [row 1 "a" [1], row 2 "x" [2], row 3 "x" [3, 3, 3]] := by
  let fn : List Nat → Row := fun b => [("id", .sc (.int (b.headD 0))), ("txt", .sc (.str "x"))]
  let σ := placed (after env anyB schema [.call 0 (.mutate (.append [[row 1 "a" [1]]]))]) "/in/a.array_record"
    (.records [[2], [3, 3, 3]])
  have hr : Reach env schema anyStep σ := placed_reach (after_reach (fun _ _ _ => trivial) _) _ (by decide +kernel)
  exact ⟨fn, σ, _, .call hr (calling_step trivial (by decide +kernel)), reads_all (by decide +kernel), reads_all (by decide +kernel)⟩

/-! ## Loads succeed -/

theorem loadParquetRows_total {E : Env} {s : Schema} (hk : KeySchema s) {fs : FS} : ∀ (files : List Path),
    (∀ p ∈ files, ∃ g, fs.parquet p = some g ∧ (∀ x ∈ g, x ≠ []) ∧ ∀ r ∈ g.flatten, Fit s r) →
    ∃ rows, loadParquetRows E s fs files = .ok rows
  | [], _ => ⟨[], rfl⟩
  | p :: ps, h => by
    obtain ⟨g, h1, h2, h3⟩ := h p List.mem_cons_self
    obtain ⟨rows, hr⟩ := loadParquetRows_total (E := E) hk ps fun q hq => h q (List.mem_cons_of_mem _ hq)
    obtain ⟨st, hst⟩ := fileStats_total (Schema.keysLeaf_of_keysFirst hk.first) hk.fids h2 (fun r hr => (h3 r hr).2)
      s.statsFields (fun f hf => hf)
    have hm : ∃ m, manifestRow E s p g = .ok m := by
      unfold manifestRow
      rw [hst]
      exact ⟨_, rfl⟩
    obtain ⟨m, hm⟩ := hm
    exact ⟨m :: rows, by simp [loadParquetRows, h1, hm, hr]⟩

/-- C34, that loads of Parquet files succeed: in any state, on a branch that exists, of a table without record
fields, files with rows that fit the schema are loaded, also none at all. -/
theorem C34_parquet_succeeds {E : Env} {s : Schema} (hk : KeySchema s) (hrecs : s.recs = [])
    {σ : Sys} (hr : Reach E s anyStep σ) {i : Nat} {sl : Slot} (hsl : σ.slots[i]? = some sl)
    (hi : sl.phase = .idle) (hb : branchIn sl.h.branch σ) {files : List Path}
    (ht : ∀ p ∈ files, ∃ g, σ.w.fs.parquet p = some g ∧ (∀ x ∈ g, x ≠ []) ∧ ∀ r ∈ g.flatten, Fit s r) :
    ∃ σ', Step E s σ (.call i (.mutate (.appendParquet files)) (.job .succeeded)) σ' := by
  obtain ⟨md, hok⟩ := reach_ok hk.names hr
  have hh := (hok.slots _ (List.mem_of_getElem? hsl)).1
  have hadm : Mutation.Admissible s σ.w.fs (.appendParquet files) := by
    intro p hp g hg r hrm
    obtain ⟨g', h1, -, h3⟩ := ht p hp
    rw [hg] at h1
    cases h1
    exact (h3 r hrm).1
  obtain ⟨p, h', w', hp, he⟩ := exec_total (E := E) (m := .appendParquet files) (R := fun p => p.isSome = true)
    hk.names hok.wok hh hadm ((branchIn_iff hok).mp hb) (by
      intro h1 e1 _ hh1
      simp only [Mutation.body, hh1.schema]
      unfold appendParquetBody
      rw [if_neg (by simpa using hrecs)]
      refine Post.bind (Q := fun a b => σ.w = a ∧ σ.w = b) (Post.get ⟨rfl, rfl⟩) ?_
      rintro a b ⟨rfl, hb⟩
      subst hb
      obtain ⟨rows, hrows⟩ := loadParquetRows_total (E := E) hk files ht
      rw [hrows]
      refine Post.bind (Post.pure (Q := fun _ _ => True) trivial) fun _ _ _ => ?_
      refine Post.bind (finishIndexManifest_total _ _) fun _ _ _ => ?_
      exact Post.pure rfl)
  refine call_of_exec hsl hi hadm (h' := h') (w' := w') ?_
  rw [he, hp]
  rfl

/-- A row made of a record by the user's function can be written: its index columns fit and its keys are set. -/
structure Indexes (s : Schema) (r : Row) : Prop where
  index : ∀ f ∈ s.fields, f.name ∉ s.recs → f.ty.accepts (r.val f.name) = true
  keys : ∀ k ∈ s.pks, ∃ v, r.val k = .sc v ∧ v ≠ .nan

theorem indexRows_fit {s : Schema} (hk : KeySchema s) (hlast : s.writeNames = s.names) {f : Field}
    (hrf : s.recFields = [f]) {fn : List Nat → Row} {p : Path} {rs : List (List Nat)}
    (h : ∀ r ∈ rs, Indexes s (fn r)) : ∀ r ∈ indexRows s f.name fn p rs, Fit s r := by
  have hnames : s.names = s.idxNames ++ [f.name] := by
    rw [← hlast]
    simp [Schema.writeNames, Schema.recNames, hrf]
  have hnot : f.name ∉ s.idxNames := by
    have := hk.names
    rw [hnames] at this
    intro hm
    exact (List.nodup_append.mp this).2.2 _ hm _ (List.mem_singleton.mpr rfl) rfl
  have hfil : s.names.filter (fun c => c ≠ f.name) = s.idxNames := by
    rw [hnames, List.filter_append, List.filter_eq_self.mpr (fun c hc => by
      simp only [ne_eq, decide_not, Bool.not_eq_true', decide_eq_false_iff_not]
      rintro rfl
      exact hnot hc)]
    simp
  have hfrec : f.name ∈ s.recs := by
    have hf : f ∈ s.recFields := by simp [hrf]
    simp only [Schema.recFields, List.mem_filter, Schema.isRec] at hf
    simpa using hf.2
  intro r hr
  simp only [indexRows, appendColumn, addressColumn, hfil] at hr
  obtain ⟨i, hi, rfl⟩ := List.mem_iff_getElem.mp hr
  simp only [List.length_zipWith, List.length_map, List.length_range, Nat.min_self] at hi
  simp only [List.getElem_zipWith, List.getElem_map, List.getElem_range, Nat.zero_add]
  obtain ⟨hx1, hx2⟩ := h rs[i] (List.getElem_mem hi)
  have hcols : ((fn rs[i]).select s.idxNames).cols = s.idxNames := select_cols _ _
  have hval : ∀ c ∈ s.idxNames, Row.val ((fn rs[i]).select s.idxNames ++ [(f.name, Val.addr p i)]) c = (fn rs[i]).val c := by
    intro c hc
    rw [val_append_left (by rw [hcols]; exact hc)]
    exact select_val hc
  have hidx : ∀ c ∈ s.names, c ∉ s.recs → c ∈ s.idxNames := by
    intro c hc hcr
    rw [hnames] at hc
    rcases List.mem_append.mp hc with hc | hc
    · exact hc
    · rw [List.mem_singleton] at hc
      exact absurd (hc ▸ hfrec) hcr
  refine ⟨?_, ?_⟩
  · simp only [Schema.conforms, Bool.and_eq_true, beq_iff_eq, List.all_eq_true]
    refine ⟨?_, ?_⟩
    · show List.map _ (_ ++ _) = _
      rw [List.map_append, hnames]
      exact congrArg (· ++ [f.name]) hcols
    · intro g hg
      by_cases hgr : g.name ∈ s.recs
      · have : g ∈ s.recFields := by
          simp only [Schema.recFields, List.mem_filter, Schema.isRec]
          exact ⟨hg, by simpa using hgr⟩
        rw [hrf, List.mem_singleton] at this
        subst this
        rw [val_append_right (by rw [hcols]; exact hnot)]
        simp [Schema.accepts, Schema.isRec, hgr]
      · rw [hval _ (hidx _ (List.mem_map_of_mem hg) hgr)]
        simpa [Schema.accepts, Schema.isRec, hgr] using hx1 g hg hgr
  · intro k hkk
    rw [hval _ (hidx _ (hk.keys k hkk) (hk.plain k hkk))]
    exact hx2 k hkk

theorem loadRecordFiles_total {E : Env} {s : Schema} (hk : KeySchema s) (hlast : s.writeNames = s.names) {f : Field}
    (hrf : s.recFields = [f]) {fn : List Nat → Row} {w0 : World} : ∀ (files : List Path) {w : World} {op : AppendOp} (n : Nat),
    OpOK E s w0 w op → OpFit s op → op.addrInput = true →
    (∀ p ∈ files, ∃ rs, w.fs.records p = some rs ∧ ∀ r ∈ rs, Indexes s (fn r)) →
    Total (loadRecordFiles E s f.name fn files op n w) (fun x _ => OpFit s x.1)
  | [], w, op, n, _, h, _, _ => by
    unfold loadRecordFiles
    exact Post.pure h
  | p :: ps, w, op, n, ho, h, ha, hf => by
    unfold loadRecordFiles
    refine Post.bind (Q := fun a b => w = a ∧ w = b) (Post.get ⟨rfl, rfl⟩) ?_
    rintro a b ⟨rfl, hb⟩
    subst hb
    obtain ⟨rs, hp, hrs⟩ := hf p List.mem_cons_self
    rw [hp]
    have hlook : op.look w.fs p = some rs := by
      refine overlay_of_records hp ?_
      intro f rw hr
      obtain ⟨_, _, _, _, h', _⟩ := ho.rws f rw hr
      exact h'
    refine Post.bind ((writeAddr_total hk hlast h ha (indexRows_fit hk hlast hrf hrs)).and
      (write_post ho (data := indexRows s f.name fn p rs) (fun _ => indexRows_addr hrf hlook))) ?_
    rintro op1 w1 ⟨⟨h1, h2⟩, h3, h4, -⟩
    refine loadRecordFiles_total hk hlast hrf ps _ h3 h1 h2 fun q hq => ?_
    obtain ⟨rs', h5, h6⟩ := hf q (List.mem_cons_of_mem _ hq)
    exact ⟨rs', h4.grows.le.records h5, h6⟩

/-- C34, that loads of record files succeed: in any state, on a branch that exists, of a table with one record
field, files whose records are given index columns that fit are loaded; without records the load is skipped. -/
theorem C34_records_succeeds {E : Env} {s : Schema} (hk : KeySchema s) (hlast : s.writeNames = s.names) {f : Field}
    (hrf : s.recFields = [f]) {σ : Sys} (hr : Reach E s anyStep σ) {i : Nat} {sl : Slot} (hsl : σ.slots[i]? = some sl)
    (hi : sl.phase = .idle) (hb : branchIn sl.h.branch σ) {fn : List Nat → Row} {files : List Path}
    (hfound : ∀ q ∈ files, (σ.w.fs.records q).isSome) {found : List (List Nat)}
    (hf : found = files.flatMap (fun q => (σ.w.fs.records q).getD [])) (ht : ∀ r ∈ found, Indexes s (fn r)) :
    ∃ σ', Step E s σ (.call i (.mutate (.appendArrayRecord fn files))
      (.job (if found = [] then .skipped else .succeeded))) σ' := by
  obtain ⟨md, hok⟩ := reach_ok hk.names hr
  have hh := (hok.slots _ (List.mem_of_getElem? hsl)).1
  have hall : ∀ p ∈ files, ∃ rs, σ.w.fs.records p = some rs ∧ ∀ r ∈ rs, Indexes s (fn r) := by
    intro p hp
    obtain ⟨rs, hrs⟩ := Option.isSome_iff_exists.mp (hfound p hp)
    refine ⟨rs, hrs, fun r hr => ht r ?_⟩
    rw [hf]
    exact List.mem_flatMap.mpr ⟨p, hp, by simpa [hrs] using hr⟩
  have hlen : ∀ w' : World, FSLe σ.w.fs w'.fs → (recordIndexRows w'.fs s f.name fn files).length = found.length := by
    intro w' hle
    rw [hf, recordIndexRows, List.length_flatMap, List.length_flatMap]
    congr 1
    refine List.map_congr_left fun p hp => ?_
    obtain ⟨rs, hrs⟩ := Option.isSome_iff_exists.mp (hfound p hp)
    simp [hrs, hle.records hrs, indexRows, appendColumn, addressColumn]
  obtain ⟨p, h', w', hp, he⟩ := exec_total (E := E) (m := .appendArrayRecord fn files)
    (R := fun p => p.isSome = decide (found ≠ []))
    hk.names hok.wok hh trivial ((branchIn_iff hok).mp hb) (by
      intro h1 e1 _ hh1
      have htot : Total (appendArrayRecordBody E s fn files σ.w) (fun _ _ => True) := by
        unfold appendArrayRecordBody
        rw [hrf]
        refine Post.bind (loadRecordFiles_total hk hlast hrf files 0 (OpOK.init true hok.wok.fresh)
          ⟨by simp, by simp⟩ rfl hall) ?_
        rintro ⟨op, bytes⟩ w1 h2
        refine Post.bind (finish_total (Schema.keysLeaf_of_keysFirst hk.first) hk.fids h2) fun _ _ _ => ?_
        exact Post.pure trivial
      have := htot.and (appendArrayRecordBody_post (E := E) (s := s) hok.wok.fresh fn files)
      simp only [Mutation.body, hh1.schema]
      refine this.imp ?_ (fun _ h => h)
      rintro p w' ⟨-, hg, -, ⟨f', mf, rmf, p0, bytes, hrf', -, hfin, -, hpp⟩⟩
      rw [hrf] at hrf'
      cases hrf'
      have hl := hlen w' hg.le
      have hz := sumRows_zero hfin.ents
      rw [hfin.rowsEq, List.length_map, hl] at hz
      have hsome : p.isSome = p0.isSome := by rw [hpp]; cases p0 <;> rfl
      rw [hsome]
      by_cases hnil : found = []
      · rw [hfin.none_iff.mpr (by rw [hz, hnil]; rfl)]
        simp [hnil]
      · cases p0 with
        | some p => simp [hnil]
        | none =>
          have := hfin.none_iff.mp rfl
          rw [hz] at this
          exact absurd (List.length_eq_zero_iff.mp (by exact_mod_cast this)) hnil)
  refine call_of_exec hsl hi trivial (h' := h') (w' := w') ?_
  rw [he, hp]
  by_cases hnil : found = [] <;> simp [hnil]
/-- The file of Parquet rows above meets the conditions. -/
example : KeySchema plain ∧ plain.recs = [] ∧ ∀ r ∈ [prow 2 "b", prow 3 "c", prow 2 "d"], Fit plain r := by
  refine ⟨⟨by decide, by decide, by decide, by decide, by decide, by decide⟩, rfl, fun r hr => ⟨?_, ?_⟩⟩
  · simp only [List.mem_cons, List.not_mem_nil, or_false] at hr
    rcases hr with rfl | rfl | rfl <;> decide
  · intro k hk
    simp only [plain, List.mem_singleton] at hk
    subst hk
    simp only [List.mem_cons, List.not_mem_nil, or_false] at hr
    rcases hr with rfl | rfl | rfl <;> exact ⟨_, rfl, by decide⟩

/-- So does the file of records. -/
example : KeySchema schema ∧ schema.writeNames = schema.names ∧ (∃ f, schema.recFields = [f]) ∧
    ∀ b ∈ [[2], [3, 3, 3]], Indexes schema [("id", .sc (.int (b.headD 0))), ("txt", .sc (.str "x"))] := by
  refine ⟨Demo.keys, by decide, ⟨_, rfl⟩, fun b hb => ⟨?_, ?_⟩⟩
  · simp only [List.mem_cons, List.not_mem_nil, or_false] at hb
    rcases hb with rfl | rfl <;> decide
  · intro k hk
    simp only [schema, List.mem_singleton] at hk
    subst hk
    simp only [List.mem_cons, List.not_mem_nil, or_false] at hb
    rcases hb with rfl | rfl <;> exact ⟨_, rfl, by decide⟩

end Space
