import Verif.RowEffects

/-!
# Calls that succeed
-/

namespace Space

/-- The statements end normally. -/
abbrev Total {σ α : Type} (r : Except Err α × σ) (Q : α → σ → Prop) : Prop := Post r Q (fun _ => False)

theorem Total.get {σ α : Type} {r : Except Err α × σ} {Q : α → σ → Prop} (h : Total r Q) :
    ∃ a s, r = (.ok a, s) ∧ Q a s := by
  obtain ⟨x, s⟩ := r
  cases x with
  | error e => exact absurd h id
  | ok a => exact ⟨a, s, rfl, h⟩

/-- A normal end and what holds at the end. -/
theorem Total.and {σ α : Type} {r : Except Err α × σ} {Q R : α → σ → Prop} {F : σ → Prop}
    (h : Total r Q) (h' : Post r R F) : Total r (fun a s => Q a s ∧ R a s) := by
  obtain ⟨a, s, rfl, hq⟩ := h.get
  exact ⟨hq, h'⟩

/-! ## Statistics -/

theorem minMaxOf_some {vs : List (Option Scalar)} (hne : vs ≠ []) (h : ∀ v ∈ vs, v ≠ none ∧ v ≠ some .nan) :
    ∃ a b, minMaxOf vs = (some a, some b) := by
  rcases minMaxOf_shape vs with ⟨-, h0⟩ | ⟨a, b, h0, -⟩
  · cases vs with
    | nil => exact absurd rfl hne
    | cons v vs =>
      rcases h0 v (by simp) with h1 | h1
      · exact absurd h1 (h v (by simp)).1
      · exact absurd h1 (h v (by simp)).2
  · exact ⟨a, b, h0⟩

theorem mergeGroups_total : ∀ (sts : List (Option Scalar × Option Scalar)) (acc : Option Scalar × Option Scalar),
    (∀ st ∈ sts, ∃ a b, st = (some a, some b)) → (acc = (none, none) ∨ ∃ a b, acc = (some a, some b)) →
    ∃ r, mergeGroups sts acc = .ok r
  | [], acc, _, _ => ⟨acc, rfl⟩
  | st :: sts, acc, h, ha => by
    obtain ⟨a, b, rfl⟩ := h st (by simp)
    simp only [mergeGroups]
    rcases ha with rfl | ⟨c, d, rfl⟩
    · exact mergeGroups_total sts _ (fun x hx => h x (by simp [hx])) (Or.inr ⟨a, b, rfl⟩)
    · exact mergeGroups_total sts _ (fun x hx => h x (by simp [hx])) (Or.inr ⟨_, _, rfl⟩)

/-- Row groups none of which is empty, without null and NaN keys, have statistics. -/
theorem fileStats_total {s : Schema} (hk : s.keysLeaf = true) (hn : (s.fields.map (·.fid)).Nodup)
    {groups : List (List Row)} (hne : ∀ g ∈ groups, g ≠ [])
    (hset : KeysSet s groups.flatten) : ∀ (fs : List Field), (∀ f ∈ fs, f ∈ s.statsFields) →
    ∃ st, fileStats s groups fs = .ok st
  | [], _ => ⟨[], rfl⟩
  | f :: fs, h => by
    have hf := h f (by simp)
    simp only [Schema.statsFields, List.mem_filter] at hf
    obtain ⟨pre, post, hsplit⟩ := List.append_of_mem hf.1
    obtain ⟨hsimple, hpre⟩ := Schema.keysLeaf_split hk hsplit hf.2
    have hcol : s.columnIdOf f.fid = some pre.length := findIdx_split hsplit hn
    obtain ⟨r, hr⟩ := mergeGroups_total (groups.map (fun g => groupStats s g pre.length)) (none, none) (by
      intro st hst
      obtain ⟨g, hg, rfl⟩ := List.mem_map.mp hst
      refine minMaxOf_some (by simpa using hne g hg) ?_
      intro v hv
      obtain ⟨r, hr, rfl⟩ := List.mem_map.mp hv
      obtain ⟨x, hx, hxn⟩ := hset r (List.mem_flatten.mpr ⟨g, hg, hr⟩) f.name (by simpa using hf.2)
      rw [rowLeaves_get r hsplit hpre hsimple hx]
      simpa using hxn) (Or.inl rfl)
    obtain ⟨st, hst⟩ := fileStats_total hk hn hne hset fs (fun g hg => h g (by simp [hg]))
    exact ⟨(f.fid, r) :: st, by simp [fileStats, hcol, hr, hst]⟩

/-! ## Append -/

/-- Physical rows that can be written. -/
def Fit (s : Schema) (r : Row) : Prop :=
  s.conforms r = true ∧ ∀ k ∈ s.pks, ∃ v, r.val k = .sc v ∧ v ≠ .nan

/-- Everything an append operation holds can be written. -/
structure OpFit (s : Schema) (op : AppendOp) : Prop where
  cache : ∀ r ∈ op.cache.getD [], Fit s r
  groups : ∀ iw, op.iw = some iw → (∀ g ∈ iw.groups, g ≠ []) ∧ ∀ r ∈ iw.groups.flatten, Fit s r

section
variable {E : Env} {s : Schema} {w : World} {op : AppendOp}

theorem maybeCreate_total (h : OpFit s op) :
    Total (op.maybeCreate w) (fun op' _ => OpFit s op' ∧ op'.iw.isSome ∧ op'.addrInput = op.addrInput) := by
  unfold AppendOp.maybeCreate
  cases hi : op.iw with
  | some iw => exact Post.pure ⟨h, by simp [hi], rfl⟩
  | none =>
    refine Post.bind (Post.fresh (Q := fun _ _ => True) trivial) ?_
    rintro u w' -
    refine Post.pure ⟨⟨h.cache, ?_⟩, rfl, rfl⟩
    rintro iw rfl2
    cases rfl2
    simp

theorem writeTable_total (h : OpFit s op) (hi : op.iw.isSome) {rows : List Row}
    (hr : ∀ r ∈ rows, Fit s r) :
    Total (op.writeTable E s rows w) (fun op' _ => OpFit s op' ∧ op'.iw.isSome ∧
      op'.addrInput = op.addrInput ∧ op'.cache = op.cache) := by
  unfold AppendOp.writeTable
  cases hiw : op.iw with
  | none => rw [hiw] at hi; cases hi
  | some iw =>
    simp only
    rw [if_pos (List.all_eq_true.mpr fun r hrm => (hr r hrm).1)]
    refine Post.pure ⟨⟨h.cache, ?_⟩, rfl, rfl, rfl⟩
    intro iw' he
    cases he
    obtain ⟨g1, g2⟩ := h.groups iw hiw
    refine ⟨?_, ?_⟩
    · intro g hg
      rcases List.mem_append.mp hg with hg | hg
      · exact g1 g hg
      · exact E.rgSplit_ne rows g hg
    · intro r hrm
      rw [List.flatten_append, E.rgSplit_flatten] at hrm
      rcases List.mem_append.mp hrm with hrm | hrm
      · exact g2 r hrm
      · exact hr r hrm

theorem finishIndex_total (hk : s.keysLeaf = true) (hn : (s.fields.map (·.fid)).Nodup) (h : OpFit s op) :
    Total (op.finishIndex E s w) (fun op' _ => OpFit s op' ∧ op'.addrInput = op.addrInput ∧
      op'.cache = op.cache) := by
  unfold AppendOp.finishIndex
  cases hi : op.iw with
  | none => exact Post.pure ⟨h, rfl, rfl⟩
  | some iw =>
    refine Post.bind (Post.put (Q := fun _ _ => True) trivial) ?_
    rintro _ w' -
    obtain ⟨g1, g2⟩ := h.groups iw hi
    obtain ⟨st, hst⟩ := fileStats_total hk hn g1 (fun r hr => (g2 r hr).2) s.statsFields (fun f hf => hf)
    have hm : ∃ m, manifestRow E s iw.path iw.groups = .ok m := by
      unfold manifestRow
      rw [hst]
      exact ⟨_, rfl⟩
    obtain ⟨m, hm⟩ := hm
    rw [hm]
    refine Post.pure ⟨⟨h.cache, ?_⟩, rfl, rfl⟩
    intro iw' he
    cases he

theorem colBytes_total : ∀ {col : List Val}, (∀ v ∈ col, ∃ b, v = .sc (.bytes b)) →
    ∃ bs, colBytes col = .ok bs
  | [], _ => ⟨[], rfl⟩
  | v :: vs, h => by
    obtain ⟨b, rfl⟩ := h v (by simp)
    obtain ⟨bs, hbs⟩ := colBytes_total (col := vs) (fun x hx => h x (by simp [hx]))
    exact ⟨b :: bs, by simp [colBytes, Val.toBytes, hbs]⟩

theorem finishRecord_total (f : Field) (rw : RecWriter) :
    Total (op.finishRecord f rw w) (fun op' _ => op'.cache = op.cache ∧ op'.iw = op.iw ∧
      op'.addrInput = op.addrInput) := by
  unfold AppendOp.finishRecord
  refine Post.bind (Post.put (Q := fun _ _ => True) trivial) ?_
  rintro _ w' -
  exact Post.pure ⟨rfl, rfl, rfl⟩

theorem writeRecordCol_total (f : Field) {col : List Val} (hc : ∀ v ∈ col, ∃ b, v = .sc (.bytes b)) :
    Total (op.writeRecordCol E f col w) (fun x _ => x.1.cache = op.cache ∧ x.1.iw = op.iw ∧
      x.1.addrInput = op.addrInput ∧ x.2.length = col.length ∧ ∀ v ∈ x.2, ∃ p i, v = .addr p i) := by
  unfold AppendOp.writeRecordCol
  refine Post.bind (Q := fun _ _ => True) ?_ ?_
  · unfold AppendOp.recWriter
    cases op.rws.get? f.name with
    | some rw => exact Post.pure trivial
    | none => exact Post.bind (Post.fresh (Q := fun _ _ => True) trivial) (fun _ _ _ => Post.pure trivial)
  rintro rw w' -
  obtain ⟨bs, hbs⟩ := colBytes_total hc
  rw [hbs]
  refine Post.bind (Q := fun _ _ => True) (Post.pure trivial) ?_
  rintro bs' w'' -
  have hlen : ∀ p n, (addressColumn p n col.length).length = col.length ∧
      ∀ v ∈ addressColumn p n col.length, ∃ p i, v = .addr p i := by
    intro p n
    refine ⟨by simp [addressColumn], ?_⟩
    intro v hv
    obtain ⟨i, -, rfl⟩ := List.mem_map.mp hv
    exact ⟨p, n + i, rfl⟩
  simp only
  split
  · refine Post.bind (finishRecord_total f _) ?_
    rintro op' w3 ⟨a, b, c⟩
    exact Post.pure ⟨a, b, c, hlen _ _⟩
  · exact Post.pure ⟨rfl, rfl, rfl, hlen _ _⟩

/-- Rows that have the columns `done`, with values that fit. -/
def Partly (s : Schema) (done : List String) (r : Row) : Prop :=
  r.cols = done ∧ (∀ f ∈ s.fields, f.name ∈ done → s.accepts f (r.val f.name) = true)

theorem val_append_left {r : Row} {n c : String} {v : Val} (h : c ∈ r.cols) :
    Row.val (r ++ [(n, v)]) c = r.val c := by
  unfold Row.val
  congr 1
  induction r with
  | nil => simp [Row.cols] at h
  | cons x r ih =>
    obtain ⟨k, y⟩ := x
    simp only [List.cons_append, AMap.get?]
    split
    · rfl
    · rename_i hne
      refine ih ?_
      simp only [Row.cols, List.map_cons, List.mem_cons] at h
      rcases h with rfl | h
      · exact absurd rfl hne
      · exact h

theorem val_append_right {r : Row} {n : String} {v : Val} (h : n ∉ r.cols) :
    Row.val (r ++ [(n, v)]) n = v := by
  unfold Row.val
  induction r with
  | nil => simp [AMap.get?]
  | cons x r ih =>
    obtain ⟨k, y⟩ := x
    simp only [Row.cols, List.map_cons, List.mem_cons, not_or] at h
    simp only [List.cons_append, AMap.get?]
    rw [if_neg (fun e => h.1 e.symm)]
    exact ih h.2

/-- The columns of a row besides the last are as before. -/
structure Extends (s : Schema) (done : List String) (rows : List Row) (out : List Row) : Prop where
  fit : ∀ r ∈ out, Partly s done r
  keys : ∀ r ∈ out, ∃ x ∈ rows, ∀ c ∈ x.cols, r.val c = x.val c

theorem appendColumn_fit (hn : s.names.Nodup) {f : Field} (hf : f ∈ s.recFields) {done : List String}
    (hd : f.name ∉ done) {rows : List Row} {addrs : List Val}
    (hr : ∀ r ∈ rows, Partly s done r) (ha : ∀ v ∈ addrs, ∃ p i, v = .addr p i) :
    Extends s (done ++ [f.name]) rows (appendColumn f.name rows addrs) := by
  have key : ∀ x ∈ appendColumn f.name rows addrs, ∃ r ∈ rows, ∃ v ∈ addrs, x = r ++ [(f.name, v)] := by
    intro x hx
    unfold appendColumn at hx
    rw [List.zipWith_eq_zipWith_take_min] at hx
    obtain ⟨i, hi, rfl⟩ := List.getElem_of_mem hx
    simp only [List.getElem_zipWith]
    exact ⟨_, List.mem_of_mem_take (List.getElem_mem _), _, List.mem_of_mem_take (List.getElem_mem _), rfl⟩
  constructor
  · intro x hx
    obtain ⟨r, hrm, v, hv, rfl⟩ := key x hx
    obtain ⟨hc, hacc⟩ := hr r hrm
    refine ⟨by simp [Row.cols] at hc ⊢; exact hc, ?_⟩
    intro g hg hgn
    rcases List.mem_append.mp hgn with hgn | hgn
    · rw [val_append_left (by rw [hc]; exact hgn)]
      exact hacc g hg hgn
    · simp only [List.mem_singleton] at hgn
      rw [hgn, val_append_right (by rw [hc]; exact hd)]
      obtain ⟨p, i, rfl⟩ := ha v hv
      have hrec : s.isRec g = true := by
        have := recFields_isRec hf
        unfold Schema.isRec
        rw [hgn]
        exact this
      simp [Schema.accepts, hrec]
  · intro x hx
    obtain ⟨r, hrm, v, hv, rfl⟩ := key x hx
    exact ⟨r, hrm, fun c hc => val_append_left hc⟩

theorem writeRecords_total (hn : s.names.Nodup) {data : List Row} : ∀ (fs : List Field)
    (_ : ∀ f ∈ fs, f ∈ s.recFields) (_ : (fs.map (·.name)).Nodup) {w : World} {op : AppendOp} {rows : List Row}
    {done : List String} (_ : ∀ f ∈ fs, f.name ∉ done)
    (_ : ∀ f ∈ fs, ∀ d ∈ data, ∃ b, d.val f.name = .sc (.bytes b)) (_ : ∀ r ∈ rows, Partly s done r),
    Total (AppendOp.writeRecords E data fs op rows w) (fun x _ => x.1.cache = op.cache ∧ x.1.iw = op.iw ∧
      x.1.addrInput = op.addrInput ∧ Extends s (done ++ fs.map (·.name)) rows x.2)
  | [], _, _, w, op, rows, done, _, _, hr => Post.pure ⟨rfl, rfl, rfl, by
      constructor
      · simpa using hr
      · exact fun r hrm => ⟨r, hrm, fun _ _ => rfl⟩⟩
  | f :: fs, hfs, hnd, w, op, rows, done, hd, hb, hr => by
    unfold AppendOp.writeRecords
    refine Post.bind (writeRecordCol_total f (col := data.map (·.val f.name)) (by
      intro v hv
      obtain ⟨d, hdm, rfl⟩ := List.mem_map.mp hv
      exact hb f (by simp) d hdm)) ?_
    rintro ⟨op', addrs⟩ w' ⟨a1, a2, a3, -, a5⟩
    simp only at a1 a2 a3 a5
    simp only [List.map_cons, List.nodup_cons] at hnd
    have hx := appendColumn_fit hn (hfs f (by simp)) (hd f (by simp)) hr a5
    refine (writeRecords_total hn fs (fun g hg => hfs g (by simp [hg])) hnd.2
      (done := done ++ [f.name]) ?_ (fun g hg => hb g (by simp [hg])) hx.fit).imp ?_ (fun _ h => h)
    · intro g hg hmem
      rcases List.mem_append.mp hmem with hmem | hmem
      · exact hd g (by simp [hg]) hmem
      · simp only [List.mem_singleton] at hmem
        exact hnd.1 (hmem ▸ List.mem_map.mpr ⟨g, hg, rfl⟩)
    · rintro x w'' ⟨b1, b2, b3, b4⟩
      refine ⟨b1.trans a1, b2.trans a2, b3.trans a3, ?_, ?_⟩
      · have := b4.fit
        simpa using this
      · intro r hrm
        obtain ⟨y, hy, hyv⟩ := b4.keys r hrm
        obtain ⟨z, hz, hzv⟩ := hx.keys y hy
        refine ⟨z, hz, fun c hc => ?_⟩
        rw [← hzv c hc]
        refine hyv c ?_
        rw [(hx.fit y hy).1, List.mem_append]
        exact Or.inl ((hr z hz).1 ▸ hc)

theorem cacheRows_total (hk : s.keysLeaf = true) (hn : (s.fields.map (·.fid)).Nodup) (h : OpFit s op)
    (hi : op.iw.isSome) {rows : List Row} (hr : ∀ r ∈ rows, Fit s r) :
    Total (op.cacheRows E s rows w) (fun op' _ => OpFit s op' ∧ op'.addrInput = op.addrInput) := by
  rw [cacheRows_eq]
  have hc : ∀ r ∈ op.cache.getD [] ++ rows, Fit s r := by
    intro r hrm
    rcases List.mem_append.mp hrm with hrm | hrm
    · exact h.cache r hrm
    · exact hr r hrm
  simp only
  split
  · refine Post.bind (writeTable_total (op := { op with fileBytes := op.fileBytes + E.tableBytes rows, cache := some (op.cache.getD [] ++ rows) }) ⟨hc, h.groups⟩ hi hc) ?_
    rintro op1 w1 ⟨a1, a2, a3, a4⟩
    have h2 : OpFit s { op1 with cache := none } := ⟨by simp, a1.groups⟩
    split
    · exact (finishIndex_total hk hn h2).imp (fun _ _ hx => ⟨hx.1, hx.2.1.trans a3⟩) (fun _ h => h)
    · exact Post.pure ⟨h2, a3⟩
  · exact Post.pure ⟨⟨hc, h.groups⟩, rfl⟩

/-- A logical row that fits the schema and has no key that is null or NaN. -/
structure Takes (s : Schema) (r : Row) : Prop where
  cols : ∀ c ∈ s.names, c ∈ r.cols
  index : ∀ f ∈ s.fields, f.name ∉ s.recs → f.ty.accepts (r.val f.name) = true
  recs : ∀ f ∈ s.fields, f.name ∈ s.recs → ∃ b, r.val f.name = .sc (.bytes b)
  keys : ∀ k ∈ s.pks, ∃ v, r.val k = .sc v ∧ v ≠ .nan

theorem writeNames_sub {c : String} : c ∈ s.writeNames ↔ c ∈ s.names := by
  rw [← outCols_names]
  simp only [outCols, List.mem_append, List.mem_filter]
  cases s.recs.contains c <;> simp

theorem select_cols (r : Row) (cs : List String) : (r.select cs).cols = cs := by
  simp only [Row.select, Row.cols, List.map_map]
  exact List.map_id'' (fun _ => rfl) cs

theorem write_total (hk : KeySchema s) (hlast : s.writeNames = s.names) (h : OpFit s op)
    (ha : op.addrInput = false) {data : List Row} (hd : ∀ r ∈ data, Takes s r) :
    Total (op.write E s data w) (fun op' _ => OpFit s op' ∧ op'.addrInput = false) := by
  unfold AppendOp.write
  split
  · exact Post.pure ⟨h, ha⟩
  refine Post.bind (maybeCreate_total h) ?_
  rintro op1 w1 ⟨h1, h2, h3⟩
  rw [if_pos]
  rotate_left
  · simp only [List.all_eq_true, List.contains_eq_mem, decide_eq_true_eq]
    intro r hr c hc
    exact (hd r hr).cols c (writeNames_sub.mp hc)
  simp only
  rw [if_neg (by rw [h3, ha]; simp)]
  have hnd : (s.idxNames ++ s.recNames).Nodup := by
    show s.writeNames.Nodup
    rw [hlast]; exact hk.names
  refine Post.bind (writeRecords_total hk.names s.recFields (fun f hf => hf) (List.nodup_append.mp hnd).2.1
    (done := s.idxNames) ?_ ?_ ?_) ?_
  · intro f hf hmem
    exact (List.nodup_append.mp hnd).2.2 f.name hmem f.name (List.mem_map.mpr ⟨f, hf, rfl⟩) rfl
  · intro f hf d hdm
    simp only [Schema.recFields, List.mem_filter] at hf
    exact (hd d hdm).recs f hf.1 (by simpa [Schema.isRec] using hf.2)
  · intro r hr
    obtain ⟨d, hdm, rfl⟩ := List.mem_map.mp hr
    refine ⟨select_cols _ _, ?_⟩
    intro f hf hfn
    rw [select_val hfn]
    have hnot : f.name ∉ s.recs := by
      obtain ⟨g, hg, hgn⟩ := List.mem_map.mp hfn
      simp only [Schema.idxFields, List.mem_filter, Schema.isRec] at hg
      rw [← hgn]
      simpa using hg.2
    have hrec : s.isRec f = false := by simp [Schema.isRec, hnot]
    simp only [Schema.accepts, hrec]
    exact (hd d hdm).index f hf hnot
  rintro ⟨op2, rows⟩ w2 ⟨b1, b2, b3, b4⟩
  simp only at b1 b2 b3 b4
  refine (cacheRows_total (Schema.keysLeaf_of_keysFirst hk.first) hk.fids ⟨?_, ?_⟩ (by rw [b2]; exact h2)
    ?_).imp (fun _ _ hx => ⟨hx.1, hx.2.trans (b3.trans (h3.trans ha))⟩) (fun _ h => h)
  · rw [b1]; exact h1.cache
  · rw [b2]; exact h1.groups
  · intro r hr
    have hdone : s.idxNames ++ s.recFields.map (·.name) = s.names := hlast
    rw [hdone] at b4
    obtain ⟨hc, hacc⟩ := b4.fit r hr
    refine ⟨?_, ?_⟩
    · simp only [Schema.conforms, hc, beq_self_eq_true, Bool.true_and, List.all_eq_true]
      exact fun f hf => hacc f hf (List.mem_map.mpr ⟨f, hf, rfl⟩)
    · intro k hkm
      obtain ⟨x, hx, hxv⟩ := b4.keys r hr
      obtain ⟨d, hdm, rfl⟩ := List.mem_map.mp hx
      have hki : k ∈ s.idxNames := by
        obtain ⟨f, hf, rfl⟩ := List.mem_map.mp (hk.keys k hkm)
        refine List.mem_map.mpr ⟨f, ?_, rfl⟩
        simp only [Schema.idxFields, List.mem_filter, Schema.isRec]
        exact ⟨hf, by simpa using hk.plain _ hkm⟩
      rw [hxv k (by simpa [Row.select, Row.cols] using hki), select_val hki]
      exact (hd d hdm).keys k hkm

theorem writeAll_total (hk : KeySchema s) (hlast : s.writeNames = s.names) : ∀ (tables : List (List Row))
    {w : World} {op : AppendOp} (_ : OpFit s op) (_ : op.addrInput = false)
    (_ : ∀ t ∈ tables, ∀ r ∈ t, Takes s r),
    Total (AppendOp.writeAll E s op tables w) (fun op' _ => OpFit s op' ∧ op'.addrInput = false)
  | [], _, _, h, ha, _ => Post.pure ⟨h, ha⟩
  | t :: ts, w, op, h, ha, ht => by
    unfold AppendOp.writeAll
    refine Post.bind (write_total hk hlast h ha (ht t (by simp))) ?_
    rintro op' w' ⟨h1, h2⟩
    exact writeAll_total hk hlast ts h1 h2 (fun x hx => ht x (by simp [hx]))

theorem finishRecords_total : ∀ (fs : List Field) {w : World} {op : AppendOp} (_ : OpFit s op),
    Total (AppendOp.finishRecords fs op w) (fun op' _ => OpFit s op')
  | [], _, _, h => Post.pure h
  | f :: fs, w, op, h => by
    unfold AppendOp.finishRecords
    cases op.rws.get? f.name with
    | none => exact finishRecords_total fs h
    | some rw =>
      refine Post.bind (finishRecord_total f rw) ?_
      rintro op' w' ⟨a, b, -⟩
      exact finishRecords_total fs ⟨by rw [a]; exact h.cache, by rw [b]; exact h.groups⟩

theorem finishIndexManifest_total {w : World} (carried own : List ManifestRow) :
    Total (finishIndexManifest carried own w) (fun _ _ => True) := by
  unfold finishIndexManifest
  split
  · exact Post.pure trivial
  · refine Post.bind (Post.fresh (Q := fun _ _ => True) trivial) fun _ _ _ =>
      Post.bind (Post.put (Q := fun _ _ => True) trivial) fun _ _ _ => Post.pure trivial

theorem finishRecordManifest_total {w : World} (rows : List RecManifestRow) :
    Total (finishRecordManifest rows w) (fun _ _ => True) := by
  unfold finishRecordManifest
  split
  · exact Post.pure trivial
  · refine Post.bind (Post.fresh (Q := fun _ _ => True) trivial) fun _ _ _ =>
      Post.bind (Post.put (Q := fun _ _ => True) trivial) fun _ _ _ => Post.pure trivial

theorem finish_total (hk : s.keysLeaf = true) (hn : (s.fields.map (·.fid)).Nodup) (h : OpFit s op) :
    Total (op.finish E s w) (fun _ _ => True) := by
  unfold AppendOp.finish
  refine Post.bind (finishRecords_total _ h) ?_
  intro op1 w1 h1
  refine Post.bind (Q := fun op' _ => OpFit s op') ?_ ?_
  · unfold AppendOp.flush
    cases hc : op1.cache with
    | none => exact Post.pure h1
    | some c =>
      have hcf : ∀ r ∈ c, Fit s r := fun r hr => h1.cache r (by rw [hc]; exact hr)
      refine Post.bind (maybeCreate_total h1) ?_
      rintro op2 w2 ⟨a1, a2, a3⟩
      exact (writeTable_total a1 a2 hcf).imp (fun _ _ hx => hx.1) (fun _ h => h)
  intro op2 w2 h2
  refine Post.bind (finishIndex_total hk hn h2) fun op3 w3 _ => ?_
  refine Post.bind (finishIndexManifest_total _ _) fun _ _ _ => ?_
  refine Post.bind (finishRecordManifest_total _) fun _ _ _ => ?_
  split
  · exact Post.pure trivial
  · exact Post.pure trivial

/-- Appending rows that fit succeeds. -/
theorem appendBody_total (hk : KeySchema s) (hlast : s.writeNames = s.names) {tables : List (List Row)}
    (ht : ∀ t ∈ tables, ∀ r ∈ t, Takes s r) : Total (appendBody E s tables w) (fun _ _ => True) := by
  unfold appendBody
  refine Post.bind (writeAll_total hk hlast tables ⟨by simp, by simp⟩ rfl ht) ?_
  rintro op w' ⟨h1, -⟩
  exact finish_total (Schema.keysLeaf_of_keysFirst hk.first) hk.fids h1

end

/-! ## Commit -/

/-- The branch a handle works on exists, and is a branch. -/
def OnBranch (md : Metadata) (branch : String) : Prop :=
  branch = mainBranch ∨ ∃ r, md.refs.get? branch = some r ∧ r.kind = .branch

theorem OnBranch.head {fs : FS} {md : Metadata} {b : String} (hok : MdOK fs md) (h : OnBranch md b) :
    ∃ cur, md.currentId b = .ok cur.id ∧ md.snaps.get? cur.id = some cur ∧
      ∀ n, ∃ md1, md.advance b n = .ok (md1, cur) := by
  rcases h with rfl | ⟨r, hr, hk⟩
  · obtain ⟨cur, hc⟩ := Option.isSome_iff_exists.mp hok.cur
    have := hok.ids _ _ hc
    refine ⟨cur, by simp [Metadata.currentId, this], by rw [this]; exact hc, fun n => ?_⟩
    exact ⟨_, by simp [Metadata.advance, Metadata.snapshot, hc]; rfl⟩
  · obtain ⟨cur, hc⟩ := Option.isSome_iff_exists.mp (hok.refs _ _ hr)
    have := hok.ids _ _ hc
    have hm : b ≠ mainBranch := by
      rintro rfl
      rw [hok.noMain] at hr
      cases hr
    refine ⟨cur, ?_, by rw [this]; exact hc, fun n => ?_⟩
    · simp [Metadata.currentId, hm, Metadata.lookupRef, hr, this, Except.map]
    · exact ⟨_, by simp [Metadata.advance, hm, Metadata.lookupRef, hr, hk, Metadata.snapshot, hc]; rfl⟩

/-- A patch computed from the head of an existing branch can be committed. -/
theorem commit_total {s : Schema} {w0 w : World} {h : Handle} {p : Patch} {branch : String} {cur : Snapshot}
    (hh : HandleOK s w h) (hb : OnBranch h.md branch) (hcur : h.md.currentId branch = .ok cur.id)
    (hget : h.md.snaps.get? cur.id = some cur) (hold : SnapOK w0.fs s cur) (hp : PatchNew w0 cur.index p) :
    Total (commit p branch (h, w)) (fun _ _ => True) := by
  obtain ⟨c, h1, h2, hadv⟩ := hb.head hh.ok
  have hid : c.id = cur.id := by
    rw [hcur] at h1
    exact (Except.ok.inj h1).symm
  have hc : c = cur := by
    rw [hid, hget] at h2
    exact (Option.some.inj h2).symm
  subst hc
  unfold commit
  refine Post.bind (Q := fun a st => h = a ∧ st = (h, w)) ⟨rfl, rfl⟩ ?_
  rintro a _ ⟨ha, rfl⟩
  subst ha
  refine Post.bind (Q := fun _ st => st = (({ h with maxId := h.maxId + 1 } : Handle), w)) (by exact rfl) ?_
  rintro _ _ rfl
  obtain ⟨md1, hmd1⟩ := hadv (h.maxId + 1)
  rw [hmd1]
  refine Post.bind (Q := fun a _ => a = (md1, c)) ?_ ?_
  · exact rfl
  rintro _ ⟨h2', w2⟩ rfl
  refine Post.bind (Q := fun _ _ => True) ?_ ?_
  · exact trivial
  rintro u ⟨h3, w3⟩ -
  have hpm := patchManifests_complete (index := c.index) (recs := c.recs) (p := p) hold.nodup hp.del
    (by
      refine List.nodup_append.mpr ⟨hold.nodup.filter _, hp.idxNodup, ?_⟩
      intro a ha b hb hab
      subst hab
      obtain ⟨rows, hr, -⟩ := hold.manifests a (List.mem_filter.mp ha).1
      rw [hp.idx a hb] at hr
      cases hr)
    (by
      refine List.nodup_append.mpr ⟨hold.nodupRecs, hp.recsNodup, ?_⟩
      intro a ha b hb hab
      subst hab
      obtain ⟨rows, hr, -⟩ := hold.records a ha
      rw [hp.recs a hb] at hr
      cases hr)
  rw [hpm]
  refine Post.bind (Q := fun _ _ => True) ?_ ?_
  · exact trivial
  rintro ⟨idx, rc⟩ ⟨h4, w4⟩ -
  refine Post.bind (Q := fun _ _ => True) ?_ ?_
  · cases p.log with
    | none => exact trivial
    | some cl => exact trivial
  rintro log ⟨h5, w5⟩ -
  exact trivial

/-! ## Delete -/

section
variable {E : Env} {s : Schema} {w : World}

theorem writeAddr_total (hk : KeySchema s) (hlast : s.writeNames = s.names) {op : AppendOp} (h : OpFit s op)
    (ha : op.addrInput = true) {data : List Row} (hd : ∀ r ∈ data, Fit s r) :
    Total (op.write E s data w) (fun op' _ => OpFit s op' ∧ op'.addrInput = true) := by
  unfold AppendOp.write
  split
  · exact Post.pure ⟨h, ha⟩
  refine Post.bind (maybeCreate_total h) ?_
  rintro op1 w1 ⟨h1, h2, h3⟩
  have hcols : ∀ r ∈ data, r.cols = s.names := by
    intro r hr
    have := (hd r hr).1
    simp only [Schema.conforms, Bool.and_eq_true, beq_iff_eq] at this
    exact this.1
  rw [if_pos]
  rotate_left
  · simp only [List.all_eq_true, List.contains_eq_mem, decide_eq_true_eq]
    intro r hr c hc
    rw [hcols r hr]
    exact writeNames_sub.mp hc
  simp only
  rw [if_pos (by rw [h3, ha])]
  have hsel : data.map (·.select (s.idxNames ++ s.recNames)) = data := by
    show data.map (·.select s.writeNames) = data
    rw [hlast]
    refine (List.map_congr_left (g := id) fun r hr => ?_).trans (List.map_id _)
    rw [← hcols r hr]
    exact select_self (by rw [hcols r hr]; exact hk.names)
  rw [hsel]
  exact (cacheRows_total (Schema.keysLeaf_of_keysFirst hk.first) hk.fids h1 h2 hd).imp
    (fun _ _ hx => ⟨hx.1, hx.2.trans (h3.trans ha)⟩) (fun _ h => h)

theorem deleteFile_total (hk : KeySchema s) (hlast : s.writeNames = s.names) {e : Expr} {w0 : World}
    {v : List DataFile} {d : DelState} {f : DataFile} (h : DelInv E s e w0 w v d) (ho : OpFit s d.op)
    (hf : FileOK w0.fs s f) (hset : KeysSet s (fileRows w0.fs f.path)) :
    Total (deleteFile E s e d f w) (fun d' w' => OpFit s d'.op ∧ DelInv E s e w0 w' (v ++ [f]) d') := by
  refine Total.and (R := fun d' w' => DelInv E s e w0 w' (v ++ [f]) d') ?_ (deleteFile_post h hf)
  obtain ⟨g, hg, hn, hr⟩ := hf
  have hg' : w.fs.parquet f.path = some g := by
    unfold FS.parquet at hg ⊢
    cases hc : AMap.get? w0.fs f.path with
    | none => rw [hc] at hg; cases hg
    | some c =>
      rw [hc] at hg
      rw [h.op.grows.le _ _ (by cases c <;> first | rfl | cases hg) hc]
      exact hg
  have hfit : ∀ r ∈ g.flatten, Fit s r := by
    intro r hrm
    exact ⟨(hr r hrm).1, hset r (by simp [fileRows, hg, hrm])⟩
  unfold deleteFile
  refine Post.bind (Q := fun a b => w = a ∧ w = b) (Post.get ⟨rfl, rfl⟩) ?_
  rintro a b ⟨rfl, hb⟩
  subst hb
  simp only [hg']
  split
  · exact Post.pure ho
  split
  · exact Post.pure ho
  refine Post.bind (writeAddr_total hk hlast ho h.addr ?_) ?_
  · intro r hrm
    rw [survivors_map] at hrm
    exact hfit r (List.mem_filter.mp hrm).1
  rintro op' w' ⟨h1, -⟩
  exact Post.pure h1

theorem deleteLoop_total (hk : KeySchema s) (hlast : s.writeNames = s.names) {e : Expr} {w0 : World} :
    ∀ (files : List DataFile) {w : World} {v : List DataFile} {d : DelState}, DelInv E s e w0 w v d →
    OpFit s d.op → (∀ f ∈ files, FileOK w0.fs s f) → (∀ f ∈ files, KeysSet s (fileRows w0.fs f.path)) →
    Total (deleteLoop E s e d files w) (fun d' w' => OpFit s d'.op ∧ DelInv E s e w0 w' (v ++ files) d')
  | [], w, v, d, h, ho, _, _ => by
    refine Post.pure ⟨ho, ?_⟩
    simpa using h
  | f :: files, w, v, d, h, ho, hf, hset => by
    unfold deleteLoop
    refine Post.bind (deleteFile_total hk hlast h ho (hf f (by simp)) (hset f (by simp))) ?_
    rintro d' w' ⟨h1, h2⟩
    have := deleteLoop_total hk hlast files h2 h1 (fun x hx => hf x (by simp [hx]))
      (fun x hx => hset x (by simp [hx]))
    simpa using this

theorem deletedManifests_total {m : AMap Nat Path} : ∀ {ns : List Nat}, (∀ n ∈ ns, (m.get? n).isSome) →
    ∃ ps, deletedManifests m ns = .ok ps
  | [], _ => ⟨[], rfl⟩
  | n :: ns, h => by
    obtain ⟨q, hq⟩ := Option.isSome_iff_exists.mp (h n (by simp))
    obtain ⟨ps, hps⟩ := deletedManifests_total (ns := ns) (fun x hx => h x (by simp [hx]))
    exact ⟨q :: ps, by simp [deletedManifests, hq, hps]⟩

/-- A delete over files with rows and without null keys succeeds. -/
theorem deleteFiles_total (hk : KeySchema s) (hlast : s.writeNames = s.names) {e : Expr} {index : List Path}
    {fset : FileSet} (hf : w.Fresh) (hok : ∀ q ∈ index, ManifestOK w.fs s q)
    (hset : KeysSet s (physRows w.fs index)) (hne : fset.files ≠ [])
    (hrows : ∀ q ∈ index, ∀ m ∈ entriesOf w.fs q, fileRows w.fs m.file ≠ [])
    (hfile : ∀ f ∈ fset.files, ∃ q ∈ index, ∃ m ∈ entriesOf w.fs q, ∃ n,
      f = toDataFile n m ∧ 1 ≤ n ∧ fset.manifests.get? n = some q) :
    Total (deleteFiles E s fset e w) (fun _ _ => True) := by
  have hfOK : ∀ f ∈ fset.files, FileOK w.fs s f := by
    intro f hfm
    obtain ⟨q, hq, m, hm, n, rfl, -, -⟩ := hfile f hfm
    exact ((hok q hq).entry hm).fileOK n
  have hfset : ∀ f ∈ fset.files, KeysSet s (fileRows w.fs f.path) := by
    intro f hfm r hr
    obtain ⟨q, hq, m, hm, n, rfl, -, -⟩ := hfile f hfm
    exact hset r (List.mem_flatMap.mpr ⟨q, hq, List.mem_flatMap.mpr ⟨m, hm, hr⟩⟩)
  unfold deleteFiles
  have hval : validateFiles fset = true := by
    unfold validateFiles
    simp only [Bool.and_eq_true, List.all_eq_true, bne_iff_ne, ne_eq, decide_eq_true_eq]
    constructor
    · intro f hfm
      obtain ⟨q, hq, m, hm, n, rfl, h2, -⟩ := hfile f hfm
      obtain ⟨g, hg, hn, -⟩ := hfOK _ hfm
      refine ⟨?_, ?_⟩
      · rw [hn]
        have := hrows q hq m hm
        intro h0
        apply this
        simp only [toDataFile] at hg
        simp only [fileRows, hg, Option.getD_some]
        exact List.eq_nil_of_length_eq_zero (by omega)
      · simp only [toDataFile]; omega
    · obtain ⟨f, hfm⟩ := List.exists_mem_of_ne_nil _ hne
      obtain ⟨q, -, m, -, n, -, -, h3⟩ := hfile f hfm
      cases hm : fset.manifests with
      | nil => rw [hm] at h3; cases h3
      | cons a l => simp
  rw [hval]
  simp only [Bool.not_true, Bool.false_eq_true, ite_false]
  refine Post.bind (deleteLoop_total hk hlast _ (DelInv.init hf) ⟨by simp, by simp⟩ hfOK hfset) ?_
  rintro d w1 ⟨h1, h2⟩
  rw [List.nil_append] at h2
  split
  · exact Post.pure trivial
  have hmids : ∀ n ∈ E.setOrder d.mids, ∃ q ∈ index, fset.manifests.get? n = some q := by
    intro n hn
    obtain ⟨f, hfm, rfl⟩ := (h2.mids n).mp ((E.setOrder_perm _).mem_iff.mp hn)
    obtain ⟨q, hq, m, -, n, rfl, -, h3⟩ := hfile f (List.mem_filter.mp hfm).1
    exact ⟨q, hq, h3⟩
  obtain ⟨dms, hdms⟩ := deletedManifests_total (fun n hn => by
    obtain ⟨q, -, hq⟩ := hmids n hn
    rw [hq]; rfl)
  rw [hdms]
  refine Post.bind (Q := fun a b => dms = a ∧ w1 = b) ⟨rfl, rfl⟩ ?_
  rintro _ b ⟨ha, hb⟩
  subst ha
  subst hb
  refine Post.bind (Q := fun a b => w1 = a ∧ w1 = b) (Post.get ⟨rfl, rfl⟩) ?_
  rintro a b ⟨ha, hb⟩
  subst ha
  subst hb
  rw [manifestRows_eq (fun q hq => by
    have hm := deletedManifests_ok hdms
    have : some q ∈ dms.map some := List.mem_map.mpr ⟨q, hq, rfl⟩
    rw [hm] at this
    obtain ⟨n, hn, hnq⟩ := List.mem_map.mp this
    obtain ⟨q', hq', hg⟩ := hmids n hn
    rw [hnq] at hg
    obtain rfl := Option.some.inj hg
    obtain ⟨rows, hr, -⟩ := (hok q hq').mono h2.op.grows.le
    rw [hr]; rfl)]
  refine Post.bind (Q := fun _ b => w1 = b) rfl ?_
  intro rows b hb
  subst hb
  refine Post.bind (finish_total (Schema.keysLeaf_of_keysFirst hk.first) hk.fids
    (op := { d.op with carried := d.op.carried ++ _ }) ⟨h1.cache, h1.groups⟩) ?_
  intro rp w2 _
  exact Post.pure trivial

/-- The files of a snapshot that a manifest filter keeps. -/
theorem visited_file {fs : FS} {mf : Option MExpr} {index : List Path} : ∀ f ∈ (visited fs mf index).files,
    ∃ q ∈ index, ∃ m ∈ entriesOf fs q, ∃ n,
      f = toDataFile n m ∧ 1 ≤ n ∧ (visited fs mf index).manifests.get? n = some q := by
  intro f hfm
  obtain ⟨q, hq, m, hm, n, h1, h2, h3⟩ := packFiles_mem hfm
  exact ⟨q, (List.mem_filter.mp hq).1, m, (List.mem_filter.mp hm).1, n, h1, h2, h3⟩

/-- A delete over the files kept by a manifest filter succeeds. -/
theorem deleteSet_total (hk : KeySchema s) (hlast : s.writeNames = s.names) {e : Expr} {index : List Path}
    {mf : Option MExpr} (hf : w.Fresh) (hok : ∀ q ∈ index, ManifestOK w.fs s q)
    (hset : KeysSet s (physRows w.fs index)) (hne : (visited w.fs mf index).files ≠ [])
    (hrows : ∀ q ∈ index, ∀ m ∈ entriesOf w.fs q, fileRows w.fs m.file ≠ []) :
    Total (deleteFiles E s (visited w.fs mf index) e w) (fun _ _ => True) :=
  deleteFiles_total hk hlast hf hok hset hne hrows visited_file

/-- An insert of rows that fit, with new keys, succeeds. -/
theorem insertBody_total (hk : KeySchema s) (hlast : s.writeNames = s.names) {h : Handle} {cur : Snapshot}
    (hf : w.Fresh) (hh : HandleOK s w h) (hs : h.snapshot none = .ok cur) {mode : InsertMode} {data : List Row}
    (hd : data ≠ []) (ht : ∀ r ∈ data, Takes s r) (hnd : (data.map (keyOf s.pks)).Nodup)
    (hnew : mode = .insert → ∀ r ∈ physRows w.fs cur.index, keyOf s.pks r ∉ data.map (keyOf s.pks))
    (hup : mode = .upsert → KeysSet s (physRows w.fs cur.index) ∧
      ∀ q ∈ cur.index, ∀ m ∈ entriesOf w.fs q, fileRows w.fs m.file ≠ []) :
    Total (insertBody E h mode data w) (fun p _ => p.isSome = true) := by
  suffices hs' : Total (insertBody E h mode data w) (fun _ _ => True) by
    refine (hs'.and (insertBody_post hf hh mode data)).imp ?_ (fun _ h => h)
    rintro p w' ⟨-, -, -, hx⟩
    rcases hx with ⟨hx, -⟩ | ⟨-, snap, e, mf, -, hout⟩
    · exact absurd hx hd
    · obtain ⟨w1, dp, ap, P, mf', rmf, -, -, -, rfl, hfin, hP, -, -⟩ := hout.out
      obtain ⟨q, rfl⟩ := hfin.isSome (by
        rintro rfl
        have := congrArg List.length hP
        simp only [List.map_nil, List.length_nil, List.length_map] at this
        exact hd (List.eq_nil_of_length_eq_zero this.symm))
      cases dp <;> rfl
  unfold insertBody
  rw [if_neg hd, hh.schema]
  obtain ⟨e, he⟩ := primaryKeyFilter_total hk.some hd
    (fun r hr k hkm => (ht r hr).cols k (hk.keys k hkm)) (fun r hr k hkm => ((ht r hr).keys k hkm).imp fun _ h => h.1) hnd
  rw [he]
  refine Post.bind (Q := fun a b => a = some e ∧ w = b) ⟨rfl, rfl⟩ ?_
  rintro _ b ⟨rfl, hb⟩
  subst hb
  refine Post.bind (Q := fun a b => w = a ∧ w = b) (Post.get ⟨rfl, rfl⟩) ?_
  rintro a b ⟨ha, hb⟩
  subst ha
  subst hb
  obtain ⟨hke, hsem, -, -, -⟩ := primaryKeyFilter_sem he E.I
  obtain ⟨mf, hmf⟩ := (hk.fits hke).filter
  have hman := (snapshot_manifests hh hs).manifests
  have hdf : dataFiles w.fs h (some e) none = .ok (visited w.fs mf cur.index) :=
    dataFiles_eq (fs := w.fs) (filter := some e) hs (by rw [hh.schema]; exact hmf)
      (by rw [hh.schema]; exact hman)
  rw [hdf]
  refine Post.bind (Q := fun a b => a = visited w.fs mf cur.index ∧ w = b) ⟨rfl, rfl⟩ ?_
  rintro _ b ⟨rfl, hb⟩
  subst hb
  refine Post.bind (Q := fun _ _ => True) ?_ ?_
  · split
    · exact Post.pure trivial
    rename_i hne
    cases mode with
    | upsert => exact deleteSet_total hk hlast hf hman (hup rfl).1 hne (hup rfl).2
    | insert =>
      have hfiles : ∀ f ∈ (visited w.fs mf cur.index).files,
          ∃ q ∈ cur.index, ∃ m ∈ entriesOf w.fs q, ∃ n, EntryOK w.fs w.fs.records s m ∧ f = toDataFile n m := by
        intro f hfm
        obtain ⟨q, hq, m, hm, n, rfl, -, -⟩ := packFiles_mem hfm
        have hq' := (List.mem_filter.mp hq).1
        have hm' := (List.mem_filter.mp hm).1
        exact ⟨q, hq', m, hm', n, (hman q hq').entry hm', rfl⟩
      obtain ⟨bs, h1, h2, -⟩ := readFiles_eq (E := E) (fs := w.fs) (s := s)
        (o := { filter := some e, fields := some s.pks }) (by simpa [ReadOpts.cols] using hk.keys) rfl
        (visited w.fs mf cur.index).files (fun f => filterRows E.I (some e) (fileRows w.fs f.path))
        (fun f hfm => by
          obtain ⟨q, hq, m, hm, n, ⟨g, hg, _⟩, rfl⟩ := hfiles f hfm
          simp [toDataFile, hg])
        (fun f hfm => by
          obtain ⟨q, hq, m, hm, n, -, rfl⟩ := hfiles f hfm
          rfl)
        (fun f hfm r hr => by
          obtain ⟨q, hq, m, hm, n, hm', rfl⟩ := hfiles f hfm
          exact fileRows_mem hm' r (filterRows_subset r hr))
      have hno : (visited w.fs mf cur.index).files.flatMap
          (fun f => filterRows E.I (some e) (fileRows w.fs f.path)) = [] := by
        rw [List.flatMap_eq_nil_iff]
        intro f hfm
        obtain ⟨q, hq, m, hm, n, -, rfl⟩ := hfiles f hfm
        simp only [filterRows, List.filter_eq_nil_iff]
        intro r hr hh
        have htr : e.truth E.I r = some true := by simpa [Expr.holds] using hh
        obtain ⟨d, hdm, hde, -⟩ := (hsem r).mp htr
        exact hnew rfl r (List.mem_flatMap.mpr ⟨q, hq, List.mem_flatMap.mpr ⟨m, hm, hr⟩⟩)
          (List.mem_map.mpr ⟨d, hdm, hde⟩)
      rw [hno, List.map_nil, List.flatten_eq_nil_iff] at h2
      have hfm : filterMatched E w.fs s (visited w.fs mf cur.index).files e = .ok false := by
        unfold filterMatched
        rw [h1]
        simp only [Except.ok.injEq, List.any_eq_false]
        intro b hb
        simp [h2 b hb]
      simp only [hfm]
      exact trivial
  rintro dp w1 -
  refine Post.bind (Q := fun op _ => OpFit s op) ((write_total hk hlast ⟨by simp, by simp⟩ rfl ht).imp
    (fun _ _ h => h.1) (fun _ h => h)) ?_
  intro op w2 hop
  exact Post.bind (finish_total (Schema.keysLeaf_of_keysFirst hk.first) hk.fids hop)
    (fun _ _ _ => Post.pure trivial)

/-! ## The call -/

/-- A call whose body ends normally on the object reloaded, on an existing branch,
succeeds, or is skipped if there is nothing to do. -/
theorem exec_total_of (hn : s.names.Nodup) {md : Metadata} {h : Handle} (hw : WOK s w md) (hh : HandleOK s w h)
    {m : Mutation} (hadm : m.Admissible s w.fs) (hb : OnBranch md h.branch) {R : Option Patch → Prop}
    (hbody : ∀ h1, h1.md = md → h1.branch = h.branch → HandleOK s w h1 →
      (∃ b, reload (h, w) = (.ok b, (h1, w))) → Total (m.body E h1 w) (fun p _ => R p)) :
    ∃ p h' w', R p ∧
      exec E (.mutate m) h w = (.job (if p.isSome then .succeeded else .skipped), h', w') := by
  suffices hs : Total (runMutation E m (h, w)) (fun j _ => ∃ p, R p ∧
      j = if p.isSome then Job.succeeded else .skipped) by
    obtain ⟨j, ⟨h', w'⟩, h1, p, hp, rfl⟩ := hs.get
    refine ⟨p, h', w', hp, ?_⟩
    simp only [exec, mutate, h1]
  obtain ⟨cur, hid, hget, -⟩ := hb.head hw.ok
  unfold runMutation
  refine Post.bind (Q := fun t st => st.2 = w ∧ st.1.md = md ∧ st.1.branch = h.branch ∧
        HandleOK s w st.1 ∧ t.branch = h.branch ∧ t.start = cur.id ∧
        ∃ b, reload (h, w) = (.ok b, (st.1, w))) ?_ ?_
  · obtain ⟨b, h', h1, h2, h3, h4, -, -, -, -⟩ := reload_eq hw hh
    unfold Txn.enter
    refine Post.bind (Q := fun a st => h = a ∧ st = (h, w)) ⟨rfl, rfl⟩ ?_
    rintro a _ ⟨ha, rfl⟩
    subst ha
    refine Post.bind (Q := fun _ st => st = (h', w)) (by rw [h1]; exact rfl) ?_
    rintro b' _ rfl
    refine Post.bind (Q := fun a st => h' = a ∧ st = (h', w)) ⟨rfl, rfl⟩ ?_
    rintro a _ ⟨ha, rfl⟩
    subst ha
    rw [h2, hid]
    exact ⟨rfl, h2, h3, h4, rfl, rfl, b, h1⟩
  rintro t ⟨h1, w1⟩ ⟨rfl, h2, h3, h4, h5, h6, hre⟩
  simp only at h2 h3 h4 h5 h6 hre
  refine Post.bind (Q := fun a st => h1 = a ∧ st = (h1, w1)) ⟨rfl, rfl⟩ ?_
  rintro a _ ⟨ha, rfl⟩
  subst ha
  obtain ⟨p, w2, h7, h8⟩ := (hbody h1 h2 h3 h4 hre).get
  have hpost := Post.elim (body_post (E := E) hw.fresh h4 hn m hadm) h7
  refine Post.bind (Q := fun a st => p = a ∧ st = (h1, w2)) ?_ ?_
  · unfold liftW
    simp only [h7]
    exact ⟨rfl, rfl⟩
  rintro _ _ ⟨hx, rfl⟩
  subst hx
  obtain ⟨hg, hf2, hpp⟩ := hpost
  have hw2 := hw.grows hg
  have hh2 := h4.mono hg.le
  obtain ⟨b, h', e1, e2, e3, e4, -, e5, -, -⟩ := reload_eq hw2 hh2
  unfold Txn.commit
  refine Post.bind (Q := fun a st => a = true ∧ st = (h', w2)) ?_ ?_
  · unfold Txn.check
    refine Post.bind (Q := fun _ st => st = (h', w2)) (by rw [e1]; exact rfl) ?_
    rintro b' _ rfl
    refine Post.bind (Q := fun a st => h' = a ∧ st = (h', w2)) ⟨rfl, rfl⟩ ?_
    rintro a _ ⟨ha, rfl⟩
    subst ha
    rw [e2, h5, hid]
    exact ⟨by simp [h6], rfl⟩
  rintro _ _ ⟨rfl, rfl⟩
  simp only [Bool.not_true, Bool.false_eq_true, ite_false]
  cases p with
  | none => exact Post.pure ⟨none, h8, rfl⟩
  | some q =>
    have hsnap : h1.snapshot none = .ok cur := by
      simp [Handle.snapshot, h2, h3, hid, Metadata.snapshot, hget]
    have hpn := (hpp q rfl).2 cur hsnap
    refine Post.bind (commit_total (w0 := w1) e4 (by rw [e2, h5]; exact hb) (by rw [e2, h5]; exact hid)
      (by rw [e2]; exact hget) (by rw [← hw.schema]; exact hw.ok.snaps _ _ hget) hpn) ?_
    intro _ _ _
    exact Post.pure ⟨some q, h8, rfl⟩

/-- The same where the body ends normally on every object with the stored metadata. -/
theorem exec_total (hn : s.names.Nodup) {md : Metadata} {h : Handle} (hw : WOK s w md) (hh : HandleOK s w h)
    {m : Mutation} (hadm : m.Admissible s w.fs) (hb : OnBranch md h.branch) {R : Option Patch → Prop}
    (hbody : ∀ h1, h1.md = md → h1.branch = h.branch → HandleOK s w h1 → Total (m.body E h1 w) (fun p _ => R p)) :
    ∃ p h' w', R p ∧
      exec E (.mutate m) h w = (.job (if p.isSome then .succeeded else .skipped), h', w') :=
  exec_total_of hn hw hh hadm hb (fun h1 a b c _ => hbody h1 a b c)

/-- A call whose body raises a library error fails. -/
theorem exec_failed {md : Metadata} {h : Handle} (hw : WOK s w md) (hh : HandleOK s w h)
    {m : Mutation} (hb : OnBranch md h.branch) {er : Err} (her : er.caught = true)
    (hbody : ∀ h1, h1.md = md → h1.branch = h.branch → HandleOK s w h1 → ∃ w1, m.body E h1 w = (.error er, w1)) :
    ∃ h' w', exec E (.mutate m) h w = (.job .failed, h', w') := by
  obtain ⟨cur, hid, hget, -⟩ := hb.head hw.ok
  obtain ⟨b, h1, e1, e2, e3, e4, -, -, -, -⟩ := reload_eq hw hh
  obtain ⟨w1, h3⟩ := hbody h1 e2 e3 e4
  refine ⟨h1, w1, ?_⟩
  have hid' : h1.md.currentId h.branch = .ok cur.id := by rw [e2]; exact hid
  have : runMutation E m (h, w) = (.error er, (h1, w1)) := by
    simp [runMutation, Txn.enter, self, liftW, bind, M.andThen, M.get, M.lift, pure, M.ret, e1, hid', h3]
  simp [exec, mutate, this, her]

end

end Space
