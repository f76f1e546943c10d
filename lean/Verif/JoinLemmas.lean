import Verif.JoinFold

/-!
# Key ranges of joins, and joining range by range
-/

set_option autoImplicit false

namespace Space

open List

/-! ## Lists -/

theorem flatMap_append_perm {α β : Type} (f g : α → List β) : ∀ l : List α,
    l.flatMap (fun x => f x ++ g x) ~ l.flatMap f ++ l.flatMap g
  | [] => .refl _
  | x :: l => by
    simp only [List.flatMap_cons]
    refine ((flatMap_append_perm f g l).append_left _).trans ?_
    simp only [List.append_assoc]
    refine List.Perm.append_left _ ?_
    rw [← List.append_assoc, ← List.append_assoc]
    exact List.Perm.append_right _ List.perm_append_comm

/-- Doing something for every part and every element of it is doing it for every element as
often as it is in a part. -/
theorem parts_swap {ι α β : Type} (p : ι → α → Bool) (f : α → List β) (l : List α) : ∀ parts : List ι,
    parts.flatMap (fun i => (l.filter (p i)).flatMap f) ~
      l.flatMap (fun x => (parts.filter (fun i => p i x)).flatMap (fun _ => f x))
  | [] => by simp
  | i :: parts => by
    simp only [List.flatMap_cons]
    refine ((parts_swap p f l parts).append_left _).trans ?_
    refine List.Perm.trans ?_ (List.Perm.trans (flatMap_append_perm
      (fun x => if p i x then f x else []) (fun x => (parts.filter (fun i => p i x)).flatMap (fun _ => f x)) l).symm ?_)
    · refine List.Perm.append_right _ (.of_eq ?_)
      induction l with
      | nil => rfl
      | cons x l ih =>
        rw [List.filter_cons, List.flatMap_cons, ← ih]
        split <;> simp_all
    · refine .of_eq (congrArg (fun f => List.flatMap f l) (funext fun x => ?_))
      rw [List.filter_cons]
      split <;> simp_all

theorem joinTables_perm {key : String} {outs : List String} {l l' r r' : List Row} (hl : l ~ l') (hr : r ~ r') :
    joinTables key outs l r ~ joinTables key outs l' r' := by
  unfold joinTables
  refine (hl.flatMap_right _).trans ?_
  clear hl
  induction l' with
  | nil => exact .refl _
  | cons a l' ih => exact ((hr.filter _).map _).append ih

/-! ## Ranges -/

/-- The key lies in the range. -/
def KeyRange.has (ρ : KeyRange) (v : Val) : Bool :=
  match v with
  | .sc k => decide (k ≠ .nan ∧ ρ.min ≠ .nan ∧ ρ.max ≠ .nan) && decide (ρ.min ≤ k) && (if ρ.includeMax then decide (k ≤ ρ.max) else decide (k < ρ.max))
  | _ => false

theorem KeyRange.filter_holds (I : Interp) (ρ : KeyRange) (key : String) (r : Row) :
    (ρ.filter key).holds I r = ρ.has (r.val key) := by
  have hand : Cmp.ofName "and" = none := rfl
  simp only [KeyRange.filter, Expr.holds, Expr.truth, Expr.eval, KeyRange.has]
  cases ρ.includeMax <;>
  · simp only [if_true, Bool.false_eq_true, if_false, String.reduceEq, Cmp.ofName, asBool_ofBool]
    cases r.val key <;> simp [Val.scalar?, Cmp.eval, Cmp.holds, kAnd] 
    all_goals
      rename_i k
      by_cases n1 : k = .nan <;> by_cases n2 : ρ.min = .nan <;> by_cases n3 : ρ.max = .nan <;>
      by_cases h1 : ρ.min ≤ k <;> by_cases h2 : k ≤ ρ.max <;> by_cases h3 : k < ρ.max <;>
        simp [Cmp.test, n1, n2, n3, h1, h2, h3]

theorem KeyRange.filter_cols (ρ : KeyRange) (key : String) : ∀ c ∈ (ρ.filter key).cols, c = key := by
  intro c hc
  simpa [KeyRange.filter, Expr.cols] using hc

theorem KeyRange.filter_safe (ρ : KeyRange) (key : String) (s : Schema) :
    (ρ.filter key).pruneSafe s = true := by
  simp only [KeyRange.filter, Expr.pruneSafe, Expr.isKeyOf]
  cases ρ.includeMax <;> simp

/-- The cell is not NaN. -/
def Val.num (v : Val) : Bool := v != .sc .nan

theorem KeyRange.has_num {ρ : KeyRange} {v : Val} (h : ρ.has v = true) : v.num = true := by
  unfold KeyRange.has at h
  cases v with
  | sc k =>
    simp only [Bool.and_eq_true, decide_eq_true_eq] at h
    simp [Val.num, h.1.1.1]
  | _ => cases h

/-- Joining part by part, if every key that occurs on both sides is in exactly one part. -/
theorem join_parts' {key : String} {outs : List String} {a b : List Row} {ρs : List KeyRange}
    (hp : ∀ x ∈ a, ∀ y ∈ b, x.val key ≠ .null → x.val key = y.val key →
      (ρs.filter (fun ρ => ρ.has (x.val key))).length = 1) :
    ρs.flatMap (fun ρ => joinTables key outs (a.filter (fun x => ρ.has (x.val key))) (b.filter (fun y => ρ.has (y.val key)))) ~
      joinTables key outs a b := by
  have e : ∀ ρ : KeyRange, joinTables key outs (a.filter (fun x => ρ.has (x.val key))) (b.filter (fun y => ρ.has (y.val key))) =
      (a.filter (fun x => ρ.has (x.val key))).flatMap (fun x =>
        (b.filter fun y => decide (x.val key ≠ .null) && decide (x.val key = y.val key)).map fun y =>
          outs.map fun c => (c, if x.cols.contains c then x.val c else y.val c)) := by
    intro ρ
    unfold joinTables
    refine flatMap_congr' fun x hx => ?_
    congr 1
    rw [List.filter_filter]
    refine List.filter_congr fun y _ => ?_
    have hx := (List.mem_filter.mp hx).2
    by_cases h : x.val key = y.val key
    · rw [← h, hx, Bool.and_true]
    · simp [h]
  simp only [e]
  refine (parts_swap (fun (ρ : KeyRange) (x : Row) => ρ.has (x.val key)) _ a ρs).trans (.of_eq ?_)
  unfold joinTables
  refine flatMap_congr' fun x hx => ?_
  cases hm : (b.filter fun y => decide (x.val key ≠ .null) && decide (x.val key = y.val key)) with
  | nil => simp
  | cons y ys =>
    have hy := List.mem_filter.mp (hm ▸ List.mem_cons_self : y ∈ b.filter _)
    simp only [Bool.and_eq_true, decide_eq_true_eq] at hy
    have := hp x hx y hy.1 hy.2.1 hy.2.2
    obtain ⟨ρ, hρ⟩ := List.length_eq_one_iff.mp this
    rw [hρ]
    simp

/-- Joining part by part, if every key other than NaN that occurs on both sides is in exactly one
part: rows with NaN are in no part. -/
theorem join_parts {key : String} {outs : List String} {a b : List Row} {ρs : List KeyRange}
    (hp : ∀ x ∈ a, ∀ y ∈ b, x.val key ≠ .null → (x.val key).num = true → x.val key = y.val key →
      (ρs.filter (fun ρ => ρ.has (x.val key))).length = 1) :
    ρs.flatMap (fun ρ => joinTables key outs (a.filter (fun x => ρ.has (x.val key))) (b.filter (fun y => ρ.has (y.val key)))) ~
      joinTables key outs (a.filter fun x => (x.val key).num) b := by
  refine List.Perm.trans (.of_eq ?_) (join_parts' (a := a.filter fun x => (x.val key).num) fun x hx y hy h1 h2 =>
    hp x (List.mem_filter.mp hx).1 y hy h1 (List.mem_filter.mp hx).2 h2)
  refine flatMap_congr' fun ρ _ => ?_
  rw [List.filter_filter]
  congr 1
  refine List.filter_congr fun x _ => ?_
  cases h : ρ.has (x.val key) with
  | false => rfl
  | true => rw [KeyRange.has_num h]; rfl

/-! ## Key ranges from statistics -/

theorem minMaxOf_fst_le {vs : List (Option Scalar)} {x : Scalar} (h : some x ∈ vs) (hn : x ≠ .nan) :
    ∃ mn mx, minMaxOf vs = (some mn, some mx) ∧ (mn ≤ x ∧ x ≤ mx) ∧ mn ≠ .nan ∧ mx ≠ .nan := by
  rcases minMaxOf_shape vs with ⟨-, h2⟩ | ⟨mn, mx, h1, -, -, h3, h2⟩
  · rcases h2 _ h with h | h
    · cases h
    · cases h; exact absurd rfl hn
  · exact ⟨mn, mx, h1, h2 x h hn, h3⟩

theorem manifestRange_bounds {fid : Nat} {rows : List ManifestRow} {st : Option Scalar × Option Scalar}
    (h : manifestRange fid rows = .ok st) {m : ManifestRow} (hm : m ∈ rows) {x mn mx : Scalar}
    (hs : m.stats.get? fid = some (some mn, some mx)) (h1 : mn ≤ x) (h2 : x ≤ mx) (hn : mn ≠ .nan ∧ mx ≠ .nan) :
    StOK st x := by
  unfold manifestRange at h
  split at h
  · cases h
    obtain ⟨a, b, e1, ⟨h3, -⟩, n1, -⟩ := minMaxOf_fst_le (vs := rows.map (fun m => (m.stats.get? fid).bind (·.1)))
      (x := mn) (List.mem_map.mpr ⟨m, hm, by rw [hs]; rfl⟩) hn.1
    obtain ⟨c, d, e2, ⟨-, h4⟩, -, n2⟩ := minMaxOf_fst_le (vs := rows.map (fun m => (m.stats.get? fid).bind (·.2)))
      (x := mx) (List.mem_map.mpr ⟨m, hm, by rw [hs]; rfl⟩) hn.2
    rw [e1, e2]
    exact ⟨a, d, rfl, Scalar.le_trans h3 h1, Scalar.le_trans h2 h4, n1, n2⟩
  · cases h

/-- The bounds of a manifest are not NaN. -/
theorem manifestRange_num {fid : Nat} {rows : List ManifestRow} {st : Option Scalar × Option Scalar}
    (h : manifestRange fid rows = .ok st) : StNum st := by
  unfold manifestRange at h
  split at h
  · cases h
    constructor
    · intro hx
      rcases minMaxOf_shape (rows.map (fun m => (m.stats.get? fid).bind (·.1))) with ⟨e, -⟩ | ⟨a, b, e, -, -, hn, -⟩
      · rw [e] at hx; cases hx
      · rw [e] at hx; cases hx; exact hn.1 rfl
    · intro hx
      rcases minMaxOf_shape (rows.map (fun m => (m.stats.get? fid).bind (·.2))) with ⟨e, -⟩ | ⟨a, b, e, -, -, hn, -⟩
      · rw [e] at hx; cases hx
      · rw [e] at hx; cases hx; exact hn.2 rfl
  · cases h

theorem rangeLoop_bounds {fs : FS} {fid : Nat} {x : Scalar} : ∀ {ps : List Path} {acc out : Option Scalar × Option Scalar},
    rangeLoop fs fid ps acc = .ok out → StNum acc →
    (StOK acc x ∨ ∃ p ∈ ps, ∃ m ∈ entriesOf fs p, ∃ mn mx, m.stats.get? fid = some (some mn, some mx) ∧ mn ≤ x ∧ x ≤ mx ∧
      mn ≠ .nan ∧ mx ≠ .nan) →
    StOK out x
  | [], acc, out, h, hn, hx => by
    cases h
    rcases hx with hx | ⟨p, hp, -⟩
    · exact hx
    · cases hp
  | p :: ps, acc, out, h, hn, hx => by
    rw [rangeLoop] at h
    cases hp : fs.imanifest p with
    | none => rw [hp] at h; cases h
    | some rows =>
      rw [hp] at h
      simp only at h
      cases hs : manifestRange fid rows with
      | error e => rw [hs] at h; cases h
      | ok st =>
        rw [hs] at h
        simp only at h
        cases ha : mergeStats acc st with
        | error e => rw [ha] at h; cases h
        | ok acc' =>
          rw [ha] at h
          refine rangeLoop_bounds h (mergeStats_num ha hn (manifestRange_num hs)) ?_
          rcases hx with hx | ⟨q, hq, m, hm, mn, mx, h1, h2, h3⟩
          · exact Or.inl (mergeStats_acc ha (manifestRange_num hs) hx)
          · rcases List.mem_cons.mp hq with rfl | hq
            · refine Or.inl (mergeStats_new ha hn (manifestRange_bounds hs ?_ h1 h2 h3.1 h3.2))
              simpa [entriesOf, hp] using hm
            · exact Or.inr ⟨q, hq, m, hm, mn, mx, h1, h2, h3⟩

/-- A primary key that the statistics describe: keys come before nested and record columns,
names and field ids are distinct. -/
structure KeyOf (s : Schema) (key : String) : Prop where
  first : s.keysFirst = true
  ids : (s.fields.map (·.fid)).Nodup
  distinct : s.names.Nodup
  pk : key ∈ s.pks
  name : key ∈ s.names

theorem KeyOf.field {s : Schema} {key : String} (h : KeyOf s key) :
    ∃ f ∈ s.fields, f.name = key ∧ s.simple f = true := by
  obtain ⟨f, hf, rfl⟩ := List.mem_map.mp h.name
  obtain ⟨pre, post, e⟩ := List.append_of_mem hf
  exact ⟨f, hf, rfl, (Schema.keysLeaf_split (Schema.keysLeaf_of_keysFirst h.first) e (by simpa using h.pk)).1⟩

theorem KeyOf.plain {s : Schema} {key : String} (h : KeyOf s key) : key ∉ s.recs := by
  obtain ⟨f, -, rfl, h2⟩ := h.field
  simp only [Schema.simple, Schema.isRec, Bool.and_eq_true, Bool.not_eq_true', List.contains_eq_mem,
    decide_eq_false_iff_not] at h2
  exact h2.1

theorem KeyOf.fits {s : Schema} {key : String} (h : KeyOf s key) (ρ : KeyRange) : FilterFits s (ρ.filter key) := by
  refine ⟨⟨Schema.keysLeaf_of_keysFirst h.first, h.ids, ρ.filter_safe key _, fun c hc => ?_⟩, fun c hc => ?_,
    fun c hc => ?_⟩
  all_goals rw [ρ.filter_cols key c hc]
  · exact resolve_key h.first h.distinct h.pk h.name
  · exact h.name
  · exact h.plain

/-- A stored key is null or a scalar. -/
theorem KeyOf.scalar {s : Schema} {key : String} (h : KeyOf s key) {L : Look} {r : Row} (hr : RowOK L s r) :
    r.val key = .null ∨ ∃ k, r.val key = .sc k := by
  obtain ⟨f, hf, rfl, h2⟩ := h.field
  have h3 := hr.1
  simp only [Schema.conforms, Bool.and_eq_true, List.all_eq_true] at h3
  have h4 := h3.2 f hf
  simp only [Schema.simple, Bool.and_eq_true, Bool.not_eq_true'] at h2
  simp only [Schema.accepts, h2.1, Bool.false_eq_true, if_false] at h4
  cases hv : r.val f.name with
  | null => exact Or.inl rfl
  | sc k => exact Or.inr ⟨k, rfl⟩
  | addr p i => rw [hv] at h4; cases ht : f.ty <;> rw [ht] at h4 <;> cases h4
  | struct ls =>
    rw [hv] at h4
    cases ht : f.ty <;> rw [ht] at h4 h2 <;> first | cases h4 | cases h2.2

theorem deref_key {L : Look} {s : Schema} {c : String} (h : c ∉ s.recs) (r : Row) : (deref L s r).val c = r.val c := by
  rw [deref_val]
  simp [h]

theorem physRows_mem {fs : FS} {ps : List Path} {r : Row} (h : r ∈ physRows fs ps) :
    ∃ p ∈ ps, ∃ m ∈ entriesOf fs p, r ∈ fileRows fs m.file := by
  obtain ⟨p, hp, h⟩ := List.mem_flatMap.mp h
  obtain ⟨m, hm, h⟩ := List.mem_flatMap.mp h
  exact ⟨p, hp, m, hm, h⟩

/-- Every key of a snapshot lies within the range computed from the manifests. -/
theorem rangeLoop_keys {fs : FS} {s : Schema} {key : String} (hk : KeyOf s key) {snap : Snapshot} (hok : SnapOK fs s snap)
    {fid : Nat} (hf : s.fidOf key = some fid) {out : Option Scalar × Option Scalar}
    (h : rangeLoop fs fid snap.index (none, none) = .ok out) {r : Row} (hr : r ∈ physRows fs snap.index) {k : Scalar}
    (hv : r.val key = .sc k) (hn : k ≠ .nan) : StOK out k := by
  obtain ⟨p, hp, m, hm, hr⟩ := physRows_mem hr
  obtain ⟨g, h1, -, h2, hrows⟩ := (hok.manifests p hp).entry hm
  refine rangeLoop_bounds h (by simp [StNum]) (Or.inr ⟨p, hp, m, hm, ?_⟩)
  have := fileStats_bounds (Schema.keysLeaf_of_keysFirst hk.first) hk.ids h2 (r := r)
    (by simpa [fileRows, h1] using hr)
  have := this (hrows r (by simpa [fileRows, h1] using hr)).1 key hk.pk k hv fid hf
  rw [if_neg hn] at this
  exact this

/-! ## Reading the sides -/

/-- A side of a join that reads as a table of its source: a dataset, or transforms that keep
the key and its field id. -/
structure SideFits (s : Schema) (g : Nat → Row → List Row) (keep : Nat → Row → Bool) (key : String) (x : JoinSide) : Prop where
  fits : x.view.Fits s g
  kept : ∀ r, ∀ r' ∈ x.view.rowsOn s g keep [r], r'.val key = r.val key
  id : x.view.keyId s key = (s.fidOf key).map some
  cols : ∀ f, x.fields = some f → ∀ c ∈ f, c ∈ x.view.cols s
  key : ∀ f, x.fields = some f → key ∈ f
  ref : x.refRead = true → ∃ d, x.view = .dataset d

/-- Reading one side on its own, through the public interface: a dataset with its fields and
references, another view followed by a selection of columns. -/
def inputRead (E : Env) (R : RayEnv) (U : UdfEnv) (ray : RayOpts) (x : JoinSide) (h : Handle) (w : World) :
    Except Err (List Row) :=
  match x.view, x.fields with
  | .dataset _, fields => viewRead E R U ray x.view h w { fields := fields, refRead := x.refRead } none
  | _, none => viewRead E R U ray x.view h w { refRead := x.refRead } none
  | _, some fields => (viewRead E R U ray x.view h w { refRead := x.refRead } none).map (·.map (·.select fields))

theorem filter_select_key {key : String} {cols : List String} (hk : key ∈ cols) (ρ : KeyRange) (rows : List Row) :
    (rows.map (·.select cols)).filter (fun r => ρ.has (r.val key)) =
      (rows.filter (fun r => ρ.has (r.val key))).map (·.select cols) := by
  rw [List.filter_map]
  congr 1
  exact List.filter_congr fun r _ => by simp only [Function.comp_apply, select_val hk]

theorem readSnap_out {E : Env} {fs : FS} {s : Schema} {o : ReadOpts} {snap : Snapshot}
    (hok : SnapOK fs s snap) {mf : Option MExpr} (hm : manifestFilter s o.filter = .ok mf)
    (hc : ∀ c ∈ o.cols s, c ∈ s.names) :
    ∃ bs, readSnap E fs s o snap = .ok bs ∧
      bs.flatten = (keptRowsOf E.I fs o.filter mf snap.index).map (o.out fs s) := by
  unfold readSnap
  rw [hm]
  simp only
  obtain ⟨fset, h1, h2⟩ := snap_files (E := E) (o := o) hok (mf := mf)
  obtain ⟨bs, h3, h4⟩ := readFiles_out (E := E) (fs := fs) (o := o) hc fset.files
    (fun f => filterRows E.I o.filter (fileRows fs f.path)) (fun f hf => (h2 f hf).exists_)
    (fun f hf => (h2 f hf).visible) (fun f hf => (h2 f hf).good)
  rw [h1]
  refine ⟨bs, h3, ?_⟩
  rw [h4]
  rw [collectFiles_eq snap.index 1 fun p hp => by
    obtain ⟨rows, h, -⟩ := hok.manifests p hp
    simp [h]] at h1
  cases h1
  rw [packFiles_flatMap _ (fun m => filterRows E.I o.filter (fileRows fs m.file)) (fun _ _ => rfl)]
  rw [flatMap_filter_nil _ _ (by
    intro p hp
    have : keptEntries fs mf p = [] := by simpa using hp
    rw [this]; rfl)]
  rfl

/-- The storage serves addresses. -/
theorem raySnap_refs {E : Env} {R : RayEnv} {fs : FS} {s : Schema} {snap : Snapshot} {ray : RayOpts}
    (hR : Smooth R ray) (hok : SnapOK fs s snap) {f : Option Expr} (hf : ∀ e, f = some e → FilterFits s e)
    (batch : Nat) (at_ : List Nat) (fields : Option (List String)) (hc : ∀ c ∈ fields.getD s.names, c ∈ s.names) :
    ∃ bs, raySnap E R fs s ray at_ { filter := f, fields := fields, batch := batch, refRead := true } snap = .ok bs ∧
      bs.flatten ~ (holding E.I f (physRows fs snap.index)).map (·.select (fields.getD s.names)) := by
  have hm : ∃ mf, manifestFilter s f = .ok mf ∧ PruneOK s f := by
    cases f with
    | none => exact ⟨none, rfl, trivial⟩
    | some e =>
      obtain ⟨mf, h⟩ := (hf e rfl).filter
      exact ⟨mf, h, (hf e rfl).prune⟩
  obtain ⟨mf, hm, hp⟩ := hm
  obtain ⟨bs, h1, h2⟩ := readSnap_out (E := E)
    (o := { filter := f, fields := fields, batch := batch, refRead := true }) hok hm hc
  have key := raySnap_rows (E := E) (R := R) (o := { filter := f, fields := fields, batch := batch, refRead := true }) hok ray at_ batch
  have e2 : bs.flatten = (holding E.I f (physRows fs snap.index)).map (·.select (fields.getD s.names)) := by
    rw [h2]
    simp only
    rw [keptRowsOf_safe hok.manifests hp hm]
    cases f <;> rfl
  rw [h1] at key
  simp only at key
  rcases key with ⟨cs, h3, h4⟩ | ⟨h3, h4, e, h5, h6⟩
  · exact ⟨cs, h3, h4.trans (.of_eq e2)⟩
  · rcases hR with hR | hR
    · rw [hR] at h4; cases h4
    · rw [hR] at h5; cases h5

section
variable {E : Env} {R : RayEnv} {U : UdfEnv} {ray : RayOpts} {s : Schema} {w : World} {md : Metadata}
  {h h' : Handle} {g : Nat → Row → List Row} {key : String} {x : JoinSide} {snap : Snapshot}

/-- The rows of a side. -/
def sideRows (fs : FS) (s : Schema) (g : Nat → Row → List Row) (keep : Nat → Row → Bool) (x : JoinSide) (snap : Snapshot) :
    List Row :=
  if x.refRead then (physRows fs snap.index).map (·.select (x.fields.getD s.names))
  else
    let rows := x.view.rowsOn s g keep ((snapRows fs s snap).map (·.select s.writeNames))
    match x.fields with
    | none => rows
    | some f => rows.map (·.select (x.view.inputCols s f))

theorem KeyRange.holding (I : Interp) (key : String) (ρ : KeyRange) (rows : List Row) :
    holding I (some (ρ.filter key)) rows = rows.filter (fun r => ρ.has (r.val key)) := by
  simp only [Space.holding]
  exact List.filter_congr fun r _ => ρ.filter_holds I key r

theorem sideRead_rows (hw : WOK s w md) (hm : h'.md = md) (hb : h'.branch = h.branch) (hR : Smooth R ray)
    (hg : RowWise U g) (hk : KeyOf s key) (hx : SideFits s g U.keep key x) (ht : md.target h.branch none = .ok snap)
    (at_ : List Nat) (ρ : KeyRange) :
    ∃ rows, sideRead E R U w.fs h' ray x at_ (some (ρ.filter key)) = .ok rows ∧
      rows ~ (sideRows w.fs s g U.keep x snap).filter (fun r => ρ.has (r.val key)) := by
  have hok := (target_ok hw ht).1
  have hst : ∀ at_ o, storageBlocks E R w.fs h' ray at_ o none = raySnap E R w.fs s ray at_ o snap := by
    intro at_ o
    have := storageBlocks_target E R w.fs h' ray at_ o none
    simp only [hm, hb, hw.schema, ht] at this
    exact this
  have hfits : ∀ e, some (ρ.filter key) = some e → FilterFits s e := fun e he => by cases he; exact hk.fits ρ
  have hkw : key ∈ s.writeNames := by
    rw [← outCols_names]
    simp only [outCols, List.mem_append, List.mem_filter]
    have := hk.name
    cases s.recs.contains key <;> simp [this]
  rcases Bool.eq_false_or_eq_true x.refRead with hr | hr
  · obtain ⟨d, hd⟩ := hx.ref hr
    have hc : ∀ c ∈ x.fields.getD s.names, c ∈ s.names := by
      cases hf : x.fields with
      | none => exact fun c hc => hc
      | some f =>
        intro c hc
        have := hx.cols f hf c hc
        rwa [hd] at this
    obtain ⟨bs, h1, h2⟩ := raySnap_refs (E := E) hR hok hfits 16 at_ x.fields hc
    refine ⟨(iterBatches bs).flatten, ?_, ?_⟩
    · unfold sideRead
      simp only [hd, hr, viewBlocks, hst, h1]
    · rw [iterBatches_flatten]
      refine h2.trans (.of_eq ?_)
      rw [KeyRange.holding]
      unfold sideRows
      rw [if_pos hr, filter_select_key]
      cases hf : x.fields with
      | none => exact hk.name
      | some f => exact hx.key f hf
  · have hs : Serves E R w.fs h' ray none s { filter := some (ρ.filter key) }
        ((snapRows w.fs s snap).filter (fun r => ρ.has (r.val key))) := by
      intro at_ fields hc
      rw [hst, ← KeyRange.holding E.I]
      exact raySnap_serves hR hok hfits 16 at_ fields hc
    have hun : Unmoved E.I s g U.keep x.view (ρ.filter key) := by
      intro r r' h'
      rw [ρ.filter_holds, ρ.filter_holds, hx.kept r r' h']
    have hfil : ∀ rows : List Row, x.view.rowsOn s g U.keep (rows.filter (fun r => ρ.has (r.val key))) =
        (x.view.rowsOn s g U.keep rows).filter (fun r => ρ.has (r.val key)) := by
      intro rows
      have := rowsOn_filter hun rows
      simpa only [ρ.filter_holds] using this
    have hbase : x.view.rowsOn s g U.keep (((snapRows w.fs s snap).filter (fun r => ρ.has (r.val key))).map (·.select s.writeNames)) =
        (x.view.rowsOn s g U.keep ((snapRows w.fs s snap).map (·.select s.writeNames))).filter (fun r => ρ.has (r.val key)) := by
      rw [← filter_select_key hkw, hfil]
    cases hf : x.fields with
    | none =>
      obtain ⟨bs, h1, h2⟩ := viewBlocks_rows hg hs hx.fits at_
      refine ⟨(iterBatches bs).flatten, ?_, ?_⟩
      · unfold sideRead
        simp only [hf, hr]
        cases hv : x.view <;> rw [hv] at h1 <;> simp only at h1 ⊢ <;> rw [h1]
      · rw [iterBatches_flatten]
        refine h2.trans (.of_eq ?_)
        unfold sideRows
        rw [if_neg (by simp [hr]), hf]
        exact hbase
    | some f =>
      obtain ⟨bs, h1, h2⟩ := inputBlocks_rows (U := U) hs hx.fits (hx.cols f hf) at_ (viewBlocks_rows hg hs hx.fits at_)
      refine ⟨(iterBatches bs).flatten, ?_, ?_⟩
      · unfold sideRead
        simp only [hf, hr]
        cases hv : x.view <;> rw [hv] at h1 <;> simp only [inputBlocks] at h1 ⊢ <;> rw [h1]
      · rw [iterBatches_flatten]
        refine h2.trans (.of_eq ?_)
        unfold sideRows
        rw [if_neg (by simp [hr]), hf, hbase]
        exact (filter_select_key (mem_inputCols.mpr (hx.key f hf)) ρ _).symm

theorem inputRead_rows (hw : WOK s w md) (hh : HandleOK s w h) (hR : Smooth R ray)
    (hg : RowWise U g) (hx : SideFits s g U.keep key x) (ht : md.target h.branch none = .ok snap) :
    ∃ rows, inputRead E R U ray x h w = .ok rows ∧ rows ~ sideRows w.fs s g U.keep x snap := by
  have hok := (target_ok hw ht).1
  have hnone : ∀ e, (none : Option Expr) = some e → FilterFits s e := fun e he => by cases he
  have ds : ∀ (d : Source) (fields : Option (List String)) (o : ReadOpts), viewRead E R U ray (.dataset d) h w { o with fields := fields } none =
      (raySnap E R w.fs s ray [] { o with fields := fields } snap).map (fun bs => (iterBatches bs).flatten) := by
    intro d fields o
    have := rayRead_target (E := E) (R := R) (ray := ray) hw hh { o with fields := fields } none
    rw [ht] at this
    exact this
  have vs := viewRead_rows (E := E) (R := R) (ray := ray) hw hh hR hg hx.fits hnone 16 none
  rw [ht] at vs
  simp only [holding] at vs
  have hc : ∀ d, x.view = .dataset d → ∀ c ∈ x.fields.getD s.names, c ∈ s.names := by
    intro d hd
    cases hf : x.fields with
    | none => exact fun c hc => hc
    | some f =>
      intro c hc
      have := hx.cols f hf c hc
      rwa [hd] at this
  rcases Bool.eq_false_or_eq_true x.refRead with hr | hr
  · obtain ⟨d, hd⟩ := hx.ref hr
    obtain ⟨bs, h1, h2⟩ := raySnap_refs (E := E) hR hok hnone 16 [] x.fields (hc d hd)
    refine ⟨(iterBatches bs).flatten, ?_, ?_⟩
    · unfold inputRead
      simp only [hd, hr]
      rw [ds d x.fields { refRead := true }, h1]
      rfl
    · rw [iterBatches_flatten]
      unfold sideRows
      rw [if_pos hr]
      exact h2
  · have other : (∀ d, x.view ≠ .dataset d) →
        ∃ rows, (match x.fields with
          | none => viewRead E R U ray x.view h w {} none
          | some f => (viewRead E R U ray x.view h w {} none).map (fun rs : List Row => rs.map (fun r : Row => r.select f))) = .ok rows ∧
          rows ~ sideRows w.fs s g U.keep x snap := by
      intro hd
      obtain ⟨rows, h1, h2⟩ := vs
      unfold sideRows
      rw [if_neg (by simp [hr])]
      cases hf : x.fields with
      | none => exact ⟨rows, h1, h2⟩
      | some f =>
        simp only
        refine ⟨_, congrArg (Except.map _) h1, ?_⟩
        have e : x.view.inputCols s f = f := by
          cases hv : x.view with
          | dataset d => exact absurd hv (hd d)
          | _ => rfl
        rw [e]
        exact h2.map _
    unfold inputRead
    cases hv : x.view with
    | dataset d =>
      simp only
      obtain ⟨bs, h1, h2⟩ := raySnap_serves (E := E) hR hok hnone 16 [] x.fields (hc d hv)
      rw [hr]
      refine ⟨(iterBatches bs).flatten, ?_, ?_⟩
      · rw [ds d x.fields {}, h1]
        rfl
      · rw [iterBatches_flatten]
        refine h2.trans (.of_eq ?_)
        unfold sideRows
        rw [if_neg (by simp [hr]), hv]
        simp only [View.rowsOn, holding]
        cases hf : x.fields with
        | none => rw [← outCols_names]; rfl
        | some f =>
          simp only [List.map_map, View.inputCols, Option.getD_some]
          refine List.map_congr_left fun r _ => ?_
          simp only [Function.comp_apply, outCols]
          rw [select_select]
          intro c hcc
          have hcf : c ∈ f := by
            simp only [List.mem_append, List.mem_filter] at hcc
            rcases hcc with hcc | hcc <;> exact hcc.1
          have := hc d hv c (by rw [hf]; exact hcf)
          rw [← outCols_names]
          simp only [outCols, List.mem_append, List.mem_filter]
          cases s.recs.contains c <;> simp [this]
    | map u i f =>
      have := other (by rw [hv]; simp)
      rw [hv] at this
      rw [hr]
      cases hf : x.fields <;> rw [hf] at this <;> exact this
    | filter u i f =>
      have := other (by rw [hv]; simp)
      rw [hv] at this
      rw [hr]
      cases hf : x.fields <;> rw [hf] at this <;> exact this
    | joined a b c =>
      have := hx.fits
      rw [hv] at this
      exact this.elim

/-- Keys of a side are keys of stored rows. -/
theorem sideRows_key (hk : KeyOf s key) (hx : SideFits s g U.keep key x) {r : Row}
    (hr : r ∈ sideRows w.fs s g U.keep x snap) : ∃ r0 ∈ physRows w.fs snap.index, r.val key = r0.val key := by
  have hkw : key ∈ s.writeNames := by
    rw [← outCols_names]
    simp only [outCols, List.mem_append, List.mem_filter]
    have := hk.name
    cases s.recs.contains key <;> simp [this]
  unfold sideRows at hr
  split at hr
  · obtain ⟨r0, h0, rfl⟩ := List.mem_map.mp hr
    refine ⟨r0, h0, select_val ?_⟩
    cases hf : x.fields with
    | none => exact hk.name
    | some f => exact hx.key f hf
  · have base : ∀ r ∈ x.view.rowsOn s g U.keep ((snapRows w.fs s snap).map (·.select s.writeNames)),
        ∃ r0 ∈ physRows w.fs snap.index, r.val key = r0.val key := by
      intro r hr
      rw [x.view.rowsOn_flatMap] at hr
      obtain ⟨q, hq, hr⟩ := List.mem_flatMap.mp hr
      obtain ⟨q1, hq1, rfl⟩ := List.mem_map.mp hq
      obtain ⟨r0, h0, rfl⟩ := List.mem_map.mp hq1
      refine ⟨r0, h0, ?_⟩
      rw [hx.kept _ _ hr, select_val hkw, deref_key hk.plain]
    cases hf : x.fields with
    | none => rw [hf] at hr; exact base r hr
    | some f =>
      rw [hf] at hr
      obtain ⟨q, hq, rfl⟩ := List.mem_map.mp hr
      obtain ⟨r0, h0, e⟩ := base q hq
      exact ⟨r0, h0, by rw [select_val (mem_inputCols.mpr (hx.key f hf)), e]⟩

/-- The range of a side encloses its keys; without a range there is no key. -/
theorem joinKeyRange_keys (hw : WOK s w md) (hm : h'.md = md) (hb : h'.branch = h.branch) (hk : KeyOf s key)
    (hx : SideFits s g U.keep key x) (ht : md.target h.branch none = .ok snap) {out : Option KeyRange}
    (hj : joinKeyRange w.fs h' x.view key = .ok out) {r : Row} (hr : r ∈ sideRows w.fs s g U.keep x snap)
    (hv : r.val key ≠ .null) (hn : (r.val key).num = true) :
    ∃ (ρ : KeyRange) (k : Scalar), out = some ρ ∧ r.val key = .sc k ∧ ρ.min ≤ k ∧ k ≤ ρ.max ∧ k ≠ .nan ∧
      ρ.min ≠ .nan ∧ ρ.max ≠ .nan := by
  have hok := (target_ok hw ht).1
  have hsn : h'.snapshot none = .ok snap := by
    have := ht
    unfold Metadata.target at this
    unfold Handle.snapshot
    rw [hm, hb]
    exact this
  have hid := hx.id
  rw [← hw.schema, ← hm] at hid
  obtain ⟨r0, h0, e0⟩ := sideRows_key hk hx hr
  have hsc : ∃ k, r.val key = .sc k := by
    obtain ⟨p, hp, m, hmm, hr0⟩ := physRows_mem h0
    have := hk.scalar (fileRows_mem ((hok.manifests p hp).entry hmm) r0 hr0)
    rw [← e0] at this
    exact this.resolve_left hv
  obtain ⟨k, hkv⟩ := hsc
  have gen : (∀ a b c, x.view ≠ .joined a b c) → joinKeyRange w.fs h' x.view key =
      (match x.view.keyId h'.md.schema key with
      | none => .error .userInput
      | some none => .error (.other "KeyError")
      | some (some fid) =>
        match h'.snapshot none with
        | .error e => .error e
        | .ok snap =>
          match rangeLoop w.fs fid snap.index (none, none) with
          | .error e => .error e
          | .ok (none, none) => .ok none
          | .ok (some mn, some mx) => .ok (some ⟨mn, mx, true⟩)
          | .ok _ => .error (.other "AssertionError")) := by
    intro hv
    unfold joinKeyRange
    cases hvv : x.view with
    | joined a b c => exact absurd hvv (hv a b c)
    | _ => rfl
  have hnj : ∀ a b c, x.view ≠ .joined a b c := by
    intro a b c e
    have := hx.fits
    rw [e] at this
    exact this
  rw [gen hnj, hid] at hj
  cases hf : h'.md.schema.fidOf key with
  | none => rw [hf] at hj; cases hj
  | some fid =>
    rw [hf] at hj
    simp only [Option.map_some, hsn] at hj
    cases hl : rangeLoop w.fs fid snap.index (none, none) with
    | error e => rw [hl] at hj; cases hj
    | ok st =>
      rw [hl] at hj
      rw [hm, hw.schema] at hf
      have hkn : k ≠ .nan := by
        rintro rfl
        rw [hkv] at hn
        exact absurd hn (by decide)
      obtain ⟨mn, mx, rfl, h1, h2, h3⟩ := rangeLoop_keys hk hok hf hl h0 (by rw [← e0]; exact hkv) hkn
      cases hj
      exact ⟨_, k, rfl, hkv, h1, h2, hkn, h3⟩

end

/-! ## The loop over the ranges -/

/-- The record fields of a side that is read by reference. -/
theorem folded_mem {s : Schema} {g : Nat → Row → List Row} {keep : Nat → Row → Bool} {key : String} {x : JoinSide}
    (hx : SideFits s g keep key x) {f : String} (hf : f ∈ (x.folded s).getD []) :
    x.refRead = true ∧ f ∈ s.recs ∧ ∀ fs, x.fields = some fs → f ∈ fs := by
  unfold JoinSide.folded at hf
  split at hf
  · rename_i hr
    obtain ⟨d, hd⟩ := hx.ref hr
    refine ⟨hr, ?_⟩
    rw [hd] at hf
    cases hfs : x.fields with
    | none =>
      rw [hfs] at hf
      exact ⟨hf, nofun⟩
    | some fs =>
      rw [hfs] at hf
      simp only [Option.getD_some, View.recordFields, List.mem_eraseDups, List.mem_filter, List.contains_eq_mem, decide_eq_true_eq] at hf
      exact ⟨hf.1, fun _ h => by cases h; exact hf.2⟩
  · simp at hf

/-- Their cells are addresses. -/
theorem sideRows_addressed {fs : FS} {s : Schema} {g : Nat → Row → List Row} {keep : Nat → Row → Bool} {key : String} {x : JoinSide}
    {snap : Snapshot} (hok : SnapOK fs s snap) (hx : SideFits s g keep key x) :
    ∀ r ∈ sideRows fs s g keep x snap, Addressed ((x.folded s).getD []) r := by
  intro r hr y hy hf
  obtain ⟨h1, h2, h3⟩ := folded_mem hx hf
  unfold sideRows at hr
  rw [if_pos h1] at hr
  obtain ⟨r0, hr0, rfl⟩ := List.mem_map.mp hr
  obtain ⟨c, hc, rfl⟩ := List.mem_map.mp hy
  have hn : c ∈ s.names := by
    obtain ⟨d, hd⟩ := hx.ref h1
    cases hfs : x.fields with
    | none => rw [hfs] at hc; exact hc
    | some f =>
      have := hx.cols f hfs c (by rw [hfs] at hc; exact hc)
      rw [hd] at this
      exact this
  obtain ⟨p, i, _, e, -⟩ := (physRows_ok hok.manifests r0 hr0).addrVal h2 hn
  exact ⟨p, i, e⟩

theorem folded_key {s : Schema} {g : Nat → Row → List Row} {keep : Nat → Row → Bool} {key : String} {x : JoinSide}
    (hk : KeyOf s key) (hx : SideFits s g keep key x) : key ∉ (x.folded s).getD [] := fun h => hk.plain (folded_mem hx h).2.1

/-- A side that is read by reference: its record fields are distinct fields, and the output has those
that are read. -/
def Refers (s : Schema) (outs : List String) (x : JoinSide) : Prop :=
  x.refRead = true → s.recs.Nodup ∧ (∀ c ∈ s.recs, c ∈ s.names) ∧ ∀ c ∈ s.recs, c ∈ x.fields.getD s.names → c ∈ outs

theorem nodup_dedup {α : Type} [DecidableEq α] : ∀ {n : Nat} {l : List α}, l.length ≤ n → l.eraseDups.Nodup
  | _, [], _ => by simp
  | n + 1, a :: l, h => by
    rw [List.eraseDups_cons, List.nodup_cons]
    refine ⟨by simp, nodup_dedup (n := n) ?_⟩
    exact Nat.le_trans (List.length_filter_le ..) (by simpa using h)

theorem sideRows_foldable {fs : FS} {s : Schema} {g : Nat → Row → List Row} {keep : Nat → Row → Bool} {key : String} {x : JoinSide}
    {snap : Snapshot} {outs : List String} (hk : KeyOf s key) (hok : SnapOK fs s snap) (hx : SideFits s g keep key x)
    (hr : Refers s outs x) : Foldable key outs ((x.folded s).getD []) (sideRows fs s g keep x snap) := by
  have asked : ∀ {f}, f ∈ (x.folded s).getD [] → x.refRead = true ∧ f ∈ s.recs ∧ f ∈ x.fields.getD s.names := by
    intro f hf
    obtain ⟨h1, h2, h3⟩ := folded_mem hx hf
    refine ⟨h1, h2, ?_⟩
    cases hfs : x.fields with
    | none => exact (hr h1).2.1 f h2
    | some l => exact h3 l hfs
  refine ⟨folded_key hk hx, ?_, sideRows_addressed hok hx, ?_, ?_⟩
  · unfold JoinSide.folded
    split
    · rename_i h1
      obtain ⟨d, hd⟩ := hx.ref h1
      rw [hd]
      cases x.fields with
      | none => exact (hr h1).1
      | some l => exact nodup_dedup (Nat.le_refl _)
    · exact List.nodup_nil
  · intro r hm f hf
    obtain ⟨h1, h2, h3⟩ := asked hf
    unfold sideRows at hm
    rw [if_pos h1] at hm
    obtain ⟨r0, -, rfl⟩ := List.mem_map.mp hm
    rw [select_cols]
    exact h3
  · intro f hf
    obtain ⟨h1, h2, h3⟩ := asked hf
    exact (hr h1).2.2 f h2 h3

theorem joinParts_rows {lread rread : Nat → Expr → Except Err (List Row)} {key : String} {outs : List String}
    {lrec rrec : Option (List String)} {a b : List Row} (hk : key ∉ lrec.getD []) (hk' : key ∉ rrec.getD [])
    (ha : ∀ x ∈ a, Addressed (lrec.getD []) x) (hb : ∀ x ∈ b, Addressed (rrec.getD []) x)
    (hl : ∀ k (ρ : KeyRange), ∃ rows, lread k (ρ.filter key) = .ok rows ∧ rows ~ a.filter (fun r => ρ.has (r.val key)))
    (hr : ∀ k (ρ : KeyRange), ∃ rows, rread k (ρ.filter key) = .ok rows ∧ rows ~ b.filter (fun r => ρ.has (r.val key))) :
    ∀ {ρs : List KeyRange} {k : Nat} {parts : List (Option (List Row))},
    joinParts lread rread key outs lrec rrec k ρs = .ok parts →
    parts.flatMap (·.getD []) ~
      ρs.flatMap (fun ρ => joinTables key outs (a.filter (fun x => ρ.has (x.val key))) (b.filter (fun y => ρ.has (y.val key))))
  | [], k, parts, h => by cases h; exact .refl _
  | ρ :: ρs, k, parts, h => by
    obtain ⟨l, h1, h2⟩ := hl k ρ
    obtain ⟨r, h3, h4⟩ := hr k ρ
    rw [joinParts, h1, h3] at h
    simp only at h
    cases hq : joinPart key outs lrec rrec l r with
    | error e => rw [hq] at h; cases h
    | ok p =>
      rw [hq] at h
      simp only at h
      cases hp : joinParts lread rread key outs lrec rrec (k + 1) ρs with
      | error e => rw [hp] at h; cases h
      | ok ps =>
        rw [hp] at h
        cases h
        rw [List.flatMap_cons, List.flatMap_cons, joinPart_rows hk hk' (fun x hx => ha x (List.mem_filter.mp (h2.mem_iff.mp hx)).1)
          (fun x hx => hb x (List.mem_filter.mp (h4.mem_iff.mp hx)).1) hq]
        exact (joinTables_perm h2 h4).append (joinParts_rows hk hk' ha hb hl hr hp)

theorem fromArrowRefs_rows {nb : Option Err} : ∀ {parts : List (Option (List Row))} {bs : List (List Row)},
    fromArrowRefs nb parts = .ok bs → bs = parts.map (·.getD [])
  | [], bs, h => by cases h; rfl
  | b :: parts, bs, h => by
    have go : (match fromArrowRefs nb parts with
        | .error e => (.error e : Except Err (List (List Row)))
        | .ok cs => .ok (b.getD [] :: cs)) = .ok bs → bs = (b :: parts).map (·.getD []) := by
      intro h
      cases hp : fromArrowRefs nb parts with
      | error e => rw [hp] at h; cases h
      | ok cs =>
        rw [hp] at h
        cases h
        rw [fromArrowRefs_rows hp]
        rfl
    cases b with
    | none =>
      cases nb with
      | none => exact go h
      | some e => cases h
    | some x => cases nb <;> exact go h

/-! ## When the join returns -/

/-- Every manifest lists a file with a key that is neither null nor NaN. -/
def Keyed (fs : FS) (key : String) : Prop :=
  ∀ p ms, fs.imanifest p = some ms → ∃ m ∈ ms, ∃ r ∈ fileRows fs m.file, r.val key ≠ .null ∧ r.val key ≠ .sc .nan

theorem manifestRange_ok {fid : Nat} {rows : List ManifestRow} (h : ∀ m ∈ rows, (m.stats.get? fid).isSome = true)
    {m : ManifestRow} (hm : m ∈ rows) {mn mx : Scalar} (hs : m.stats.get? fid = some (some mn, some mx))
    (hn : mn ≠ .nan ∧ mx ≠ .nan) : ∃ a b, manifestRange fid rows = .ok (some a, some b) := by
  unfold manifestRange
  rw [if_pos (List.all_eq_true.mpr h)]
  obtain ⟨a, b, e1, -⟩ := minMaxOf_fst_le (vs := rows.map (fun m => (m.stats.get? fid).bind (·.1))) (x := mn)
    (List.mem_map.mpr ⟨m, hm, by rw [hs]; rfl⟩) hn.1
  obtain ⟨c, d, e2, -⟩ := minMaxOf_fst_le (vs := rows.map (fun m => (m.stats.get? fid).bind (·.2))) (x := mx)
    (List.mem_map.mpr ⟨m, hm, by rw [hs]; rfl⟩) hn.2
  rw [e1, e2]
  exact ⟨a, d, rfl⟩

theorem rangeLoop_ok {fs : FS} {fid : Nat} : ∀ {ps : List Path} {acc : Option Scalar × Option Scalar},
    (∀ p ∈ ps, ∃ rows a b, fs.imanifest p = some rows ∧ manifestRange fid rows = .ok (some a, some b)) →
    (acc = (none, none) ∨ ∃ a b, acc = (some a, some b)) →
    rangeLoop fs fid ps acc = .ok (none, none) ∨ ∃ a b, rangeLoop fs fid ps acc = .ok (some a, some b)
  | [], acc, _, ha => by
    rcases ha with rfl | ⟨a, b, rfl⟩
    · exact Or.inl rfl
    · exact Or.inr ⟨a, b, rfl⟩
  | p :: ps, acc, h, ha => by
    obtain ⟨rows, a, b, h1, h2⟩ := h p (List.mem_cons_self ..)
    rw [rangeLoop, h1]
    simp only
    rw [h2]
    have h3 : ∃ c d, mergeStats acc (some a, some b) = .ok (some c, some d) := by
      rcases ha with rfl | ⟨a', b', rfl⟩ <;> exact ⟨_, _, rfl⟩
    obtain ⟨c, d, h3⟩ := h3
    simp only
    rw [h3]
    exact rangeLoop_ok (fun q hq => h q (List.mem_cons_of_mem _ hq)) (Or.inr ⟨c, d, rfl⟩)

section
variable {E : Env} {R : RayEnv} {U : UdfEnv} {ray : RayOpts} {s : Schema} {w : World} {md : Metadata}
  {h h' : Handle} {g : Nat → Row → List Row} {key : String} {x : JoinSide} {snap : Snapshot}

theorem joinKeyRange_ok (hw : WOK s w md) (hm : h'.md = md) (hb : h'.branch = h.branch) (hk : KeyOf s key)
    (hx : SideFits s g U.keep key x) (ht : md.target h.branch none = .ok snap) (hn : Keyed w.fs key) :
    ∃ out, joinKeyRange w.fs h' x.view key = .ok out := by
  have hok := (target_ok hw ht).1
  have hsn : h'.snapshot none = .ok snap := by
    have := ht
    unfold Metadata.target at this
    unfold Handle.snapshot
    rw [hm, hb]
    exact this
  have hid := hx.id
  have hf : ∃ f, s.fields.find? (fun f => decide (f.name = key)) = some f ∧ f ∈ s.statsFields := by
    cases hfind : s.fields.find? (fun f => decide (f.name = key)) with
    | none =>
      obtain ⟨f, h1, h2, -⟩ := hk.field
      exact absurd (by simp [h2]) (List.find?_eq_none.mp hfind f h1)
    | some f =>
      refine ⟨f, rfl, ?_⟩
      have : f.name = key := by simpa using List.find?_some hfind
      simp only [Schema.statsFields, List.mem_filter]
      exact ⟨List.mem_of_find?_eq_some hfind, by rw [this]; simpa using hk.pk⟩
  obtain ⟨f, hfind, hfs⟩ := hf
  have hfid : s.fidOf key = some f.fid := by simp only [Schema.fidOf, hfind, Option.map_some]
  have hl := rangeLoop_ok (fs := w.fs) (fid := f.fid) (ps := snap.index) (acc := (none, none)) (by
    intro p hp
    obtain ⟨rows, h1, -, h3⟩ := hok.manifests p hp
    obtain ⟨m, hmr, r, hr, hv, hv'⟩ := hn p rows h1
    obtain ⟨gs, g1, -, g2, g3⟩ := h3 m hmr
    obtain ⟨k, hkv⟩ := (hk.scalar (g3 r (by simpa [fileRows, g1] using hr))).resolve_left hv
    have hb := fileStats_bounds (Schema.keysLeaf_of_keysFirst hk.first) hk.ids g2 (r := r)
      (by simpa [fileRows, g1] using hr) (g3 r (by simpa [fileRows, g1] using hr)).1 key hk.pk k hkv f.fid hfid
    rw [if_neg (by rintro rfl; exact hv' hkv)] at hb
    obtain ⟨mn, mx, hst, -, -, hnn⟩ := hb
    have hall : ∀ m ∈ rows, (m.stats.get? f.fid).isSome = true := by
      intro m hm
      obtain ⟨gs, -, -, g2, -⟩ := h3 m hm
      obtain ⟨c, st, -, -, h6⟩ := fileStats_get g2 f hfs
      rw [h6]
      rfl
    obtain ⟨a, b, h7⟩ := manifestRange_ok hall hmr hst hnn
    exact ⟨rows, a, b, h1, h7⟩) (Or.inl rfl)
  have gen : (∀ a b c, x.view ≠ .joined a b c) → joinKeyRange w.fs h' x.view key =
      (match x.view.keyId h'.md.schema key with
      | none => .error .userInput
      | some none => .error (.other "KeyError")
      | some (some fid) =>
        match h'.snapshot none with
        | .error e => .error e
        | .ok snap =>
          match rangeLoop w.fs fid snap.index (none, none) with
          | .error e => .error e
          | .ok (none, none) => .ok none
          | .ok (some mn, some mx) => .ok (some ⟨mn, mx, true⟩)
          | .ok _ => .error (.other "AssertionError")) := by
    intro hv
    unfold joinKeyRange
    cases hvv : x.view with
    | joined a b c => exact absurd hvv (hv a b c)
    | _ => rfl
  have hnj : ∀ a b c, x.view ≠ .joined a b c := by
    intro a b c e
    have := hx.fits
    rw [e] at this
    exact this
  rw [gen hnj, hm, hw.schema, hid, hfid]
  simp only [Option.map_some, hsn]
  rcases hl with hl | ⟨a, b, hl⟩
  · rw [hl]; exact ⟨_, rfl⟩
  · rw [hl]; exact ⟨_, rfl⟩

theorem inputRead_target (hw : WOK s w md) (hh : HandleOK s w h) (hR : Smooth R ray) (hg : RowWise U g)
    (hx : SideFits s g U.keep key x) {rows : List Row} (hr : inputRead E R U ray x h w = .ok rows) :
    ∃ snap, md.target h.branch none = .ok snap := by
  cases ht : md.target h.branch none with
  | ok snap => exact ⟨snap, rfl⟩
  | error e =>
    exfalso
    have ds : ∀ (d : Source) (o : ReadOpts), viewRead E R U ray (.dataset d) h w o none = .error e := by
      intro d o
      have := rayRead_target (E := E) (R := R) (ray := ray) hw hh o none
      rw [ht] at this
      exact this
    have vs := viewRead_rows (E := E) (R := R) (ray := ray) hw hh hR hg hx.fits (f := none)
      (fun e he => by cases he) 16 none
    rw [ht] at vs
    simp only at vs
    have rf : (∀ d, x.view ≠ .dataset d) → x.refRead = false := by
      intro hd
      cases hr : x.refRead with
      | false => rfl
      | true => obtain ⟨d, hd'⟩ := hx.ref hr; exact absurd hd' (hd d)
    unfold inputRead at hr
    cases hv : x.view with
    | dataset d =>
      rw [hv] at hr
      simp only [ds] at hr
      cases hr
    | map u i f =>
      rw [hv] at vs hr
      rw [rf (by rw [hv]; simp)] at hr
      cases hf : x.fields <;> rw [hf] at hr <;> simp only [vs] at hr <;> cases hr
    | filter u i f =>
      rw [hv] at vs hr
      rw [rf (by rw [hv]; simp)] at hr
      cases hf : x.fields <;> rw [hf] at hr <;> simp only [vs] at hr <;> cases hr
    | joined a b c =>
      have := hx.fits
      rw [hv] at this
      exact this.elim

end

theorem Foldable.sub {key : String} {outs recs : List String} {l l' : List Row} (h : Foldable key outs recs l)
    (hs : ∀ x ∈ l', x ∈ l) : Foldable key outs recs l' :=
  ⟨h.key, h.once, fun x hx => h.addrs x (hs x hx), fun x hx => h.cols x (hs x hx), h.outs⟩

theorem joinPart_ok {key : String} {outs : List String} {lrec rrec : Option (List String)} {l r : List Row}
    (fl : Foldable key outs (lrec.getD []) l) (fr : Foldable key outs (rrec.getD []) r)
    (ul : ∀ x ∈ l, ∀ y ∈ l, x.cols = y.cols) (ur : ∀ x ∈ r, ∀ y ∈ r, x.cols = y.cols)
    (hf : ∀ x ∈ l ++ r, ∀ c ∈ x, c.2.nested = false)
    (hc : ∀ x ∈ l, ∀ y ∈ r, ∀ c ∈ outs, (x.cols ++ y.cols.filter (· ≠ key)).count c = 1) :
    ∃ b, joinPart key outs lrec rrec l r = .ok b ∧ (l ≠ [] → r ≠ [] → b.isSome = true) := by
  rw [joinPart_plain fl fr]
  unfold joinPlain
  cases l with
  | nil => exact ⟨none, rfl, fun h => absurd rfl h⟩
  | cons a l =>
    cases r with
    | nil => exact ⟨none, rfl, fun _ h => absurd rfl h⟩
    | cons b r =>
      simp only
      rw [if_neg, if_neg, if_pos]
      · exact ⟨_, rfl, fun _ _ => rfl⟩
      · simp only [List.all_eq_true, decide_eq_true_eq]
        exact hc a (List.mem_cons_self ..) b (List.mem_cons_self ..)
      · simp only [List.any_eq_true, not_exists, not_and, Bool.not_eq_true]
        exact hf
      · simp only [Bool.not_eq_true, Bool.not_eq_false', Bool.and_eq_true, List.all_eq_true, decide_eq_true_eq]
        exact ⟨fun x hx => ul x hx a List.mem_cons_self, fun x hx => ur x hx b List.mem_cons_self⟩

theorem joinParts_ok {lread rread : Nat → Expr → Except Err (List Row)} {key : String} {outs : List String}
    {lrec rrec : Option (List String)} {a b : List Row}
    (fa : Foldable key outs (lrec.getD []) a) (fb : Foldable key outs (rrec.getD []) b)
    (ua : ∀ x ∈ a, ∀ y ∈ a, x.cols = y.cols) (ub : ∀ x ∈ b, ∀ y ∈ b, x.cols = y.cols)
    (hl : ∀ k (ρ : KeyRange), ∃ rows, lread k (ρ.filter key) = .ok rows ∧ rows ~ a.filter (fun r => ρ.has (r.val key)))
    (hr : ∀ k (ρ : KeyRange), ∃ rows, rread k (ρ.filter key) = .ok rows ∧ rows ~ b.filter (fun r => ρ.has (r.val key)))
    (hf : ∀ x ∈ a ++ b, ∀ c ∈ x, c.2.nested = false)
    (hc : ∀ x ∈ a, ∀ y ∈ b, ∀ c ∈ outs, (x.cols ++ y.cols.filter (· ≠ key)).count c = 1) (nb : Option Err) :
    ∀ {ρs : List KeyRange} {k : Nat},
    (nb = none ∨ ∀ ρ ∈ ρs, (∃ x ∈ a, ρ.has (x.val key) = true) ∧ ∃ y ∈ b, ρ.has (y.val key) = true) →
    ∃ parts bs, joinParts lread rread key outs lrec rrec k ρs = .ok parts ∧ fromArrowRefs nb parts = .ok bs
  | [], k, _ => ⟨[], [], rfl, rfl⟩
  | ρ :: ρs, k, hn => by
    obtain ⟨l, h1, h2⟩ := hl k ρ
    obtain ⟨r, h3, h4⟩ := hr k ρ
    have la : ∀ x ∈ l, x ∈ a := fun x hx => (List.mem_filter.mp (h2.mem_iff.mp hx)).1
    have rb : ∀ x ∈ r, x ∈ b := fun x hx => (List.mem_filter.mp (h4.mem_iff.mp hx)).1
    obtain ⟨p, h5, h6⟩ := joinPart_ok (key := key) (outs := outs) (l := l) (r := r) (fa.sub la) (fb.sub rb)
      (fun x hx y hy => ua x (la x hx) y (la y hy)) (fun x hx y hy => ub x (rb x hx) y (rb y hy))
      (fun x hx => hf x (List.mem_append.mpr ((List.mem_append.mp hx).imp (la x) (rb x))))
      (fun x hx y hy => hc x (la x hx) y (rb y hy))
    obtain ⟨ps, bs, h7, h8⟩ := joinParts_ok fa fb ua ub hl hr hf hc nb (ρs := ρs) (k := k + 1)
      (hn.imp_right fun h ρ' hρ => h ρ' (List.mem_cons_of_mem _ hρ))
    refine ⟨p :: ps, p.getD [] :: bs, ?_, ?_⟩
    · rw [joinParts, h1, h3]
      simp only
      rw [h5]
      simp only
      rw [h7]
    · rcases hn with rfl | hn
      · cases p <;> simp only [fromArrowRefs, h8]
      · obtain ⟨⟨x, hx, hxρ⟩, y, hy, hyρ⟩ := hn ρ (List.mem_cons_self ..)
        have hne : ∀ {l a : List Row} {x : Row}, l ~ a.filter (fun r => ρ.has (r.val key)) → x ∈ a →
            ρ.has (x.val key) = true → l ≠ [] := by
          intro l a x hp hx hρ e
          subst e
          have := hp.mem_iff.mpr (List.mem_filter.mpr ⟨hx, hρ⟩)
          cases this
        have := h6 (hne h2 hx hxρ) (hne h4 hy hyρ)
        cases p with
        | none => cases this
        | some q => cases nb <;> simp only [fromArrowRefs, h8]

end Space
