import Verif.ScanLemmas

/-! # Statistics bound the keys; filtered reads -/

namespace Space

/-! ## Min and max -/

/-- Min and max are absent, or among the values and enclosing them. -/
def MinMax (vs : List (Option Scalar)) : Prop :=
    (minMaxOf vs = (none, none) ∧ ∀ v ∈ vs, v = none ∨ v = some .nan) ∨
      ∃ mn mx, minMaxOf vs = (some mn, some mx) ∧ some mn ∈ vs ∧ some mx ∈ vs ∧ (mn ≠ .nan ∧ mx ≠ .nan) ∧
        ∀ x, some x ∈ vs → x ≠ .nan → mn ≤ x ∧ x ≤ mx

theorem minMaxOf_shape (vs : List (Option Scalar)) : MinMax vs := by
  induction vs with
  | nil => simp [MinMax, minMaxOf]
  | cons v vs ih =>
    have skip : minMaxOf (v :: vs) = minMaxOf vs → (v = none ∨ v = some .nan) → MinMax (v :: vs) := fun hv hn => by
      rcases ih with ⟨h1, h2⟩ | ⟨mn, mx, h1, h2, h3, h5, h4⟩
      · left
        refine ⟨hv.trans h1, ?_⟩
        intro u hu
        rcases List.mem_cons.mp hu with rfl | hu
        · exact hn
        · exact h2 u hu
      · right
        refine ⟨mn, mx, hv.trans h1, List.mem_cons_of_mem _ h2, List.mem_cons_of_mem _ h3, h5, ?_⟩
        intro x hx hne
        rcases List.mem_cons.mp hx with hx | hx
        · rw [← hx] at hn
          rcases hn with hn | hn
          · cases hn
          · cases hn; exact absurd rfl hne
        · exact h4 x hx hne
    cases v with
    | none => exact skip rfl (Or.inl rfl)
    | some y =>
      by_cases hy : y = .nan
      · subst hy
        exact skip (by simp [minMaxOf]) (Or.inr rfl)
      right
      rcases ih with ⟨h1, h2⟩ | ⟨mn, mx, h1, h2, h3, h5, h4⟩
      · refine ⟨y, y, by simp [minMaxOf, h1, hy], List.mem_cons_self .., List.mem_cons_self .., ⟨hy, hy⟩, ?_⟩
        intro x hx hne
        rcases List.mem_cons.mp hx with hx | hx
        · cases hx; exact ⟨Scalar.le_refl _, Scalar.le_refl _⟩
        · rcases h2 _ hx with h | h
          · cases h
          · cases h; exact absurd rfl hne
      · refine ⟨if y ≤ mn then y else mn, if mx ≤ y then y else mx, by simp only [minMaxOf, h1, hy, if_false],
          ?_, ?_, ?_, ?_⟩
        · split
          · exact List.mem_cons_self ..
          · exact List.mem_cons_of_mem _ h2
        · split
          · exact List.mem_cons_self ..
          · exact List.mem_cons_of_mem _ h3
        · constructor <;> split
          · exact hy
          · exact h5.1
          · exact hy
          · exact h5.2
        · intro x hx hne
          rcases List.mem_cons.mp hx with hx | hx
          · cases hx
            grind
          · have := h4 x hx hne
            grind

/-- Statistics are not NaN and enclose. -/
def StOK (st : Option Scalar × Option Scalar) (x : Scalar) : Prop :=
  ∃ mn mx, st = (some mn, some mx) ∧ mn ≤ x ∧ x ≤ mx ∧ mn ≠ .nan ∧ mx ≠ .nan

/-- Statistics are absent or not NaN. -/
def StNum (st : Option Scalar × Option Scalar) : Prop := st.1 ≠ some .nan ∧ st.2 ≠ some .nan

theorem groupStats_num (s : Schema) (g : List Row) (c : Nat) : StNum (groupStats s g c) := by
  unfold groupStats
  rcases minMaxOf_shape (g.map (fun r => ((rowLeaves s r)[c]?).join)) with ⟨h, -⟩ | ⟨mn, mx, h, -, -, hn, -⟩
  · rw [h]; simp [StNum]
  · rw [h]; simpa [StNum] using hn

theorem mergeStats_acc {acc st out : Option Scalar × Option Scalar} (h : mergeStats acc st = .ok out)
    (hst : StNum st) {x : Scalar} (hx : StOK acc x) : StOK out x := by
  obtain ⟨mn, mx, rfl, h1, h2, h3, h4⟩ := hx
  unfold mergeStats at h
  split at h
  · rename_i h'; cases h'
  · rename_i h'
    cases h'
    cases h
    simp only [StNum, ne_eq, Option.some.injEq] at hst
    refine ⟨_, _, rfl, ?_⟩
    grind
  · cases h

theorem mergeStats_new {acc st out : Option Scalar × Option Scalar} (h : mergeStats acc st = .ok out)
    (ha : StNum acc) {x : Scalar} (hx : StOK st x) : StOK out x := by
  obtain ⟨mn, mx, rfl, h1, h2, h3, h4⟩ := hx
  unfold mergeStats at h
  split at h
  · cases h
    exact ⟨mn, mx, rfl, h1, h2, h3, h4⟩
  · rename_i h'
    cases h'
    cases h
    simp only [StNum, ne_eq, Option.some.injEq] at ha
    refine ⟨_, _, rfl, ?_⟩
    grind
  · cases h

theorem mergeStats_num {acc st out : Option Scalar × Option Scalar} (h : mergeStats acc st = .ok out)
    (ha : StNum acc) (hst : StNum st) : StNum out := by
  unfold mergeStats at h
  split at h
  · cases h; exact hst
  · cases h
    simp only [StNum, ne_eq, Option.some.injEq] at ha hst ⊢
    grind
  · cases h

theorem mergeGroups_acc : ∀ (sts : List (Option Scalar × Option Scalar))
    {acc out : Option Scalar × Option Scalar} (_ : mergeGroups sts acc = .ok out)
    (_ : StNum acc) (_ : ∀ st ∈ sts, StNum st) {x : Scalar}
    (_ : StOK acc x ∨ ∃ st ∈ sts, StOK st x), StOK out x
  | [], acc, out, h, _, _, x, hx => by
    simp only [mergeGroups, Except.ok.injEq] at h
    subst h
    rcases hx with hx | ⟨_, h, _⟩
    · exact hx
    · simp at h
  | st :: sts, acc, out, h, ha, hst, x, hx => by
    simp only [mergeGroups] at h
    split at h
    · cases h
    · rename_i acc' hacc
      have hs0 := hst st (List.mem_cons_self ..)
      refine mergeGroups_acc sts h (mergeStats_num hacc ha hs0) (fun s hs => hst s (List.mem_cons_of_mem _ hs)) ?_
      rcases hx with hx | ⟨st', hst', hx⟩
      · exact Or.inl (mergeStats_acc hacc hs0 hx)
      · rcases List.mem_cons.mp hst' with rfl | hst'
        · exact Or.inl (mergeStats_new hacc ha hx)
        · exact Or.inr ⟨st', hst', hx⟩

theorem fileStats_get {s : Schema} {groups : List (List Row)} : ∀ {fs : List Field} {st : Stats},
    fileStats s groups fs = .ok st → ∀ f ∈ fs, ∃ c m, s.columnIdOf f.fid = some c ∧
      mergeGroups (groups.map (fun g => groupStats s g c)) (none, none) = .ok m ∧
      st.get? f.fid = some m
  | [], st, _, f, hf => by simp at hf
  | g :: fs, st, h, f, hf => by
    simp only [fileStats] at h
    split at h
    · cases h
    · rename_i c hc
      split at h
      · cases h
      · rename_i m hm
        split at h
        · cases h
        · rename_i rest hrest
          simp only [Except.ok.injEq] at h
          subst h
          simp only [AMap.get?]
          by_cases he : g.fid = f.fid
          · rw [he] at hc
            exact ⟨c, m, hc, hm, by simp [he]⟩
          · rcases List.mem_cons.mp hf with rfl | hf
            · exact absurd rfl he
            · obtain ⟨c', m', h1, h2, h3⟩ := fileStats_get hrest f hf
              exact ⟨c', m', h1, h2, by simp [he, h3]⟩

/-! ## Leaf columns -/

theorem leavesOf_length (s : Schema) (f : Field) (v : Val) :
    (leavesOf s f v).length = s.leafCount f := by
  unfold leavesOf Schema.leafCount
  split
  · cases v <;> rfl
  · cases hf : f.ty <;> cases v <;> simp

namespace Schema

/-- A field stored as one plain column. -/
def simple (s : Schema) (f : Field) : Bool :=
  !s.isRec f && (match f.ty with | .struct .. => false | _ => true)

/-- Primary keys are plain columns, preceded only by columns of one Parquet leaf. -/
def keysLeaf (s : Schema) : Bool :=
  (s.fields.dropWhile (fun f => s.leafCount f == 1)).all (fun f => !s.pks.contains f.name) &&
  s.fields.all (fun f => !s.pks.contains f.name || s.simple f)

/-- Primary keys come before the first nested or record column. -/
def keysFirst (s : Schema) : Bool :=
  (s.fields.dropWhile s.simple).all (fun f => !s.pks.contains f.name)

/-- Names and field ids are distinct. -/
def distinct (s : Schema) : Bool := decide s.names.Nodup && decide (s.fields.map (·.fid)).Nodup

theorem leafCount_simple {s : Schema} {f : Field} (h : s.simple f = true) : s.leafCount f = 1 := by
  unfold simple at h
  unfold leafCount
  simp only [Bool.and_eq_true, Bool.not_eq_true'] at h
  rw [h.1]
  cases hf : f.ty <;> simp_all

theorem dropWhile_subset' {α : Type} {p q : α → Bool} (h : ∀ a, p a = true → q a = true) :
    ∀ (l : List α) (x : α), x ∈ l.dropWhile q → x ∈ l.dropWhile p
  | [], x, hx => by simp at hx
  | a :: l, x, hx => by
    simp only [List.dropWhile_cons] at hx ⊢
    cases hq : q a with
    | true =>
      rw [hq] at hx
      simp only [ite_true] at hx
      split
      · exact dropWhile_subset' h l x hx
      · exact List.mem_cons_of_mem _ ((List.dropWhile_sublist q).subset hx)
    | false =>
      rw [hq] at hx
      have : p a = false := by
        cases hp : p a with
        | false => rfl
        | true => rw [h a hp] at hq; cases hq
      simpa [this] using hx

theorem keysLeaf_of_keysFirst {s : Schema} (h : s.keysFirst = true) : s.keysLeaf = true := by
  unfold keysFirst at h
  unfold keysLeaf
  simp only [List.all_eq_true, Bool.and_eq_true] at h ⊢
  refine ⟨?_, ?_⟩
  · intro f hf
    refine h f (dropWhile_subset' ?_ s.fields f hf)
    intro g hg
    simp [leafCount_simple hg]
  · intro f hf
    cases hs : s.simple f with
    | true => simp
    | false =>
      have : f ∈ s.fields.dropWhile s.simple := by
        have hmem : f ∈ s.fields.takeWhile s.simple ++ s.fields.dropWhile s.simple := by
          rw [List.takeWhile_append_dropWhile]; exact hf
        rcases List.mem_append.mp hmem with h' | h'
        · have := List.all_takeWhile (p := s.simple) (l := s.fields)
          have h2 := List.all_eq_true.mp this f h'
          rw [h2] at hs; cases hs
        · exact h'
      simpa using h f this

/-- The position of a key among the top-level columns is its leaf position. -/
theorem keysLeaf_split {s : Schema} (h : s.keysLeaf = true) {pre post : List Field} {f : Field}
    (hf : s.fields = pre ++ f :: post) (hp : s.pks.contains f.name = true) :
    s.simple f = true ∧ ∀ g ∈ pre, s.leafCount g = 1 := by
  unfold keysLeaf at h
  simp only [Bool.and_eq_true, List.all_eq_true] at h
  refine ⟨?_, ?_⟩
  · have := h.2 f (by rw [hf]; simp)
    rw [hp] at this
    simpa using this
  · intro g hg
    refine Classical.byContradiction fun hne => ?_
    have : f ∈ s.fields.dropWhile (fun f => s.leafCount f == 1) := by
      rw [hf]
      clear hf h
      induction pre with
      | nil => simp at hg
      | cons a pre ih =>
        simp only [List.cons_append, List.dropWhile_cons]
        split
        · rename_i ha
          rcases List.mem_cons.mp hg with rfl | hg
          · simp only [beq_iff_eq] at ha; exact absurd ha hne
          · exact ih hg
        · simp
    have := h.1 f this
    rw [hp] at this
    cases this

end Schema

theorem rowLeaves_get {s : Schema} (r : Row) {pre post : List Field} {f : Field}
    (hf : s.fields = pre ++ f :: post) (hpre : ∀ g ∈ pre, s.leafCount g = 1)
    (hs : s.simple f = true) {v : Scalar} (hv : r.val f.name = .sc v) :
    (rowLeaves s r)[pre.length]? = some (some v) := by
  unfold rowLeaves
  rw [hf, List.flatMap_append]
  have hlen : (pre.flatMap (fun f => leavesOf s f (r.val f.name))).length = pre.length := by
    clear hf
    induction pre with
    | nil => rfl
    | cons a pre ih =>
      simp only [List.flatMap_cons, List.length_append, leavesOf_length, List.length_cons,
        hpre a (List.mem_cons_self ..), ih fun g hg => hpre g (List.mem_cons_of_mem _ hg)]
      omega
  rw [List.getElem?_append_right (by omega), hlen, Nat.sub_self, List.flatMap_cons]
  have : leavesOf s f (r.val f.name) = [some v] := by
    unfold leavesOf
    unfold Schema.simple at hs
    simp only [Bool.and_eq_true, Bool.not_eq_true'] at hs
    rw [hs.1, hv]
    cases hty : f.ty <;> simp_all
  rw [this]
  rfl

theorem findIdx_split {fields pre post : List Field} {f : Field} (hf : fields = pre ++ f :: post)
    (hn : (fields.map (·.fid)).Nodup) : fields.findIdx? (fun g => g.fid = f.fid) = some pre.length := by
  subst hf
  rw [List.findIdx?_append]
  have : pre.findIdx? (fun g => g.fid = f.fid) = none := by
    rw [List.findIdx?_eq_none_iff]
    intro g hg
    simp only [List.map_append, List.map_cons, List.nodup_append] at hn
    have := hn.2.2 g.fid (List.mem_map.mpr ⟨g, hg, rfl⟩) f.fid (List.mem_cons_self ..)
    simpa using this
  rw [this]
  simp [List.findIdx?_cons]

/-- Manifest statistics bound the primary keys of every row of the file. -/
theorem fileStats_bounds {s : Schema} (hk : s.keysLeaf = true)
    (hn : (s.fields.map (·.fid)).Nodup) {groups : List (List Row)} {st : Stats}
    (h : fileStats s groups s.statsFields = .ok st) {r : Row} (hr : r ∈ groups.flatten)
    (hcf : s.conforms r = true) : st.Bounds s r := by
  intro p hp v hv fid hfid
  simp only [Schema.fidOf, Option.map_eq_some_iff] at hfid
  obtain ⟨f, hfind, rfl⟩ := hfid
  have hname : f.name = p := by simpa using List.find?_some hfind
  obtain ⟨pre, post, hsplit⟩ := List.append_of_mem (List.mem_of_find?_eq_some hfind)
  have hpk : s.pks.contains f.name = true := by rw [hname]; simpa using hp
  obtain ⟨hsimple, hpre⟩ := Schema.keysLeaf_split hk hsplit hpk
  have hfs : f ∈ s.statsFields := by
    simp only [Schema.statsFields, List.mem_filter]
    exact ⟨List.mem_of_find?_eq_some hfind, hpk⟩
  obtain ⟨c, m, h1, h2, h3⟩ := fileStats_get h f hfs
  have hc : c = pre.length := by
    unfold Schema.columnIdOf at h1
    rw [findIdx_split hsplit hn] at h1
    cases h1; rfl
  subst hc
  rw [← hname] at hv
  split
  · rename_i hnan
    subst hnan
    simp only [Schema.conforms, Bool.and_eq_true, List.all_eq_true] at hcf
    have hacc := hcf.2 f (List.mem_of_find?_eq_some hfind)
    have hnr : s.isRec f = false := by
      unfold Schema.simple at hsimple
      simp only [Bool.and_eq_true, Bool.not_eq_true'] at hsimple
      exact hsimple.1
    rw [hv] at hacc
    simp only [Schema.accepts, hnr, Bool.false_eq_true, if_false] at hacc
    simp only [Schema.isFloat, List.any_eq_true, Bool.and_eq_true, beq_iff_eq]
    refine ⟨f, List.mem_of_find?_eq_some hfind, hname, ?_⟩
    cases hty : f.ty <;> rw [hty] at hacc <;> first | rfl | cases hacc
  rename_i hnan
  obtain ⟨g, hg, hrg⟩ := List.mem_flatten.mp hr
  have hgs : StOK (groupStats s g pre.length) v := by
    unfold groupStats
    have hmem : some v ∈ g.map (fun r => ((rowLeaves s r)[pre.length]?).join) := by
      refine List.mem_map.mpr ⟨r, hrg, ?_⟩
      rw [rowLeaves_get r hsplit hpre hsimple hv]
      rfl
    rcases minMaxOf_shape (g.map (fun r => ((rowLeaves s r)[pre.length]?).join)) with
      ⟨-, h0⟩ | ⟨mn, mx, e, -, -, hn, h0⟩
    · rcases h0 _ hmem with h0 | h0
      · cases h0
      · cases h0; exact absurd rfl hnan
    · exact ⟨mn, mx, e, (h0 v hmem hnan).1, (h0 v hmem hnan).2, hn⟩
  obtain ⟨mn, mx, rfl, h4⟩ := mergeGroups_acc _ h2 (by simp [StNum])
    (by intro st hst; obtain ⟨g', -, rfl⟩ := List.mem_map.mp hst; exact groupStats_num ..) (x := v)
    (Or.inr ⟨_, List.mem_map.mpr ⟨g, hg, rfl⟩, hgs⟩)
  exact ⟨mn, mx, h3, h4⟩

/-- Key columns are looked up under their own name. -/
theorem resolve_simple {s : Schema} {pre post : List Field} {f : Field}
    (hf : s.fields = pre ++ f :: post) (hpre : ∀ g ∈ pre, s.simple g = true)
    (hn : s.names.Nodup) : s.resolve f.name = some f.name := by
  have hmem : f.name ∈ s.names := by simp [Schema.names, hf]
  have hidx : s.names.idxOf f.name = pre.length := by
    unfold Schema.names at hn ⊢
    rw [hf] at hn ⊢
    simp only [List.map_append, List.map_cons] at hn ⊢
    rw [List.idxOf_append, if_neg]
    · simp
    · intro h
      rw [List.nodup_append] at hn
      exact hn.2.2 _ h f.name (List.mem_cons_self ..) rfl
  unfold Schema.resolve
  rw [if_pos hmem, hidx]
  unfold Schema.baseNames
  rw [hf, List.flatMap_append]
  have hnest : ∀ g ∈ pre, s.nested g = [] := by
    intro g hg
    have := hpre g hg
    unfold Schema.simple at this
    simp only [Bool.and_eq_true, Bool.not_eq_true'] at this
    unfold Schema.nested
    rw [this.1]
    cases hty : g.ty <;> simp_all
  have hl : (pre.flatMap (fun f => f.name :: s.nested f)).length = pre.length := by
    clear hf hidx hpre
    induction pre with
    | nil => rfl
    | cons a pre ih =>
      simp only [List.flatMap_cons, List.length_append, List.length_cons,
        hnest a (List.mem_cons_self ..), List.length_nil,
        ih fun g hg => hnest g (List.mem_cons_of_mem _ hg)]
      omega
  rw [List.getElem?_append_right (by omega), hl, Nat.sub_self, List.flatMap_cons]
  rfl

theorem resolve_key {s : Schema} (hk : s.keysFirst = true) (hn : s.names.Nodup) {c : String}
    (hc : c ∈ s.pks) (hm : c ∈ s.names) : s.resolve c = some c := by
  unfold Schema.names at hm
  obtain ⟨f, hf, rfl⟩ := List.mem_map.mp hm
  have : f ∈ s.fields.takeWhile s.simple := by
    have hmem : f ∈ s.fields.takeWhile s.simple ++ s.fields.dropWhile s.simple := by
      rw [List.takeWhile_append_dropWhile]; exact hf
    rcases List.mem_append.mp hmem with h' | h'
    · exact h'
    · have := List.all_eq_true.mp hk f h'
      simp [hc] at this
  obtain ⟨pre, post, hsplit⟩ := List.append_of_mem this
  have hall := List.all_takeWhile (p := s.simple) (l := s.fields)
  rw [hsplit] at hall
  refine resolve_simple (pre := pre) (post := post ++ s.fields.dropWhile s.simple) ?_ ?_ hn
  · rw [← List.cons_append, ← List.append_assoc, ← hsplit, List.takeWhile_append_dropWhile]
  · intro g hg
    exact List.all_eq_true.mp hall g (List.mem_append_left _ hg)

/-! ## Reads of a snapshot -/

/-- Filters for which pruning by statistics is sound on a schema: see
`Expr.pruneSafe` and `Schema.Aligned`. -/
def FilterOK (s : Schema) : Option Expr → Prop
  | none => True
  | some e => e.pruneSafe s = true ∧ s.Aligned e

/-- Pruning never drops a row on which the filter holds. -/
theorem keeps_row {I : Interp} {s : Schema} (hk : s.keysLeaf = true)
    (hn : (s.fields.map (·.fid)).Nodup) {filter : Option Expr} (hf : FilterOK s filter)
    {mf : Option MExpr} (hm : manifestFilter s filter = .ok mf) {fs : FS} {L : Look}
    {m : ManifestRow} (he : EntryOK fs L s m) :
    ∀ r ∈ filterRows I filter (fileRows fs m.file), MExpr.keeps mf m.stats = true := by
  intro r hr
  cases filter with
  | none =>
    simp only [manifestFilter, Except.ok.injEq] at hm
    subst hm
    rfl
  | some e =>
    simp only [filterRows, List.mem_filter] at hr
    obtain ⟨g, h1, h2, h3, h4⟩ := he
    have hrg : r ∈ g.flatten := by simpa [fileRows, h1] using hr.1
    have hb := fileStats_bounds hk hn h3 hrg (h4 r hrg).1
    simp only [manifestFilter] at hm
    split at hm
    · split at hm
      · rename_i m' hm'
        cases hm
        exact prune_sound hb hf.1 hf.2 hm' hr.2
      · cases hm
    · cases hm

theorem filterRows_append {I : Interp} {filter : Option Expr} (a b : List Row) :
    filterRows I filter (a ++ b) = filterRows I filter a ++ filterRows I filter b := by
  unfold filterRows
  cases filter <;> simp

theorem filterRows_flatMap {I : Interp} {filter : Option Expr} {α : Type} (l : List α)
    (g : α → List Row) :
    filterRows I filter (l.flatMap g) = l.flatMap (fun a => filterRows I filter (g a)) := by
  induction l with
  | nil => unfold filterRows; cases filter <;> rfl
  | cons a l ih => simp [List.flatMap_cons, filterRows_append, ih]

/-- The files a read visits yield exactly the rows of the snapshot on which the
filter holds. -/
theorem keptRows {I : Interp} {fs : FS} {s : Schema} {filter : Option Expr} {mf : Option MExpr}
    {ps : List Path} (hm : ∀ p ∈ ps, ManifestOK fs s p)
    (hkeep : ∀ p ∈ ps, ∀ m ∈ entriesOf fs p, ∀ r ∈ filterRows I filter (fileRows fs m.file),
      MExpr.keeps mf m.stats = true) :
    (ps.filter (fun p => decide (keptEntries fs mf p ≠ []))).flatMap
        (fun p => (keptEntries fs mf p).flatMap (fun m => filterRows I filter (fileRows fs m.file))) =
      filterRows I filter (physRows fs ps) := by
  rw [flatMap_filter_nil _ _ (by
    intro p hp
    have : keptEntries fs mf p = [] := by simpa using hp
    rw [this]; rfl)]
  unfold physRows
  rw [filterRows_flatMap]
  clear hm
  induction ps with
  | nil => rfl
  | cons p ps ih =>
    simp only [List.flatMap_cons]
    rw [ih fun q hq => hkeep q (List.mem_cons_of_mem _ hq)]
    congr 1
    rw [filterRows_flatMap]
    unfold keptEntries
    refine flatMap_filter_entries (fs := fs) _ ?_
    intro m hm hk
    refine List.eq_nil_iff_forall_not_mem.mpr fun r hr => ?_
    rw [hkeep p (List.mem_cons_self ..) m hm r hr] at hk
    cases hk
where
  flatMap_filter_entries {fs : FS} {mf : Option MExpr} {g : ManifestRow → List Row} :
      ∀ (l : List ManifestRow), (∀ m ∈ l, MExpr.keeps mf m.stats = false → g m = []) →
      (l.filter (fun m => MExpr.keeps mf m.stats)).flatMap g = l.flatMap g
    | [], _ => rfl
    | a :: l, h => by
      have ih := flatMap_filter_entries (fs := fs) (mf := mf) (g := g) l
        fun m hm => h m (List.mem_cons_of_mem _ hm)
      simp only [List.filter_cons]
      split
      · simp [List.flatMap_cons, ih]
      · rename_i hp
        rw [ih, List.flatMap_cons, h a (List.mem_cons_self ..) (by simpa using hp)]
        rfl

/-- `version_to_snapshot_id` of an optional version argument. -/
def versionArg (md : Metadata) : Option Version → Except Err (Option Nat)
  | none => .ok none
  | some v => (md.versionId v).map some

theorem dataFiles_eq {fs : FS} {h : Handle} {filter : Option Expr} {id : Option Nat}
    {snap : Snapshot} (hs : h.snapshot id = .ok snap) {mf : Option MExpr}
    (hm : manifestFilter h.md.schema filter = .ok mf)
    (hok : ∀ p ∈ snap.index, ManifestOK fs h.md.schema p) :
    dataFiles fs h filter id = .ok (packFiles fs mf
      (snap.index.filter (fun p => decide (keptEntries fs mf p ≠ []))) 1) := by
  simp only [dataFiles, hs, hm]
  exact collectFiles_eq _ _ fun p hp => by
    obtain ⟨rows, h1, _⟩ := hok p hp
    simp [h1]

/-- What is needed of schema and filter for pruning to lose no row; without a
filter, nothing. -/
def PruneOK (s : Schema) : Option Expr → Prop
  | none => True
  | some e => s.keysLeaf = true ∧ (s.fields.map (·.fid)).Nodup ∧ e.pruneSafe s = true ∧
      s.Aligned e

theorem PruneOK.keeps {I : Interp} {s : Schema} {filter : Option Expr} (hp : PruneOK s filter)
    {mf : Option MExpr} (hm : manifestFilter s filter = .ok mf) {fs : FS} {L : Look}
    {m : ManifestRow} (he : EntryOK fs L s m) :
    ∀ r ∈ filterRows I filter (fileRows fs m.file), MExpr.keeps mf m.stats = true := by
  cases filter with
  | none =>
    intro r _
    simp only [manifestFilter, Except.ok.injEq] at hm
    subst hm
    rfl
  | some e =>
    obtain ⟨h1, h2, h3, h4⟩ := hp
    exact keeps_row h1 h2 (filter := some e) ⟨h3, h4⟩ hm he

/-- Reading a well-formed snapshot, batch by batch. -/
theorem readHandle_eq {E : Env} {fs : FS} {h : Handle} {o : ReadOpts} {v : Option Version}
    {id : Option Nat} {snap : Snapshot} (hv : versionArg h.md v = .ok id)
    (hs : h.snapshot id = .ok snap) (hok : ∀ p ∈ snap.index, ManifestOK fs h.md.schema p)
    (hf : PruneOK h.md.schema o.filter) {mf : Option MExpr}
    (hm : manifestFilter h.md.schema o.filter = .ok mf)
    (hc : ∀ c ∈ o.cols h.md.schema, c ∈ h.md.schema.names) (hrr : o.refRead = false) :
    ∃ bs, readHandle E fs h o v = .ok bs ∧
      bs.flatten = (filterRows E.I o.filter (physRows fs snap.index)).map
        (outRow fs.records h.md.schema (o.cols h.md.schema)) ∧
      (0 < o.batch → ∀ b ∈ bs, b ≠ [] ∧ b.length ≤ o.batch) := by
  have hve : ∀ (k : Except Err (Option Nat) → Except Err (List (List Row))),
      readHandle E fs h o v = (match versionArg h.md v with
        | .error e => .error e
        | .ok id => match dataFiles fs h o.filter id with
          | .error e => .error e
          | .ok fset => readFiles E fs h.md.schema o fset.files) := by
    intro _
    cases v <;> rfl
  rw [hve (fun _ => .ok []), hv]
  simp only [dataFiles_eq hs hm hok]
  have hfile : ∀ f ∈ (packFiles fs mf
      (snap.index.filter (fun p => decide (keptEntries fs mf p ≠ []))) 1).files,
      ∃ m, EntryOK fs fs.records h.md.schema m ∧ f.path = m.file ∧ f.bitmap = none ∧ f.slice = none := by
    intro f hf
    obtain ⟨p, hp, m, hm', n, rfl, -, -⟩ := packFiles_mem hf
    obtain ⟨rows, h1, _, h3⟩ := hok p (List.mem_filter.mp hp).1
    have hmr : m ∈ rows := by
      have := (List.mem_filter.mp hm').1
      simpa [entriesOf, h1] using this
    exact ⟨m, h3 m hmr, rfl, rfl, rfl⟩
  obtain ⟨bs, h1, h2, h3⟩ := readFiles_eq (E := E) (fs := fs) hc hrr
    (packFiles fs mf (snap.index.filter (fun p => decide (keptEntries fs mf p ≠ []))) 1).files
    (fun f => filterRows E.I o.filter (fileRows fs f.path))
    (fun f hf => by
      obtain ⟨m, ⟨g, hg, _⟩, hp, _⟩ := hfile f hf
      simp [hp, hg])
    (fun f hf => by
      obtain ⟨m, _, _, hb, hsl⟩ := hfile f hf
      simp [visibleRows, selectRows, hb, hsl])
    (fun f hf r hr => by
      obtain ⟨m, hm', hp, _⟩ := hfile f hf
      rw [hp] at hr
      exact fileRows_mem hm' r (filterRows_subset r hr))
  refine ⟨bs, h1, ?_, fun hb => h3 (fun f hf => (hfile f hf).choose_spec.2.2.2) hb⟩
  rw [h2, packFiles_flatMap _ (fun m => filterRows E.I o.filter (fileRows fs m.file)) (fun _ _ => rfl),
    keptRows hok]
  intro p hp m hm' r hr
  obtain ⟨rows, h1', _, h3'⟩ := hok p hp
  exact hf.keeps hm (h3' m (by simpa [entriesOf, h1'] using hm')) r hr

theorem flatten_filter_nonempty (bs : List (List Row)) :
    (bs.filter (fun b => !b.isEmpty)).flatten = bs.flatten := by
  induction bs with
  | nil => rfl
  | cons b bs ih =>
    cases b with
    | nil => simpa using ih
    | cons r b => simp [ih]

/-- Reading a well-formed snapshot. -/
theorem readAll_eq {E : Env} {fs : FS} {h : Handle} {o : ReadOpts} {v : Option Version}
    {id : Option Nat} {snap : Snapshot} (hv : versionArg h.md v = .ok id)
    (hs : h.snapshot id = .ok snap) (hok : ∀ p ∈ snap.index, ManifestOK fs h.md.schema p)
    (hf : PruneOK h.md.schema o.filter) {mf : Option MExpr}
    (hm : manifestFilter h.md.schema o.filter = .ok mf)
    (hc : ∀ c ∈ o.cols h.md.schema, c ∈ h.md.schema.names) (hrr : o.refRead = false) :
    readAll E fs h o v = .ok ((filterRows E.I o.filter (physRows fs snap.index)).map
        (outRow fs.records h.md.schema (o.cols h.md.schema))) := by
  obtain ⟨bs, h1, h2, -⟩ := readHandle_eq hv hs hok hf hm hc hrr (E := E)
  simp only [readAll, h1, Except.map, flatten_filter_nonempty, h2]

end Space
