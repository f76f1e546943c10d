import Verif.StatsLemmas

/-! # Statistics are the least and greatest keys; pruning opens no file in vain -/

set_option autoImplicit false

namespace Space

/-! ## Statistics -/

/-- The statistics are the least and the greatest of the values, or absent if there is none. -/
def Sums (V : Scalar → Prop) (st : Option Scalar × Option Scalar) : Prop :=
  (st = (none, none) ∧ ∀ x, ¬ V x) ∨
    ∃ mn mx, st = (some mn, some mx) ∧ V mn ∧ V mx ∧ ∀ x, V x → mn ≤ x ∧ x ≤ mx

theorem Sums.congr {V W : Scalar → Prop} (h : ∀ x, V x ↔ W x) {st : Option Scalar × Option Scalar} (hs : Sums V st) :
    Sums W st := by
  have : V = W := funext fun x => propext (h x)
  exact this ▸ hs

theorem Sums.merge {V W : Scalar → Prop} {acc st out : Option Scalar × Option Scalar} (h1 : Sums V acc)
    (h2 : Sums W st) (h : mergeStats acc st = .ok out) : Sums (fun x => V x ∨ W x) out := by
  rcases h1 with ⟨rfl, hv⟩ | ⟨mn, mx, rfl, v1, v2, v3⟩
  · simp only [mergeStats, Except.ok.injEq] at h
    subst h
    exact h2.congr fun x => by simp [hv x]
  · rcases h2 with ⟨rfl, hw⟩ | ⟨mn', mx', rfl, w1, w2, w3⟩
    · cases h
    · simp only [mergeStats, Except.ok.injEq] at h
      subst h
      refine .inr ⟨_, _, rfl, ?_, ?_, ?_⟩
      · split
        · exact .inr w1
        · exact .inl v1
      · split
        · exact .inr w2
        · exact .inl v2
      · rintro x (hx | hx)
        · have := v3 x hx
          grind
        · have := w3 x hx
          grind

theorem mergeGroups_sums {α : Type} {W : α → Scalar → Prop} {f : α → Option Scalar × Option Scalar} :
    ∀ {gs : List α} {V : Scalar → Prop} {acc out : Option Scalar × Option Scalar}, (∀ g ∈ gs, Sums (W g) (f g)) →
    Sums V acc → mergeGroups (gs.map f) acc = .ok out → Sums (fun x => V x ∨ ∃ g ∈ gs, W g x) out
  | [], V, acc, out, _, ha, h => by
    simp only [List.map_nil, mergeGroups, Except.ok.injEq] at h
    subst h
    exact ha.congr fun x => by simp
  | g :: gs, V, acc, out, hg, ha, h => by
    simp only [List.map_cons, mergeGroups] at h
    split at h
    · cases h
    · rename_i acc' hacc
      refine (mergeGroups_sums (fun g' h' => hg g' (List.mem_cons_of_mem _ h'))
        (ha.merge (hg g (List.mem_cons_self ..)) hacc) h).congr fun x => ?_
      simp [or_assoc]

/-- The leaf of a key. -/
theorem rowLeaves_simple {s : Schema} (r : Row) {pre post : List Field} {f : Field}
    (hf : s.fields = pre ++ f :: post) (hpre : ∀ g ∈ pre, s.leafCount g = 1) (hs : s.simple f = true) :
    (rowLeaves s r)[pre.length]? = some (r.val f.name).scalar? := by
  unfold rowLeaves
  rw [hf, List.flatMap_append]
  have hlen : (pre.flatMap (fun f => leavesOf s f (r.val f.name))).length = pre.length := by
    clear hf
    induction pre with
    | nil => rfl
    | cons a pre ih =>
      simp only [List.flatMap_cons, List.length_append, leavesOf_length, List.length_cons,
        hpre a (List.mem_cons_self ..), ih fun g hg => hpre g (List.mem_cons_of_mem _ hg)]
      omega
  rw [List.getElem?_append_right (by omega), hlen, Nat.sub_self, List.flatMap_cons]
  have : leavesOf s f (r.val f.name) = [(r.val f.name).scalar?] := by
    unfold leavesOf
    unfold Schema.simple at hs
    simp only [Bool.and_eq_true, Bool.not_eq_true'] at hs
    rw [hs.1]
    cases hty : f.ty <;> cases hv : r.val f.name <;> simp_all [Val.scalar?]
  rw [this]
  rfl

/-- The value is in the column of a row; nulls and NaN are not values. -/
def HasValue (rows : List Row) (c : String) (x : Scalar) : Prop := x ≠ .nan ∧ ∃ r ∈ rows, r.val c = .sc x

theorem groupStats_sums {s : Schema} {g : List Row} {c : Nat} {name : String}
    (h : ∀ r : Row, (rowLeaves s r)[c]? = some (r.val name).scalar?) :
    Sums (HasValue g name) (groupStats s g c) := by
  have hm : ∀ x, some x ∈ g.map (fun r => ((rowLeaves s r)[c]?).join) ↔ ∃ r ∈ g, r.val name = .sc x := by
    intro x
    simp only [List.mem_map, h, Option.join_some]
    constructor
    · rintro ⟨r, hr, hx⟩
      exact ⟨r, hr, scalar?_eq hx⟩
    · rintro ⟨r, hr, hx⟩
      exact ⟨r, hr, by rw [hx]; rfl⟩
  unfold groupStats
  rcases minMaxOf_shape (g.map (fun r => ((rowLeaves s r)[c]?).join)) with ⟨h1, h2⟩ | ⟨mn, mx, h1, h2, h3, h4, h5⟩
  · refine .inl ⟨h1, ?_⟩
    rintro x ⟨hn, hx⟩
    rcases h2 _ ((hm x).mpr hx) with h | h
    · cases h
    · cases h
      exact hn rfl
  · refine .inr ⟨mn, mx, h1, ⟨h4.1, (hm _).mp h2⟩, ⟨h4.2, (hm _).mp h3⟩, ?_⟩
    rintro x ⟨hn, hx⟩
    exact h5 x ((hm x).mpr hx) hn

/-- The statistics of a file sum up the values of every key. -/
def Stats.Exact (st : Stats) (s : Schema) (rows : List Row) : Prop :=
  ∀ c ∈ s.pks, ∀ fid, s.fidOf c = some fid → ∃ m, st.get? fid = some m ∧ Sums (HasValue rows c) m

theorem fileStats_exact {s : Schema} (hk : s.keysLeaf = true) (hn : (s.fields.map (·.fid)).Nodup)
    {groups : List (List Row)} {st : Stats} (h : fileStats s groups s.statsFields = .ok st) :
    st.Exact s groups.flatten := by
  intro p hp fid hfid
  simp only [Schema.fidOf, Option.map_eq_some_iff] at hfid
  obtain ⟨f, hfind, rfl⟩ := hfid
  have hname : f.name = p := by simpa using List.find?_some hfind
  obtain ⟨pre, post, hsplit⟩ := List.append_of_mem (List.mem_of_find?_eq_some hfind)
  have hpk : s.pks.contains f.name = true := by rw [hname]; simpa using hp
  obtain ⟨hsimple, hpre⟩ := Schema.keysLeaf_split hk hsplit hpk
  have hfs : f ∈ s.statsFields := by
    simp only [Schema.statsFields, List.mem_filter]
    exact ⟨List.mem_of_find?_eq_some hfind, hpk⟩
  obtain ⟨c, m, h1, h2, h3⟩ := fileStats_get h f hfs
  have hc : c = pre.length := by
    unfold Schema.columnIdOf at h1
    rw [findIdx_split hsplit hn] at h1
    cases h1; rfl
  subst hc
  refine ⟨m, h3, ?_⟩
  refine (mergeGroups_sums (V := fun _ => False) (W := fun g => HasValue g p) (fun g _ => ?_)
    (.inl ⟨rfl, fun _ h => h⟩) h2).congr fun x => ?_
  · exact groupStats_sums fun r => by rw [← hname]; exact rowLeaves_simple r hsplit hpre hsimple
  · simp only [HasValue, false_or, List.mem_flatten]
    constructor
    · rintro ⟨g, hg, hn, r, hr, hv⟩
      exact ⟨hn, r, ⟨g, hg, hr⟩, hv⟩
    · rintro ⟨hn, r, ⟨g, hg, hr⟩, hv⟩
      exact ⟨g, hg, hn, r, hr, hv⟩

/-! ## Range filters -/

/-- One side of a comparison. -/
inductive Operand where
  | col (c : String)
  /-- a field of a struct column -/
  | field (c : String) (k : Nat)
  | lit (v : Scalar)

/-- Filters made of comparisons of columns and literals by `and` and `or`. -/
inductive Cond where
  | cmp (op : Cmp) (a b : Operand)
  | and (a b : Cond)
  | or (a b : Cond)

/-- Name of a comparison. -/
def Cmp.name : Cmp → String
  | .gt => "gt"
  | .gte => "gte"
  | .lt => "lt"
  | .lte => "lte"
  | .equal => "equal"
  | .not_equal => "not_equal"

/-- The operand as part of a filter. -/
def Operand.expr : Operand → Expr
  | .col c => .sel c
  | .field c k => .sub c k
  | .lit v => .lit v

/-- The condition as a filter. -/
def Cond.expr : Cond → Expr
  | .cmp op a b => .bin op.name a.expr b.expr
  | .and a b => .bin "and" a.expr b.expr
  | .or a b => .bin "or" a.expr b.expr

/-- Values the operand could have if one knows of a file only the least and the greatest value of the column. -/
def Operand.Within (rows : List Row) : Operand → Scalar → Prop
  | .col c, x => ∃ lo hi, HasValue rows c lo ∧ HasValue rows c hi ∧ lo ≤ x ∧ x ≤ hi
  | .field _ _, _ => True
  | .lit v, x => x = v

/-- A column other than a key. -/
def Operand.free (s : Schema) : Operand → Prop
  | .col c => c ∉ s.pks
  | .field _ _ => True
  | .lit _ => False

/-- Going by the range of each key in the rows, the condition may be true of one: each comparison of
keys and literals is true of some values in range. -/
def Cond.Admits (s : Schema) (rows : List Row) : Cond → Prop
  | .cmp op a b => a.free s ∨ b.free s ∨ ∃ x y, a.Within rows x ∧ b.Within rows y ∧ op.test x y = true
  | .and a b => a.Admits s rows ∧ b.Admits s rows
  | .or a b => a.Admits s rows ∨ b.Admits s rows

/-- The columns are found under their own names, keys have no fields, and no literal is NaN. -/
def Operand.ok (s : Schema) : Operand → Prop
  | .col c => c ∈ s.names ∧ s.resolve c = some c
  | .field c _ => c ∈ s.names ∧ s.resolve c = some c ∧ c ∉ s.pks
  | .lit v => v ≠ .nan

/-- A key column. -/
def Operand.key (s : Schema) : Operand → Prop
  | .col c => c ∈ s.pks
  | .field _ _ => False
  | .lit _ => False

/-- The columns are found under their own names, no literal is NaN, and no `≠` is between two keys. -/
def Cond.ok (s : Schema) : Cond → Prop
  | .cmp op a b => a.ok s ∧ b.ok s ∧ (op = .not_equal → ¬ (a.key s ∧ b.key s))
  | .and a b => a.ok s ∧ b.ok s
  | .or a b => a.ok s ∧ b.ok s

theorem Cmp.ofName_name (op : Cmp) : Cmp.ofName op.name = some op := by cases op <;> rfl

theorem Operand.notFn (a : Operand) : a.expr.isFn = false := by cases a <;> rfl

theorem Cond.isFn (a : Cond) : a.expr.isFn = true := by cases a <;> rfl

theorem ffMinMax_of {s : Schema} {c : String} (hc : (Operand.col c).ok s) :
    ∃ fid, s.fidOf c = some fid ∧ ffMinMax s c = .ok (fid, s.pks.contains c) := by
  obtain ⟨h1, h2⟩ := hc
  obtain ⟨f, hf, hname⟩ := List.mem_map.mp h1
  have : (s.fidOf c).isSome = true := by
    unfold Schema.fidOf
    rw [Option.isSome_map, List.find?_isSome]
    exact ⟨f, hf, by simpa using hname⟩
  obtain ⟨fid, hfid⟩ := Option.isSome_iff_exists.mp this
  exact ⟨fid, hfid, by simp only [ffMinMax, h2, hfid]⟩

/-- What a part of a manifest filter says. -/
def Tells (s : Schema) (rows : List Row) (st : Stats) (c : Cond) : Option MExpr → Prop
  | none => c.Admits s rows
  | some m => m.eval st = some false ↔ c.Admits s rows

theorem within_ends {rows : List Row} {c : String} {mn mx : Scalar} (h1 : HasValue rows c mn) (h2 : HasValue rows c mx)
    (h3 : ∀ x, HasValue rows c x → mn ≤ x ∧ x ≤ mx) (x : Scalar) :
    (Operand.col c).Within rows x ↔ mn ≤ x ∧ x ≤ mx := by
  constructor
  · rintro ⟨lo, hi, hl, hh, h4, h5⟩
    exact ⟨Scalar.le_trans (h3 lo hl).1 h4, Scalar.le_trans h5 (h3 hi hh).2⟩
  · rintro ⟨h4, h5⟩
    exact ⟨mn, mx, h1, h2, h4, h5⟩

/-- The range of a key, and what the statistics hold of it. -/
theorem key_range {s : Schema} {rows : List Row} {st : Stats} (h : st.Exact s rows) {c : String} (hc : c ∈ s.pks)
    {fid : Nat} (hf : s.fidOf c = some fid) :
    ((MTerm.mn fid).eval st = none ∧ (MTerm.mx fid).eval st = none ∧ ∀ x, ¬ (Operand.col c).Within rows x) ∨
    ∃ mn mx, (MTerm.mn fid).eval st = some mn ∧ (MTerm.mx fid).eval st = some mx ∧ mn ≠ .nan ∧ mx ≠ .nan ∧ mn ≤ mx ∧
      ∀ x, (Operand.col c).Within rows x ↔ mn ≤ x ∧ x ≤ mx := by
  obtain ⟨m, h1, ⟨rfl, h2⟩ | ⟨mn, mx, rfl, h2, h3, h4⟩⟩ := h c hc fid hf
  · refine .inl ⟨by simp [MTerm.eval, h1], by simp [MTerm.eval, h1], ?_⟩
    rintro x ⟨lo, hi, hl, -⟩
    exact h2 lo hl
  · exact .inr ⟨mn, mx, by simp [MTerm.eval, h1], by simp [MTerm.eval, h1], h2.1, h3.1, (h4 mn h2).2,
      within_ends h2 h3 h4⟩

theorem within_lit {rows : List Row} {v x : Scalar} : (Operand.lit v).Within rows x ↔ x = v := Iff.rfl

theorem eval_val {st : Stats} {v : Scalar} : (MTerm.val v).eval st = some v := rfl

/-- The part of a manifest filter tells, for every file, whether the condition admits it. -/
def TellsAll (s : Schema) (c : Cond) (o : Option MExpr) : Prop :=
  ∀ (st : Stats) (rows : List Row), st.Exact s rows → Tells s rows st c o

/-- Comparisons with a literal. -/
theorem tells_literal {s : Schema} {c : String} {v : Scalar}
    (hc : (Operand.col c).ok s) (hv : v ≠ .nan) (op : Cmp) (rev : Bool) :
    ∃ o, ffFieldLiteral s op.name c v rev = .ok o ∧
      TellsAll s (if rev then .cmp op (.lit v) (.col c) else .cmp op (.col c) (.lit v)) o := by
  obtain ⟨fid, hf, hm⟩ := ffMinMax_of hc
  by_cases hpk : c ∈ s.pks
  · have hp : s.pks.contains c = true := by simpa using hpk
    cases op <;> cases rev <;>
      refine ⟨_, by simp only [ffFieldLiteral, hm, hp, Bool.not_true, Bool.false_eq_true, if_true, if_false, Cmp.name,
        ffReverse, Cmp.ofName]; rfl, fun st rows h => ?_⟩ <;>
      have hr := key_range h hpk hf <;>
      simp only [Tells, Bool.false_eq_true, if_true, if_false, Cond.Admits, Operand.free, hpk, not_true_eq_false, false_or,
        MExpr.eval] <;>
      (rcases hr with ⟨h1, h2, h3⟩ | ⟨mn, mx, h1, h2, n1, n2, hle, h3⟩
       · simp only [h1, h2, Cmp.eval, kOr_eq_false, kAnd_eq_false, reduceCtorEq, and_self, or_self, false_iff, not_exists]
         rintro x y ⟨a, b, -⟩
         first
         | exact h3 _ a
         | exact h3 _ b
       · simp only [h1, h2, h3, eval_val, within_lit, Cmp.eval, Cmp.holds, n1, n2, hv, or_self, if_false, kOr_eq_false,
           kAnd_eq_false, Option.some.injEq, Cmp.test, decide_eq_false_iff_not, decide_eq_true_eq]
         constructor
         · intro h
           first
           | exact ⟨_, _, ⟨hle, Scalar.le_refl _⟩, rfl, by grind⟩
           | exact ⟨_, _, ⟨Scalar.le_refl _, hle⟩, rfl, by grind⟩
           | exact ⟨_, _, rfl, ⟨hle, Scalar.le_refl _⟩, by grind⟩
           | exact ⟨_, _, rfl, ⟨Scalar.le_refl _, hle⟩, by grind⟩
           | exact ⟨v, v, by grind, rfl, by grind⟩
           | exact ⟨v, v, rfl, by grind, by grind⟩
           | (rcases h with h | h
              · exact ⟨mn, v, by grind⟩
              · exact ⟨mx, v, by grind⟩)
           | (rcases h with h | h
              · exact ⟨v, mn, by grind⟩
              · exact ⟨v, mx, by grind⟩)
         · rintro ⟨x, y, a, b, d⟩
           grind)
  · have hp : s.pks.contains c = false := by simpa using hpk
    refine ⟨none, by simp [ffFieldLiteral, hm, hpk], fun st rows h => ?_⟩
    cases rev <;> simp [Tells, Cond.Admits, Operand.free, hpk]

/-- Comparisons of two columns. -/
theorem tells_fields {s : Schema} {l r : String}
    (hl : (Operand.col l).ok s) (hr : (Operand.col r).ok s) (op : Cmp)
    (hne : op = .not_equal → ¬ (l ∈ s.pks ∧ r ∈ s.pks)) :
    ∃ o, ffFields s op.name l r = .ok o ∧ TellsAll s (.cmp op (.col l) (.col r)) o := by
  obtain ⟨lf, hlf, hlm⟩ := ffMinMax_of hl
  obtain ⟨rf, hrf, hrm⟩ := ffMinMax_of hr
  by_cases hpk : l ∈ s.pks ∧ r ∈ s.pks
  · have hp1 : s.pks.contains l = true := by simpa using hpk.1
    have hp2 : s.pks.contains r = true := by simpa using hpk.2
    have hne' : op ≠ .not_equal := fun h => hne h hpk
    cases op <;> first | exact absurd rfl hne' | skip
    all_goals
      refine ⟨_, by simp only [ffFields, hlm, hrm, hp1, hp2, Bool.and_self, Bool.not_true, Bool.false_eq_true, if_false,
        Cmp.name, Cmp.ofName]; rfl, fun st rows h => ?_⟩
      have r1 := key_range h hpk.1 hlf
      have r2 := key_range h hpk.2 hrf
      simp only [Tells, Cond.Admits, Operand.free, hpk.1, hpk.2, not_true_eq_false, false_or, MExpr.eval]
      rcases r1 with ⟨h1, h2, h3⟩ | ⟨mn, mx, h1, h2, n1, n2, hle, h3⟩
      · simp only [h1, h2, Cmp.eval, kOr_eq_false, reduceCtorEq, and_self, and_false, false_and, false_iff, not_exists]
        rintro x y ⟨a, -⟩
        exact h3 _ a
      · rcases r2 with ⟨k1, k2, k3⟩ | ⟨mn', mx', k1, k2, m1, m2, hle', k3⟩
        · simp only [h1, h2, k1, k2, Cmp.eval, kOr_eq_false, reduceCtorEq, and_self, and_false, false_and, false_iff,
            not_exists]
          rintro x y ⟨-, a, -⟩
          exact k3 _ a
        · simp only [h1, h2, h3, k1, k2, k3, Cmp.eval, Cmp.holds, n1, n2, m1, m2, or_self, if_false, kOr_eq_false,
            Option.some.injEq, Cmp.test, decide_eq_false_iff_not, decide_eq_true_eq]
          constructor
          · intro h
            first
            | exact ⟨mx, mn', by grind⟩
            | exact ⟨mn, mx', by grind⟩
            | (rcases Scalar.le_total mn mn' with h' | h'
               · exact ⟨mn', mn', by grind⟩
               · exact ⟨mn, mn, by grind⟩)
          · rintro ⟨x, y, a, b, d⟩
            grind
  · have hp : (s.pks.contains l && s.pks.contains r) = false := by
      simp only [Bool.and_eq_false_iff, List.contains_eq_mem, decide_eq_false_iff_not]
      by_cases h1 : l ∈ s.pks
      · exact .inr fun h2 => hpk ⟨h1, h2⟩
      · exact .inl h1
    refine ⟨none, by simp only [ffFields, hlm, hrm, hp, Bool.not_false, if_true], fun st rows h => ?_⟩
    simp only [Tells, Cond.Admits, Operand.free]
    by_cases h1 : l ∈ s.pks
    · exact .inr (.inl fun h2 => hpk ⟨h1, h2⟩)
    · exact .inl h1

/-- Comparisons of two literals. -/
theorem tells_literals {s : Schema} {l r : Scalar} (hl : l ≠ .nan) (hr : r ≠ .nan)
    (op : Cmp) : ∃ o, ffLiterals op.name l r = .ok o ∧ TellsAll s (.cmp op (.lit l) (.lit r)) o := by
  cases op <;>
    refine ⟨_, rfl, fun st rows h => ?_⟩ <;>
    simp only [Tells, Cond.Admits, Operand.free, within_lit, false_or, MExpr.eval, eval_val, Cmp.eval, Cmp.holds, hl,
      hr, or_self, if_false, Option.some.injEq, Cmp.test, decide_eq_false_iff_not, decide_eq_true_eq] <;>
    grind

/-- Comparisons with a field of a struct tell nothing. -/
theorem fields_free {s : Schema} {l r : String} {fn : String} (hl : (Operand.col l).ok s) (hr : (Operand.col r).ok s)
    (h : l ∉ s.pks ∨ r ∉ s.pks) : ffFields s fn l r = .ok none := by
  obtain ⟨lf, hlf, hlm⟩ := ffMinMax_of hl
  obtain ⟨rf, hrf, hrm⟩ := ffMinMax_of hr
  have hp : (s.pks.contains l && s.pks.contains r) = false := by
    simpa only [Bool.and_eq_false_iff, List.contains_eq_mem, decide_eq_false_iff_not] using h
  simp only [ffFields, hlm, hrm, hp, Bool.not_false, if_true]

theorem literal_free {s : Schema} {c : String} {fn : String} {v : Scalar} {rev : Bool} (hc : (Operand.col c).ok s)
    (h : c ∉ s.pks) : ffFieldLiteral s fn c v rev = .ok none := by
  obtain ⟨fid, hf, hm⟩ := ffMinMax_of hc
  simp [ffFieldLiteral, hm, h]

/-- The rewriting is exact. -/
theorem tells {s : Schema} : ∀ {c : Cond}, c.ok s → ∃ o, ffInternal s c.expr = .ok o ∧ TellsAll s c o
  | .cmp op a b, hc => by
    obtain ⟨h1, h2, h3⟩ := hc
    cases a with
    | col l =>
      cases b with
      | col r =>
        obtain ⟨o, h4, h5⟩ := tells_fields h1 h2 op h3
        exact ⟨o, by simpa [Cond.expr, Operand.expr, ffInternal, Expr.isFn, Expr.column, Expr.literal] using h4, h5⟩
      | lit v =>
        obtain ⟨o, h4, h5⟩ := tells_literal h1 h2 op false
        exact ⟨o, by simpa [Cond.expr, Operand.expr, ffInternal, Expr.isFn, Expr.column, Expr.literal] using h4, h5⟩
      | field r k =>
        refine ⟨none, ?_, fun _ _ _ => .inr (.inl trivial)⟩
        have h4 := fields_free (fn := op.name) h1 ⟨h2.1, h2.2.1⟩ (Or.inr h2.2.2)
        simpa [Cond.expr, Operand.expr, ffInternal, Expr.isFn, Expr.column, Expr.literal] using h4
    | field l k =>
      refine ⟨none, ?_, fun _ _ _ => .inl trivial⟩
      cases b with
      | col r =>
        have h4 := fields_free (fn := op.name) ⟨h1.1, h1.2.1⟩ h2 (Or.inl h1.2.2)
        simpa [Cond.expr, Operand.expr, ffInternal, Expr.isFn, Expr.column, Expr.literal] using h4
      | field r k' =>
        have h4 := fields_free (fn := op.name) (s := s) (l := l) (r := r) ⟨h1.1, h1.2.1⟩ ⟨h2.1, h2.2.1⟩ (Or.inl h1.2.2)
        simpa [Cond.expr, Operand.expr, ffInternal, Expr.isFn, Expr.column, Expr.literal] using h4
      | lit v =>
        have h4 := literal_free (fn := op.name) (s := s) (c := l) (v := v) (rev := false) ⟨h1.1, h1.2.1⟩ h1.2.2
        simpa [Cond.expr, Operand.expr, ffInternal, Expr.isFn, Expr.column, Expr.literal] using h4
    | lit u =>
      cases b with
      | col r =>
        obtain ⟨o, h4, h5⟩ := tells_literal h2 h1 op true
        exact ⟨o, by simpa [Cond.expr, Operand.expr, ffInternal, Expr.isFn, Expr.column, Expr.literal] using h4, h5⟩
      | field r k =>
        refine ⟨none, ?_, fun _ _ _ => .inr (.inl trivial)⟩
        have h4 := literal_free (fn := op.name) (s := s) (c := r) (v := u) (rev := true) ⟨h2.1, h2.2.1⟩ h2.2.2
        simpa [Cond.expr, Operand.expr, ffInternal, Expr.isFn, Expr.column, Expr.literal] using h4
      | lit v =>
        obtain ⟨o, h4, h5⟩ := tells_literals (s := s) h1 h2 op
        exact ⟨o, by simpa [Cond.expr, Operand.expr, ffInternal, Expr.isFn, Expr.column, Expr.literal] using h4, h5⟩
  | .and a b, hc => by
    obtain ⟨o1, h1, h2⟩ := tells hc.1
    obtain ⟨o2, h3, h4⟩ := tells hc.2
    simp only [Cond.expr, ffInternal, Cond.isFn, Bool.or_self, if_true, h1, h3]
    cases o1 with
    | none => exact ⟨o2, rfl, fun st rows h => by
        have := h2 st rows h
        have := h4 st rows h
        cases o2 <;> simp_all [Tells, Cond.Admits]⟩
    | some m1 =>
      cases o2 with
      | none => exact ⟨_, rfl, fun st rows h => by
          have := h2 st rows h
          have := h4 st rows h
          simp_all [Tells, Cond.Admits]⟩
      | some m2 => exact ⟨_, rfl, fun st rows h => by
          have := h2 st rows h
          have := h4 st rows h
          simp_all [Tells, Cond.Admits, MExpr.eval, kOr_eq_false]⟩
  | .or a b, hc => by
    obtain ⟨o1, h1, h2⟩ := tells hc.1
    obtain ⟨o2, h3, h4⟩ := tells hc.2
    simp only [Cond.expr, ffInternal, Cond.isFn, Bool.or_self, if_true, h1, h3]
    cases o1 with
    | none => exact ⟨none, by cases o2 <;> rfl, fun st rows h => .inl (h2 st rows h)⟩
    | some m1 =>
      cases o2 with
      | none => exact ⟨none, rfl, fun st rows h => .inr (h4 st rows h)⟩
      | some m2 => exact ⟨_, rfl, fun st rows h => by
          have := h2 st rows h
          have := h4 st rows h
          simp_all [Tells, Cond.Admits, MExpr.eval, kAnd_eq_false]⟩

theorem Cond.cols_names {s : Schema} : ∀ {c : Cond}, c.ok s → ∀ x ∈ c.expr.cols, x ∈ s.names
  | .cmp op a b, hc, x, hx => by
    have : ∀ {o : Operand}, o.ok s → ∀ x ∈ o.expr.cols, x ∈ s.names := by
      rintro (c | ⟨c, k⟩ | v) ho x hx
      · simp only [Operand.expr, Expr.cols, List.mem_singleton] at hx
        exact hx ▸ ho.1
      · simp only [Operand.expr, Expr.cols, List.mem_singleton] at hx
        exact hx ▸ ho.1
      · simp [Operand.expr, Expr.cols] at hx
    rcases List.mem_append.mp hx with h | h
    · exact this hc.1 x h
    · exact this hc.2.1 x h
  | .and a b, hc, x, hx => by
    rcases List.mem_append.mp hx with h | h
    · exact cols_names hc.1 x h
    · exact cols_names hc.2 x h
  | .or a b, hc, x, hx => by
    rcases List.mem_append.mp hx with h | h
    · exact cols_names hc.1 x h
    · exact cols_names hc.2 x h

/-- The manifest filter of a condition keeps exactly the files it admits.  (The filter itself
depends on the schema only.) -/
theorem manifestFilter_exact {s : Schema} {c : Cond} (hc : c.ok s) :
    ∃ mf, manifestFilter s (some c.expr) = .ok mf ∧
      ∀ {st : Stats} {rows : List Row}, st.Exact s rows → (MExpr.keeps mf st = true ↔ c.Admits s rows) := by
  have hcols : c.expr.cols.all (fun x => s.names.contains x) = true := by
    simpa using fun x hx => Cond.cols_names hc x hx
  obtain ⟨o, hff, ht⟩ := tells hc
  refine ⟨o.map .not, by cases o <;> simp only [manifestFilter, hcols, if_true, buildManifestFilter, hff] <;> rfl, fun {st rows} h => ?_⟩
  have h2 := ht st rows h
  cases o with
  | none => simpa [MExpr.keeps, Tells] using h2
  | some m => simpa [MExpr.keeps, MExpr.eval, kNot_eq_true, Tells] using h2

end Space
