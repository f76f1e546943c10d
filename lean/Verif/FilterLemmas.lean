import Verif.Manifest

/-! # Lemmas about manifest pruning -/

namespace Space

/-! ## Specification vocabulary -/

/-- A column of floats. -/
def Schema.isFloat (s : Schema) (c : String) : Bool :=
  s.fields.any (fun f => f.name == c && f.ty == .float)

/-- The statistics bound a row: for each primary key with a value other than NaN, min
and max are recorded under its field id and enclose the value; only columns of floats
hold NaN. -/
def Stats.Bounds (st : Stats) (s : Schema) (r : Row) : Prop :=
  ∀ p ∈ s.pks, ∀ v, r.val p = .sc v → ∀ f, s.fidOf p = some f →
    if v = .nan then s.isFloat p = true
    else ∃ mn mx, st.get? f = some (some mn, some mx) ∧ mn ≤ v ∧ v ≤ mx ∧ mn ≠ .nan ∧ mx ≠ .nan

/-- No column is mentioned, and no NaN. -/
def Expr.closed : Expr → Bool
  | .sel _ => false
  | .sub .. => false
  | .lit v => v != .nan
  | .un _ a => a.closed
  | .bin _ a b => a.closed && b.closed
  | .opq .. => false

/-- Is a bare column from `pks`. -/
def Expr.isKeyOf (pks : List String) : Expr → Bool
  | .sel c => pks.contains c
  | _ => false

/-- Is a literal. -/
def Expr.isLit : Expr → Bool
  | .lit _ => true
  | _ => false

/-- The filters whose pruning is sound: `not` only in front of constants or of
another `not`, no `≠` between two primary key columns, and no `≠` between a primary
key column of floats and a literal.  References into structs are not into keys, which
have no fields. -/
def Expr.pruneSafe (s : Schema) : Expr → Bool
  | .sel _ => true
  | .sub c _ => !s.pks.contains c
  | .lit _ => true
  | .opq .. => true
  | .un fn a =>
    if fn = "not" then
      a.closed || (match a with
        | .un fn' b => fn' == "not" && b.pruneSafe s
        | _ => false)
    else true
  | .bin fn a b =>
    a.pruneSafe s && b.pruneSafe s &&
      !(fn == "not_equal" && (a.isKeyOf s.pks && b.isKeyOf s.pks ||
        a.isKeyOf (s.pks.filter s.isFloat) && b.isLit || a.isLit && b.isKeyOf (s.pks.filter s.isFloat)))

/-- Every column the filter mentions is looked up under its own name. -/
def Schema.Aligned (s : Schema) (e : Expr) : Prop := ∀ c ∈ e.cols, s.resolve c = some c

/-! ## Kleene lemmas -/

@[simp] theorem asBool_ofBool (b : Option Bool) : (Val.ofBool b).asBool = b := by
  cases b <;> rfl

theorem kNot_kAnd (a b : Option Bool) : kNot (kAnd a b) = kOr (kNot a) (kNot b) := by
  rcases a with _ | _ | _ <;> rcases b with _ | _ | _ <;> simp [kAnd, kOr, kNot]

theorem kNot_kOr (a b : Option Bool) : kNot (kOr a b) = kAnd (kNot a) (kNot b) := by
  rcases a with _ | _ | _ <;> rcases b with _ | _ | _ <;> simp [kAnd, kOr, kNot]

@[simp] theorem kNot_kNot (a : Option Bool) : kNot (kNot a) = a := by
  rcases a with _ | _ | _ <;> simp [kNot]

theorem kAnd_eq_true {a b : Option Bool} : kAnd a b = some true ↔ a = some true ∧ b = some true := by
  rcases a with _ | _ | _ <;> rcases b with _ | _ | _ <;> simp [kAnd, kOr, kNot]

theorem kOr_eq_true {a b : Option Bool} : kOr a b = some true ↔ a = some true ∨ b = some true := by
  rcases a with _ | _ | _ <;> rcases b with _ | _ | _ <;> simp [kAnd, kOr, kNot]

theorem kAnd_eq_false {a b : Option Bool} :
    kAnd a b = some false ↔ a = some false ∨ b = some false := by
  rcases a with _ | _ | _ <;> rcases b with _ | _ | _ <;> simp [kAnd, kOr, kNot]

theorem kOr_eq_false {a b : Option Bool} :
    kOr a b = some false ↔ a = some false ∧ b = some false := by
  rcases a with _ | _ | _ <;> rcases b with _ | _ | _ <;> simp [kAnd, kOr, kNot]

theorem kNot_eq_true {a : Option Bool} : kNot a = some true ↔ a = some false := by
  rcases a with _ | _ | _ <;> simp [kNot]

theorem kNot_eq_false {a : Option Bool} : kNot a = some false ↔ a = some true := by
  rcases a with _ | _ | _ <;> simp [kNot]

theorem Expr.holds_iff {I : Interp} {e : Expr} {r : Row} :
    e.holds I r = true ↔ (e.eval I r).asBool = some true := by
  simp [Expr.holds, Expr.truth]

theorem column_some {e : Expr} {c : String} (h : e.column = some c) : e = .sel c ∨ ∃ k, e = .sub c k := by
  cases e <;> simp only [Expr.column, Option.some.injEq, reduceCtorEq] at h <;> subst h
  · exact Or.inl rfl
  · exact Or.inr ⟨_, rfl⟩

theorem literal_some {e : Expr} {v : Scalar} (h : e.literal = some v) : e = .lit v := by
  cases e <;> simp only [Expr.literal, Option.some.injEq, reduceCtorEq] at h
  rw [h]

/-- For constant filters the rewritten condition is the exact negation. -/
theorem ff_closed (I : Interp) (s : Schema) (st : Stats) (r : Row) (e : Expr)
    (hc : e.closed = true) {m : Option MExpr} (h : ffInternal s e = .ok m) :
    ∃ f, m = some f ∧ f.eval st = kNot (e.eval I r).asBool := by
  induction e generalizing m with
  | sel c => simp [Expr.closed] at hc
  | sub c k => simp [Expr.closed] at hc
  | lit v =>
    simp only [ffInternal, Except.ok.injEq] at h
    exact ⟨_, h.symm, rfl⟩
  | opq k cs => simp [Expr.closed] at hc
  | un fn a ih =>
    simp only [ffInternal] at h
    split at h
    · rename_i hfn
      subst hfn
      split at h
      · simp at h
      · rename_i h'
        obtain ⟨f, hf, _⟩ := ih hc h'
        simp at hf
      · rename_i f h'
        obtain ⟨f', hf, hev⟩ := ih hc h'
        simp only [Except.ok.injEq, Option.some.injEq] at h hf
        subst hf
        refine ⟨_, h.symm, ?_⟩
        simp [MExpr.eval, hev, Expr.eval]
    · simp at h
  | bin fn a b iha ihb =>
    simp only [Expr.closed, Bool.and_eq_true] at hc
    simp only [ffInternal] at h
    split at h
    · split at h
      · simp at h
      · rename_i l hl
        obtain ⟨fl, rfl, hfl⟩ := iha hc.1 hl
        split at h
        · simp at h
        · rename_i rr hr
          obtain ⟨fr, rfl, hfr⟩ := ihb hc.2 hr
          split at h
          · rename_i hfn; subst hfn
            simp only [Except.ok.injEq] at h
            refine ⟨_, h.symm, ?_⟩
            simp [MExpr.eval, hfl, hfr, Expr.eval, kNot_kAnd]
          · split at h
            · rename_i hfn; subst hfn
              simp only [Except.ok.injEq] at h
              refine ⟨_, h.symm, ?_⟩
              simp [MExpr.eval, hfl, hfr, Expr.eval, kNot_kOr]
            · simp at h
    · split at h
      · rename_i hx _
        rcases column_some hx with rfl | ⟨k, rfl⟩ <;> simp [Expr.closed] at hc
      · rename_i l r' _ _ hl hr
        cases literal_some hl
        cases literal_some hr
        have hnot : fn ≠ "and" ∧ fn ≠ "or" ∨ Cmp.ofName fn = none := by
          by_cases h1 : fn = "and"
          · right; subst h1; rfl
          · by_cases h2 : fn = "or"
            · right; subst h2; rfl
            · exact Or.inl ⟨h1, h2⟩
        simp only [ffLiterals] at h
        simp only [Expr.closed, bne_iff_ne, ne_eq] at hc
        rcases hnot with ⟨h1, h2⟩ | h3
        · split at h <;> simp only [Except.ok.injEq, reduceCtorEq] at h <;> refine ⟨_, h.symm, ?_⟩ <;>
            rename_i hop <;>
            simp only [MExpr.eval, MTerm.eval, Expr.eval, h1, h2, hop, ite_false, Val.scalar?,
              Cmp.eval, Cmp.holds, Cmp.test, hc.1, hc.2, or_self, asBool_ofBool, kNot,
              Option.some.injEq] <;> grind
        · simp [h3] at h
      · rename_i hx _ _
        rcases column_some hx with rfl | ⟨k, rfl⟩ <;> simp [Expr.closed] at hc
      · rename_i hx _
        rcases column_some hx with rfl | ⟨k, rfl⟩ <;> simp [Expr.closed] at hc
      · simp at h

/-- `_min_max` on an aligned column. -/
theorem ffMinMax_ok {s : Schema} {c : String} (hal : s.resolve c = some c) {f : Nat} {pk : Bool}
    (h : ffMinMax s c = .ok (f, pk)) : s.fidOf c = some f ∧ pk = s.pks.contains c := by
  simp only [ffMinMax, hal] at h
  split at h
  · simp at h
  · rename_i f' hf
    simp only [Except.ok.injEq, Prod.mk.injEq] at h
    exact ⟨by rw [hf, h.1], h.2.symm⟩

/-- A comparison that is true has two non-null operands. -/
theorem cmp_true {op : Cmp} {a b : Option Scalar} (h : op.eval a b = some true) :
    ∃ x y, a = some x ∧ b = some y ∧ op.holds x y = true := by
  rcases a with _ | x <;> rcases b with _ | y <;> simp [Cmp.eval] at h
  exact ⟨x, y, rfl, rfl, h⟩

theorem scalar?_eq {v : Val} {x : Scalar} (h : v.scalar? = some x) : v = .sc x := by
  cases v <;> simp [Val.scalar?] at h
  rw [h]

/-- A named comparison is neither `and` nor `or`. -/
theorem ofName_ne {fn : String} {op : Cmp} (h : Cmp.ofName fn = some op) :
    fn ≠ "and" ∧ fn ≠ "or" := by
  constructor <;> rintro rfl <;> simp [Cmp.ofName] at h

/-- Value of a comparison expression that is true. -/
theorem eval_cmp_true {I : Interp} {r : Row} {fn : String} {op : Cmp} {a b : Expr}
    (hop : Cmp.ofName fn = some op) (ht : ((Expr.bin fn a b).eval I r).asBool = some true) :
    ∃ x y, a.eval I r = .sc x ∧ b.eval I r = .sc y ∧ op.holds x y = true := by
  obtain ⟨h1, h2⟩ := ofName_ne hop
  simp only [Expr.eval, h1, h2, ite_false, hop, asBool_ofBool] at ht
  obtain ⟨x, y, hx, hy, h⟩ := cmp_true ht
  exact ⟨x, y, scalar?_eq hx, scalar?_eq hy, h⟩

/-- Two numbers, strings, … that compare. -/
theorem Cmp.holds_of_ne {op : Cmp} {x y : Scalar} (hx : x ≠ .nan) (hy : y ≠ .nan) :
    op.holds x y = op.test x y := by
  simp [Cmp.holds, hx, hy]

/-- Only `≠` is true of NaN. -/
theorem Cmp.holds_nan {op : Cmp} {x y : Scalar} (h : op.holds x y = true) (hop : op ≠ .not_equal) :
    x ≠ .nan ∧ y ≠ .nan ∧ op.test x y = true := by
  unfold Cmp.holds at h
  split at h
  · simp [hop] at h
  · rename_i hn
    rw [not_or] at hn
    exact ⟨hn.1, hn.2, h⟩

theorem ff_literals_sound (I : Interp) (st : Stats) (r : Row) (fn : String) (l c : Scalar)
    {f : MExpr} (h : ffLiterals fn l c = .ok (some f))
    (ht : ((Expr.bin fn (.lit l) (.lit c)).eval I r).asBool = some true) :
    f.eval st = some false := by
  simp only [ffLiterals] at h
  split at h <;> simp only [Except.ok.injEq, Option.some.injEq, reduceCtorEq] at h
  all_goals
    rename_i hop
    subst h
    obtain ⟨x, y, hx, hy, hh⟩ := eval_cmp_true hop ht
    simp only [Expr.eval, Val.sc.injEq] at hx hy
    subst hx hy
    simp only [MExpr.eval, MTerm.eval, Cmp.eval, Option.some.injEq]
    unfold Cmp.holds at hh ⊢
    split at hh
    · rename_i hn
      first
      | exact absurd hh (by decide)
      | (rw [if_pos hn]; rfl)
    · rename_i hn
      simp only [hn, if_false, Cmp.test, decide_eq_true_eq, decide_eq_false_iff_not] at hh ⊢
      grind

theorem ff_fields_sound (I : Interp) (s : Schema) (st : Stats) (r : Row) (fn l c : String)
    (hb : st.Bounds s r) (hl : s.resolve l = some l) (hc : s.resolve c = some c)
    (hne : fn = "not_equal" → ¬ (l ∈ s.pks ∧ c ∈ s.pks))
    {f : MExpr} (h : ffFields s fn l c = .ok (some f))
    (ht : ((Expr.bin fn (.sel l) (.sel c)).eval I r).asBool = some true) :
    f.eval st = some false := by
  simp only [ffFields] at h
  split at h
  · simp at h
  rename_i lf lpk hlm
  split at h
  · simp at h
  rename_i rf rpk hrm
  obtain ⟨hlf, rfl⟩ := ffMinMax_ok hl hlm
  obtain ⟨hrf, rfl⟩ := ffMinMax_ok hc hrm
  split at h
  · simp at h
  rename_i hpk
  simp only [Bool.not_eq_eq_eq_not, Bool.not_true, Bool.not_eq_false, Bool.and_eq_true,
    List.contains_iff_mem] at hpk
  have key : ∀ op, Cmp.ofName fn = some op → op ≠ .not_equal → ∃ mn mx mn' mx' x y,
      st.get? lf = some (some mn, some mx) ∧ st.get? rf = some (some mn', some mx') ∧
      mn ≤ x ∧ x ≤ mx ∧ mn' ≤ y ∧ y ≤ mx' ∧ (mn ≠ .nan ∧ mx ≠ .nan ∧ mn' ≠ .nan ∧ mx' ≠ .nan) ∧
      op.test x y = true := by
    intro op hop hne'
    obtain ⟨x, y, hx, hy, hh⟩ := eval_cmp_true hop ht
    obtain ⟨nx, ny, hh⟩ := Cmp.holds_nan hh hne'
    have b1 := hb l hpk.1 x hx lf hlf
    have b2 := hb c hpk.2 y hy rf hrf
    rw [if_neg nx] at b1
    rw [if_neg ny] at b2
    obtain ⟨mn, mx, g1, g2, g3, g4, g5⟩ := b1
    obtain ⟨mn', mx', g1', g2', g3', g4', g5'⟩ := b2
    exact ⟨mn, mx, mn', mx', x, y, g1, g1', g2, g3, g2', g3', ⟨g4, g5, g4', g5'⟩, hh⟩
  split at h <;> simp only [Except.ok.injEq, Option.some.injEq, reduceCtorEq] at h
  case h_6 hop =>
    exfalso
    refine hne ?_ hpk
    revert hop
    simp only [Cmp.ofName]
    split <;> simp
  all_goals
    rename_i hop
    subst h
    obtain ⟨mn, mx, mn', mx', x, y, g1, g1', g2, g3, g2', g3', ⟨n1, n2, n3, n4⟩, hh⟩ :=
      key _ hop (by decide)
    simp only [MExpr.eval, MTerm.eval, g1, g1', Option.bind_some, Cmp.eval, Cmp.holds, Cmp.test, n1, n2, n3,
      n4, or_self, if_false, kOr_eq_false, Option.some.injEq, decide_eq_true_eq,
      decide_eq_false_iff_not] at hh ⊢
    grind

/-- Swapping the operands together with `ffReverse` keeps a comparison. -/
theorem ofName_reverse {fn : String} {op : Cmp} (h : Cmp.ofName (ffReverse fn) = some op) :
    ∃ op', Cmp.ofName fn = some op' ∧ ∀ x y, op'.holds x y = op.holds y x := by
  unfold ffReverse at h
  split at h
  · simp [Cmp.ofName] at h; subst h; exact ⟨.gt, rfl, fun _ _ => by simp [Cmp.holds, Cmp.test, or_comm]⟩
  · simp [Cmp.ofName] at h; subst h; exact ⟨.gte, rfl, fun _ _ => by simp [Cmp.holds, Cmp.test, or_comm]⟩
  · simp [Cmp.ofName] at h; subst h; exact ⟨.lt, rfl, fun _ _ => by simp [Cmp.holds, Cmp.test, or_comm]⟩
  · simp [Cmp.ofName] at h; subst h; exact ⟨.lte, rfl, fun _ _ => by simp [Cmp.holds, Cmp.test, or_comm]⟩
  · refine ⟨op, h, ?_⟩
    intro x y
    simp only [Cmp.ofName] at h
    split at h <;> simp_all [Cmp.holds, Cmp.test, eq_comm, or_comm]
    all_goals subst h; simp [Cmp.holds, Cmp.test, eq_comm, or_comm]

theorem reverse_not_equal {rev : Bool} {fn : String}
    (h : Cmp.ofName (if rev then ffReverse fn else fn) = some .not_equal) : fn = "not_equal" := by
  have base : ∀ g, Cmp.ofName g = some .not_equal → g = "not_equal" := by
    intro g
    unfold Cmp.ofName
    split <;> simp
  cases rev with
  | false => exact base _ h
  | true =>
    have := base _ h
    rw [if_pos rfl] at this
    unfold ffReverse at this
    split at this
    iterate 4 exact absurd this (by decide)
    exact this

theorem ff_field_literal_sound (I : Interp) (s : Schema) (st : Stats) (r : Row) (fn c : String)
    (v : Scalar) (rev : Bool)
    (hb : st.Bounds s r) (hc : s.resolve c = some c)
    (hne : fn = "not_equal" → c ∈ s.pks → s.isFloat c = false)
    {f : MExpr} (h : ffFieldLiteral s fn c v rev = .ok (some f))
    (ht : ((if rev then Expr.bin fn (.lit v) (.sel c) else Expr.bin fn (.sel c) (.lit v)).eval I r).asBool
      = some true) :
    f.eval st = some false := by
  simp only [ffFieldLiteral] at h
  split at h
  · simp at h
  rename_i ff pk hm
  obtain ⟨hf, rfl⟩ := ffMinMax_ok hc hm
  split at h
  · simp at h
  rename_i hpk
  simp only [Bool.not_eq_eq_eq_not, Bool.not_true, Bool.not_eq_false,
    List.contains_iff_mem] at hpk
  have key : ∀ op, Cmp.ofName (if rev then ffReverse fn else fn) = some op → ∃ mn mx x,
      st.get? ff = some (some mn, some mx) ∧ mn ≤ x ∧ x ≤ mx ∧ (x ≠ .nan ∧ mn ≠ .nan ∧ mx ≠ .nan) ∧
        op.holds x v = true := by
    intro op hop
    have : ∃ x, r.val c = .sc x ∧ op.holds x v = true := by
      cases rev with
      | false =>
        obtain ⟨x, y, hx, hy, hh⟩ := eval_cmp_true hop ht
        simp only [Expr.eval, Val.sc.injEq] at hx hy
        subst hy
        exact ⟨x, hx, hh⟩
      | true =>
        obtain ⟨op', hop', hsw⟩ := ofName_reverse hop
        obtain ⟨x, y, hx, hy, hh⟩ := eval_cmp_true hop' ht
        simp only [Expr.eval, Val.sc.injEq] at hx hy
        subst hx
        exact ⟨y, hy, by rw [← hsw]; exact hh⟩
    obtain ⟨x, hx, hh⟩ := this
    have hn : x ≠ .nan := by
      rintro rfl
      have b := hb c hpk _ hx ff hf
      rw [if_pos rfl] at b
      have : op = .not_equal := Classical.byContradiction fun h' => (Cmp.holds_nan hh h').1 rfl
      subst this
      rw [hne (reverse_not_equal hop) hpk] at b
      cases b
    have b := hb c hpk x hx ff hf
    rw [if_neg hn] at b
    obtain ⟨mn, mx, g1, g2, g3, g4, g5⟩ := b
    exact ⟨mn, mx, x, g1, g2, g3, ⟨hn, g4, g5⟩, hh⟩
  split at h <;> simp only [Except.ok.injEq, Option.some.injEq, reduceCtorEq] at h
  all_goals
    rename_i hop
    subst h
    obtain ⟨mn, mx, x, g1, g2, g3, ⟨n0, n1, n2⟩, hh⟩ := key _ hop
    simp only [MExpr.eval, MTerm.eval, g1, Option.bind_some, Cmp.eval, Cmp.holds, n0, n1, n2, false_or,
      kOr_eq_false, kAnd_eq_false, Option.some.injEq] at hh ⊢
    split at hh
    · rename_i hv
      first
      | exact absurd hh (by decide)
      | simp [hv]
    · rename_i hv
      simp only [hv, if_false, Cmp.test, decide_eq_true_eq, decide_eq_false_iff_not] at hh ⊢
      grind

theorem mem_cols {e : Expr} {c : String} (h : e.column = some c) : c ∈ e.cols := by
  rcases column_some h with rfl | ⟨k, rfl⟩ <;> simp [Expr.cols]

theorem ffFields_free {s : Schema} {fn l c : String} (hl : s.resolve l = some l) (hc : s.resolve c = some c)
    (h : l ∉ s.pks ∨ c ∉ s.pks) {f : MExpr} : ffFields s fn l c ≠ .ok (some f) := by
  intro hf
  simp only [ffFields] at hf
  split at hf
  · simp at hf
  rename_i lf lpk hlm
  split at hf
  · simp at hf
  rename_i rf rpk hrm
  obtain ⟨-, rfl⟩ := ffMinMax_ok hl hlm
  obtain ⟨-, rfl⟩ := ffMinMax_ok hc hrm
  split at hf
  · simp at hf
  rename_i hpk
  simp only [Bool.not_eq_eq_eq_not, Bool.not_true, Bool.not_eq_false, Bool.and_eq_true,
    List.contains_iff_mem] at hpk
  exact h.elim (· hpk.1) (· hpk.2)

theorem ffFieldLiteral_free {s : Schema} {fn c : String} {v : Scalar} {rev : Bool} (hc : s.resolve c = some c)
    (h : c ∉ s.pks) {f : MExpr} : ffFieldLiteral s fn c v rev ≠ .ok (some f) := by
  intro hf
  simp only [ffFieldLiteral] at hf
  split at hf
  · simp at hf
  rename_i ff pk hm
  obtain ⟨-, rfl⟩ := ffMinMax_ok hc hm
  split at hf
  · simp at hf
  rename_i hpk
  simp only [Bool.not_eq_eq_eq_not, Bool.not_true, Bool.not_eq_false, List.contains_iff_mem] at hpk
  exact h hpk

/-- Soundness of the rewriting: on a row satisfying the filter whose key values
lie within the statistics, the falsifiable condition is false. -/
theorem ff_sound (I : Interp) (s : Schema) (st : Stats) (r : Row) (hb : st.Bounds s r) :
    ∀ (e : Expr), e.pruneSafe s = true → s.Aligned e → ∀ (f : MExpr),
      ffInternal s e = .ok (some f) → (e.eval I r).asBool = some true → f.eval st = some false
  | .sel c, _, _, f, h, _ => by simp [ffInternal] at h
  | .sub c k, _, _, f, h, _ => by simp [ffInternal] at h
  | .opq k cs, _, _, f, h, _ => by simp [ffInternal] at h
  | .lit v, _, _, f, h, ht => by
    simp only [ffInternal, Except.ok.injEq, Option.some.injEq] at h
    subst h
    simp only [Expr.eval] at ht
    simp [MExpr.eval, ht, kNot]
  | .un fn a, hs, hal, f, h, ht => by
    by_cases hfn : fn = "not"
    · subst hfn
      by_cases hcl : a.closed = true
      · obtain ⟨f', hf, hev⟩ := ff_closed I s st r (.un "not" a) hcl h
        cases hf
        rw [hev, ht]; rfl
      · match a, hs, hal, h, ht, hcl with
        | .un fn' b, hs, hal, h, ht, hcl =>
          simp only [Expr.pruneSafe, ite_true, Bool.or_eq_true, hcl, false_or, Bool.and_eq_true,
            beq_iff_eq, Bool.false_eq_true] at hs
          obtain ⟨rfl, hsb⟩ := hs
          simp only [ffInternal, ite_true] at h
          cases hb' : ffInternal s b with
          | error e => rw [hb'] at h; simp at h
          | ok m =>
            rw [hb'] at h
            cases m with
            | none => simp at h
            | some g =>
              simp only [Except.ok.injEq, Option.some.injEq] at h
              subst h
              simp only [Expr.eval, ite_true, asBool_ofBool, kNot_kNot] at ht
              have := ff_sound I s st r hb b hsb hal g hb' ht
              simp [MExpr.eval, this]
        | .sel _, hs, _, _, _, hcl => simp [Expr.pruneSafe, Expr.closed] at hs
        | .sub _ _, hs, _, _, _, hcl => simp [Expr.pruneSafe, Expr.closed] at hs
        | .lit _, hs, _, _, _, hcl => simp [Expr.pruneSafe, hcl] at hs
        | .opq _ _, hs, _, _, _, hcl => simp [Expr.pruneSafe, Expr.closed] at hs
        | .bin _ _ _, hs, _, _, _, hcl => simp [Expr.pruneSafe, hcl] at hs
    · simp [ffInternal, hfn] at h
  | .bin fn a b, hs, hal, f, h, ht => by
    simp only [Expr.pruneSafe, Bool.and_eq_true] at hs
    obtain ⟨⟨hsa, hsb⟩, hne⟩ := hs
    have hala : s.Aligned a := fun c hc => hal c (by simp [Expr.cols, hc])
    have halb : s.Aligned b := fun c hc => hal c (by simp [Expr.cols, hc])
    simp only [ffInternal] at h
    split at h
    · split at h
      · simp at h
      rename_i l hl
      split at h
      · simp at h
      rename_i r' hr
      split at h
      · rename_i hfn; subst hfn
        simp only [Expr.eval, ite_true, asBool_ofBool, kAnd_eq_true] at ht
        cases l with
        | none =>
          simp only [Except.ok.injEq] at h
          subst h
          exact ff_sound I s st r hb b hsb halb f hr ht.2
        | some l =>
          cases r' with
          | none =>
            simp only [Except.ok.injEq, Option.some.injEq] at h
            subst h
            exact ff_sound I s st r hb a hsa hala _ hl ht.1
          | some r' =>
            simp only [Except.ok.injEq, Option.some.injEq] at h
            subst h
            simp [MExpr.eval, ff_sound I s st r hb a hsa hala _ hl ht.1,
              ff_sound I s st r hb b hsb halb _ hr ht.2, kOr]
      · split at h
        · rename_i hfn; subst hfn
          simp only [Expr.eval, ite_true, asBool_ofBool, kOr_eq_true, reduceCtorEq, String.reduceEq,
            ite_false] at ht
          cases l with
          | none => simp at h
          | some l =>
            cases r' with
            | none => simp at h
            | some r' =>
              simp only [Except.ok.injEq, Option.some.injEq] at h
              subst h
              simp only [MExpr.eval, kAnd_eq_false]
              rcases ht with ht | ht
              · exact Or.inl (ff_sound I s st r hb a hsa hala _ hl ht)
              · exact Or.inr (ff_sound I s st r hb b hsb halb _ hr ht)
        · simp at h
    · split at h
      · rename_i l c hl hc
        have el := mem_cols hl
        have ec := mem_cols hc
        rcases column_some hl with rfl | ⟨k, rfl⟩
        rotate_left
        · simp only [Expr.pruneSafe, Bool.not_eq_eq_eq_not, Bool.not_true, List.contains_eq_mem,
            decide_eq_false_iff_not] at hsa
          exact absurd h (ffFields_free (hala _ el) (halb _ ec) (Or.inl hsa))
        rcases column_some hc with rfl | ⟨k, rfl⟩
        rotate_left
        · simp only [Expr.pruneSafe, Bool.not_eq_eq_eq_not, Bool.not_true, List.contains_eq_mem,
            decide_eq_false_iff_not] at hsb
          exact absurd h (ffFields_free (hala _ el) (halb _ ec) (Or.inr hsb))
        refine ff_fields_sound I s st r fn l c hb (hal l (by simp [Expr.cols]))
          (hal c (by simp [Expr.cols])) ?_ h ht
        rintro rfl ⟨h1, h2⟩
        simp [Expr.isKeyOf, h1, h2] at hne
      · rename_i l r' _ _ hl hr
        cases literal_some hl
        cases literal_some hr
        exact ff_literals_sound I st r fn l r' h ht
      · rename_i c v hc _ hv
        have ec := mem_cols hc
        cases literal_some hv
        rcases column_some hc with rfl | ⟨k, rfl⟩
        rotate_left
        · simp only [Expr.pruneSafe, Bool.not_eq_eq_eq_not, Bool.not_true, List.contains_eq_mem,
            decide_eq_false_iff_not] at hsa
          exact absurd h (ffFieldLiteral_free (hala _ ec) hsa)
        refine ff_field_literal_sound I s st r fn c v false hb (hal c (by simp [Expr.cols])) ?_ h ht
        rintro rfl hp
        simpa [Expr.isKeyOf, Expr.isLit, hp] using hne
      · rename_i c v _ hc hv
        have ec := mem_cols hc
        cases literal_some hv
        rcases column_some hc with rfl | ⟨k, rfl⟩
        rotate_left
        · simp only [Expr.pruneSafe, Bool.not_eq_eq_eq_not, Bool.not_true, List.contains_eq_mem,
            decide_eq_false_iff_not] at hsb
          exact absurd h (ffFieldLiteral_free (halb _ ec) hsb)
        refine ff_field_literal_sound I s st r fn c v true hb (hal c (by simp [Expr.cols])) ?_ h ht
        rintro rfl hp
        simpa [Expr.isKeyOf, Expr.isLit, hp] using hne
      · simp at h

/-- Pruning never drops a manifest row whose file holds a matching row. -/
theorem prune_sound {I : Interp} {s : Schema} {st : Stats} {r : Row} {e : Expr}
    (hb : st.Bounds s r) (hs : e.pruneSafe s = true) (hal : s.Aligned e)
    {m : Option MExpr} (h : buildManifestFilter s e = .ok m) (ht : e.holds I r = true) :
    MExpr.keeps m st = true := by
  unfold buildManifestFilter at h
  split at h
  · cases h; rfl
  · cases h
  · cases h; rfl
  · rename_i f hf
    cases h
    have := ff_sound I s st r hb e hs hal f hf (Expr.holds_iff.mp ht)
    simp [MExpr.keeps, MExpr.eval, this, kNot]

end Space
