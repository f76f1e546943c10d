import Verif.Chains
import Verif.Props.Join
import Verif.Props.Views

/-!
# C75: what callers pass is left as it was
-/

set_option autoImplicit false

namespace Space

open Demo

/-! ## Read options -/

/-- What a transform leaves in `fields`: the input fields of the innermost transform, if that
reads a dataset. -/
def View.left : View → Option (List String)
  | .dataset _ => none
  | .joined .. => none
  | .map _ i fields => match i with
    | .dataset _ => some fields
    | i => i.left
  | .filter _ i fields => match i with
    | .dataset _ => some fields
    | i => i.left

/-- The view is a map or a filter. -/
def View.isTransform : View → Bool
  | .map .. => true
  | .filter .. => true
  | _ => false

section
variable {E : Env} {R : RayEnv} {U : UdfEnv} {leaf : View → List Nat → ReadOpts → Except Err (List (List Row))}

theorem inputCall_left {i : View} {read : ReadOpts → Except Err (List (List Row)) × ReadOpts} {o : ReadOpts}
    {fields : List String} (hd : ∀ d, i = .dataset d → ∀ o, (read o).2 = o)
    (hj : i.isTransform = false → ∀ o, (read o).2 = o)
    (ht : i.isTransform = true → (read { o with fields := none }).2 = { o with fields := i.left }) :
    (inputCall i read { o with fields := some fields }).2 =
      { o with fields := (View.map ⟨0, [], [], none⟩ i fields).left } := by
  cases i with
  | dataset d => simp only [inputCall, View.left]; exact hd d rfl _
  | joined a b c =>
    simp only [inputCall, View.left]
    have := hj rfl { o with fields := none }
    revert this
    cases read { o with fields := none } with
    | mk a b => cases a <;> exact fun h => h
  | map u i f =>
    simp only [inputCall]
    have := ht rfl
    revert this
    cases read { o with fields := none } with
    | mk a b => cases a <;> exact fun h => h
  | filter u i f =>
    simp only [inputCall]
    have := ht rfl
    revert this
    cases read { o with fields := none } with
    | mk a b => cases a <;> exact fun h => h

theorem map_left (u u' : Udf) (i : View) (fields : List String) :
    (View.map u i fields).left = (View.map u' i fields).left := by cases i <;> rfl

theorem filter_left (u u' : Udf) (i : View) (fields : List String) :
    (View.filter u i fields).left = (View.map u' i fields).left := by cases i <;> rfl

theorem chainCall_left : ∀ (v : View) (at_ : List Nat) (o : ReadOpts), (chainCall R U leaf v at_ o).2 =
    if v.isTransform = true ∧ o.fields = none then { o with fields := v.left } else o
  | .dataset _, _, _ => rfl
  | .joined .., _, _ => rfl
  | .map u i fields, at_, o => by
    simp only [chainCall]
    cases hf : o.fields with
    | some f => simp
    | none =>
      have key := inputCall_left (o := o) (fields := fields) (i := i)
        (read := fun o => chainCall R U leaf i (0 :: at_) o) (fun d h o => by subst h; rfl)
        (fun h o => by rw [chainCall_left i, if_neg (by simp [h])])
        (fun h => by rw [chainCall_left i, if_pos ⟨h, rfl⟩])
      simp only [Option.isSome_none, Bool.false_eq_true, if_false, View.isTransform, and_self, if_true]
      rw [map_left u ⟨0, [], [], none⟩]
      revert key
      cases inputCall i (fun o => chainCall R U leaf i (0 :: at_) o) { o with fields := some fields } with
      | mk a b => cases a <;> exact fun h => h
  | .filter u i fields, at_, o => by
    simp only [chainCall]
    cases hf : o.fields with
    | some f => simp
    | none =>
      have key := inputCall_left (o := o) (fields := fields) (i := i)
        (read := fun o => chainCall R U leaf i (0 :: at_) o) (fun d h o => by subst h; rfl)
        (fun h o => by rw [chainCall_left i, if_neg (by simp [h])])
        (fun h => by rw [chainCall_left i, if_pos ⟨h, rfl⟩])
      simp only [Option.isSome_none, Bool.false_eq_true, if_false, View.isTransform, and_self, if_true]
      rw [filter_left u ⟨0, [], [], none⟩]
      revert key
      cases inputCall i (fun o => chainCall R U leaf i (0 :: at_) o) { o with fields := some fields } with
      | mk a b => cases a <;> exact fun h => h

theorem inputCall_fst {i : View} {read : ReadOpts → Except Err (List (List Row)) × ReadOpts} {o : ReadOpts}
    {fields : List String} {pure' : ReadOpts → Except Err (List (List Row))} (h : ∀ o, (read o).1 = pure' o) :
    (inputCall i read { o with fields := some fields }).1 = inputBlocks i pure' fields o := by
  have e : ∀ o, pure' o = (read o).1 := fun o => (h o).symm
  cases i with
  | dataset d => exact h _
  | _ =>
    simp only [inputCall, inputBlocks, e]
    cases read { o with fields := none } with
    | mk a b => cases a <;> rfl

/-- The object that is passed along serves each level as a copy would. -/
theorem chainCall_fst (fs : FS) (h : Handle) (ray : RayOpts) (id : Option Nat) : ∀ (v : View) (at_ : List Nat) (o : ReadOpts),
    (chainCall R U (storageLeaf E R fs h ray id) v at_ o).1 = viewBlocks E R U fs h ray id v at_ o
  | .dataset _, _, _ => rfl
  | .joined .., _, _ => rfl
  | .map u i fields, at_, o => by
    simp only [chainCall, viewBlocks]
    split
    · rfl
    · rw [← inputCall_fst (chainCall_fst fs h ray id i (0 :: at_))]
      cases inputCall i (fun o => chainCall R U (storageLeaf E R fs h ray id) i (0 :: at_) o) { o with fields := some fields } with
      | mk a b => cases a <;> rfl
  | .filter u i fields, at_, o => by
    simp only [chainCall, viewBlocks]
    split
    · rfl
    · rw [← inputCall_fst (chainCall_fst fs h ray id i (0 :: at_))]
      cases inputCall i (fun o => chainCall R U (storageLeaf E R fs h ray id) i (0 :: at_) o) { o with fields := some fields } with
      | mk a b => cases a <;> rfl

theorem rayDatasetCall_snd {ray : RayOpts} {v : View} {h : Handle} {w : World} {id : Option Nat} {o : ReadOpts} :
    (rayDatasetCall E R U ray v h w id o).2 =
      if v.isTransform = true ∧ o.fields = none then { o with fields := v.left } else o := by
  rw [← chainCall_left (R := R) (U := U) (leaf := storageLeaf E R w.fs h ray id) v []]
  unfold rayDatasetCall
  cases chainCall R U (storageLeaf E R w.fs h ray id) v [] o with
  | mk a b => cases a <;> rfl

theorem rayDatasetCall_fst {ray : RayOpts} {v : View} {h : Handle} {w : World} {id : Option Nat} {o : ReadOpts} :
    (rayDatasetCall E R U ray v h w id o).1 =
      (viewBlocks E R U w.fs h ray id v [] o).map (fun bs => (iterBatches bs).flatten) := by
  rw [← chainCall_fst]
  unfold rayDatasetCall
  cases chainCall R U (storageLeaf E R w.fs h ray id) v [] o with
  | mk a b => cases a <;> rfl

/-- C75 for read options, as far as it holds, for every view, storage and options: a dataset
leaves the options object as it was; so does a view that refuses it; a transform changes
nothing but `fields`; and a call with a fresh object returns what the view is.  Missing:
`fields` of an object given to a transform, see `C75_again`, `C75_violated`. -/
theorem C75_partial (ray : RayOpts) (v : View) (h : Handle) (w : World) (id : Option Nat) (o : ReadOpts) :
    (v.isTransform = false → (rayDatasetCall E R U ray v h w id o).2 = o) ∧
    (o.fields ≠ none → (rayDatasetCall E R U ray v h w id o).2 = o) ∧
    { (rayDatasetCall E R U ray v h w id o).2 with fields := o.fields } = o ∧
    (rayDatasetCall E R U ray v h w id o).1 =
      (viewBlocks E R U w.fs h ray id v [] o).map (fun bs => (iterBatches bs).flatten) := by
  refine ⟨fun hv => ?_, fun hf => ?_, ?_, rayDatasetCall_fst⟩
  · rw [rayDatasetCall_snd, if_neg (by simp [hv])]
  · rw [rayDatasetCall_snd, if_neg (fun hx => hf hx.2)]
  · rw [rayDatasetCall_snd]
    split <;> rfl

theorem View.left_isSome {s : Schema} {g : Nat → Row → List Row} : ∀ {v : View}, v.Fits s g → v.isTransform = true →
    v.left.isSome = true
  | .dataset _, _, h => by cases h
  | .joined .., h, _ => h.elim
  | .map u i fields, hv, _ => by
    cases i with
    | dataset d => rfl
    | joined a b c => exact hv.1.elim
    | map u' i' f' => exact View.left_isSome (v := .map u' i' f') hv.1 rfl
    | filter u' i' f' => exact View.left_isSome (v := .filter u' i' f') hv.1 rfl
  | .filter u i fields, hv, _ => by
    cases i with
    | dataset d => rfl
    | joined a b c => exact hv.1.elim
    | map u' i' f' => exact View.left_isSome (v := .map u' i' f') hv.1 rfl
    | filter u' i' f' => exact View.left_isSome (v := .filter u' i' f') hv.1 rfl

/-- C75 is false of every map and filter over a dataset: whatever the first call with an
options object did, a second call with the same object, on this or any other transform, at any
time, raises. -/
theorem C75_again {s : Schema} {g : Nat → Row → List Row} {v : View} (hv : v.Fits s g) (ht : v.isTransform = true)
    (ray : RayOpts) (h : Handle) (w : World) (id : Option Nat) (o : ReadOpts)
    {v' : View} (ht' : v'.isTransform = true) (ray' : RayOpts) (h' : Handle) (w' : World) (id' : Option Nat) :
    (rayDatasetCall E R U ray' v' h' w' id' (rayDatasetCall E R U ray v h w id o).2).1 = .error .userInput := by
  have hs : ((rayDatasetCall E R U ray v h w id o).2).fields.isSome = true := by
    rw [rayDatasetCall_snd]
    split
    · exact View.left_isSome hv ht
    · rename_i hx
      cases hf : o.fields with
      | none => exact absurd ⟨ht, hf⟩ hx
      | some f => rfl
  revert hs
  generalize (rayDatasetCall E R U ray v h w id o).2 = o'
  intro hs
  unfold rayDatasetCall
  cases v' with
  | dataset d => cases ht'
  | joined a b c => cases ht'
  | map u i f => simp only [chainCall, hs, if_true]
  | filter u i f => simp only [chainCall, hs, if_true]

end

/-! ## Lists of fields -/

theorem Lists.at_set (H : Lists) (a b : Nat) (l : List String) :
    (Lists.at (AMap.set H a l) b) = if b = a then l else H.at b := by
  unfold Lists.at
  split
  · rename_i h; subst h; rw [AMap.get?_set_self]; rfl
  · rename_i h; rw [AMap.get?_set_ne _ _ h]

/-- What one list becomes. -/
theorem sanitizeAt_eq (key : String) (H : Lists) (a : Option Nat) :
    match joinFields key (a.map H.at) with
    | .error e => sanitizeAt key H a = (.error e, H)
    | .ok fs => ∃ H', sanitizeAt key H a = (.ok (), H') ∧ a.map (H'.at) = fs ∧
        (∀ b, some b ≠ a → H'.at b = H.at b) ∧ ∀ b, key ∈ H.at b → H'.at b = H.at b := by
  cases a with
  | none => exact ⟨H, rfl, rfl, fun _ _ => rfl, fun _ _ => rfl⟩
  | some a =>
    simp only [Option.map_some, joinFields, sanitizeAt]
    by_cases h : ((H.at a).isEmpty || H.at a == [key]) = true
    · rw [if_pos h, if_pos h]
    · rw [if_neg h, if_neg h]
      refine ⟨_, rfl, ?_, fun b hb => ?_, fun b hb => ?_⟩
      · split
        · rfl
        · rw [Lists.at_set, if_pos rfl]
      · split
        · rfl
        · rw [Lists.at_set, if_neg (fun h => hb (by rw [h]))]
      · split
        · rfl
        · rename_i hk
          rw [Lists.at_set]
          split
          · rename_i h
            subst h
            exact absurd (by simpa using hb) hk
          · rfl

/-- C75 for joins, as far as it holds: `join` makes the view it makes of copies of the lists,
also if both sides are given the same list; it touches no list but those it is given, and those
only to append the key at the end; a join made earlier reads as before if it does not hold
these lists or they name the key.  Missing: lists that do not name the key, see
`C75_violated_join`. -/
theorem C75_join_partial (s s' : Schema) (left right : View) (key : String) (lf rf : Option Nat)
    (lref rref same : Bool) (H : Lists) :
    let r := joinCall s s' left right [key] lf rf lref rref same H
    r.1.map (·.now r.2) = View.join s s' left right [key] (lf.map H.at) (rf.map H.at) lref rref same ∧
    (∀ a, r.2.at a = H.at a ∨ ((some a = lf ∨ some a = rf) ∧ key ∉ H.at a ∧ r.2.at a = H.at a ++ [key])) ∧
    ∀ J : JoinRef, (∀ a, some a = J.leftFields ∨ some a = J.rightFields → (some a ≠ lf ∧ some a ≠ rf) ∨ key ∈ H.at a) →
      J.now r.2 = J.now H := by
  have fin : ∀ H' : Lists,
      (∀ a, H'.at a = H.at a ∨ ((some a = lf ∨ some a = rf) ∧ key ∉ H.at a ∧ H'.at a = H.at a ++ [key])) →
      (∀ a, H'.at a = H.at a ∨ ((some a = lf ∨ some a = rf) ∧ key ∉ H.at a ∧ H'.at a = H.at a ++ [key])) ∧
      ∀ J : JoinRef, (∀ a, some a = J.leftFields ∨ some a = J.rightFields → (some a ≠ lf ∧ some a ≠ rf) ∨ key ∈ H.at a) →
        J.now H' = J.now H := by
    intro H' h
    refine ⟨h, fun J hJ => ?_⟩
    have hat : ∀ a, some a = J.leftFields ∨ some a = J.rightFields → H'.at a = H.at a := by
      intro a ha
      rcases h a with h | ⟨h1, h2, -⟩
      · exact h
      · rcases hJ a ha with ⟨h3, h4⟩ | h3
        · rcases h1 with h1 | h1
          · exact absurd h1 h3
          · exact absurd h1 h4
        · exact absurd h3 h2
    have e1 : J.leftFields.map H'.at = J.leftFields.map H.at := by
      cases hl : J.leftFields with
      | none => rfl
      | some a => simp only [Option.map_some]; rw [hat a (Or.inl hl.symm)]
    have e2 : J.rightFields.map H'.at = J.rightFields.map H.at := by
      cases hl : J.rightFields with
      | none => rfl
      | some a => simp only [Option.map_some]; rw [hat a (Or.inr hl.symm)]
    simp only [JoinRef.now, e1, e2]
  intro r
  show _ ∧ _
  -- one step
  have step : ∀ (H0 : Lists) (a : Option Nat), match joinFields key (a.map H0.at) with
      | .error e => sanitizeAt key H0 a = (.error e, H0)
      | .ok fs => ∃ H', sanitizeAt key H0 a = (.ok (), H') ∧ a.map (H'.at) = fs ∧
          ∀ b, H'.at b = H0.at b ∨ (some b = a ∧ key ∉ H0.at b ∧ H'.at b = H0.at b ++ [key]) := by
    intro H0 a
    have h := sanitizeAt_eq key H0 a
    cases hj : joinFields key (a.map H0.at) with
    | error e => rw [hj] at h; exact h
    | ok fs =>
      rw [hj] at h
      obtain ⟨H', h1, h2, h3, h4⟩ := h
      refine ⟨H', h1, h2, fun b => ?_⟩
      by_cases hb : some b = a
      · by_cases hk : key ∈ H0.at b
        · exact Or.inl (h4 b hk)
        · refine Or.inr ⟨hb, hk, ?_⟩
          subst hb
          simp only [Option.map_some, joinFields] at h2 hj
          split at hj
          · cases hj
          · rw [if_neg (by simpa using hk)] at hj
            cases hj
            exact Option.some.inj h2
      · exact Or.inl (h3 b hb)
  have same_right : ∀ H1 : Lists, (∀ b, H1.at b = H.at b ∨ (some b = lf ∧ key ∉ H.at b ∧ H1.at b = H.at b ++ [key])) →
      (∃ x, joinFields key (lf.map H.at) = .ok x) →
      joinFields key (rf.map H1.at) = joinFields key (rf.map H.at) := by
    intro H1 h1 ⟨x, hx⟩
    cases rf with
    | none => rfl
    | some b =>
      simp only [Option.map_some]
      rcases h1 b with h | ⟨ha, hk, h⟩
      · rw [h]
      · rw [h]
        rw [← ha] at hx
        simp only [Option.map_some, joinFields] at hx ⊢
        split at hx
        · cases hx
        · rename_i hne
          have hne1 : (H.at b ++ [key]).isEmpty = false := by simp
          have hne2 : (H.at b ++ [key] == [key]) = false := by
            cases hb : H.at b with
            | nil => rw [hb] at hne; simp at hne
            | cons y ys => simp
          rw [if_neg (by simp [hne1, hne2]), if_neg hne]
          simp only [Bool.not_eq_true] at hne
          simp [hk]
  by_cases hp : (!(s.pks.contains key && s'.pks.contains key)) = true
  · have hr : r = (.error .userInput, H) := by show joinCall .. = _; simp only [joinCall, hp, if_true]
    rw [hr]
    refine ⟨?_, fin H (fun _ => Or.inl rfl)⟩
    simp only [View.join, hp, if_true]
    rfl
  have h1 := step H lf
  cases hl : joinFields key (lf.map H.at) with
  | error e =>
    rw [hl] at h1
    have hr : r = (.error e, H) := by show joinCall .. = _; simp only [joinCall, if_neg hp, h1]
    rw [hr]
    refine ⟨?_, fin H (fun _ => Or.inl rfl)⟩
    simp only [View.join, if_neg hp, hl]
    rfl
  | ok x =>
    rw [hl] at h1
    obtain ⟨H1, e1, x1, c1⟩ := h1
    have hrr := same_right H1 c1 ⟨x, hl⟩
    have h2 := step H1 rf
    rw [hrr] at h2
    cases hr2 : joinFields key (rf.map H.at) with
    | error e =>
      rw [hr2] at h2
      have hr : r = (.error e, H1) := by show joinCall .. = _; simp only [joinCall, if_neg hp, e1, h2]
      rw [hr]
      refine ⟨?_, fin H1 (fun b => (c1 b).imp_right fun ⟨a, b, c⟩ => ⟨Or.inl a, b, c⟩)⟩
      simp only [View.join, if_neg hp, hl, hr2]
      rfl
    | ok y =>
      rw [hr2] at h2
      obtain ⟨H2, e2, y2, c2⟩ := h2
      have c : ∀ b, H2.at b = H.at b ∨ ((some b = lf ∨ some b = rf) ∧ key ∉ H.at b ∧ H2.at b = H.at b ++ [key]) := by
        intro b
        rcases c1 b with h | ⟨ha, hk, h⟩
        · rcases c2 b with h' | ⟨ha', hk', h'⟩
          · exact Or.inl (h'.trans h)
          · rw [h] at hk' h'
            exact Or.inr ⟨Or.inr ha', hk', h'⟩
        · rcases c2 b with h' | ⟨ha', hk', -⟩
          · exact Or.inr ⟨Or.inl ha, hk, h'.trans h⟩
          · exact absurd (by rw [h]; simp) hk'
      have x2 : lf.map H2.at = x := by
        rw [← x1]
        cases hlf : lf with
        | none => rfl
        | some a =>
          simp only [Option.map_some]
          rcases c2 a with h' | ⟨-, hk', -⟩
          · rw [h']
          · refine absurd ?_ hk'
            rcases c1 a with h | ⟨-, -, h⟩
            · have hx := hl
              rw [← x1, hlf] at hx
              simp only [Option.map_some, joinFields] at hx
              split at hx
              · cases hx
              · simp only [Except.ok.injEq, Option.some.injEq] at hx
                rw [← hx]
                split
                · rename_i hc; simpa using hc
                · simp
            · rw [h]; simp
      have hrj : r = joinCall s s' left right [key] lf rf lref rref same H := rfl
      simp only [joinCall, if_neg hp, e1, e2, x2, y2] at hrj
      refine ⟨?_, ?_⟩
      · simp only [View.join, if_neg hp, hl, hr2]
        rw [hrj]
        cases ha : JoinSide.outFields s key ⟨left, x, lref⟩ with
        | error e => rfl
        | ok lo =>
          cases hb : JoinSide.outFields s' key ⟨right, y, rref⟩ with
          | error e => rfl
          | ok ro => simp only [Except.map, JoinRef.now, x2, y2]
      · have : r.2 = H2 := by
          rw [hrj]
          cases ha : JoinSide.outFields s key ⟨left, x, lref⟩ with
          | error e => rfl
          | ok lo =>
            cases hb : JoinSide.outFields s' key ⟨right, y, rref⟩ with
            | error e => rfl
            | ok ro => rfl
        rw [this]
        exact fin H2 c

/-! ## Feature fields -/

/-- C75 for `feature_fields`, as far as it holds: the constructor leaves the keys as they were,
and all of a dictionary of opened storages.  Missing: entries that are locations; if the
constructor returns, all of them have been replaced. -/
theorem C75_features_partial {S : Type} [DecidableEq S] (load : String → Except Err S) :
    ∀ d : List (String × GivenStorage S),
      (openFeatures load d).2.map (·.1) = d.map (·.1) ∧
      ((∀ x ∈ d, ∃ y, x.2 = .opened y) → openFeatures load d = (.ok (), d)) ∧
      ((openFeatures load d).1 = .ok () → ∀ x ∈ (openFeatures load d).2, ∃ y, x.2 = .opened y)
  | [] => ⟨rfl, fun _ => rfl, fun _ => by simp [openFeatures]⟩
  | (f, .opened y) :: d => by
    obtain ⟨h1, h2, h3⟩ := C75_features_partial load d
    refine ⟨by simp [openFeatures, h1], fun h => ?_, fun h => ?_⟩
    · simp only [openFeatures, h2 (fun x hx => h x (List.mem_cons_of_mem _ hx))]
    · simp only [openFeatures, List.mem_cons] at h ⊢
      rintro x (rfl | hx)
      · exact ⟨y, rfl⟩
      · exact h3 h x hx
  | (f, .location p) :: d => by
    obtain ⟨h1, h2, h3⟩ := C75_features_partial load d
    simp only [openFeatures]
    cases hl : load p with
    | error e =>
      refine ⟨rfl, fun h => ?_, fun h => by cases h⟩
      obtain ⟨y, hy⟩ := h (f, .location p) (List.mem_cons_self ..)
      cases hy
    | ok y =>
      refine ⟨by simp [h1], fun h => ?_, fun h => ?_⟩
      · obtain ⟨y, hy⟩ := h (f, .location p) (List.mem_cons_self ..)
        cases hy
      · rintro x hx
        simp only [List.mem_cons] at hx
        rcases hx with rfl | hx
        · exact ⟨y, rfl⟩
        · exact h3 h x hx

/-! ### Examples -/

namespace Demo

/-- Two keys and a value. -/
def pqSchema (c : String) : Schema :=
  { fields := [⟨"p", 0, .int⟩, ⟨"q", 1, .int⟩, ⟨c, 2, .int⟩], pks := ["p", "q"], recs := [] }

def pq (c : String) : View := .dataset { loc := ("/" ++ c).toList, schema := [], pks := ["p", "q"], recs := [] }

def pq1 (c : String) : List Act :=
  [.call 0 (.mutate (.append [[[("p", .sc (.int 1)), ("q", .sc (.int 2)), (c, .sc (.int 3))]]]))]

/-- The list `["x"]` at address 0. -/
def xs : Lists := [(0, ["x"])]

/-- `X.join(Y, keys=["p"], left_fields=xs)`. -/
def byP : Except Err JoinRef × Lists :=
  joinCall (pqSchema "x") (pqSchema "y") (pq "x") (pq "y") ["p"] (some 0) none false false false xs

/-- then `X.join(Y, keys=["q"], left_fields=xs)`. -/
def byQ : Except Err JoinRef × Lists :=
  joinCall (pqSchema "x") (pqSchema "y") (pq "x") (pq "y") ["q"] (some 0) none false false false byP.2

/-- The two objects. -/
def joinP : JoinRef := ⟨"p", pq "x", pq "y", some 0, none, false, false, ["p", "x", "q", "y"], false⟩
def joinQ : JoinRef := ⟨"q", pq "x", pq "y", some 0, none, false, false, ["q", "x", "p", "p", "y"], false⟩

/-- What the second call makes of a list of its own. -/
def freshQ : JoinView :=
  { key := "q", left := { view := pq "x", fields := some ["x", "q"] }, right := { view := pq "y" },
    outs := ["q", "x", "p", "y"] }

/-- Read a join of the two tables. -/
def readXY (J : JoinView) (sl sl' : Slot) : Except Err (List Row) :=
  joinRead env rayEnv udfs none {} J none sl.h (after env anyB (pqSchema "x") (pq1 "x")).w
    sl'.h (after env anyB (pqSchema "y") (pq1 "y")).w {} none

/-- The only row. -/
def xyRow (cs : List (String × Int)) : List Row := [cs.map fun c => (c.1, .sc (.int c.2))]

/-- The columns of the rows read. -/
def colsRead : Except Err (List Row) → Option (List (List String))
  | .error _ => none
  | .ok rows => some (rows.map Row.cols)

end Demo

/-- C75 is false of joins: a second join by another key, given the same list, appends its key
to it.  The first view, which could be read before, then raises when it is read, and so does
the second; made with a list of its own it can be read. -/
theorem C75_violated_join : ∃ σ sl σ' sl', Reach env (pqSchema "x") anyStep σ ∧ sl ∈ σ.slots ∧
    Reach env (pqSchema "y") anyStep σ' ∧ sl' ∈ σ'.slots ∧
    byP = (.ok joinP, [(0, ["x", "p"])]) ∧ byQ = (.ok joinQ, [(0, ["x", "p", "q"])]) ∧
    View.join (pqSchema "x") (pqSchema "y") (pq "x") (pq "y") ["q"] (some ["x"]) none false false false = .ok freshQ ∧
    (let read := fun J => joinRead env rayEnv udfs none {} J none sl.h σ.w sl'.h σ'.w {} none;
      read (joinP.now byP.2) = .ok (xyRow [("p", 1), ("x", 3), ("q", 2), ("y", 3)]) ∧
      read (joinP.now byQ.2) = .error (.other "KeyError") ∧ read (joinQ.now byQ.2) = .error (.other "KeyError") ∧
      read freshQ = .ok (xyRow [("q", 2), ("x", 3), ("p", 1), ("y", 3)])) := by
  obtain ⟨sl, h1, sl', h3, h2⟩ := slots_of (σ := after env anyB (pqSchema "x") (pq1 "x"))
    (σ' := after env anyB (pqSchema "y") (pq1 "y"))
    (f := fun sl sl' => decide (readXY (joinP.now byP.2) sl sl' = .ok (xyRow [("p", 1), ("x", 3), ("q", 2), ("y", 3)])) &&
      decide (readXY (joinP.now byQ.2) sl sl' = .error (.other "KeyError")) &&
      decide (readXY (joinQ.now byQ.2) sl sl' = .error (.other "KeyError")) &&
      decide (readXY freshQ sl sl' = .ok (xyRow [("q", 2), ("x", 3), ("p", 1), ("y", 3)])))
    (x := true) (by decide +kernel)
  simp only [Bool.and_eq_true, decide_eq_true_eq] at h2
  exact ⟨_, sl, _, sl', after_reach (fun _ _ _ => trivial) _, h1, after_reach (fun _ _ _ => trivial) _, h3,
    rfl, rfl, rfl, h2.1.1.1, h2.1.1.2, h2.1.2, h2.2⟩

/-- C75 is false of views: a call with fresh options gives the rows of the view; the second
call with the same object raises, and a dataset read with it gives the key column only. -/
theorem C75_violated : ∃ σ sl, Reach env schema anyStep σ ∧ sl ∈ σ.slots ∧ shifted.Fits schema rowFns ∧
    (let call := fun v o => rayDatasetCall env rayEnv udfs {} v sl.h σ.w none o;
      (call shifted {}).1 = .ok ([11, 12, 13, 14, 15, 16, 17].map (fun n => [("id", Val.sc (.int n))])) ∧
      (call shifted (call shifted {}).2).1 = .error .userInput ∧
      colsRead (call src {}).1 = some (List.replicate 7 ["id", "txt", "img"]) ∧
      colsRead (call src (call shifted {}).2).1 = some (List.replicate 7 ["id"])) := by
  obtain ⟨sl, -, h1, h2⟩ := slot_of (σ := after env anyB schema seven) (i := 0)
    (f := fun sl =>
      let call := fun v o => rayDatasetCall env rayEnv udfs {} v sl.h (after env anyB schema seven).w none o;
      decide ((call shifted {}).1 = .ok ([11, 12, 13, 14, 15, 16, 17].map (fun n => [("id", Val.sc (.int n))]))) &&
      decide ((call shifted (call shifted {}).2).1 = .error .userInput) &&
      decide (colsRead (call src {}).1 = some (List.replicate 7 ["id", "txt", "img"])) &&
      decide (colsRead (call src (call shifted {}).2).1 = some (List.replicate 7 ["id"])))
    (x := true) (by decide +kernel)
  simp only [Bool.and_eq_true, decide_eq_true_eq] at h2
  refine ⟨_, sl, after_reach (fun _ _ _ => trivial) _, h1, ⟨trivial, by decide, ?_⟩, h2.1.1.1, h2.1.1.2, h2.1.2, h2.2⟩
  intro r r' hr
  have : r'.cols = ["id"] := by
    simp only [rowFns] at hr
    split at hr <;> simp at hr <;> subst hr <;> rfl
  intro c hc
  rw [this]
  exact hc

/-- The hypotheses of `C75_again` for this view, and of `C75_join_partial` for a list that names
the key. -/
example : shifted.isTransform = true ∧ doubled.isTransform = true ∧
    (joinCall (pqSchema "x") (pqSchema "y") (pq "x") (pq "y") ["p"] (some 0) none false false false [(0, ["p", "x"])]).2 =
      [(0, ["p", "x"])] := ⟨rfl, rfl, rfl⟩

/-- A dictionary with a location and a storage, and what becomes of it. -/
example : openFeatures (S := Nat) (fun p => if p = "/a" then .ok 7 else .error (.other "FileNotFoundError"))
    [("img", .location "/a"), ("lbl", .opened 3)] = (.ok (), [("img", .opened 7), ("lbl", .opened 3)]) ∧
    openFeatures (S := Nat) (fun p => if p = "/a" then .ok 7 else .error (.other "FileNotFoundError"))
      [("img", .location "/a"), ("lbl", .location "/b")] =
      (.error (.other "FileNotFoundError"), [("img", .opened 7), ("lbl", .location "/b")]) := ⟨rfl, rfl⟩

end Space
