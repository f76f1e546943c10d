import Verif.Chains
import Verif.Props.Join
import Verif.Props.Options

/-!
# C76: transforms on top of joins
-/

set_option autoImplicit false

namespace Space

open Demo List

/-- The rows of a chain of transforms, given the rows of the join it is built on. -/
def View.rowsOver (g : Nat → Row → List Row) (keep : Nat → Row → Bool) : View → List Row → List Row
  | .dataset _, _ => []
  | .joined .., rows => rows
  | .map u i fields, rows => ((i.rowsOver g keep rows).map (·.select fields)).flatMap (g u.fn)
  | .filter u i fields, rows => ((i.rowsOver g keep rows).map (·.select fields)).filter (keep u.fn)

/-- The columns of these rows. -/
def View.colsOver : View → List String
  | .dataset _ => []
  | .joined out _ _ => out.map AField.name
  | .map u _ _ => u.out.map AField.name
  | .filter _ _ fields => fields

/-- A chain of transforms over a join with these output columns: every transform asks for
columns its input has, and every function gives the columns it declares. -/
def View.FitsOver (outs : List String) (g : Nat → Row → List Row) : View → Prop
  | .dataset _ => False
  | .joined out _ _ => out.map AField.name = outs
  | .map u i fields => i.FitsOver outs g ∧ (∀ c ∈ fields, c ∈ i.colsOver) ∧
      ∀ r, ∀ r' ∈ g u.fn r, ∀ c ∈ u.out.map AField.name, c ∈ r'.cols
  | .filter _ i fields => i.FitsOver outs g ∧ ∀ c ∈ fields, c ∈ i.colsOver

theorem View.rowsOver_cols {outs : List String} {g : Nat → Row → List Row} {keep : Nat → Row → Bool} :
    ∀ {v : View} {rows : List Row}, v.FitsOver outs g → (∀ r ∈ rows, ∀ c ∈ outs, c ∈ r.cols) →
      ∀ r ∈ v.rowsOver g keep rows, ∀ c ∈ v.colsOver, c ∈ r.cols
  | .dataset _, _, hv, _ => hv.elim
  | .joined out _ _, rows, hv, h => fun r hr c hc => h r hr c (by
      have hv : out.map AField.name = outs := hv
      rw [← hv]; exact hc)
  | .map u i fields, rows, hv, h => by
    intro r hr
    simp only [View.rowsOver, List.mem_flatMap, List.mem_map] at hr
    obtain ⟨x, -, hr⟩ := hr
    exact hv.2.2 x r hr
  | .filter u i fields, rows, hv, h => by
    intro r hr c hc
    simp only [View.rowsOver, List.mem_filter, List.mem_map] at hr
    obtain ⟨⟨y, -, rfl⟩, -⟩ := hr
    rw [select_cols]
    exact hc

theorem View.rowsOver_flatMap (g : Nat → Row → List Row) (keep : Nat → Row → Bool) :
    ∀ (v : View) (rows : List Row), v.rowsOver g keep rows = rows.flatMap (fun r => v.rowsOver g keep [r])
  | .dataset _, rows => by simp [View.rowsOver]
  | .joined .., rows => by simp [View.rowsOver]
  | .map u i fields, rows => by
    simp only [View.rowsOver]
    rw [i.rowsOver_flatMap g keep rows, List.map_flatMap, List.flatMap_assoc]
  | .filter u i fields, rows => by
    simp only [View.rowsOver]
    rw [i.rowsOver_flatMap g keep rows, List.map_flatMap, List.filter_flatMap]

theorem View.rowsOver_perm (g : Nat → Row → List Row) (keep : Nat → Row → Bool) (v : View)
    {a b : List Row} (h : a ~ b) : v.rowsOver g keep a ~ v.rowsOver g keep b := by
  rw [v.rowsOver_flatMap, v.rowsOver_flatMap g keep b]
  exact h.flatMap_right _

section
variable {E : Env} {R : RayEnv} {U : UdfEnv} {ray : RayOpts} {g : Nat → Row → List Row} {nb : Option Err} {J : JoinView}
  {fs fs' : FS} {h h' : Handle}

/-- Rows of a join have its output columns. -/
theorem joinPart_cols {key : String} {outs : List String} {lrec rrec : Option (List String)} {l r : List Row}
    {b : Option (List Row)} (hj : joinPart key outs lrec rrec l r = .ok b) : ∀ x ∈ b.getD [], Row.cols x = outs := by
  unfold joinPart at hj
  split at hj
  · dsimp only at hj
    repeat' split at hj
    all_goals first | (cases hj; done) | skip
    rename_i t _
    unfold Flat.select at hj
    split at hj
    · cases hj
      intro x hx
      obtain ⟨y, -, rfl⟩ := List.mem_map.mp hx
      simp [Row.cols, Function.comp_def]
    · cases hj
  · cases hj
    intro x hx
    cases hx

theorem joinParts_cols {lread rread : Nat → Expr → Except Err (List Row)} {key : String} {outs : List String}
    {lrec rrec : Option (List String)} : ∀ {ρs : List KeyRange} {k : Nat} {bs : List (Option (List Row))},
    joinParts lread rread key outs lrec rrec k ρs = .ok bs → ∀ b ∈ bs, ∀ x ∈ b.getD [], Row.cols x = outs
  | [], _, bs, hj => by cases hj; simp
  | ρ :: ρs, k, bs, hj => by
    simp only [joinParts] at hj
    repeat' split at hj
    all_goals first | (cases hj; done) | skip
    rename_i hp _ _ hr
    cases hj
    intro b hb
    rcases List.mem_cons.mp hb with rfl | hb
    · exact joinPart_cols hp
    · exact joinParts_cols hr b hb

theorem fromArrowRefs_mem : ∀ {ps : List (Option (List Row))} {bs : List (List Row)},
    fromArrowRefs nb ps = .ok bs → ∀ b ∈ bs, ∃ p ∈ ps, b = p.getD []
  | [], bs, hf => by cases hf; simp
  | p :: ps, bs, hf => by
    simp only [fromArrowRefs] at hf
    repeat' split at hf
    all_goals first | (cases hf; done) | skip
    rename_i hr
    cases hf
    intro b hb
    rcases List.mem_cons.mp hb with rfl | hb
    · exact ⟨p, List.mem_cons_self .., rfl⟩
    · obtain ⟨p', h1, h2⟩ := fromArrowRefs_mem hr b hb
      exact ⟨p', List.mem_cons_of_mem _ h1, h2⟩

theorem joinBlocks_cols {partition : Option (KeyRange → List KeyRange)} {bs : List (List Row)}
    (hj : joinBlocks E R U nb ray J partition fs h fs' h' = .ok bs) : ∀ r ∈ bs.flatten, Row.cols r = J.outs := by
  unfold joinBlocks at hj
  repeat' split at hj
  all_goals first | (cases hj; done) | skip
  rename_i hps _ _ hbs
  cases hj
  intro r hr
  obtain ⟨b, hb, hr⟩ := List.mem_flatten.mp (((R.deliver_perm _ _).mem_iff).mp hr)
  obtain ⟨p, hp, rfl⟩ := fromArrowRefs_mem hbs b hb
  exact joinParts_cols hps p hp r hr

theorem inputOver {leaf : View → List Nat → ReadOpts → Except Err (List (List Row))} {o : ReadOpts} {i : View}
    {fields : List String} (hi : i.FitsOver J.outs g) (hf : ∀ c ∈ fields, c ∈ i.colsOver) {at_ : List Nat}
    {src : Except Err (List (List Row))} (hsrc : ∀ bs, src = .ok bs → ∀ r ∈ bs.flatten, Row.cols r = J.outs)
    (ih : match (generalizing := false) src with
      | .error e => (chainCall R U leaf i at_ { o with fields := none }).1 = .error e
      | .ok bs => ∃ cs, (chainCall R U leaf i at_ { o with fields := none }).1 = .ok cs ∧
          cs.flatten ~ i.rowsOver g U.keep bs.flatten) :
    match (generalizing := false) src with
    | .error e => (inputCall i (fun o => chainCall R U leaf i at_ o) { o with fields := some fields }).1 = .error e
    | .ok bs => ∃ cs, (inputCall i (fun o => chainCall R U leaf i at_ o) { o with fields := some fields }).1 = .ok cs ∧
        cs.flatten ~ (i.rowsOver g U.keep bs.flatten).map (·.select fields) := by
  have e : (inputCall i (fun o => chainCall R U leaf i at_ o) { o with fields := some fields }).1 =
      match (chainCall R U leaf i at_ { o with fields := none }).1 with
      | .error e => .error e
      | .ok bs => selectColumns fields bs := by
    rw [inputCall_fst (pure' := fun o => (chainCall R U leaf i at_ o).1) (fun _ => rfl)]
    cases i with
    | dataset d => exact hi.elim
    | _ => rfl
  rw [e]
  cases src with
  | error x => simp only at ih ⊢; rw [ih]
  | ok bs =>
    obtain ⟨cs, h1, h2⟩ := ih
    simp only [h1]
    have hcols : ∀ r ∈ cs.flatten, ∀ c ∈ fields, c ∈ r.cols := fun r hr c hc =>
      View.rowsOver_cols hi (fun r hr c hc => by rw [hsrc bs rfl r hr]; exact hc) r (h2.mem_iff.mp hr) c (hf c hc)
    rw [selectColumns_ok hcols]
    refine ⟨_, rfl, ?_⟩
    rw [← List.map_flatten]
    exact h2.map _

/-- What `_ray_dataset` of a chain over a join returns. -/
theorem chain_rows (hg : RowWise U g) {o : ReadOpts} (href : o.refRead = false) : ∀ {v : View}, v.FitsOver J.outs g →
    ∀ at_ : List Nat, match joinBlocks E R U nb ray J none fs h fs' h' with
    | .error e => (chainCall R U (joinLeaf E R U nb ray J fs h fs' h') v at_ { o with fields := none }).1 = .error e
    | .ok bs => ∃ cs, (chainCall R U (joinLeaf E R U nb ray J fs h fs' h') v at_ { o with fields := none }).1 = .ok cs ∧
        cs.flatten ~ v.rowsOver g U.keep bs.flatten
  | .dataset _, hv, _ => hv.elim
  | .joined out a b, _, at_ => by
    simp only [chainCall, joinLeaf, href, Option.isSome_none, Bool.or_false, Bool.false_eq_true, if_false]
    cases joinBlocks E R U nb ray J none fs h fs' h' with
    | error e => rfl
    | ok bs => exact ⟨bs, rfl, List.Perm.refl _⟩
  | .map u i fields, hv, at_ => by
    have key := inputOver (o := o) hv.1 hv.2.1 (fun bs hb => joinBlocks_cols hb) (chain_rows hg href hv.1 (0 :: at_))
    simp only [chainCall, Option.isSome_none, Bool.false_eq_true, if_false]
    revert key
    generalize inputCall i _ _ = x
    obtain ⟨a, b⟩ := x
    cases joinBlocks E R U nb ray J none fs h fs' h' with
    | error e => rintro rfl; rfl
    | ok bs =>
      rintro ⟨cs, rfl, h2⟩
      refine ⟨_, rfl, ?_⟩
      have e : U.map u.fn = fun b => b.flatMap (g u.fn) := by
        funext b
        exact hg _ _
      rw [e, flatten_map_rowWise]
      exact ((R.deliver_perm _ cs).trans h2).flatMap_right _
  | .filter u i fields, hv, at_ => by
    have key := inputOver (o := o) hv.1 hv.2 (fun bs hb => joinBlocks_cols hb) (chain_rows hg href hv.1 (0 :: at_))
    simp only [chainCall, Option.isSome_none, Bool.false_eq_true, if_false]
    revert key
    generalize inputCall i _ _ = x
    obtain ⟨a, b⟩ := x
    cases joinBlocks E R U nb ray J none fs h fs' h' with
    | error e => rintro rfl; rfl
    | ok bs =>
      rintro ⟨cs, rfl, h2⟩
      refine ⟨_, rfl, ?_⟩
      rw [flatten_map_filter]
      exact ((R.deliver_perm _ cs).trans h2).filter _

end

/-- C76: a map or filter on top of a join, and any chain of them, gives the rows that its
functions make of the rows of the join, each as often, and raises what the join raises.  For
any two storages, joins and versions, whatever blocks Ray makes.  The join is read without a
partition function, even if one is given; a filter given to the read is not looked at, as by the
join itself (`C44_violated_join`). -/
theorem C76 {E : Env} {R : RayEnv} {U : UdfEnv} {g : Nat → Row → List Row} (hg : RowWise U g) (ray : RayOpts)
    (nb : Option Err) (J : JoinView) {v : View} (hv : v.FitsOver J.outs g) (h : Handle) (w : World) (h' : Handle) (w' : World)
    (f : Option Expr) (batch : Nat) (ver : Option Version) :
    match joinRead E R U nb ray J none h w h' w' {} ver with
    | .error e => overRead E R U nb ray J v h w h' w' { filter := f, batch := batch } ver = .error e
    | .ok rows => ∃ rows', overRead E R U nb ray J v h w h' w' { filter := f, batch := batch } ver = .ok rows' ∧
        rows' ~ v.rowsOver g U.keep rows := by
  unfold joinRead overRead
  cases h1 : reload (h, w) with
  | mk a hw =>
    cases a with
    | error e => rfl
    | ok _ =>
      obtain ⟨k1, w1⟩ := hw
      dsimp only
      cases h2 : reload (h', w') with
      | mk a hw =>
        cases a with
        | error e => rfl
        | ok _ =>
          obtain ⟨k2, w2⟩ := hw
          dsimp only
          have fin : match (if Option.isSome (none : Option (List String)) || false then .error .userInput
                else match joinBlocks E R U nb ray J none w1.fs k1 w2.fs k2 with
                | .error e => .error e
                | .ok bs => .ok (iterBatches bs).flatten : Except Err (List Row)) with
              | .error e => (match (chainCall R U (joinLeaf E R U nb ray J w1.fs k1 w2.fs k2) v []
                  { filter := f, batch := batch }).1 with
                | .error e => .error e
                | .ok bs => .ok (iterBatches bs).flatten : Except Err (List Row)) = .error e
              | .ok rows => ∃ rows', (match (chainCall R U (joinLeaf E R U nb ray J w1.fs k1 w2.fs k2) v []
                  { filter := f, batch := batch }).1 with
                | .error e => .error e
                | .ok bs => .ok (iterBatches bs).flatten : Except Err (List Row)) = .ok rows' ∧
                  rows' ~ v.rowsOver g U.keep rows := by
            have key := chain_rows (E := E) (R := R) (ray := ray) (nb := nb) (J := J) (fs := w1.fs) (fs' := w2.fs)
              (h := k1) (h' := k2) hg (o := { filter := f, batch := batch }) rfl hv []
            simp only [Option.isSome_none, Bool.or_false, Bool.false_eq_true, if_false]
            revert key
            cases joinBlocks E R U nb ray J none w1.fs k1 w2.fs k2 with
            | error e =>
              intro key
              dsimp only at key ⊢
              rw [key]
            | ok bs =>
              rintro ⟨cs, h3, h4⟩
              dsimp only
              rw [h3]
              dsimp only
              refine ⟨_, rfl, ?_⟩
              rw [iterBatches_flatten, iterBatches_flatten]
              exact h4
          cases ver with
          | none => exact fin
          | some x =>
            cases J.same with
            | false => rfl
            | true =>
              simp only [if_true]
              cases k1.md.versionId x with
              | error e => rfl
              | ok n => exact fin

section
variable {E : Env} {R : RayEnv} {U : UdfEnv} {nb : Option Err} {ray : RayOpts} {J : JoinView}
  {fs fs' : FS} {h h' : Handle}

theorem chain_refuses : ∀ (v : View) (at_ : List Nat) (o : ReadOpts), o.fields.isSome = true ∨ o.refRead = true →
    (chainCall R U (joinLeaf E R U nb ray J fs h fs' h') v at_ o).1 = .error .userInput
  | .dataset _, _, _, _ => rfl
  | .joined .., _, o, ho => by
    simp only [chainCall, joinLeaf]
    rw [if_pos (by simpa using ho)]
  | .map u i fields, at_, o, ho => by
    simp only [chainCall]
    split
    · rfl
    · rename_i hf
      have hr : o.refRead = true := ho.resolve_left hf
      have key : (inputCall i (fun o => chainCall R U (joinLeaf E R U nb ray J fs h fs' h') i (0 :: at_) o)
          { o with fields := some fields }).1 = .error .userInput := by
        unfold inputCall
        split
        · exact chain_refuses _ _ _ (.inl rfl)
        · have := chain_refuses i (0 :: at_) { o with fields := none } (.inr hr)
          dsimp only
          split <;> simp_all
      split <;> simp_all
  | .filter u i fields, at_, o, ho => by
    simp only [chainCall]
    split
    · rfl
    · rename_i hf
      have hr : o.refRead = true := ho.resolve_left hf
      have key : (inputCall i (fun o => chainCall R U (joinLeaf E R U nb ray J fs h fs' h') i (0 :: at_) o)
          { o with fields := some fields }).1 = .error .userInput := by
        unfold inputCall
        split
        · exact chain_refuses _ _ _ (.inl rfl)
        · have := chain_refuses i (0 :: at_) { o with fields := none } (.inr hr)
          dsimp only
          split <;> simp_all
      split <;> simp_all

end

/-- C76: a read of a join or of a chain on top of one that asks for some of the columns, or for
addresses in place of the values of record fields, raises; where the same read without these
options gives rows it raises `UserInputError`.  So no read leaves such an option out of account. -/
theorem C76_refused {E : Env} {R : RayEnv} {U : UdfEnv} (ray : RayOpts) (nb : Option Err) (J : JoinView) (v : View)
    (h : Handle) (w : World) (h' : Handle) (w' : World) (ver : Option Version) {o : ReadOpts}
    (ho : o.fields.isSome = true ∨ o.refRead = true) :
    (∃ e, overRead E R U nb ray J v h w h' w' o ver = .error e) ∧
    ∀ rows, overRead E R U nb ray J v h w h' w' { filter := o.filter, batch := o.batch } ver = .ok rows →
      overRead E R U nb ray J v h w h' w' o ver = .error .userInput := by
  unfold overRead
  split
  · exact ⟨⟨_, rfl⟩, fun _ hx => by cases hx⟩
  · split
    · exact ⟨⟨_, rfl⟩, fun _ hx => by cases hx⟩
    · split
      · exact ⟨⟨_, rfl⟩, fun _ hx => by cases hx⟩
      · rw [chain_refuses v [] o ho]
        exact ⟨⟨_, rfl⟩, fun _ _ => rfl⟩

/-- C76 with C43: in every history of two sources, if a read of a chain on top of a join of them
returns, both sides can be read and the result is what the functions make of their inner join. -/
theorem C76_rows {E : Env} {R : RayEnv} {U : UdfEnv} {ray : RayOpts} {s s' : Schema} {g : Nat → Row → List Row}
    {σ σ' : Sys} (h : Reach E s anyStep σ) (h' : Reach E s' anyStep σ') {sl sl' : Slot}
    (hsl : sl ∈ σ.slots) (hsl' : sl' ∈ σ'.slots) (hR : Smooth R ray) (hg : RowWise U g) {J : JoinView}
    (hk : KeyOf s J.key) (hk' : KeyOf s' J.key) (hl : SideFits s g U.keep J.key J.left)
    (hr : SideFits s' g U.keep J.key J.right) {v : View} (hv : v.FitsOver J.outs g) (batch : Nat)
    {nb : Option Err} {rows : List Row}
    (hread : overRead E R U nb ray J v sl.h σ.w sl'.h σ'.w { batch := batch } none = .ok rows) :
    ∃ a b, inputRead E R U ray J.left sl.h σ.w = .ok a ∧ inputRead E R U ray J.right sl'.h σ'.w = .ok b ∧
      rows ~ v.rowsOver g U.keep (innerJoin J.key J.outs a b) := by
  have key := C76 (E := E) (R := R) hg ray nb J hv sl.h σ.w sl'.h σ'.w none batch none
  cases hj : joinRead E R U nb ray J none sl.h σ.w sl'.h σ'.w {} none with
  | error e =>
    rw [hj] at key
    rw [hread] at key
    cases key
  | ok joined =>
    rw [hj] at key
    obtain ⟨rows', e, hp⟩ := key
    rw [hread] at e
    cases e
    obtain ⟨a, b, ha, hb, hab⟩ := C43_partial h h' hsl hsl' hR hg hk hk' hl hr
      (fun p hp => by cases hp) hj
    exact ⟨a, b, ha, hb, hp.trans (View.rowsOver_perm g U.keep v hab)⟩

/-! ### Example -/

namespace Demo

/-- `sold` as a view. -/
def soldView : View := .joined [.mk "id" true none .i64, .mk "txt" true none .str, .mk "qty" true none .i64] ["id"] []

/-- A map that keeps key and text and repeats rows with odd keys, after a filter on the key. -/
def soldTwice : View :=
  .map { fn := 0, out := [.mk "id" true none .i64, .mk "txt" true none .str], recs := [] }
    (.filter { fn := 1, out := [], recs := [] } soldView ["id", "qty"]) ["id"]

end Demo

theorem soldTwice_fits : soldTwice.FitsOver sold.outs rowFns := by
  refine ⟨⟨rfl, by decide⟩, by decide, ?_⟩
  intro r r' hr c hc
  have : r'.cols = ["id", "txt"] := by
    simp only [rowFns] at hr
    split at hr
    · split at hr <;> simp at hr <;> subst hr <;> rfl
    · simp at hr; subst hr; rfl
  rw [this]
  exact hc

/-- Four matching orders, two of them of row 5, which the filter drops. -/
example : ∃ σ sl σ' sl', Reach env schema anyStep σ ∧ sl ∈ σ.slots ∧ Reach env oSchema anyStep σ' ∧ sl' ∈ σ'.slots ∧
    Smooth rayEnv {} ∧ RowWise udfs rowFns ∧ soldTwice.FitsOver sold.outs rowFns ∧
    overRead env rayEnv udfs none {} sold soldTwice sl.h σ.w sl'.h σ'.w {} none =
      .ok [[("id", .sc (.int 2)), ("txt", .sc (.str "long"))], [("id", .sc (.int 4)), ("txt", .sc (.str "long"))]] := by
  obtain ⟨sl, h1, sl', h3, h2⟩ := slots_of (σ := after env anyB schema seven) (σ' := after env anyB oSchema ordered)
    (f := fun sl sl' => overRead env rayEnv udfs none {} sold soldTwice sl.h (after env anyB schema seven).w
        sl'.h (after env anyB oSchema ordered).w {} none)
    (x := .ok [[("id", .sc (.int 2)), ("txt", .sc (.str "long"))], [("id", .sc (.int 4)), ("txt", .sc (.str "long"))]])
    (by decide +kernel)
  exact ⟨_, sl, _, sl', after_reach (fun _ _ _ => trivial) _, h1, after_reach (fun _ _ _ => trivial) _, h3,
    Or.inl rfl, udfs_rowWise, soldTwice_fits, h2⟩

/-- The same read, asking for the text only, and with addresses. -/
example : ∃ σ sl σ' sl', Reach env schema anyStep σ ∧ sl ∈ σ.slots ∧ Reach env oSchema anyStep σ' ∧ sl' ∈ σ'.slots ∧
    (overRead env rayEnv udfs none {} sold soldTwice sl.h σ.w sl'.h σ'.w { fields := some ["txt"] } none,
      overRead env rayEnv udfs none {} sold soldView sl.h σ.w sl'.h σ'.w { refRead := true } none) =
      (.error .userInput, .error .userInput) := by
  obtain ⟨sl, h1, sl', h3, h2⟩ := slots_of (σ := after env anyB schema seven) (σ' := after env anyB oSchema ordered)
    (f := fun sl sl' => (overRead env rayEnv udfs none {} sold soldTwice sl.h (after env anyB schema seven).w
        sl'.h (after env anyB oSchema ordered).w { fields := some ["txt"] } none,
      overRead env rayEnv udfs none {} sold soldView sl.h (after env anyB schema seven).w
        sl'.h (after env anyB oSchema ordered).w { refRead := true } none))
    (x := (.error .userInput, .error .userInput))
    (by decide +kernel)
  exact ⟨_, sl, _, sl', after_reach (fun _ _ _ => trivial) _, h1, after_reach (fun _ _ _ => trivial) _, h3, h2⟩

end Space
