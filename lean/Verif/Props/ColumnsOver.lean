import Verif.Props.Columns
import Verif.Props.OverJoin

/-!
# C74 for joins and for transforms on top of joins
-/

set_option autoImplicit false

namespace Space

open Demo List

/-- Views made by calls of `map_batches` and `filter`, starting from a join with these
output columns. -/
inductive ChainOver (outs : List String) : View → Prop where
  | joined {out : List AField} {pks recs : List String} : out.map AField.name = outs → ChainOver outs (.joined out pks recs)
  | map {v v' : View} {fn out fields recs batch} : ChainOver outs v →
      v.mapBatches fn out fields recs batch = .ok v' → ChainOver outs v'
  | filter {v v' : View} {fn fields} : ChainOver outs v → v.filterBy fn fields = .ok v' → ChainOver outs v'

theorem ChainOver.fits {outs : List String} {g : Nat → Row → List Row} {v : View} (h : ChainOver outs v)
    (hg : v.Honest g) (hw : v.Whole) : v.FitsOver outs g ∧ ∀ c, c ∈ v.colsOver ↔ c ∈ v.declared := by
  induction h with
  | joined e => exact ⟨e, fun c => Iff.rfl⟩
  | map _ h ih =>
    obtain ⟨l, h1, -, rfl⟩ := mapBatches_ok h
    obtain ⟨i1, i2⟩ := ih hg.1 hw
    exact ⟨⟨i1, fun c hc => (i2 c).mpr (inputFields_declared h1 c hc), fun r r' hr c hc => (hg.2 r r' hr c).mpr hc⟩,
      fun c => Iff.rfl⟩
  | filter _ h ih =>
    obtain ⟨l, h1, rfl⟩ := filterBy_ok h
    obtain ⟨i1, i2⟩ := ih hg hw.1
    exact ⟨⟨i1, fun c hc => (i2 c).mpr (inputFields_declared h1 c hc)⟩,
      fun c => ⟨inputFields_declared h1 c, hw.2 c⟩⟩

theorem rowsOver_exact {outs : List String} {g : Nat → Row → List Row} {keep : Nat → Row → Bool} {v : View}
    {rows : List Row} (hv : v.FitsOver outs g) (hg : v.Honest g) (h : ∀ r ∈ rows, r.cols = outs) :
    ∀ r ∈ v.rowsOver g keep rows, ∀ c, c ∈ r.cols ↔ c ∈ v.colsOver := by
  intro r hr c
  cases v with
  | dataset d => exact hv.elim
  | map u i fields =>
    simp only [View.rowsOver, List.mem_flatMap, List.mem_map] at hr
    obtain ⟨x, -, hr⟩ := hr
    exact hg.2 x r hr c
  | filter u i fields =>
    simp only [View.rowsOver, List.mem_filter, List.mem_map] at hr
    obtain ⟨⟨y, -, rfl⟩, -⟩ := hr
    rw [select_cols]
    exact Iff.rfl
  | joined out pks recs =>
    have hv : out.map AField.name = outs := hv
    rw [h r hr, ← hv]
    exact Iff.rfl

/-- C74 for joins: every row of a join has exactly the columns that the join declares, in that
order, whatever the storages hold, whatever the partition function and whatever blocks Ray makes.
Which columns are declared is `C43_view`. -/
theorem C74_join {E : Env} {R : RayEnv} {U : UdfEnv} {nb : Option Err} {ray : RayOpts} {J : JoinView}
    {partition : Option (KeyRange → List KeyRange)} {h : Handle} {w : World} {h' : Handle} {w' : World} {o : ReadOpts}
    {ver : Option Version} {rows : List Row} (hr : joinRead E R U nb ray J partition h w h' w' o ver = .ok rows) :
    ∀ r ∈ rows, r.cols = J.outs := by
  unfold joinRead at hr
  cases h1 : reload (h, w) with
  | mk a hw =>
    obtain ⟨k1, w1⟩ := hw
    rw [h1] at hr
    cases a with
    | error e => cases hr
    | ok _ =>
      cases h2 : reload (h', w') with
      | mk a hw =>
        obtain ⟨k2, w2⟩ := hw
        rw [h2] at hr
        cases a with
        | error e => cases hr
        | ok _ =>
          dsimp only at hr
          have fin : ∀ {x : Except Err (List Row)}, (if o.fields.isSome || o.refRead then .error .userInput
              else match joinBlocks E R U nb ray J partition w1.fs k1 w2.fs k2 with
                | .error e => .error e
                | .ok bs => .ok (iterBatches bs).flatten) = x → x = .ok rows → ∀ r ∈ rows, r.cols = J.outs := by
            intro x hx e
            subst e
            split at hx
            · cases hx
            · cases hj : joinBlocks E R U nb ray J partition w1.fs k1 w2.fs k2 with
              | error e => rw [hj] at hx; cases hx
              | ok bs =>
                rw [hj] at hx
                cases hx
                intro r hr
                obtain ⟨b, hb, hr⟩ := List.mem_flatten.mp hr
                exact joinBlocks_cols hj r (List.mem_flatten.mpr ⟨b, (List.mem_filter.mp hb).1, hr⟩)
          cases ver with
          | none => exact fin rfl hr
          | some x =>
            cases hs : J.same with
            | false => simp [hs] at hr
            | true =>
              simp only [hs, if_true] at hr
              cases hv : k1.md.versionId x with
              | error e => rw [hv] at hr; cases hr
              | ok n => rw [hv] at hr; exact fin rfl hr

/-- C74 for transforms on top of a join, with filters that are given all columns of their input:
a view made by `map_batches` and `filter` on a join can be read if the join can, and its rows have
exactly the columns the view declares.  Missing: filters with `input_fields` that leave out a
column, as in `C74_violated`. -/
theorem C74_over_partial {E : Env} {R : RayEnv} {U : UdfEnv} {g : Nat → Row → List Row} (hg : RowWise U g)
    (ray : RayOpts) (nb : Option Err) (J : JoinView) {v : View} (hv : ChainOver J.outs v) (hh : v.Honest g)
    (hw : v.Whole) (h : Handle) (w : World) (h' : Handle) (w' : World) (batch : Nat) (ver : Option Version)
    {rows : List Row} (hr : joinRead E R U nb ray J none h w h' w' {} ver = .ok rows) :
    ∃ rows', overRead E R U nb ray J v h w h' w' { batch := batch } ver = .ok rows' ∧
      ∀ r ∈ rows', ∀ c, c ∈ r.cols ↔ c ∈ v.declared := by
  obtain ⟨f1, f2⟩ := hv.fits hh hw
  have key := C76 (E := E) (R := R) hg ray nb J f1 h w h' w' none batch ver
  rw [hr] at key
  obtain ⟨rows', e, hp⟩ := key
  refine ⟨rows', e, fun r hm c => ?_⟩
  rw [← f2]
  exact rowsOver_exact f1 hh (C74_join hr) r (hp.mem_iff.mp hm) c

/-! ### Example -/

namespace Demo

/-- The joined rows with other keys than 5. -/
def soldNot5 : View := .filter ⟨1, soldView.schema, [], none⟩ soldView ["id", "txt", "qty"]

/-- Key and text of these, with rows with odd keys repeated. -/
def soldBuilt : View :=
  .map ⟨0, [.mk "id" true (some 0) .i64, .mk "txt" true (some 1) .str], [], none⟩ soldNot5 ["id"]

end Demo

theorem soldBuilt_chain : ChainOver sold.outs soldBuilt :=
  .map (v := soldNot5) (fn := 0) (out := .cons (.mk "id" true none .i64) (.cons (.mk "txt" true none .str) .nil))
    (fields := some ["id"]) (recs := none) (batch := none)
    (.filter (v := soldView) (fn := 1) (fields := none) (.joined rfl) rfl) rfl

/-- A chain on a join of two storages to which `C74_over_partial` applies. -/
example : ∃ (σ : Sys) (sl : Slot) (σ' : Sys) (sl' : Slot) (rows : List Row), Reach env schema anyStep σ ∧ sl ∈ σ.slots ∧
    Reach env oSchema anyStep σ' ∧ sl' ∈ σ'.slots ∧ RowWise udfs rowFns ∧ ChainOver sold.outs soldBuilt ∧
    soldBuilt.Honest rowFns ∧ soldBuilt.Whole ∧ soldBuilt.declared = ["id", "txt"] ∧
    joinRead env rayEnv udfs none {} sold none sl.h σ.w sl'.h σ'.w {} none = .ok rows ∧ rows.length = 4 := by
  obtain ⟨sl, h1, sl', h3, h2⟩ := slots_of (σ := after env anyB schema seven) (σ' := after env anyB oSchema ordered)
    (f := fun sl sl' => (joinRead env rayEnv udfs none {} sold none sl.h (after env anyB schema seven).w
        sl'.h (after env anyB oSchema ordered).w {} none).map (·.length))
    (x := .ok 4) (by decide +kernel)
  cases hv : joinRead env rayEnv udfs none {} sold none sl.h (after env anyB schema seven).w
        sl'.h (after env anyB oSchema ordered).w {} none with
  | error e => rw [hv] at h2; cases h2
  | ok rows =>
    rw [hv] at h2
    simp only [Except.map, Except.ok.injEq] at h2
    refine ⟨_, sl, _, sl', rows, after_reach (fun _ _ _ => trivial) _, h1, after_reach (fun _ _ _ => trivial) _, h3,
      udfs_rowWise, soldBuilt_chain, ⟨trivial, ?_⟩, ⟨trivial, fun c hc => hc⟩, rfl, hv, h2⟩
    intro r r' hr
    have e : r' = [("id", r.val "id"), ("txt", .sc (.str "long"))] := by
      simp only [rowFns] at hr
      split at hr
      · split at hr <;> simp at hr <;> exact hr
      · simpa using hr
    subst e
    exact fun c => Iff.rfl

end Space
