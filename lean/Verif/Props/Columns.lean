import Verif.Props.Views
import Verif.Props.Plans

/-!
# C74: rows of a view have the columns the view declares
-/

set_option autoImplicit false

namespace Space

open Demo List

/-- Views made by calls of `map_batches` and `filter`, starting from a dataset. -/
inductive Chain : View → Prop where
  | dataset {d : Source} : Chain (.dataset d)
  | map {v v' : View} {fn out fields recs batch} : Chain v →
      v.mapBatches fn out fields recs batch = .ok v' → Chain v'
  | filter {v v' : View} {fn fields} : Chain v → v.filterBy fn fields = .ok v' → Chain v'

/-- The names of the columns a view declares. -/
def View.declared (v : View) : List String := v.schema.map AField.name

/-- The source of the view has the schema `s`. -/
def View.Over (s : Schema) : View → Prop
  | .dataset d => d.schema.map AField.name = s.names
  | .map _ i _ => i.Over s
  | .filter _ i _ => i.Over s
  | .joined .. => False

/-- The function of every map gives rows with exactly the columns of its output schema. -/
def View.Honest (g : Nat → Row → List Row) : View → Prop
  | .map u i _ => i.Honest g ∧ ∀ r, ∀ r' ∈ g u.fn r, ∀ c, c ∈ r'.cols ↔ c ∈ u.out.map AField.name
  | .filter _ i _ => i.Honest g
  | _ => True

/-- Every filter is given all columns of its input (as it is by default). -/
def View.Whole : View → Prop
  | .map _ i _ => i.Whole
  | .filter _ i fields => i.Whole ∧ ∀ c ∈ i.declared, c ∈ fields
  | _ => True

theorem inputFields_declared {v : View} {o : Option (List String)} {l : List String}
    (h : v.inputFields o = .ok l) : ∀ c ∈ l, c ∈ v.declared := by
  cases o with
  | none => cases h; exact fun _ h => h
  | some l' =>
    unfold View.inputFields at h
    dsimp only at h
    split at h
    · split at h
      · rename_i ha hb
        cases h
        simp only [List.all_eq_true, List.contains_iff_mem] at hb
        exact hb
      · cases h
    · cases h

theorem Chain.fits {s : Schema} {g : Nat → Row → List Row} {v : View} (h : Chain v) (hs : v.Over s)
    (hg : v.Honest g) (hw : v.Whole) : v.Fits s g ∧ ∀ c, c ∈ v.cols s ↔ c ∈ v.declared := by
  induction h with
  | dataset => exact ⟨trivial, fun c => by rw [View.cols, ← hs]; exact Iff.rfl⟩
  | map _ h ih =>
    obtain ⟨l, h1, -, rfl⟩ := mapBatches_ok h
    obtain ⟨i1, i2⟩ := ih hs hg.1 hw
    exact ⟨⟨i1, fun c hc => (i2 c).mpr (inputFields_declared h1 c hc), fun r r' hr c hc => (hg.2 r r' hr c).mpr hc⟩,
      fun c => Iff.rfl⟩
  | filter _ h ih =>
    obtain ⟨l, h1, rfl⟩ := filterBy_ok h
    obtain ⟨i1, i2⟩ := ih hs hg hw.1
    exact ⟨⟨i1, fun c hc => (i2 c).mpr (inputFields_declared h1 c hc)⟩,
      fun c => ⟨inputFields_declared h1 c, hw.2 c⟩⟩

theorem rowsOn_exact {s : Schema} {g : Nat → Row → List Row} {keep : Nat → Row → Bool} {v : View} {rows : List Row}
    (hv : v.Fits s g) (hg : v.Honest g) (h : ∀ r ∈ rows, ∀ c, c ∈ r.cols ↔ c ∈ s.names) :
    ∀ r ∈ v.rowsOn s g keep rows, ∀ c, c ∈ r.cols ↔ c ∈ v.cols s := by
  intro r hr c
  cases v with
  | dataset d => exact h r hr c
  | map u i fields =>
    simp only [View.rowsOn, List.mem_flatMap, List.mem_map] at hr
    obtain ⟨x, -, hr⟩ := hr
    exact hg.2 x r hr c
  | filter u i fields =>
    simp only [View.rowsOn, List.mem_filter, List.mem_map] at hr
    obtain ⟨⟨y, -, rfl⟩, -⟩ := hr
    rw [select_cols]
    exact mem_inputCols
  | joined out pks recs => exact hv.elim

theorem mem_writeNames_iff {s : Schema} {c : String} : c ∈ s.writeNames ↔ c ∈ s.names := by
  simp only [Schema.writeNames, Schema.idxNames, Schema.recNames, Schema.idxFields, Schema.recFields, Schema.names,
    List.mem_append, List.mem_map, List.mem_filter]
  constructor
  · rintro (⟨f, ⟨hf, -⟩, rfl⟩ | ⟨f, ⟨hf, -⟩, rfl⟩) <;> exact ⟨f, hf, rfl⟩
  · rintro ⟨f, hf, rfl⟩
    cases hr : s.isRec f
    · exact .inl ⟨f, ⟨hf, by simp [hr]⟩, rfl⟩
    · exact .inr ⟨f, ⟨hf, hr⟩, rfl⟩

/-- C74, for filters that are given all columns of their input: a view made by `map_batches` and
`filter` on a dataset, in every history and for every version: it can be read if the dataset can,
and its rows have exactly the columns the view declares.  Missing: filters with `input_fields` that
leave out a column, see `C74_violated`, `C74_violated_read`. -/
theorem C74_partial {E : Env} {s : Schema} (hn : s.names.Nodup) {σ : Sys} (h : Reach E s anyStep σ) {sl : Slot}
    (hsl : sl ∈ σ.slots) {R : RayEnv} {ray : RayOpts} (hR : Smooth R ray) {U : UdfEnv} {g : Nat → Row → List Row}
    (hg : RowWise U g) {v : View} (hv : Chain v) (hs : v.Over s) (hh : v.Honest g) (hw : v.Whole) (batch : Nat)
    (ver : Option Version) {rows : List Row} (hr : tableRead E sl.h σ.w {} ver = .ok rows) :
    ∃ rows', viewRead E R U ray v sl.h σ.w { batch := batch } ver = .ok rows' ∧
      ∀ r ∈ rows', ∀ c, c ∈ r.cols ↔ c ∈ v.declared := by
  obtain ⟨f1, f2⟩ := hv.fits hs hh hw
  have key := C57 hn h hsl hR hg f1 (E := E) batch ver
  rw [hr] at key
  obtain ⟨rows', h1, h2⟩ := key
  refine ⟨rows', h1, fun r hm c => ?_⟩
  rw [← f2]
  refine rowsOn_exact f1 hh ?_ r (h2.mem_iff.mp hm) c
  obtain ⟨md, hok⟩ := reach_ok hn h
  rw [tableRead_full hok.wok (hok.slots sl hsl).1] at hr
  split at hr
  · cases hr
  · cases hr
    intro x hx c
    obtain ⟨y, -, rfl⟩ := List.mem_map.mp hx
    rw [select_cols]
    exact mem_writeNames_iff

/-! ### Examples -/

namespace Demo

/-- The dataset as a view, with its schema. -/
def data : View := .dataset
  { loc := "/t".toList, schema := [.mk "id" true none .i64, .mk "txt" true none .str, .mk "img" true none .bin],
    pks := ["id"], recs := ["img"] }

/-- The keys other than 5. -/
def not5 : View := .filter ⟨1, data.schema, ["img"], none⟩ data ["id", "txt", "img"]

/-- These, doubled. -/
def built : View :=
  .map ⟨0, [.mk "id" true (some 0) .i64, .mk "txt" true (some 1) .str], [], none⟩ not5 ["id"]

/-- A filter that is given the key only. -/
def keyOnly : View := .filter ⟨1, data.schema, ["img"], none⟩ data ["id"]

/-- A second filter on top of it, with the default fields. -/
def keyTwice : View := .filter ⟨1, data.schema, ["img"], none⟩ keyOnly ["id", "txt", "img"]

end Demo

theorem built_chain : Chain built :=
  .map (v := not5) (fn := 0) (out := .cons (.mk "id" true none .i64) (.cons (.mk "txt" true none .str) .nil))
    (fields := some ["id"]) (recs := none) (batch := none)
    (.filter (v := data) (fn := 1) (fields := none) .dataset rfl) rfl

theorem keyOnly_chain : Chain keyOnly := .filter (v := data) (fn := 1) (fields := some ["id"]) .dataset rfl

theorem keyTwice_chain : Chain keyTwice := .filter (v := keyOnly) (fn := 1) (fields := none) keyOnly_chain rfl

/-- A view to which `C74_partial` applies, on seven rows. -/
example : ∃ σ sl rows, Reach env schema anyStep σ ∧ sl ∈ σ.slots ∧ Chain built ∧ built.Over schema ∧
    built.Honest rowFns ∧ built.Whole ∧ viewRead env rayEnv udfs {} built sl.h σ.w { batch := 2 } none = .ok rows ∧
    rows.length = 9 ∧ built.declared = ["id", "txt"] := by
  obtain ⟨sl, -, h1, h2⟩ := slot_of (σ := after env anyB schema seven) (i := 0)
    (f := fun sl => (viewRead env rayEnv udfs {} built sl.h (after env anyB schema seven).w { batch := 2 } none).map
      (·.length)) (x := .ok 9) (by decide +kernel)
  cases hv : viewRead env rayEnv udfs {} built sl.h (after env anyB schema seven).w { batch := 2 } none with
  | error e => rw [hv] at h2; cases h2
  | ok rows =>
    rw [hv] at h2
    simp only [Except.map, Except.ok.injEq] at h2
    refine ⟨_, sl, rows, after_reach (fun _ _ _ => trivial) _, h1, built_chain, rfl, ⟨trivial, ?_⟩,
      ⟨trivial, fun c hc => hc⟩, hv, h2, rfl⟩
    intro r r' hr
    have e : r' = [("id", r.val "id"), ("txt", .sc (.str "long"))] := by
      simp only [rowFns] at hr
      split at hr
      · split at hr <;> simp at hr <;> exact hr
      · simpa using hr
    subst e
    exact fun c => Iff.rfl

/-- C74 is false for a filter with `input_fields`: the view declares the schema of its input
(`transform/udfs.py:163-164`), but its rows only have the columns the filter is given
(`:113-115`). -/
theorem C74_violated : ∃ σ sl, Reach env schema anyStep σ ∧ sl ∈ σ.slots ∧ Chain keyOnly ∧ keyOnly.Over schema ∧
    keyOnly.declared = ["id", "txt", "img"] ∧
    viewRead env rayEnv udfs {} keyOnly sl.h σ.w {} none =
      .ok ([1, 2, 3, 4, 6, 7].map (fun n => [("id", .sc (.int n))])) := by
  obtain ⟨sl, -, h1, h2⟩ := slot_of (σ := after env anyB schema seven) (i := 0)
    (f := fun sl => viewRead env rayEnv udfs {} keyOnly sl.h (after env anyB schema seven).w {} none)
    (x := .ok ([1, 2, 3, 4, 6, 7].map (fun n => [("id", .sc (.int n))]))) (by decide +kernel)
  exact ⟨_, sl, after_reach (fun _ _ _ => trivial) _, h1, keyOnly_chain, rfl, rfl, h2⟩

/-- A filter on top of it is accepted, with the columns that are declared; reading it raises. -/
theorem C74_violated_read : ∃ σ sl, Reach env schema anyStep σ ∧ sl ∈ σ.slots ∧ Chain keyTwice ∧
    keyTwice.Over schema ∧ (tableRead env sl.h σ.w {} none).isOk ∧
    viewRead env rayEnv udfs {} keyTwice sl.h σ.w {} none = .error (.other "KeyError") := by
  obtain ⟨sl, -, h1, h2⟩ := slot_of (σ := after env anyB schema seven) (i := 0)
    (f := fun sl => decide ((tableRead env sl.h (after env anyB schema seven).w {} none).isOk = true) &&
      decide (viewRead env rayEnv udfs {} keyTwice sl.h (after env anyB schema seven).w {} none
        = .error (.other "KeyError"))) (x := true) (by decide +kernel)
  simp only [Bool.and_eq_true, decide_eq_true_eq] at h2
  exact ⟨_, sl, after_reach (fun _ _ _ => trivial) _, h1, keyTwice_chain, rfl, h2.1, h2.2⟩

end Space
