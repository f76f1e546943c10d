import Verif.ViewLemmas
import Verif.Props.Ray

/-!
# C44, C57: reading views
-/

set_option autoImplicit false

namespace Space

open Demo List

/-! ## C57 -/

/-- C57: in every history, for every version and every chain of maps and filters over a
dataset: reading the view returns what its functions make of the rows a local read of the
dataset returns, each row as often, whatever blocks and batches Ray forms; and it raises
what the local read raises. -/
theorem C57 {E : Env} {s : Schema} (hn : s.names.Nodup) {σ : Sys} (h : Reach E s anyStep σ) {sl : Slot}
    (hsl : sl ∈ σ.slots) {R : RayEnv} {ray : RayOpts} (hR : Smooth R ray) {U : UdfEnv} {g : Nat → Row → List Row}
    (hg : RowWise U g) {v : View} (hv : v.Fits s g) (batch : Nat) (ver : Option Version) :
    match tableRead E sl.h σ.w {} ver with
    | .error e => viewRead E R U ray v sl.h σ.w { batch := batch } ver = .error e
    | .ok rows => ∃ rows', viewRead E R U ray v sl.h σ.w { batch := batch } ver = .ok rows' ∧
        rows' ~ v.rowsOn s g U.keep rows := by
  obtain ⟨md, hok⟩ := reach_ok hn h
  have hh := (hok.slots sl hsl).1
  have key := viewRead_rows (E := E) (R := R) (ray := ray) hok.wok hh hR hg hv (f := none)
    (fun e he => by cases he) batch ver
  rw [tableRead_full hok.wok hh]
  cases ht : md.target sl.h.branch ver with
  | error e => rw [ht] at key; exact key
  | ok snap => rw [ht] at key; exact key

/-! ## C44 -/

/-- C44 for views that do not change on which rows the filter is true (and filters as in
`C05_partial`): a filtered read of the view returns the rows of the full read on which the
filter is true, each as often, and raises what the full read raises.  Missing: views that
change a filtered column or make it, see `C44_violated`, `C44_violated_new`; joins, see
`C44_violated_join`. -/
theorem C44_partial {E : Env} {s : Schema} (hn : s.names.Nodup) {σ : Sys} (h : Reach E s anyStep σ) {sl : Slot}
    (hsl : sl ∈ σ.slots) {R : RayEnv} {ray : RayOpts} (hR : Smooth R ray) {U : UdfEnv} {g : Nat → Row → List Row}
    (hg : RowWise U g) {v : View} (hv : v.Fits s g) {e : Expr} (he : FilterFits s e)
    (hu : Unmoved E.I s g U.keep v e) (batch batch' : Nat) (ver : Option Version) :
    match viewRead E R U ray v sl.h σ.w { batch := batch } ver with
    | .error x => viewRead E R U ray v sl.h σ.w { filter := some e, batch := batch' } ver = .error x
    | .ok rows => ∃ rows', viewRead E R U ray v sl.h σ.w { filter := some e, batch := batch' } ver = .ok rows' ∧
        rows' ~ rows.filter (fun r => e.holds E.I r) := by
  obtain ⟨md, hok⟩ := reach_ok hn h
  have hh := (hok.slots sl hsl).1
  have k1 := viewRead_rows (E := E) (R := R) (ray := ray) hok.wok hh hR hg hv (f := none)
    (fun e he => by cases he) batch ver
  have k2 := viewRead_rows (E := E) (R := R) (ray := ray) hok.wok hh hR hg hv (f := some e)
    (fun e' h' => by cases h'; exact he) batch' ver
  cases ht : md.target sl.h.branch ver with
  | error x =>
    rw [ht] at k1 k2
    simp only at k1 k2
    rw [k1]
    exact k2
  | ok snap =>
    rw [ht] at k1 k2
    simp only [holding] at k1 k2
    obtain ⟨rows, h1, h2⟩ := k1
    obtain ⟨rows', h3, h4⟩ := k2
    rw [h1]
    refine ⟨rows', h3, h4.trans ?_⟩
    rw [holding_select he.names, rowsOn_filter hu]
    exact (h2.filter _).symm

/-- C44, the materialized view, under the conditions of `C44_partial`: if the rows a
materialized view has stored are those of the view, then reading it with the filter gives
the same rows as reading the view with the filter. -/
theorem C44_mv_partial {E : Env} {s : Schema} (hn : s.names.Nodup) {σ : Sys} (h : Reach E s anyStep σ) {sl : Slot}
    (hsl : sl ∈ σ.slots) {R : RayEnv} {ray : RayOpts} (hR : Smooth R ray) {U : UdfEnv} {g : Nat → Row → List Row}
    (hg : RowWise U g) {v : View} (hv : v.Fits s g) {e : Expr} (he : FilterFits s e)
    (hu : Unmoved E.I s g U.keep v e) (ver : Option Version)
    {s' : Schema} (hn' : s'.names.Nodup) {σ' : Sys} (h' : Reach E s' anyStep σ') {sl' : Slot} (hsl' : sl' ∈ σ'.slots)
    (he' : FilterFits s' e) (ver' : Option Version) {rows stored : List Row}
    (hrows : viewRead E R U ray v sl.h σ.w {} ver = .ok rows)
    (hstored : rayRead E R ray sl'.h σ'.w {} ver' = .ok stored)
    (heq : stored ~ rows.map (·.select s'.writeNames)) :
    ∃ rows' stored', viewRead E R U ray v sl.h σ.w { filter := some e } ver = .ok rows' ∧
      rayRead E R ray sl'.h σ'.w { filter := some e } ver' = .ok stored' ∧
      stored' ~ rows'.map (·.select s'.writeNames) := by
  have k := C44_partial hn h hsl hR hg hv he hu 16 16 ver
  rw [show ({ batch := 16 } : ReadOpts) = {} from rfl, hrows] at k
  obtain ⟨rows', h1, h2⟩ := k
  obtain ⟨md, hok⟩ := reach_ok hn' h'
  have hh := (hok.slots sl' hsl').1
  have d1 : ∀ (i : View), i = .dataset ⟨[], [], [], []⟩ → i.Fits s' g := by
    intro i hi; subst hi; trivial
  have view : ∀ o, viewRead E R U ray (.dataset ⟨[], [], [], []⟩) sl'.h σ'.w o ver' =
      rayRead E R ray sl'.h σ'.w o ver' := fun o => rfl
  have m := C44_partial (v := .dataset ⟨[], [], [], []⟩) hn' h' hsl' hR hg trivial he'
    (fun r r' hr => by cases List.mem_singleton.mp hr; rfl) 16 16 ver'
  rw [view, view, show ({ batch := 16 } : ReadOpts) = {} from rfl, hstored] at m
  obtain ⟨stored', h3, h4⟩ := m
  refine ⟨rows', stored', h1, h3, h4.trans ((heq.filter _).trans ?_)⟩
  rw [← holding_select he'.names]
  exact (h2.map _).symm

/-! ### Examples -/

namespace Demo

/-- Function 0 gives a row twice if its key is odd, with a longer text; function 1 keeps all
keys but 5; function 2 adds ten to the key; function 3 makes a new column. -/
def rowFns : Nat → Row → List Row
  | 0, r =>
    let r' : Row := [("id", r.val "id"), ("txt", .sc (.str "long"))]
    match r.val "id" with
    | .sc (.int n) => if n % 2 = 1 then [r', r'] else [r']
    | _ => [r']
  | 3, r => [[("id", r.val "id"), ("len", .sc (.int 4))]]
  | _, r =>
    match r.val "id" with
    | .sc (.int n) => [[("id", .sc (.int (n + 10)))]]
    | _ => [[("id", .null)]]

def udfs : UdfEnv where
  map := fun k rows => rows.flatMap (rowFns k)
  keep := fun _ r => r.val "id" ≠ .sc (.int 5)

theorem udfs_rowWise : RowWise udfs rowFns := fun _ _ => rfl

def src : View := .dataset { loc := "/t".toList, schema := [], pks := ["id"], recs := ["img"] }

/-- A filter on top of a map. -/
def doubled : View :=
  .filter { fn := 1, out := [], recs := [] }
    (.map { fn := 0, out := [.mk "id" true none .i64, .mk "txt" true none .str], recs := [] } src ["img", "id"]) ["id", "txt"]

/-- The key plus ten. -/
def shifted : View := .map { fn := 2, out := [.mk "id" true none .i64], recs := [] } src ["id"]

/-- A new column. -/
def measured : View :=
  .map { fn := 3, out := [.mk "id" true none .i64, .mk "len" true none .i64], recs := [] } src ["id"]

/-- Keys above 2. -/
def above2 : Expr := .bin "gt" (.sel "id") (.lit (.int 2))

end Demo

theorem doubled_fits : doubled.Fits schema rowFns := by
  refine ⟨⟨trivial, by decide, ?_⟩, by decide⟩
  intro r r' hr
  have e : r' = [("id", r.val "id"), ("txt", .sc (.str "long"))] := by
    simp only [rowFns] at hr
    split at hr
    · split at hr <;> simp at hr <;> exact hr
    · simpa using hr
  subst e
  show ∀ c ∈ ["id", "txt"], c ∈ ["id", "txt"]
  decide

theorem above2_fits : FilterFits schema above2 :=
  FilterFits.of_flat rfl (by decide) (by decide) (by decide) rfl (by decide)

/-- Neither function changes the key. -/
theorem doubled_unmoved : Unmoved env.I schema rowFns udfs.keep doubled above2 := by
  intro r r' hr
  simp only [doubled, src, View.rowsOn, List.map_cons, List.map_nil, List.mem_filter, List.mem_map,
    List.flatMap_cons, List.flatMap_nil, List.append_nil] at hr
  obtain ⟨⟨x, hx, rfl⟩, -⟩ := hr
  refine holds_congr fun c hc => ?_
  have hc : c = "id" := by
    have : c ∈ ["id"] := hc
    simpa using this
  subst hc
  rw [select_val (mem_inputCols.mpr (by simp))]
  have hid : ∀ y : Row, ∀ z ∈ rowFns 0 y, z.val "id" = y.val "id" := by
    intro y z hz
    have e : z = [("id", y.val "id"), ("txt", .sc (.str "long"))] := by
      simp only [rowFns] at hz
      split at hz
      · split at hz <;> simp at hz <;> exact hz
      · simpa using hz
    subst e
    rfl
  rw [hid _ _ hx]
  exact select_val (mem_inputCols.mpr (by simp))

/-- Seven rows in two files read through the map and the filter, without and with a filter
for keys above 2. -/
example : ∃ σ sl, Reach env schema anyStep σ ∧ sl ∈ σ.slots ∧
    keysRead (viewRead env rayEnv udfs {} doubled sl.h σ.w { batch := 2 } none) =
      some ([6, 7, 7, 3, 3, 4, 1, 1, 2].map (fun n => Val.sc (.int n))) ∧
    keysRead (viewRead env rayEnv udfs {} doubled sl.h σ.w { batch := 2, filter := some above2 } none) =
      some ([6, 7, 7, 3, 3, 4].map (fun n => Val.sc (.int n))) := by
  obtain ⟨sl, -, h1, h2⟩ := slot_of (σ := after env anyB schema seven) (i := 0)
    (f := fun sl => (keysRead (viewRead env rayEnv udfs {} doubled sl.h (after env anyB schema seven).w
        { batch := 2 } none),
      keysRead (viewRead env rayEnv udfs {} doubled sl.h (after env anyB schema seven).w
        { batch := 2, filter := some above2 } none)))
    (x := (some ([6, 7, 7, 3, 3, 4, 1, 1, 2].map (fun n => Val.sc (.int n))),
      some ([6, 7, 7, 3, 3, 4].map (fun n => Val.sc (.int n))))) (by decide +kernel)
  simp only [Prod.mk.injEq] at h2
  exact ⟨_, sl, after_reach (fun _ _ _ => trivial) _, h1, h2.1, h2.2⟩

/-- The schema of a materialized view of `doubled`. -/
def Demo.mvSchema : Schema := { fields := [⟨"id", 0, .int⟩, ⟨"txt", 1, .str⟩], pks := ["id"], recs := [] }

/-- A materialized view with the rows of the view, stored in two files. -/
def Demo.stored : List Act :=
  [.call 0 (.mutate (.append [[1, 1, 2, 3, 3, 4, 6].map (fun n => [("id", .sc (.int n)), ("txt", .sc (.str "long"))])])),
    .call 0 (.mutate (.append [[7, 7].map (fun n => [("id", .sc (.int n)), ("txt", .sc (.str "long"))])]))]

example : ∃ σ sl σ' sl' rows found, Reach env schema anyStep σ ∧ sl ∈ σ.slots ∧ Reach env mvSchema anyStep σ' ∧
    sl' ∈ σ'.slots ∧ FilterFits mvSchema above2 ∧ viewRead env rayEnv udfs {} doubled sl.h σ.w {} none = .ok rows ∧
    rayRead env rayEnv {} sl'.h σ'.w {} none = .ok found ∧ found ~ rows.map (·.select mvSchema.writeNames) ∧
    rows.length = 9 := by
  obtain ⟨sl, -, h1, h2⟩ := slot_of (σ := after env anyB schema seven) (i := 0)
    (f := fun sl => viewRead env rayEnv udfs {} doubled sl.h (after env anyB schema seven).w {} none)
    (x := .ok ([6, 7, 7, 1, 1, 2, 3, 3, 4].map (fun n => [("id", .sc (.int n)), ("txt", .sc (.str "long"))])))
    (by decide +kernel)
  obtain ⟨sl', -, h3, h4⟩ := slot_of (σ := after env anyB mvSchema stored) (i := 0)
    (f := fun sl => rayRead env rayEnv {} sl.h (after env anyB mvSchema stored).w {} none)
    (x := .ok ([7, 7, 1, 1, 2, 3, 3, 4, 6].map (fun n => [("id", .sc (.int n)), ("txt", .sc (.str "long"))])))
    (by decide +kernel)
  exact ⟨_, sl, _, sl', _, _, after_reach (fun _ _ _ => trivial) _, h1, after_reach (fun _ _ _ => trivial) _, h3,
    FilterFits.of_flat rfl (by decide) (by decide) (by decide) rfl (by decide), h2, h4, by decide +kernel, rfl⟩

/-- C44 is false in general: the filter is pushed into the dataset although the map changes
the filtered column (`transform/utils.py:27-42`).  Keys 1 to 7, all shifted by ten; the
filter `id > 10` is true on every row of the view, but the read returns none. -/
theorem C44_violated : ∃ σ sl, Reach env schema anyStep σ ∧ sl ∈ σ.slots ∧ shifted.Fits schema rowFns ∧
    FilterFits schema (.bin "gt" (.sel "id") (.lit (.int 10))) ∧
    keysRead (viewRead env rayEnv udfs {} shifted sl.h σ.w {} none) =
      some ([11, 12, 13, 14, 15, 16, 17].map (fun n => Val.sc (.int n))) ∧
    keysRead (viewRead env rayEnv udfs {} shifted sl.h σ.w
      { filter := some (.bin "gt" (.sel "id") (.lit (.int 10))) } none) = some [] := by
  obtain ⟨sl, -, h1, h2⟩ := slot_of (σ := after env anyB schema seven) (i := 0)
    (f := fun sl => (keysRead (viewRead env rayEnv udfs {} shifted sl.h (after env anyB schema seven).w {} none),
      keysRead (viewRead env rayEnv udfs {} shifted sl.h (after env anyB schema seven).w
        { filter := some (.bin "gt" (.sel "id") (.lit (.int 10))) } none)))
    (x := (some ([11, 12, 13, 14, 15, 16, 17].map (fun n => Val.sc (.int n))), some [])) (by decide +kernel)
  simp only [Prod.mk.injEq] at h2
  refine ⟨_, sl, after_reach (fun _ _ _ => trivial) _, h1, ⟨trivial, by decide, ?_⟩,
    FilterFits.of_flat rfl (by decide) (by decide) (by decide) rfl (by decide), h2.1, h2.2⟩
  intro r r' hr
  have : r'.cols = ["id"] := by
    simp only [rowFns] at hr
    split at hr <;> simp at hr <;> subst hr <;> rfl
  intro c hc
  rw [this]
  exact hc

/-- C44 is false for filters on a column that the view makes: `len = 4` is true on every row
of the view, and the filter fits the schema of its materialized view, but pushing it into
the dataset raises. -/
theorem C44_violated_new : ∃ σ sl, Reach env schema anyStep σ ∧ sl ∈ σ.slots ∧ measured.Fits schema rowFns ∧
    FilterFits { fields := [⟨"id", 0, .int⟩, ⟨"len", 1, .int⟩], pks := ["id"], recs := [] }
      (.bin "equal" (.sel "len") (.lit (.int 4))) ∧
    keysRead (viewRead env rayEnv udfs {} measured sl.h σ.w {} none) =
      some ([1, 2, 3, 4, 5, 6, 7].map (fun n => Val.sc (.int n))) ∧
    keysRead (viewRead env rayEnv udfs {} measured sl.h σ.w
      { filter := some (.bin "equal" (.sel "len") (.lit (.int 4))) } none) = none := by
  obtain ⟨sl, -, h1, h2⟩ := slot_of (σ := after env anyB schema seven) (i := 0)
    (f := fun sl => (keysRead (viewRead env rayEnv udfs {} measured sl.h (after env anyB schema seven).w {} none),
      keysRead (viewRead env rayEnv udfs {} measured sl.h (after env anyB schema seven).w
        { filter := some (.bin "equal" (.sel "len") (.lit (.int 4))) } none)))
    (x := (some ([1, 2, 3, 4, 5, 6, 7].map (fun n => Val.sc (.int n))), none)) (by decide +kernel)
  simp only [Prod.mk.injEq] at h2
  refine ⟨_, sl, after_reach (fun _ _ _ => trivial) _, h1, ⟨trivial, by decide, ?_⟩,
    FilterFits.of_flat rfl (by decide) (by decide) (by decide) rfl (by decide), h2.1, h2.2⟩
  intro r r' hr
  have : r' = [("id", r.val "id"), ("len", .sc (.int 4))] := by simpa [rowFns] using hr
  subst this
  show ∀ c ∈ ["id", "len"], c ∈ ["id", "len"]
  decide

end Space
