import Verif.Landing
import Verif.Progress
import Verif.Props.Txn

/-!
# C01: append
-/

set_option autoImplicit false

namespace Space

open Demo

theorem select_rows {names : List String} (hn : names.Nodup) {rows : List Row}
    (h : ∀ r ∈ rows, r.cols = names) : rows.map (·.select names) = rows := by
  conv => rhs; rw [← List.map_id rows]
  refine List.map_congr_left fun r hr => ?_
  have := h r hr
  subst this
  exact select_self hn

/-- C01: when an append (or append_from: any sequence of batches) takes effect, every
handle on the branch reads the rows it read before followed by the appended rows, in
order, every value unchanged, record fields included.  `E` carries the size functions
and thresholds. -/
theorem C01 {E : Env} {s : Schema} (hn : s.names.Nodup) (hlast : s.writeNames = s.names)
    {i : Nat} {tables : List (List Row)} {σ σ' : Sys} (h : Done E s i (.append tables) σ σ')
    (hc : ∀ t ∈ tables, ∀ r ∈ t, r.cols = s.names) :
    ∃ sl old, σ.slots[i]? = some sl ∧ Reads E σ sl.h.branch old ∧
      Reads E σ' sl.h.branch (old ++ tables.flatten) := by
  obtain ⟨sl, sl', w, h1, w1, p, cur, snap, hl, hr, hr'⟩ := h.landing hn
  refine ⟨sl, _, hl.slot, hr, ?_⟩
  obtain ⟨-, -, P, mf, rmf, -, -, he⟩ := hl.succ.append
  rw [he, List.map_append, List.map_map, hlast] at hr'
  rw [hlast]
  have : tables.flatten.map ((·.select s.names) ∘ (·.select s.names)) = tables.flatten := by
    rw [← List.map_map, select_rows hn, select_rows hn]
    · intro r hr
      obtain ⟨t, ht, hrt⟩ := List.mem_flatten.mp hr
      exact hc t ht r hrt
    · intro r hr
      obtain ⟨r', -, rfl⟩ := List.mem_map.mp hr
      exact select_cols _ _
  rw [this] at hr'
  exact hr'

/-- The same for batches whose columns may come in another order or besides others, and
schemas with record fields anywhere: the columns of the schema are stored. -/
theorem C01_any {E : Env} {s : Schema} (hn : s.names.Nodup)
    {i : Nat} {tables : List (List Row)} {σ σ' : Sys} (h : Done E s i (.append tables) σ σ') :
    ∃ sl old, σ.slots[i]? = some sl ∧ Reads E σ sl.h.branch old ∧
      Reads E σ' sl.h.branch (old ++ tables.flatten.map (·.select s.writeNames)) := by
  obtain ⟨sl, sl', w, h1, w1, p, cur, snap, hl, hr, hr'⟩ := h.landing hn
  refine ⟨sl, _, hl.slot, hr, ?_⟩
  obtain ⟨-, -, P, mf, rmf, -, -, he⟩ := hl.succ.append
  rw [he, List.map_append, List.map_map] at hr'
  have : (·.select s.writeNames) ∘ (·.select s.writeNames) = ((·.select s.writeNames) : Row → Row) := by
    funext r
    exact select_select (fun c hc => hc)
  rw [this] at hr'
  exact hr'

theorem branchIn_iff {E : Env} {s : Schema} {σ : Sys} {md : Metadata} (hok : SysOK E s σ md) {b : String} :
    branchIn b σ ↔ OnBranch md b := by
  unfold branchIn OnBranch
  constructor
  · rintro (h | ⟨md', r, h1, h2, h3⟩)
    · exact Or.inl h
    · have := stored_of hok h1
      subst this
      exact Or.inr ⟨r, h2, h3⟩
  · rintro (h | ⟨r, h2, h3⟩)
    · exact Or.inl h
    · exact Or.inr ⟨md, r, hok.wok.storedEq, h2, h3⟩

/-- A call whose result is known, as a step. -/
theorem call_of_exec {E : Env} {s : Schema} {σ : Sys} {i : Nat} {sl : Slot} {c : Call} {r : Result}
    {h' : Handle} {w' : World} (hsl : σ.slots[i]? = some sl) (hi : sl.phase = .idle)
    (ha : c.Admissible s σ.w.fs) (he : exec E c sl.h σ.w = (r, h', w')) :
    ∃ σ', Step E s σ (.call i c r) σ' := by
  obtain ⟨w, slots⟩ := σ
  obtain ⟨h, ph⟩ := sl
  simp only at hi
  subst hi
  exact ⟨_, .call hsl ha he⟩

/-- C01, that it succeeds: in any state, on a branch that exists, rows that fit the
schema can be appended; an append of no rows is skipped. -/
theorem C01_succeeds {E : Env} {s : Schema} (hk : KeySchema s) (hlast : s.writeNames = s.names)
    {σ : Sys} (hr : Reach E s anyStep σ) {i : Nat} {sl : Slot} (hsl : σ.slots[i]? = some sl)
    (hi : sl.phase = .idle) (hb : branchIn sl.h.branch σ) {tables : List (List Row)}
    (ht : ∀ t ∈ tables, ∀ r ∈ t, Takes s r) :
    ∃ σ', Step E s σ (.call i (.mutate (.append tables))
      (.job (if tables.flatten = [] then .skipped else .succeeded))) σ' := by
  obtain ⟨md, hok⟩ := reach_ok hk.names hr
  have hh := (hok.slots _ (List.mem_of_getElem? hsl)).1
  obtain ⟨p, h', w', hp, he⟩ := exec_total (E := E) (m := .append tables) (R := fun p => p.isSome = decide (tables.flatten ≠ []))
    hk.names hok.wok hh trivial ((branchIn_iff hok).mp hb) (by
      intro h1 e1 _ hh1
      have := Total.and (appendBody_total (E := E) (w := σ.w) hk hlast ht)
        (appendBody_post (E := E) (s := s) hok.wok.fresh tables)
      simp only [Mutation.body, hh1.schema]
      refine this.imp ?_ (fun _ h => h)
      rintro p w' ⟨-, -, -, P, mf, rmf, hf, hP⟩
      have hlen := congrArg List.length hP
      simp only [List.length_map] at hlen
      have hz := sumRows_zero hf.ents
      rw [hf.rowsEq] at hz
      by_cases hnil : tables.flatten = []
      · rw [hnil] at hlen
        rw [hf.none_iff.mpr (by rw [hz, hlen]; rfl)]
        simp [hnil]
      · cases p with
        | some p => simp [hnil]
        | none =>
          have := hf.none_iff.mp rfl
          rw [hz] at this
          exact absurd (List.length_eq_zero_iff.mp (hlen.symm.trans (by exact_mod_cast this))) hnil)
  refine call_of_exec hsl hi trivial (h' := h') (w' := w') ?_
  rw [he, hp]
  by_cases hnil : tables.flatten = [] <;> simp [hnil]

/-- Decides `calm`. -/
def Demo.calmB (σ : Sys) (ev : Event) : Bool :=
  tidyB σ ev && (match ev with
    | .call _ (.removeBranch b) _ | .call _ (.removeTag b) _ => σ.slots.all (fun sl =>
      (match sl.phase with
        | .idle => true
        | _ => false) || sl.h.branch != b)
    | _ => true)

theorem Demo.calmB_calm (σ : Sys) (ev : Event) (h : calmB σ ev = true) : calm σ ev := by
  simp only [calmB, Bool.and_eq_true] at h
  refine ⟨tidyB_tidy σ ev h.1, ?_⟩
  have h2 := h.2
  rintro j b r (rfl | rfl) sl hsl hni
  all_goals
    simp only [List.all_eq_true, Bool.or_eq_true, bne_iff_ne, ne_eq] at h2
    rcases h2 sl hsl with h3 | h3
    · split at h3
      · exact absurd (by assumption) hni
      · cases h3
    · exact h3

theorem Demo.keys : KeySchema schema := by
  refine ⟨?_, ?_, ?_, ?_, ?_, ?_⟩ <;> decide

theorem Demo.takes (i : Int) (t : String) (b : List Nat) : Takes schema (row i t b) := by
  refine ⟨?_, ?_, ?_, ?_⟩
  · exact fun c hc => hc
  · intro f hf hr
    simp only [schema, List.mem_cons, List.not_mem_nil, or_false] at hf hr
    rcases hf with rfl | rfl | rfl
    · rfl
    · rfl
    · simp at hr
  · intro f hf hr
    simp only [schema, List.mem_cons, List.not_mem_nil, or_false] at hf hr
    rcases hf with rfl | rfl | rfl
    · simp at hr
    · simp at hr
    · exact ⟨b, rfl⟩
  · intro k hk
    simp only [schema, List.mem_cons, List.not_mem_nil, or_false] at hk
    subst hk
    exact ⟨_, rfl, by intro h; cases h⟩

/-- A second append in several batches, over the sizes at which row groups, index files
and record files are cut. -/
example : ∃ σ σ', Done env schema 0
      (.append [[row 2 "b" [2], row 3 "c" []], [], [row 4 "d" [4], row 5 "e" [5], row 6 "f" [6]]]) σ σ' ∧
    Reads env σ mainBranch [row 1 "a" [1]] ∧
    Reads env σ' mainBranch [row 1 "a" [1], row 2 "b" [2], row 3 "c" [], row 4 "d" [4], row 5 "e" [5],
      row 6 "f" [6]] := by
  let σ := after env anyB schema [.call 0 (.mutate (.append [[row 1 "a" [1]]]))]
  let m : Mutation := .append [[row 2 "b" [2], row 3 "c" []], [], [row 4 "d" [4], row 5 "e" [5], row 6 "f" [6]]]
  obtain ⟨e, hst⟩ := doing_step (E := env) (s := schema) (σ := σ) (a := .call 0 (.mutate m))
    (o := .res (.job .succeeded)) (by decide +kernel)
  refine ⟨σ, _, .call (after_reach (fun _ _ _ => trivial) _) hst, ?_, ?_⟩
  · intro sl hsl _
    have : σ.slots.map (fun sl => tableRead env sl.h σ.w {} none) = [.ok [row 1 "a" [1]]] := by decide +kernel
    have hm := List.mem_map_of_mem (f := fun sl : Slot => tableRead env sl.h σ.w {} none) hsl
    rw [this] at hm
    simpa using hm
  · intro sl hsl _
    have : (doing env σ (.call 0 (.mutate m))).slots.map (fun sl => tableRead env sl.h (doing env σ (.call 0 (.mutate m))).w {} none) =
      [.ok [row 1 "a" [1], row 2 "b" [2], row 3 "c" [], row 4 "d" [4], row 5 "e" [5], row 6 "f" [6]]] := by
      decide +kernel
    have hm := List.mem_map_of_mem (f := fun sl : Slot => tableRead env sl.h (doing env σ (.call 0 (.mutate m))).w {} none) hsl
    rw [this] at hm
    simpa using hm

/-- An append on a branch, started before and committed after another handle's append
to main. -/
example : ∃ σ σ' sl, Done env schema 1 (.append [[row 3 "c" [3]]]) σ σ' ∧
    σ.slots[1]? = some sl ∧ sl.h.branch = "dev" ∧
    tableRead env sl.h σ.w {} none = .ok [row 1 "a" [1]] := by
  let σ := after env calmB schema [.call 0 (.mutate (.append [[row 1 "a" [1]]])), .call 0 (.addBranch "dev"),
    .load, .call 1 (.setBranch "dev"), .begin 1 (.append [[row 3 "c" [3]]]), .compute 1,
    .call 0 (.mutate (.append [[row 2 "b" [2]]]))]
  obtain ⟨sl, h1, -, h2⟩ := slot_of (σ := σ) (i := 1)
    (f := fun sl => (sl.h.branch, tableRead env sl.h σ.w {} none, match sl.phase with
      | .ready _ (.append ts) _ => ts == [[row 3 "c" [3]]]
      | _ => false)) (x := ("dev", .ok [row 1 "a" [1]], true)) (by decide +kernel)
  simp only [Prod.mk.injEq] at h2
  obtain ⟨t, p, hph⟩ : ∃ t p, sl.phase = .ready t (.append [[row 3 "c" [3]]]) p := by
    have := h2.2.2
    split at this
    · rename_i t ts p hp
      simp only [beq_iff_eq] at this
      subst this
      exact ⟨t, p, hp⟩
    · cases this
  obtain ⟨e, hst⟩ := doing_step (E := env) (s := schema) (σ := σ) (a := .commit 1)
    (o := .job (.ok .succeeded)) (by decide +kernel)
  exact ⟨σ, _, sl, .commit (after_reach calmB_calm _) h1 hph hst, h1, h2.1, h2.2.1⟩

/-- Rows that fit. -/
example : ∃ σ', Step env schema (after env anyB schema [])
    (.call 0 (.mutate (.append [[row 1 "a" [1]], [row 2 "b" []]])) (.job .succeeded)) σ' :=
  C01_succeeds keys (by decide) (after_reach (ok := anyB) (fun _ _ _ => trivial) []) (sl := ⟨(start schema).1, .idle⟩)
    rfl rfl (Or.inl rfl) (by
      intro t ht r hr
      simp only [List.mem_cons, List.not_mem_nil, or_false] at ht
      rcases ht with rfl | rfl <;> simp only [List.mem_cons, List.not_mem_nil, or_false] at hr <;>
        subst hr <;> exact takes _ _ _)

end Space
