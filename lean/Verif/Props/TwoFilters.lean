import Verif.Props.TwoDeletes
import Verif.KeyFilter

/-! # C95: reads with `and` and `or`

What four reads of one table show is compared: with a filter, with another, with both and with
either.  Nothing is said about what the filters mean. -/

set_option autoImplicit false

namespace Space

variable {E : Env} {s : Schema}

/-- What reads with two filters (`one`, `two`) have to do with reads with both, with either, and with no filter. -/
structure Combined (all one two both either : List Row) : Prop where
  /-- Each row is read with both as often as with the one that shows it less often. -/
  countBoth : ∀ r, both.count r = min (one.count r) (two.count r)
  /-- Each row is read with either as often as with the one that shows it more often. -/
  countEither : ∀ r, either.count r = max (one.count r) (two.count r)
  /-- The order of the rows is the same in all. -/
  bothOne : both.Sublist one
  bothTwo : both.Sublist two
  oneEither : one.Sublist either
  twoEither : two.Sublist either
  eitherAll : either.Sublist all

theorem FilterFits.both {e e' : Expr} (h : FilterFits s e) (h' : FilterFits s e') : FilterFits s (.bin "and" e e') := by
  obtain ⟨⟨a1, a2, a3, a4⟩, b, c⟩ := h
  obtain ⟨⟨-, -, a3', a4'⟩, b', c'⟩ := h'
  refine ⟨⟨a1, a2, by simp [Expr.pruneSafe, a3, a3'], ?_⟩, ?_, ?_⟩ <;> intro x hx <;>
    rcases List.mem_append.mp hx with hx | hx
  · exact a4 x hx
  · exact a4' x hx
  · exact b x hx
  · exact b' x hx
  · exact c x hx
  · exact c' x hx

theorem FilterFits.either {e e' : Expr} (h : FilterFits s e) (h' : FilterFits s e') : FilterFits s (.bin "or" e e') := by
  obtain ⟨⟨a1, a2, a3, a4⟩, b, c⟩ := h
  obtain ⟨⟨-, -, a3', a4'⟩, b', c'⟩ := h'
  refine ⟨⟨a1, a2, by simp [Expr.pruneSafe, a3, a3'], ?_⟩, ?_, ?_⟩ <;> intro x hx <;>
    rcases List.mem_append.mp hx with hx | hx
  · exact a4 x hx
  · exact a4' x hx
  · exact b x hx
  · exact b' x hx
  · exact c x hx
  · exact c' x hx

theorem holds_both (I : Interp) (e e' : Expr) (r : Row) :
    (Expr.bin "and" e e').holds I r = (e.holds I r && e'.holds I r) := by
  simp only [Expr.holds, truth_and]
  rcases e.truth I r with _ | _ | _ <;> rcases e'.truth I r with _ | _ | _ <;> rfl

theorem holds_either (I : Interp) (e e' : Expr) (r : Row) :
    (Expr.bin "or" e e').holds I r = (e.holds I r || e'.holds I r) := by
  simp only [Expr.holds, truth_or]
  rcases e.truth I r with _ | _ | _ <;> rcases e'.truth I r with _ | _ | _ <;> rfl

theorem sublist_filter_imp {p q : Row → Bool} (h : ∀ r, p r = true → q r = true) :
    ∀ l : List Row, (l.filter p).Sublist (l.filter q)
  | [] => .slnil
  | r :: l => by
    have ih := sublist_filter_imp h l
    simp only [List.filter_cons]
    cases hp : p r
    · cases hq : q r
      · simpa using ih
      · simpa using ih.cons r
    · simpa [h r hp] using ih

theorem count_filter_if (p : Row → Bool) (r : Row) : ∀ l : List Row, (l.filter p).count r = if p r then l.count r else 0
  | [] => by simp
  | x :: l => by
    have ih := count_filter_if p r l
    simp only [List.filter_cons, List.count_cons]
    by_cases hx : x = r
    · subst hx
      cases hp : p x <;> simp [hp] at ih ⊢ <;> assumption
    · cases hp : p x <;> simp [ih, hx]

theorem combined_filter {p q : Row → Bool} (l : List Row) :
    Combined l (l.filter p) (l.filter q) (l.filter (fun r => p r && q r)) (l.filter (fun r => p r || q r)) := by
  refine ⟨fun r => ?_, fun r => ?_, sublist_filter_imp (by simp +contextual) l, sublist_filter_imp (by simp) l,
    sublist_filter_imp (by simp +contextual) l, sublist_filter_imp (by simp +contextual) l, List.filter_sublist⟩
  all_goals
    simp only [count_filter_if]
    cases p r <;> cases q r <;> simp

/-- C95, for filters that fit the schema, at every version or tag and in every reachable state: either none of the five
reads gives rows, all failing alike, or all do, and the rows are combined as `and` and `or` say.  Missing: the other
filters, see `C95_violated`. -/
theorem C95_partial (hn : s.names.Nodup) {σ : Sys} {sl : Slot} (h1 : Reach E s anyStep σ) (hsl : sl ∈ σ.slots)
    {e e' : Expr} (he : FilterFits s e) (he' : FilterFits s e') (v : Option Version) :
    let read (o : ReadOpts) := tableRead E sl.h σ.w o v
    (∃ x, ∀ f ∈ [none, some e, some e', some (.bin "and" e e'), some (.bin "or" e e')],
      read { filter := f } = .error x) ∨
    ∃ all one two both either, read {} = .ok all ∧ read { filter := some e } = .ok one ∧
      read { filter := some e' } = .ok two ∧ read { filter := some (.bin "and" e e') } = .ok both ∧
      read { filter := some (.bin "or" e e') } = .ok either ∧ Combined all one two both either := by
  intro read
  have k1 := (C05_partial hn h1 hsl he v).1
  have k2 := (C05_partial hn h1 hsl he' v).1
  have k3 := (C05_partial hn h1 hsl (he.both he') v).1
  have k4 := (C05_partial hn h1 hsl (he.either he') v).1
  cases hr : tableRead E sl.h σ.w {} v with
  | error x =>
    refine .inl ⟨x, fun f hf => ?_⟩
    rw [hr] at k1 k2 k3 k4
    simp only [List.mem_cons, List.not_mem_nil, or_false] at hf
    rcases hf with rfl | rfl | rfl | rfl | rfl
    · exact hr
    · exact k1
    · exact k2
    · exact k3
    · exact k4
  | ok all =>
    rw [hr] at k1 k2 k3 k4
    refine .inr ⟨all, _, _, _, _, hr, k1, k2, k3, k4, ?_⟩
    simp only [holds_both, holds_either]
    exact combined_filter all

/-! ## Cases -/

open Demo

/-- What a handle reads with the five filters. -/
def Demo.five (E : Env) (e e' : Expr) (w : World) (sl : Slot) : List (Except Err (List Row)) :=
  [none, some e, some e', some (.bin "and" e e'), some (.bin "or" e e')].map
    (fun f => tableRead E sl.h w { filter := f } none)

/-- Two files; `id ≥ 2` and `id ≤ 2` show some rows of them each, both show row 2, either shows all. -/
example : FilterFits schema (idIs "gte" 2) ∧ FilterFits schema (idIs "lte" 2) ∧
    ∃ (σ : Sys) (sl : Slot), Reach env schema anyStep σ ∧ sl ∈ σ.slots ∧
      five env (idIs "gte" 2) (idIs "lte" 2) σ.w sl =
        [.ok [row 1 "a" [], row 2 "b" [], row 3 "c" []], .ok [row 2 "b" [], row 3 "c" []], .ok [row 1 "a" [], row 2 "b" []],
          .ok [row 2 "b" []], .ok [row 1 "a" [], row 2 "b" [], row 3 "c" []]] := by
  let σ := after env anyB schema [.call 0 (.mutate (.append [[row 1 "a" [], row 2 "b" []]])),
    .call 0 (.mutate (.append [[row 3 "c" []]]))]
  obtain ⟨sl, -, h1, h2⟩ := slot_of (σ := σ) (i := 0) (f := five env (idIs "gte" 2) (idIs "lte" 2) σ.w)
    (x := [.ok [row 1 "a" [], row 2 "b" [], row 3 "c" []], .ok [row 2 "b" [], row 3 "c" []], .ok [row 1 "a" [], row 2 "b" []],
          .ok [row 2 "b" []], .ok [row 1 "a" [], row 2 "b" [], row 3 "c" []]]) (by decide +kernel)
  exact ⟨fitsB_fits (by decide), fitsB_fits (by decide), σ, sl, after_reach (fun _ _ _ => trivial) _, h1, h2⟩

/-- C95 is false in general: one file with the rows 1 and 2.  A read with `not (id > 1)` shows nothing, since the file is
skipped (finding of C05), and a read with `id = 2` shows row 2; a read with either shows both rows. -/
theorem C95_violated : ∃ (e e' : Expr) (all one two both either : List Row) (σ : Sys) (sl : Slot),
    Reach env schema anyStep σ ∧ sl ∈ σ.slots ∧
      five env e e' σ.w sl = [.ok all, .ok one, .ok two, .ok both, .ok either] ∧
      one = [] ∧ two = [row 2 "b" []] ∧ either = [row 1 "a" [], row 2 "b" []] ∧ ¬ Combined all one two both either := by
  let e : Expr := .un "not" (idIs "gt" 1)
  let σ := after env anyB schema [.call 0 (.mutate (.append [[row 1 "a" [], row 2 "b" []]]))]
  obtain ⟨sl, -, h1, h2⟩ := slot_of (σ := σ) (i := 0) (f := five env e (idIs "equal" 2) σ.w)
    (x := [.ok [row 1 "a" [], row 2 "b" []], .ok [], .ok [row 2 "b" []], .ok [], .ok [row 1 "a" [], row 2 "b" []]])
    (by decide +kernel)
  refine ⟨e, idIs "equal" 2, _, _, _, _, _, σ, sl, after_reach (fun _ _ _ => trivial) _, h1, h2, rfl, rfl, rfl, fun h => ?_⟩
  have := h.countEither (row 1 "a" [])
  revert this
  decide +kernel

end Space
