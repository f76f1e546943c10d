import Verif.Filled
import Verif.Landing

/-!
# C59: no data file without rows is written
-/

set_option autoImplicit false

namespace Space

open Demo

/-- C59: whatever a handle does, in one step of any history, whether the call succeeds or
fails, each Parquet file it puts in place has a row.  (Files are logged in the order in
which they are put, so this covers what is there if the process dies in the step.) -/
theorem C59 {E : Env} {s : Schema} (hn : s.names.Nodup) {σ σ' : Sys} {ev : Event} (hr : Reach E s anyStep σ)
    (hs : Step E s σ ev σ') (hev : ev.slot ≠ none) :
    ∃ ops, σ'.w.log = σ.w.log ++ ops ∧ ∀ p groups, (p, Content.parquet groups) ∈ ops → ∃ g ∈ groups, ∃ r, r ∈ g := by
  obtain ⟨md, hok⟩ := reach_ok hn hr
  have key : ∀ {ops : List (Path × Content)}, (∀ p g, (p, Content.parquet g) ∈ ops → g.flatten ≠ []) →
      ∀ p groups, (p, Content.parquet groups) ∈ ops → ∃ g ∈ groups, ∃ r, r ∈ g := by
    intro ops h p g hp
    obtain ⟨r, hr⟩ := List.exists_mem_of_ne_nil _ (h p g hp)
    obtain ⟨x, hx, hrx⟩ := List.mem_flatten.mp hr
    exact ⟨x, hx, r, hrx⟩
  rcases step_writes hn hok hs hev with h | ⟨w2, q, h, he⟩
  · obtain ⟨ops, h1, -, -, h2, -⟩ := h.trace
    exact ⟨ops, h1, key h2⟩
  · obtain ⟨ops, h1, -, -, h2, -⟩ := h.trace
    refine ⟨ops ++ [(.entryPoint, .entry q)], by rw [he]; simp [World.put, h1], key fun p g hp => ?_⟩
    rcases List.mem_append.mp hp with hp | hp
    · exact h2 p g hp
    · simp at hp

/-- C59, for whole histories: a Parquet file without rows was there before the table was
created, or is a file of the user.  (Leftovers of other processes, `.orphans`, are excluded:
by `C59` they have rows, too, if the library wrote and closed them.) -/
theorem C59_origin {E : Env} {s : Schema} (hn : s.names.Nodup) {w0 : World} {h0 : Handle} {σ0 σ : Sys}
    (he : w0.Empty) (hc : create s w0 = (.ok h0, σ0.w)) (hsl : σ0.slots = [⟨h0, .idle⟩])
    (hr : Run E s (fun _ ev => ev ≠ .orphans) σ0 σ) {p : Path} {groups : List (List Row)}
    (hp : σ.w.fs.parquet p = some groups) (hemp : ∀ g ∈ groups, g = []) :
    w0.fs.parquet p = some groups ∨ ∃ x, p = .external x := by
  have h0' : Started s σ0 := ⟨w0, h0, he, hc, hsl⟩
  induction hr with
  | refl => exact Or.inl (create_parquet he hc hp)
  | step hrun hne hst ih =>
    obtain ⟨md, hok⟩ := reach_ok hn ⟨_, h0', hrun⟩
    rename_i ev
    by_cases hev : ev.slot = none
    · cases hst with
      | load _ => exact ih hp
      | @external w slots x c hx =>
        by_cases hpx : p = .external x
        · exact Or.inr ⟨x, hpx⟩
        · refine ih ?_
          unfold FS.parquet at hp ⊢
          simp only at hp
          rwa [AMap.get?_set_ne _ _ hpx] at hp
      | orphans _ => exact absurd rfl hne
      | _ => cases hev
    · have hfl : groups.flatten = [] := List.flatten_eq_nil_iff.mpr hemp
      rcases step_writes hn hok hst hev with h | h
      · exact ih ((h.parquet hp).resolve_right fun hx => hx hfl)
      · exact ih ((h.parquet hp).resolve_right fun hx => hx hfl)

/-- C59, what snapshots list: if neither the user nor anyone before the table was created has
left a Parquet file without rows, every file of every manifest of the head of every handle's
branch has a row. -/
theorem C59_listed {E : Env} {s : Schema} (hn : s.names.Nodup) {w0 : World} {h0 : Handle} {σ0 σ : Sys}
    (he : w0.Empty) (hc : create s w0 = (.ok h0, σ0.w)) (hsl : σ0.slots = [⟨h0, .idle⟩])
    (hr : Run E s (fun _ ev => ev ≠ .orphans) σ0 σ)
    (hold : ∀ p groups, w0.fs.parquet p = some groups → ∃ g ∈ groups, g ≠ [])
    (huser : ∀ x groups, σ.w.fs.parquet (.external x) = some groups → ∃ g ∈ groups, g ≠ []) :
    ∀ sl ∈ σ.slots, ∀ man ∈ headLayout s sl.h σ.w, ∀ file ∈ man, file ≠ [] := by
  intro sl hsl' man hman
  obtain ⟨md, hok⟩ := reach_ok (P := fun _ ev => ev ≠ .orphans) hn ⟨σ0, ⟨w0, h0, he, hc, hsl⟩, hr⟩
  have hfill : Filled σ.w := by
    intro p g hp h0
    have hall := List.flatten_eq_nil_iff.mp h0
    rcases C59_origin hn he hc hsl hr hp hall with h | ⟨x, rfl⟩
    · obtain ⟨y, hy, hne⟩ := hold p g h
      exact hne (hall y hy)
    · obtain ⟨y, hy, hne⟩ := huser x g hp
      exact hne (hall y hy)
  unfold headLayout at hman
  cases hcur : headOf sl.h σ.w with
  | none => rw [hcur] at hman; simp at hman
  | some cur =>
    rw [hcur] at hman
    refine hfill.layout ?_ man hman
    simp only [headOf, hok.wok.storedEq, Option.bind_some] at hcur
    cases ht : md.target sl.h.branch none with
    | error e => rw [ht] at hcur; cases hcur
    | ok c =>
      rw [ht] at hcur
      cases hcur
      exact (target_ok hok.wok ht).1

/-- An append of tables of which some are empty,
to which C59 applies; it puts two Parquet files. -/
example : ∃ σ σ' r, Reach env schema anyStep σ ∧
    Step env schema σ (.call 0 (.mutate (.append [[], [row 1 "a" [1], row 2 "b" [2], row 3 "c" [3], row 4 "d" [4]], [], [row 5 "e" [5]]])) r) σ' ∧
    (σ'.w.log.filter (fun x => match x.2 with | .parquet _ => true | _ => false)).length = 2 := by
  let a : Act := .call 0 (.mutate (.append [[], [row 1 "a" [1], row 2 "b" [2], row 3 "c" [3], row 4 "d" [4]], [], [row 5 "e" [5]]]))
  obtain ⟨-, h2⟩ := doing_step (E := env) (s := schema) (σ := begun schema) (a := a)
    (o := .res (.job .succeeded)) (by decide +kernel)
  refine ⟨_, _, _, ⟨_, begun_started schema, .refl _⟩, h2, ?_⟩
  decide +kernel

/-- A history to which `C59_origin` and `C59_listed` apply: the head has two manifests with rows. -/
example : ∃ w0 h0 σ0 σ, w0.Empty ∧ create schema w0 = (.ok h0, σ0.w) ∧ σ0.slots = [⟨h0, .idle⟩] ∧
    Run env schema (fun _ ev => ev ≠ .orphans) σ0 σ ∧
    (∀ p groups, w0.fs.parquet p = some groups → ∃ g ∈ groups, g ≠ []) ∧
    (∀ x groups, σ.w.fs.parquet (.external x) = some groups → ∃ g ∈ groups, g ≠ []) ∧
    ∃ sl ∈ σ.slots, headLayout schema sl.h σ.w = [[[row 1 "a" [1]]], [[row 2 "b" [2], row 3 "c" []]]] := by
  let m1 : Mutation := .append [[], [row 1 "a" [1]]]
  let m2 : Mutation := .append [[row 2 "b" [2], row 3 "c" []]]
  let σ1 := doing env (begun schema) (.call 0 (.mutate m1))
  let σ2 := doing env σ1 (.call 0 (.mutate m2))
  obtain ⟨-, h1⟩ := doing_step (E := env) (s := schema) (σ := begun schema) (a := .call 0 (.mutate m1))
    (o := .res (.job .succeeded)) (by decide +kernel)
  obtain ⟨-, h2⟩ := doing_step (E := env) (s := schema) (σ := σ1) (a := .call 0 (.mutate m2))
    (o := .res (.job .succeeded)) (by decide +kernel)
  obtain ⟨sl, -, h3, h4⟩ := slot_of (σ := σ2) (i := 0) (f := fun sl => headLayout schema sl.h σ2.w)
    (x := [[[row 1 "a" [1]]], [[row 2 "b" [2], row 3 "c" []]]]) (by decide +kernel)
  refine ⟨{}, (start schema).1, begun schema, σ2, empty, rfl, rfl, .step (.step (.refl _) ?_ h1) ?_ h2, ?_, ?_, sl, h3, h4⟩
  · exact fun h => by cases h
  · exact fun h => by cases h
  · intro p groups h
    cases h
  · intro x groups h
    have : ∀ y ∈ σ2.w.fs, ∀ x, y.1 ≠ .external x := by
      have hd : σ2.w.fs.all (fun y => match y.1 with | .external _ => false | _ => true) = true := by decide +kernel
      rintro y hy x rfl'
      have := List.all_eq_true.mp hd y hy
      rw [rfl'] at this
      cases this
    unfold FS.parquet at h
    cases hg : AMap.get? σ2.w.fs (.external x) with
    | none => rw [hg] at h; cases h
    | some c => exact absurd rfl (this _ (AMap.mem_of_get? hg) x)

end Space
