import Verif.Serial
import Verif.Props.Refine
import Verif.Props.Stats

/-!
# C60: several handles at once act like one table in memory
-/

set_option autoImplicit false

namespace Space

open Demo
open List (Perm)
open scoped List

/-- What was done, one after the other in the order `tr`, can be done to a table in memory, with the
files that users have now, and then every handle reads what the table in memory has. -/
def Serial (E : Env) (s : Schema) (tr : List (String × Call)) (σ : Sys) : Prop :=
  ∃ ds m, ds.map (fun d => (d.on, d.call)) = tr ∧ Mem.new.deeds E.I s σ.w.fs ds = some m ∧
    ∀ sl ∈ σ.slots, ∀ o v, ReadFits s o →
      SameRead (tableRead E sl.h σ.w o v) ({ m with on := sl.h.branch }.read E.I s o v)

/-- C60 for runs that are `tame`, of any number of handles whose mutations overlap in any way: what took effect, in the
order in which it took effect, can be done one after the other to a table in memory and the files of users, and each handle then
reads, at any version, by any filter and columns that fit, what the table in memory has on the branch of that
handle.  Missing: commits that are not atomic, changes of tags and branches by handles that are not up to date,
branches removed under a running mutation (`C60_violated`), and deletes, upserts and refreshes that lose rows
(`C51_violated`). -/
theorem C60_partial {E : Env} {s : Schema} (hk : KeySchema s) (hlast : s.writeNames = s.names)
    {tr : List (String × Call)} {σ : Sys} (h : History E s (tame E s) tr σ) : Serial E s tr σ := by
  obtain ⟨ds, m, md, h1, h2, h3⟩ := h.holds hk hlast
  refine ⟨ds, m, h1, h2, fun sl hsl o v ho => ?_⟩
  have h4 : Holds E s { m with on := sl.h.branch } σ md := ⟨h3.ok, h3.main, h3.refs, h3.rows, h3.keys⟩
  exact h4.read hlast (h3.ok.slots sl hsl).1 rfl ho v

/-- After such a run, whole calls of appends, inserts, upserts and deletes, local or with Ray, and of loads, that are `Apt`, on a handle
whose branch exists, succeed exactly if they have an effect on the table in memory; and so do changes of tags and branches by a
handle that is up to date. -/
theorem C60_answers {E : Env} {s : Schema} (hk : KeySchema s) (hlast : s.writeNames = s.names)
    {tr : List (String × Call)} {σ : Sys} (h : History E s (tame E s) tr σ) (hfill : Filled σ.w) :
    ∃ ds m, ds.map (fun d => (d.on, d.call)) = tr ∧ Mem.new.deeds E.I s σ.w.fs ds = some m ∧
      (∀ i sl mu r σ', σ.slots[i]? = some sl → branchIn sl.h.branch σ → Apt E s sl.h σ.w mu →
        Step E s σ (.call i (.mutate mu) r) σ' →
        (r = .job .succeeded ↔ ∃ n, m.next ≤ n ∧ (m.deed E.I s σ.w.fs ⟨sl.h.branch, .mutate mu, n⟩).isSome)) ∧
      ∀ i sl c r σ', σ.slots[i]? = some sl → c.isRef = true → upToDate σ (.call i c r) → Step E s σ (.call i c r) σ' →
        (r = .returned ↔ (m.deed E.I s σ.w.fs ⟨sl.h.branch, c, 0⟩).isSome) := by
  obtain ⟨ds, m, md, h1, h2, h3⟩ := h.holds hk hlast
  refine ⟨ds, m, h1, h2, fun i sl mu r σ' hsl hb hf hst => ?_, fun i sl c r σ' hsl hc hu hst =>
    h3.refAnswers hk.names hc ⟨trivial, hu⟩ hst hsl _ _⟩
  rw [h3.answers hk hlast (h.reach fun _ _ h => h.1) hfill hsl hb hf hst]
  have hb' : sl.h.branch = "main" ∨ (m.refs.get? sl.h.branch).map (·.kind) = some .branch := by
    rcases hb with hb | ⟨md', r, h4, h5, h6⟩
    · exact Or.inl hb
    · rw [h3.ok.wok.storedEq] at h4
      cases h4
      exact Or.inr (by rw [h3.refs, h5]; simp [h6])
  simp only [Mem.deed]
  constructor
  · intro hx
    obtain ⟨rows, hx⟩ := Option.isSome_iff_exists.mp hx
    refine ⟨m.next, Nat.le_refl _, ?_⟩
    rw [hx]
    simp only
    rw [if_pos ⟨Nat.le_refl _, hb'⟩]
    rfl
  · rintro ⟨n, -, hx⟩
    split at hx
    · rename_i h7
      rw [h7]
      rfl
    · cases hx

/-! ## Examples -/

/-- Decides `RaySpared`. -/
def Demo.raySparedB (truth : Row → Option Bool) (lay : List (List (List Row))) : Bool :=
  lay.all fun man => man.all (·.all (fun r => truth r != some true)) || man.all (·.all (fun r => truth r == some true)) ||
    (List.range man.length).any fun i => match man.drop i with
      | file :: post => file.any (fun r => truth r == some true) && file.any (fun r => truth r == some false) &&
        (man.take i ++ post).all (·.all (fun r => truth r != some true))
      | [] => false

theorem Demo.raySparedB_spared {truth : Row → Option Bool} {lay : List (List (List Row))} (h : raySparedB truth lay = true) :
    RaySpared truth lay := by
  intro man hman
  simp only [raySparedB, List.all_eq_true] at h
  have := h man hman
  simp only [Bool.or_eq_true] at this
  rcases this with (h1 | h1) | h1
  · left
    simpa using h1
  · right; left
    simpa using h1
  · right; right
    obtain ⟨i, -, h2⟩ := List.any_eq_true.mp h1
    split at h2
    · rename_i file post hd
      simp only [Bool.and_eq_true] at h2
      refine ⟨man.take i, file, post, by rw [← hd, List.take_append_drop], ?_, ?_, ?_⟩
      · simpa using h2.1.1
      · simpa using h2.1.2
      · have h3 := h2.2
        simp only [List.all_eq_true] at h3
        intro o ho r hr
        simpa using h3 o ho r hr
    · cases h2

/-- Decides `Tame`, but not for loads of record files. -/
def Demo.tamedB (E : Env) (s : Schema) (h : Handle) (w : World) : Mutation → Bool
  | .append tables => keysSetB s tables.flatten
  | .rayAppend _ _ rows => keysSetB s rows
  | .rayAppendFrom _ _ sources => keysSetB s sources.flatten.flatten
  | .insert rows => rows.all (numKey s)
  | .rayInsert .insert _ _ rows => rows.all (numKey s)
  | .upsert rows => rows.all (numKey s) &&
      sparedB (fun r => some (decide (s.pks.map r.val ∈ rows.map (fun r => s.pks.map r.val)))) (headLayout s h w)
  | .rayInsert .upsert _ _ rows => rows.all (numKey s) &&
      sparedB (fun r => some (decide (s.pks.map r.val ∈ rows.map (fun r => s.pks.map r.val)))) (headLayout s h w)
  | .delete e => fitsB s e && sparedB (e.truth E.I) (headLayout s h w) &&
      (headLayout s h w).flatten.flatten.all (fun r => e.truth E.I r != none)
  | .rayDelete e => fitsB s e && raySparedB (e.truth E.I) (headLayout s h w) &&
      (headLayout s h w).flatten.flatten.all (fun r => e.truth E.I r != none)
  | .appendParquet files => files.all (fun f => match w.fs.parquet f with
    | some g => keysSetB s g.flatten
    | none => true)
  | .appendArrayRecord _ _ => false
  | .sync _ _ gone added => keysSetB s (added.getD []).flatten.flatten && (gone.isEmpty ||
      safeB (fun r => some (decide (s.pks.map r.val ∈ gone.map (fun r => s.pks.map r.val)))) (headLayout s h w))

theorem Demo.tamedB_tame {E : Env} {s : Schema} {h : Handle} {w : World} {mu : Mutation}
    (hm : tamedB E s h w mu = true) : Tame E s h w mu := by
  have num : ∀ {rows : List Row}, rows.all (numKey s) = true → KeysNum s rows :=
    fun h r hr => numKey_iff.mp (List.all_eq_true.mp h r hr)
  cases mu with
  | append ts => exact keysSetB_set hm
  | rayAppend n sched rows => exact keysSetB_set hm
  | rayAppendFrom n sched sources => exact keysSetB_set hm
  | insert rows => exact num hm
  | upsert rows =>
    simp only [tamedB, Bool.and_eq_true] at hm
    exact ⟨num hm.1, sparedB_spared hm.2⟩
  | rayInsert mode n sched rows =>
    cases mode with
    | insert => exact num hm
    | upsert =>
      simp only [tamedB, Bool.and_eq_true] at hm
      exact ⟨num hm.1, sparedB_spared hm.2⟩
  | delete e =>
    simp only [tamedB, List.all_eq_true, Bool.and_eq_true] at hm
    exact ⟨fitsB_fits hm.1.1, sparedB_spared hm.1.2, fun r hr => by simpa using hm.2 r hr⟩
  | rayDelete e =>
    simp only [tamedB, List.all_eq_true, Bool.and_eq_true] at hm
    exact ⟨fitsB_fits hm.1.1, raySparedB_spared hm.1.2, fun r hr => by simpa using hm.2 r hr⟩
  | appendParquet files =>
    simp only [tamedB, List.all_eq_true] at hm
    intro f hf g hg
    have := hm f hf
    rw [hg] at this
    exact keysSetB_set this
  | appendArrayRecord fn files => cases hm
  | sync n sched gone added =>
    simp only [tamedB, Bool.and_eq_true, Bool.or_eq_true, List.isEmpty_iff] at hm
    exact ⟨keysSetB_set hm.1, fun hg => safeB_safe (hm.2.resolve_left hg)⟩

/-- Mutations that land are tame. -/
def Demo.landTameB (E : Env) (s : Schema) (σ : Sys) : Event → Bool
  | .call i (.mutate mu) r => r != .job .succeeded || (match σ.slots[i]? with
    | some sl => tamedB E s sl.h σ.w mu
    | none => true)
  | .commit i _ => (match σ.slots[i]? with
    | some ⟨h, .ready _ mu _⟩ => tamedB E s h σ.w mu
    | _ => true)
  | _ => true

/-- Decides `tame`. -/
def Demo.tameB (E : Env) (s : Schema) (σ : Sys) (ev : Event) : Bool := calmB σ ev && landTameB E s σ ev

theorem Demo.landTameB_tame {E : Env} {s : Schema} {σ : Sys} {ev : Event} (h : landTameB E s σ ev = true) :
    ∀ i mu sl, Lands σ ev i mu → σ.slots[i]? = some sl → Tame E s sl.h σ.w mu := by
  rintro i mu sl (rfl | ⟨rfl, ⟨x, ph⟩, t, p, hsl', hph⟩) hsl
  · simp only [landTameB, hsl] at h
    exact tamedB_tame (by simpa using h)
  · simp only at hph
    subst hph
    rw [hsl] at hsl'
    cases hsl'
    simp only [landTameB, hsl] at h
    exact tamedB_tame h

theorem Demo.tameB_tame {E : Env} {s : Schema} (σ : Sys) (ev : Event) (h : tameB E s σ ev = true) : tame E s σ ev := by
  simp only [tameB, Bool.and_eq_true] at h
  exact ⟨calmB_calm _ _ h.1, landTameB_tame h.2⟩

/-- Do several things and list what took effect. -/
def Demo.story (E : Env) (ok : Sys → Event → Bool) : List Act → Sys → Option (List (String × Call) × Sys)
  | [], σ => some ([], σ)
  | a :: as, σ =>
    match act E σ a with
    | none => none
    | some (ev, σ') =>
      if ok σ ev then (story E ok as σ').map (fun x => ((took σ ev).toList ++ x.1, x.2)) else none

theorem Demo.story_history {E : Env} {s : Schema} {P : Sys → Event → Prop} {ok : Sys → Event → Bool}
    (hok : ∀ σ ev, ok σ ev = true → P σ ev) :
    ∀ {as : List Act} {tr tr' : List (String × Call)} {σ σ' : Sys}, History E s P tr σ →
      story E ok as σ = some (tr', σ') → History E s P (tr ++ tr') σ'
  | [], tr, tr', σ, σ', hh, h => by cases h; simpa using hh
  | a :: as, tr, tr', σ, σ', hh, h => by
    simp only [story] at h
    split at h
    · cases h
    · rename_i ev σ1 ha
      split at h
      · rename_i hk
        obtain ⟨⟨tr1, σ2⟩, h1, h2⟩ := Option.map_eq_some_iff.mp h
        cases h2
        have := story_history hok (hh.step (hok _ _ hk) (act_step ha)) h1
        simpa using this
      · cases h

/-- Three handles, two branches, mutations that overlap; one of them loses the race. -/
def Demo.busy : List Act :=
  [.load, .load,
   .begin 0 (.append [[row 1 "a" [1], row 2 "b" [2]]]), .begin 1 (.append [[row 3 "c" [3]]]),
   .compute 1, .compute 0, .commit 1, .commit 0,
   .call 1 .reload, .call 1 (.addBranch "dev"), .call 2 .reload, .call 2 (.setBranch "dev"),
   .begin 2 (.insert [row 7 "x" []]), .call 0 (.mutate (.upsert [row 3 "C" [], row 4 "d" []])),
   .compute 2, .begin 1 (.delete (idIs "lt" 4)), .commit 2, .compute 1, .commit 1,
   .call 2 (.mutate (.upsert [row 7 "y" []]))]

/-- What was read by all handles. -/
def Demo.readsOf (E : Env) (σ : Sys) : List (Option (List Row)) :=
  σ.slots.map (fun sl => (tableRead E sl.h σ.w {} none).toOption)

instance : DecidableEq (List String × List (Option (List Row))) := instDecidableEqProd

/-- Decides `Filled`. -/
def Demo.filledB (w : World) : Bool := w.fs.all (fun x => match x.2 with
  | .parquet g => !g.flatten.isEmpty
  | _ => true)

theorem Demo.filledB_filled {w : World} (h : filledB w = true) : Filled w := by
  intro p g hp hg
  simp only [filledB, List.all_eq_true] at h
  unfold FS.parquet at hp
  split at hp
  · rename_i g' hx
    cases hp
    have := h _ (AMap.mem_of_get? hx)
    simp [hg] at this
  · cases hp

/-- A run to which C60 applies, and a call after it. -/
example : ∃ tr σ, History env schema (tame env schema) tr σ ∧ Filled σ.w ∧
    (∃ sl r σ', σ.slots[2]? = some sl ∧ branchIn sl.h.branch σ ∧ Apt env schema sl.h σ.w (.insert [row 3 "x" []]) ∧
      Step env schema σ (.call 2 (.mutate (.insert [row 3 "x" []])) r) σ') ∧
    (∃ sl r σ', σ.slots[2]? = some sl ∧ upToDate σ (.call 2 (.addTag "t" none) r) ∧
      Step env schema σ (.call 2 (.addTag "t" none) r) σ') ∧
    tr.map (·.1) = ["main", "main", "main", "dev", "main", "dev"] ∧
    readsOf env σ = [some [row 4 "d" []], some [row 4 "d" []], some [row 3 "c" [3], row 7 "y" []]] := by
  cases h : story env (tameB env schema) busy (begun schema) with
  | none =>
    have : (story env (tameB env schema) busy (begun schema)).isSome = true := by decide +kernel
    rw [h] at this
    cases this
  | some x =>
    obtain ⟨tr, σ⟩ := x
    have : (story env (tameB env schema) busy (begun schema)).map (fun x => (x.1.map (·.1), readsOf env x.2)) =
        some (["main", "main", "main", "dev", "main", "dev"],
          [some [row 4 "d" []], some [row 4 "d" []], some [row 3 "c" [3], row 7 "y" []]]) := by decide +kernel
    rw [h] at this
    have h2 : (story env (tameB env schema) busy (begun schema)).map (fun x => filledB x.2.w &&
      tidyB x.2 (.call 2 (.addTag "t" none) .returned) &&
      (x.2.slots[2]?).any (fun sl => (match sl.phase with | .idle => true | _ => false) && sl.h.branch == "dev") &&
      (x.2.w.stored.bind (fun md => md.refs.get? "dev")).any (fun r => r.kind == .branch)) = some true := by decide +kernel
    rw [h] at h2
    simp only [Option.map_some, Option.some.injEq, Bool.and_eq_true, Option.any_eq_true_iff_get, beq_iff_eq] at h2
    obtain ⟨⟨⟨h3, h7⟩, hs, h4, h5⟩, hr, h6⟩ := h2
    obtain ⟨⟨hd, ph⟩, hsl⟩ := Option.isSome_iff_exists.mp hs
    obtain ⟨r, hbr⟩ := Option.isSome_iff_exists.mp hr
    simp only [hsl, hbr, Option.get_some] at h4 h5 h6
    obtain ⟨md, hmd, hget⟩ := Option.bind_eq_some_iff.mp hbr
    have hidle : ph = .idle := by
      split at h4
      · rfl
      · cases h4
    subst hidle
    refine ⟨_, _, story_history tameB_tame (.start (begun_started schema)) h, filledB_filled h3,
      ⟨_, _, _, hsl, Or.inr ⟨md, r, hmd, by rw [h5]; exact hget, h6⟩, ?_, .call (w := σ.w) (slots := σ.slots) hsl trivial rfl⟩,
      ⟨_, _, _, hsl, fun a b c => (tidyB_tidy _ _ h7).2 a b c, .call (w := σ.w) (slots := σ.slots) hsl trivial rfl⟩,
      by simpa using this⟩
    intro x hx
    simp only [List.mem_singleton] at hx
    subst hx
    exact takes _ _ _

/-- Operations of the Ray runner, one transaction of a refresh, and an append that loses the race. -/
def Demo.crew : List Act :=
  [.load,
   .begin 0 (.rayAppend 2 [1, 0] [row 1 "a" [1], row 2 "b" [2]]), .begin 1 (.append [[row 3 "c" [3]]]),
   .compute 1, .compute 0, .commit 0, .commit 1,
   .call 1 (.mutate (.rayInsert .upsert 2 [0, 0, 0] [row 1 "A" [1, 1], row 2 "B" [], row 5 "e" []])),
   .begin 1 (.sync 2 [0, 1] [row 1 "" []] (some [[[row 6 "f" [6]], [row 7 "g" []]]])), .compute 1, .commit 1,
   .call 0 (.mutate (.rayDelete (idIs "lt" 6)))]

/-- Another run to which C60 applies. -/
example : ∃ tr σ, History env schema (tame env schema) tr σ ∧ tr.map (·.1) = ["main", "main", "main", "main"] ∧
    readsOf env σ = [some [row 6 "f" [6], row 7 "g" []], some [row 6 "f" [6], row 7 "g" []]] := by
  have hc : (story env (tameB env schema) crew (begun schema)).map (fun x => (x.1.map (·.1), readsOf env x.2)) =
      some (["main", "main", "main", "main"],
        [some [row 6 "f" [6], row 7 "g" []], some [row 6 "f" [6], row 7 "g" []]]) := by decide +kernel
  obtain ⟨⟨tr, σ⟩, h1, h2⟩ := Option.map_eq_some_iff.mp hc
  exact ⟨tr, σ, by simpa using story_history tameB_tame (.start (begun_started schema)) h1, by simpa using h2⟩

/-- A user's file appears. -/
theorem Demo.placed_history {E : Env} {s : Schema} {tr : List (String × Call)} {σ : Sys}
    (h : History E s (tame E s) tr σ) {x : String} (c : Content) (hx : AMap.get? σ.w.fs (.external x) = none) :
    History E s (tame E s) tr (placed σ x c) := by
  have := h.step (ev := .external (.external x)) ⟨⟨⟨trivial, trivial⟩, fun j b r h => by rcases h with h | h <;> cases h⟩, ?_⟩
    (.external (w := σ.w) (slots := σ.slots) (c := c) hx)
  · simpa [took, placed] using this
  · rintro i mu sl (h | ⟨h, -⟩) <;> cases h

/-- A whole call of a mutation. -/
theorem Demo.calling_history {E : Env} {s : Schema} {tr : List (String × Call)} {σ : Sys} {i : Nat} {b : String} {mu : Mutation}
    (h : History E s (tame E s) tr σ) (ha : mu.Admissible s σ.w.fs) (ht : ∀ h : Handle, Tame E s h σ.w mu)
    (hr : (σ.slots[i]?).map (fun sl => (idleB sl.phase, (exec E (.mutate mu) sl.h σ.w).1)) = some (true, .job .succeeded))
    (hb : (σ.slots[i]?).map (·.h.branch) = some b) :
    History E s (tame E s) (tr ++ [(b, .mutate mu)]) (calling E σ i (.mutate mu)) := by
  have := h.step (ev := .call i (.mutate mu) (.job .succeeded))
    ⟨⟨⟨trivial, fun h => by cases h⟩, fun j b r h => by rcases h with h | h <;> cases h⟩, ?_⟩ (calling_step ha hr)
  · obtain ⟨sl, h1, h2⟩ := Option.map_eq_some_iff.mp hb
    simpa [took, h1, h2] using this
  · rintro j mu' sl (h | ⟨h, -⟩) - <;> cases h
    exact ht _

/-- What a load of a new file of a user does. -/
def Demo.loading (E : Env) (mu : Mutation) (σ : Sys) (x : String) (c : Content) :
    Bool × Option (Bool × Result) × Option String × List (Option (List Row)) :=
  (decide (AMap.get? σ.w.fs (.external x) = none),
    ((placed σ x c).slots[0]?).map (fun sl => (idleB sl.phase, (exec E (.mutate mu) sl.h (placed σ x c).w).1)),
    ((placed σ x c).slots[0]?).map (·.h.branch), readsOf E (calling E (placed σ x c) 0 (.mutate mu)))

/-- A function that makes index columns from records. -/
def Demo.indexer : List Nat → Row := fun b => [("id", .sc (.int (b.headD 0))), ("txt", .sc (.str "x"))]

instance : DecidableEq (Option String × List (Option (List Row))) := instDecidableEqProd

instance : DecidableEq (Option (Bool × Result) × Option String × List (Option (List Row))) := instDecidableEqProd

instance : DecidableEq (Bool × Option (Bool × Result) × Option String × List (Option (List Row))) := instDecidableEqProd

/-- A user's Parquet file is loaded after an append. -/
example : ∃ tr σ, History env plain (tame env plain) tr σ ∧ tr.map (·.1) = ["main", "main"] ∧
    readsOf env σ = [some [prow 1 "a", prow 2 "b", prow 3 "c", prow 4 "d"]] := by
  have hc : (story env (tameB env plain) [.call 0 (.mutate (.append [[prow 1 "a"]]))] (begun plain)).map (fun x =>
      (x.1.map (·.1), loading env (.appendParquet [.external "/in/a.parquet"]) x.2 "/in/a.parquet"
        (.parquet [[prow 2 "b"], [prow 3 "c", prow 4 "d"]]))) =
      some (["main"], true, some (true, .job .succeeded), some "main",
        [some [prow 1 "a", prow 2 "b", prow 3 "c", prow 4 "d"]]) := by decide +kernel
  obtain ⟨⟨tr, σ⟩, h1, h2⟩ := Option.map_eq_some_iff.mp hc
  simp only [loading, Prod.mk.injEq, decide_eq_true_eq] at h2
  obtain ⟨h2, h3, h4, h5, h6⟩ := h2
  have hf : (placed σ "/in/a.parquet" (.parquet [[prow 2 "b"], [prow 3 "c", prow 4 "d"]])).w.fs.parquet
      (.external "/in/a.parquet") = some [[prow 2 "b"], [prow 3 "c", prow 4 "d"]] := by
    simp [placed, FS.parquet, AMap.get?_set_self]
  refine ⟨_, _, calling_history (placed_history (story_history tameB_tame (.start (begun_started plain)) h1) _ h3) ?_ ?_ h4 h5,
    by simp [h2], h6⟩
  · intro p hp g hg
    simp only [List.mem_singleton] at hp
    subst hp
    rw [hf] at hg
    cases hg
    decide
  · intro h p hp g hg
    simp only [List.mem_singleton] at hp
    subst hp
    rw [hf] at hg
    cases hg
    exact keysSetB_set (by decide)

/-- A user's record file is loaded after an append. -/
example : ∃ tr σ, History env schema (tame env schema) tr σ ∧ tr.map (·.1) = ["main", "main"] ∧
    readsOf env σ = [some [row 1 "a" [1], row 2 "x" [2], row 3 "x" [3, 3, 3]]] := by
  have hc : (story env (tameB env schema) [.call 0 (.mutate (.append [[row 1 "a" [1]]]))] (begun schema)).map (fun x =>
      (x.1.map (·.1), loading env (.appendArrayRecord indexer [.external "/in/a.array_record"]) x.2 "/in/a.array_record"
        (.records [[2], [3, 3, 3]]))) =
      some (["main"], true, some (true, .job .succeeded), some "main",
        [some [row 1 "a" [1], row 2 "x" [2], row 3 "x" [3, 3, 3]]]) := by decide +kernel
  obtain ⟨⟨tr, σ⟩, h1, h2⟩ := Option.map_eq_some_iff.mp hc
  simp only [loading, Prod.mk.injEq, decide_eq_true_eq] at h2
  obtain ⟨h2, h3, h4, h5, h6⟩ := h2
  refine ⟨_, _, calling_history (mu := .appendArrayRecord indexer [.external "/in/a.array_record"])
    (placed_history (story_history tameB_tame (.start (begun_started schema)) h1) _ h3) trivial ?_ h4 h5,
    by simp [h2], h6⟩
  intro h rec r hr k hk
  simp only [List.mem_singleton] at hr
  subst hr
  have : k = "id" := by simpa [schema] using hk
  subst this
  exact ⟨_, rfl, by intro h; cases h⟩

/-- A handle that is not up to date adds a tag. -/
def Demo.staleTag : List Act :=
  [.load, .call 0 (.mutate (.append [[row 1 "a" [1]]])), .call 1 (.addTag "t" none)]

/-- The steps of two commits interleave. -/
def Demo.torn : List Act :=
  [.load, .begin 0 (.append [[row 1 "x" [1]]]), .begin 1 (.append [[row 2 "y" [2]]]),
    .compute 0, .compute 1, .check 0, .check 1, .write 0, .write 1]

/-- A branch is removed and made again under a running insert. -/
def Demo.aba : List Act :=
  [.load, .call 0 (.addBranch "b"), .call 1 .reload, .call 1 (.setBranch "b"),
   .call 1 (.mutate (.append [[row 9 "z" []]])),
   .begin 1 (.insert [row 5 "a" []]), .compute 1, .call 0 .reload, .call 0 (.removeBranch "b"), .call 0 (.addBranch "b"),
   .call 0 (.setBranch "b"), .call 0 (.mutate (.append [[row 5 "b" []]])), .commit 1]

/-- Compares some calls. -/
def Demo.sameCall : Call → Call → Bool
  | .mutate (.append a), .mutate (.append b) => decide (a = b)
  | .mutate (.insert a), .mutate (.insert b) => decide (a = b)
  | .addTag n i, .addTag m j => decide (n = m ∧ i = j)
  | .addBranch n, .addBranch m => decide (n = m)
  | .removeBranch n, .removeBranch m => decide (n = m)
  | _, _ => false

theorem Demo.sameCall_eq {a b : Call} (h : sameCall a b = true) : a = b := by
  unfold sameCall at h
  split at h <;> simp_all

/-- Compares some traces. -/
def Demo.sameTrace : List (String × Call) → List (String × Call) → Bool
  | [], [] => true
  | (a, c) :: as, (b, d) :: bs => a == b && sameCall c d && sameTrace as bs
  | _, _ => false

theorem Demo.sameTrace_eq : ∀ {a b : List (String × Call)}, sameTrace a b = true → a = b
  | [], [], _ => rfl
  | (a, c) :: as, (b, d) :: bs, h => by
    simp only [sameTrace, Bool.and_eq_true, beq_iff_eq] at h
    rw [h.1.1, sameCall_eq h.1.2, sameTrace_eq h.2]
  | [], _ :: _, h => by cases h
  | _ :: _, [], h => by cases h

/-- A run, its trace and what its first handle reads, as an equation that can be computed. -/
theorem Demo.story_of {E : Env} {s : Schema} {P : Sys → Event → Prop} {ok : Sys → Event → Bool}
    (hok : ∀ σ ev, ok σ ev = true → P σ ev) {as : List Act} {tr : List (String × Call)} {rows : List Row}
    (h : (story E ok as (begun s)).map (fun x => sameTrace x.1 tr &&
      x.2.slots.any (fun sl => sl.h.branch == "main" && decide (tableRead E sl.h x.2.w {} none = .ok rows))) = some true) :
    ∃ σ sl, History E s P tr σ ∧ sl ∈ σ.slots ∧ sl.h.branch = "main" ∧ tableRead E sl.h σ.w {} none = .ok rows := by
  obtain ⟨⟨tr', σ⟩, h1, h2⟩ := Option.map_eq_some_iff.mp h
  simp only [Bool.and_eq_true, List.any_eq_true, beq_iff_eq, decide_eq_true_eq] at h2
  obtain ⟨h2, sl, h3, h4, h5⟩ := h2
  have := sameTrace_eq h2
  subst this
  exact ⟨σ, sl, by simpa using story_history hok (.start (begun_started s)) h1, h3, h4, h5⟩

theorem Demo.readFits_all {s : Schema} : ReadFits s {} := ⟨by simp, by simp, rfl⟩

/-- A mutation in memory. -/
theorem Demo.deed_mutate {I : Interp} {s : Schema} {fs : FS} {m m' : Mem} {b : String} {mu : Mutation} {n : Nat}
    (h : m.deed I s fs ⟨b, .mutate mu, n⟩ = some m') :
    ∃ old new, { m with on := b }.rows none = some old ∧ effect I s fs old mu = some new ∧ m' = m.putAt b n new ∧
      { m' with on := b }.rows none = some new := by
  simp only [Mem.deed] at h
  split at h
  · rename_i rows hx
    obtain ⟨old, h1, h2⟩ := Option.bind_eq_some_iff.mp hx
    split at h
    · cases h
      refine ⟨old, rows, h1, h2, rfl, ?_⟩
      by_cases hb : b = "main" <;> simp [Mem.rows, Mem.version, Mem.putAt, hb, AMap.get?_set_self]
    · cases h
  · cases h

theorem Demo.deeds_cons {I : Interp} {s : Schema} {fs : FS} {m m' : Mem} {d : Deed} {ds : List Deed}
    (h : m.deeds I s fs (d :: ds) = some m') : ∃ m1, m.deed I s fs d = some m1 ∧ m1.deeds I s fs ds = some m' :=
  Option.bind_eq_some_iff.mp h

/-- The reads differ. -/
theorem Demo.not_sameRead {m : Mem} {rows rows' : List Row} (h : m.rows none = some rows')
    (hn : rows.length ≠ rows'.length) : ¬ SameRead (.ok rows) (m.read env.I schema {} none) := by
  rintro (⟨x, y, h1, h2, h3⟩ | ⟨⟨e, h1⟩, -⟩)
  · cases h1
    simp only [Mem.read, h, Option.map_some, Option.some.injEq] at h2
    subst h2
    have := h3.length_eq
    rw [List.length_map, List.filter_eq_self.mpr (fun _ _ => by rfl)] at this
    exact hn this
  · cases h1

/-- C60 is false if a handle that is not up to date changes tags or branches: the tag of the second handle takes back the
append of the first. -/
theorem C60_violated_stale : ∃ tr σ, History env schema (fun _ ev => ev.atomic) tr σ ∧
    tr = [("main", .mutate (.append [[row 1 "a" [1]]])), ("main", .addTag "t" none)] ∧ ¬ Serial env schema tr σ := by
  obtain ⟨σ, sl, h1, h2, h3, h4⟩ := story_of (E := env) (s := schema) (P := fun _ ev => ev.atomic)
    (ok := fun _ ev => match ev with
      | .check _ | .write _ _ => false
      | _ => true) (fun σ ev h => by cases ev <;> first | trivial | cases h)
    (as := staleTag) (tr := [("main", .mutate (.append [[row 1 "a" [1]]])), ("main", .addTag "t" none)]) (rows := [])
    (by decide +kernel)
  refine ⟨_, σ, h1, rfl, ?_⟩
  rintro ⟨ds, m, hd, hm, hr⟩
  have := hr sl h2 {} none readFits_all
  rw [h4, h3] at this
  match ds, hd with
  | [⟨_, _, n1⟩, ⟨_, _, n2⟩], hd =>
    simp only [List.map_cons, List.map_nil, List.cons.injEq, Prod.mk.injEq, and_true] at hd
    obtain ⟨⟨rfl, rfl⟩, rfl, rfl⟩ := hd
    obtain ⟨m1, e1, hm⟩ := deeds_cons hm
    obtain ⟨m2, e2, hm⟩ := deeds_cons hm
    cases hm
    obtain ⟨old, new, -, e4, -, e5⟩ := deed_mutate e1
    simp only [effect, effect.add] at e4
    rw [if_neg (by simp)] at e4
    cases e4
    simp only [Mem.deed, Mem.call] at e2
    split at e2
    · rename_i hx
      cases e2
      split at hx
      · cases hx
        exact not_sameRead (rows' := old ++ _) e5 (by simp) this
      · cases hx
    · cases e2

/-- C60 is false if the steps of two commits interleave: both appends succeed and one of them is lost. -/
theorem C60_violated_torn : ∃ tr σ, History env schema (fun σ ev => upToDate σ ev) tr σ ∧
    tr = [("main", .mutate (.append [[row 1 "x" [1]]])), ("main", .mutate (.append [[row 2 "y" [2]]]))] ∧
    ¬ Serial env schema tr σ := by
  obtain ⟨σ, sl, h1, h2, h3, h4⟩ := story_of (E := env) (s := schema) (P := fun σ ev => upToDate σ ev)
    (ok := fun _ ev => match ev with
      | .call _ _ _ => false
      | _ => true) (fun σ ev h => by cases ev <;> first | trivial | cases h)
    (as := torn) (tr := [("main", .mutate (.append [[row 1 "x" [1]]])), ("main", .mutate (.append [[row 2 "y" [2]]]))])
    (rows := [row 2 "y" [2]]) (by decide +kernel)
  refine ⟨_, σ, h1, rfl, ?_⟩
  rintro ⟨ds, m, hd, hm, hr⟩
  have := hr sl h2 {} none readFits_all
  rw [h4, h3] at this
  match ds, hd with
  | [⟨_, _, n1⟩, ⟨_, _, n2⟩], hd =>
    simp only [List.map_cons, List.map_nil, List.cons.injEq, Prod.mk.injEq, and_true] at hd
    obtain ⟨⟨rfl, rfl⟩, rfl, rfl⟩ := hd
    obtain ⟨m1, e1, hm⟩ := deeds_cons hm
    obtain ⟨m2, e2, hm⟩ := deeds_cons hm
    cases hm
    obtain ⟨old, new, -, e4, -, e5⟩ := deed_mutate e1
    obtain ⟨old', new', e3, e6, -, e7⟩ := deed_mutate e2
    rw [e5] at e3
    cases e3
    simp only [effect, effect.add] at e4 e6
    rw [if_neg (by simp)] at e4 e6
    cases e4
    cases e6
    exact not_sameRead (rows' := (old ++ _) ++ _) e7 (by simp) this

/-- C60 is false if a branch is removed under a running mutation: the insert of the second handle succeeds although its key
is there. -/
theorem C60_violated_removed : ∃ tr σ, History env schema tidy tr σ ∧
    tr = [("main", .addBranch "b"), ("b", .mutate (.append [[row 9 "z" []]])), ("main", .removeBranch "b"),
      ("main", .addBranch "b"), ("b", .mutate (.append [[row 5 "b" []]])), ("b", .mutate (.insert [row 5 "a" []]))] ∧
    ¬ Serial env schema tr σ := by
  cases h : story env tidyB aba (begun schema) with
  | none =>
    have : (story env tidyB aba (begun schema)).isSome = true := by decide +kernel
    rw [h] at this
    cases this
  | some x =>
    obtain ⟨tr, σ⟩ := x
    have hs : (story env tidyB aba (begun schema)).map (fun x => sameTrace x.1
        [("main", .addBranch "b"), ("b", .mutate (.append [[row 9 "z" []]])), ("main", .removeBranch "b"),
          ("main", .addBranch "b"), ("b", .mutate (.append [[row 5 "b" []]])),
          ("b", .mutate (.insert [row 5 "a" []]))]) = some true := by decide +kernel
    rw [h] at hs
    have := sameTrace_eq (Option.some.inj hs)
    simp only at this
    subst this
    refine ⟨_, σ, by simpa using story_history tidyB_tidy (.start (begun_started schema)) h, rfl, ?_⟩
    rintro ⟨ds, m, hd, hm, -⟩
    obtain ⟨d1, ds, rfl, -, hd⟩ := List.map_eq_cons_iff.mp hd
    obtain ⟨d2, ds, rfl, -, hd⟩ := List.map_eq_cons_iff.mp hd
    obtain ⟨d3, ds, rfl, -, hd⟩ := List.map_eq_cons_iff.mp hd
    obtain ⟨d4, ds, rfl, -, hd⟩ := List.map_eq_cons_iff.mp hd
    obtain ⟨⟨_, _, n1⟩, ds, rfl, hd1, hd⟩ := List.map_eq_cons_iff.mp hd
    obtain ⟨⟨_, _, n2⟩, ds, rfl, hd2, -⟩ := List.map_eq_cons_iff.mp hd
    cases hd1
    cases hd2
    obtain ⟨m1, -, hm⟩ := deeds_cons hm
    obtain ⟨m2, -, hm⟩ := deeds_cons hm
    obtain ⟨m3, -, hm⟩ := deeds_cons hm
    obtain ⟨m4, -, hm⟩ := deeds_cons hm
    obtain ⟨m5, e1, hm⟩ := deeds_cons hm
    obtain ⟨m6, e2, -⟩ := deeds_cons hm
    obtain ⟨old, new, -, e4, -, e5⟩ := deed_mutate e1
    obtain ⟨old', new', e3, e6, -, -⟩ := deed_mutate e2
    rw [e5] at e3
    cases e3
    simp only [effect, effect.add, effect.insert] at e4 e6
    rw [if_neg (by simp)] at e4
    cases e4
    split at e6
    · rename_i hx
      refine hx.2 ((row 5 "b" []).select schema.names) (by simp) ?_
      have : rowKey schema ((row 5 "b" []).select schema.names) = rowKey schema (row 5 "a" []) := by decide +kernel
      rw [this]
      simp
    · cases e6

end Space
