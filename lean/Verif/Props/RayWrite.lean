import Verif.RayProgress
import Verif.Props.Keys

/-!
# C22, C58: appends, inserts and upserts by Ray
-/

set_option autoImplicit false

namespace Space

open Demo List

/-! ## C22 -/

/-- The claim of C22 for one mutation that appends these rows: before and after it every
handle on the branch reads the same rows but for the given ones, each once more. -/
def AddsRows (E : Env) (i : Nat) (rows : List Row) (σ σ' : Sys) : Prop :=
  ∃ sl old new, σ.slots[i]? = some sl ∧ Reads E σ sl.h.branch old ∧ Reads E σ' sl.h.branch new ∧
    new ~ old ++ rows

theorem Done.adds {E : Env} {s : Schema} (hn : s.names.Nodup) {i : Nat} {m : Mutation} {rows : List Row}
    {σ σ' : Sys} (h : Done E s i m σ σ') (hm : m.added = some rows) :
    AddsRows E i (rows.map (·.select s.writeNames)) σ σ' := by
  obtain ⟨sl, sl', w, h1, w1, p, cur, snap, hl, hr, hr'⟩ := h.landing hn
  refine ⟨sl, _, _, hl.slot, hr, hr', ?_⟩
  obtain ⟨P, -, -, he⟩ := hl.succ.addedG hm
  refine (he.map _).trans ?_
  rw [List.map_append, List.map_map]
  have : (·.select s.writeNames) ∘ (·.select s.writeNames) = ((·.select s.writeNames) : Row → Row) := by
    funext r
    exact select_select (fun c hc => hc)
  rw [this]

/-- C22: a Ray append that takes effect adds every input row exactly once and leaves the
others; so does one from any list of iterators of tables.  For any parallelism `n`, any
number of rows, any schedule of the actors, whatever other handles do meanwhile. -/
theorem C22 {E : Env} {s : Schema} (hn : s.names.Nodup) (hlast : s.writeNames = s.names) {i n : Nat}
    {sched : List Nat} {σ σ' : Sys} :
    (∀ {rows : List Row}, (∀ r ∈ rows, r.cols = s.names) → Done E s i (.rayAppend n sched rows) σ σ' →
      AddsRows E i rows σ σ') ∧
    (∀ {sources : List (List (List Row))}, (∀ src ∈ sources, ∀ t ∈ src, ∀ r ∈ t, r.cols = s.names) →
      Done E s i (.rayAppendFrom n sched sources) σ σ' → AddsRows E i sources.flatten.flatten σ σ') := by
  constructor
  · intro rows hc h
    have := h.adds hn rfl
    rwa [hlast, select_rows hn hc] at this
  · intro sources hc h
    have := h.adds hn rfl
    rw [hlast, select_rows hn] at this
    · exact this
    · intro r hr
      obtain ⟨t, ht, hrt⟩ := List.mem_flatten.mp hr
      obtain ⟨src, hs, hts⟩ := List.mem_flatten.mp ht
      exact hc src hs t hts r hrt

/-- That they succeed: in any state, on a branch that exists, with at least one actor,
rows that fit the schema can be appended; appends of no rows are skipped. -/
theorem C22_succeeds {E : Env} {s : Schema} (hk : KeySchema s) (hlast : s.writeNames = s.names)
    {σ : Sys} (hr : Reach E s anyStep σ) {i : Nat} {sl : Slot} (hsl : σ.slots[i]? = some sl)
    (hi : sl.phase = .idle) (hb : branchIn sl.h.branch σ) {n : Nat} (hn : n ≠ 0) (sched : List Nat) :
    (∀ {rows : List Row}, (∀ r ∈ rows, Takes s r) →
      ∃ σ', Step E s σ (.call i (.mutate (.rayAppend n sched rows))
        (.job (if rows = [] then .skipped else .succeeded))) σ') ∧
    (∀ {sources : List (List (List Row))}, (∀ src ∈ sources, ∀ t ∈ src, ∀ r ∈ t, Takes s r) →
      ∃ σ', Step E s σ (.call i (.mutate (.rayAppendFrom n sched sources))
        (.job (if sources.flatten.flatten = [] then .skipped else .succeeded))) σ') := by
  obtain ⟨md, hok⟩ := reach_ok hk.names hr
  have hh := (hok.slots _ (List.mem_of_getElem? hsl)).1
  constructor
  · intro rows ht
    obtain ⟨p, h', w', hp, he⟩ := exec_total (E := E) (m := .rayAppend n sched rows)
      (R := fun p => p.isSome = decide (rows ≠ []))
      hk.names hok.wok hh trivial ((branchIn_iff hok).mp hb) (by
        intro h1 e1 _ hh1
        simp only [Mutation.body, hh1.schema]
        exact rayAppendBody_total hk hlast hok.wok.fresh hn sched ht)
    refine call_of_exec hsl hi trivial (h' := h') (w' := w') ?_
    rw [he, hp]
    by_cases hnil : rows = [] <;> simp [hnil]
  · intro sources ht
    have ht' : ∀ r ∈ sources.flatten.flatten, Takes s r := by
      intro r hr
      obtain ⟨t, ht1, hrt⟩ := List.mem_flatten.mp hr
      obtain ⟨src, hs, hts⟩ := List.mem_flatten.mp ht1
      exact ht src hs t hts r hrt
    obtain ⟨p, h', w', hp, he⟩ := exec_total (E := E) (m := .rayAppendFrom n sched sources)
      (R := fun p => p.isSome = decide (sources.flatten.flatten ≠ []))
      hk.names hok.wok hh trivial ((branchIn_iff hok).mp hb) (by
        intro h1 e1 _ hh1
        simp only [Mutation.body, hh1.schema]
        refine rayAppendFromAll_total hk hlast hok.wok.fresh (fun h0 => ?_) sched ht'
        have : sources.length = 0 := by omega
        exact List.length_eq_zero_iff.mp this)
    refine call_of_exec hsl hi trivial (h' := h') (w' := w') ?_
    rw [he, hp]
    by_cases hnil : sources.flatten.flatten = [] <;> simp [hnil]

/-- With a parallelism of zero a Ray append never takes effect. -/
theorem C22_zero {E : Env} {s : Schema} {σ σ' : Sys} {i : Nat} {sched : List Nat} {rows : List Row} {r : Result}
    (hr : Reach E s anyStep σ) (hn : s.names.Nodup)
    (h : Step E s σ (.call i (.mutate (.rayAppend 0 sched rows)) r) σ') :
    (r = .job .failed ∨ ∃ e, r = .raised e) ∧ σ'.w.stored = σ.w.stored := by
  obtain ⟨md, hok⟩ := reach_ok hn hr
  have hx : r = .job .failed ∨ ∃ e, r = .raised e := by
    cases h with
    | call hi hadm hrun =>
      have hh := (hok.slots _ (List.mem_of_getElem? hi)).1
      cases r with
      | raised e => exact Or.inr ⟨e, rfl⟩
      | returned =>
        simp only [exec] at hrun
        split at hrun <;> cases hrun
      | job j =>
        by_cases hj : j = .failed
        · exact Or.inl (by rw [hj])
        obtain ⟨h1, p, w1, e1, e2, e3, e4⟩ := body_of_exec hok.wok hh hj hrun
        cases e4
  refine ⟨hx, (C14 hn hr h (.mutation ?_)).1⟩
  rintro rfl
  rcases hx with h | ⟨e, h⟩ <;> cases h

/-- Seven rows over three actors (shards of two rows, the last row to the first actor), to
a table with one row; the actors take turns.  And from four sources over two actors. -/
example : ∃ σ σ' σ'', Done env schema 0 (.rayAppend 3 [2, 1, 0, 2, 0]
      [row 2 "b" [2], row 3 "c" [], row 4 "d" [4], row 5 "e" [5], row 6 "f" [6], row 7 "g" [7], row 8 "h" [8]]) σ σ' ∧
    Done env schema 0 (.rayAppendFrom 2 [1, 0]
      [[[row 2 "b" [2]], [row 3 "c" []]], [], [[row 4 "d" [4], row 5 "e" [5]]], [[row 6 "f" [6]]]]) σ σ'' ∧
    Reads env σ mainBranch [row 1 "a" [1]] ∧
    Reads env σ' mainBranch [row 1 "a" [1], row 2 "b" [2], row 3 "c" [], row 8 "h" [8], row 4 "d" [4], row 5 "e" [5],
      row 6 "f" [6], row 7 "g" [7]] ∧
    Reads env σ'' mainBranch [row 1 "a" [1], row 2 "b" [2], row 3 "c" [], row 4 "d" [4], row 5 "e" [5],
      row 6 "f" [6]] := by
  let σ := after env anyB schema [.call 0 (.mutate (.append [[row 1 "a" [1]]]))]
  let m : Mutation := .rayAppend 3 [2, 1, 0, 2, 0]
      [row 2 "b" [2], row 3 "c" [], row 4 "d" [4], row 5 "e" [5], row 6 "f" [6], row 7 "g" [7], row 8 "h" [8]]
  let m' : Mutation := .rayAppendFrom 2 [1, 0]
      [[[row 2 "b" [2]], [row 3 "c" []]], [], [[row 4 "d" [4], row 5 "e" [5]]], [[row 6 "f" [6]]]]
  obtain ⟨e, hst⟩ := doing_step (E := env) (s := schema) (σ := σ) (a := .call 0 (.mutate m))
    (o := .res (.job .succeeded)) (by decide +kernel)
  obtain ⟨e', hst'⟩ := doing_step (E := env) (s := schema) (σ := σ) (a := .call 0 (.mutate m'))
    (o := .res (.job .succeeded)) (by decide +kernel)
  refine ⟨σ, _, _, .call (after_reach (fun _ _ _ => trivial) _) hst, .call (after_reach (fun _ _ _ => trivial) _) hst', ?_, ?_, ?_⟩
  · exact reads_of (by decide +kernel)
  · exact reads_of (by decide +kernel)
  · exact reads_of (by decide +kernel)

/-- Rows that fit. -/
example : ∃ σ', Step env schema (after env anyB schema [])
    (.call 0 (.mutate (.rayAppend 8 [] [row 1 "a" [1], row 2 "b" []])) (.job .succeeded)) σ' :=
  (C22_succeeds keys (by decide) (after_reach (ok := anyB) (fun _ _ _ => trivial) []) (sl := ⟨(start schema).1, .idle⟩)
    rfl rfl (Or.inl rfl) (by decide) []).1 (by
      intro r hr
      simp only [List.mem_cons, List.not_mem_nil, or_false] at hr
      rcases hr with rfl | rfl <;> exact takes _ _ _)

/-! ## C58 -/

/-- C58 for rows that fit the schema and have no null or NaN in their key: an insert by Ray with
a clash of keys fails, and every read stays as it was; without one it succeeds, and the
branch reads as before, with each given row once more, as for local inserts.
Missing: rows with a null in their key, see `C07_violated`, or a NaN, see `C58_violated_nan`, and upserts for some layouts,
see `C58_upsert_partial`. -/
theorem C58_partial {E : Env} {s : Schema} (hk : KeySchema s) {i n : Nat} {sched : List Nat} {rows : List Row} :
    (∀ {σ σ' : Sys} {sl : Slot} {old : List Row} {r : Result}, Reach E s anyStep σ → σ.slots[i]? = some sl →
      Reads E σ sl.h.branch old → Step E s σ (.call i (.mutate (.rayInsert .insert n sched rows)) r) σ' →
      (KeysNum s rows → Clash s rows old → (r = .job .failed ∨ ∃ e, r = .raised e) ∧ σ'.w.stored = σ.w.stored ∧
        Reads E σ' sl.h.branch old) ∧
      (¬ Clash s rows old → rows ≠ [] → n ≠ 0 → (∀ x ∈ rows, Takes s x) → s.writeNames = s.names →
        branchIn sl.h.branch σ → r = .job .succeeded ∧ AddsRows E i (rows.map (·.select s.names)) σ σ')) ∧
    (∀ {σ σ' : Sys}, Done E s i (.rayInsert .insert n sched rows) σ σ' →
      ∃ sl old new, σ.slots[i]? = some sl ∧ Reads E σ sl.h.branch old ∧ (KeysNum s rows → ¬ Clash s rows old) ∧
        Reads E σ' sl.h.branch new ∧ new ~ old ++ rows.map (·.select s.writeNames)) := by
  have second : ∀ {σ σ' : Sys}, Done E s i (.rayInsert .insert n sched rows) σ σ' →
      ∃ sl old new, σ.slots[i]? = some sl ∧ Reads E σ sl.h.branch old ∧ (KeysNum s rows → ¬ Clash s rows old) ∧
        Reads E σ' sl.h.branch new ∧ new ~ old ++ rows.map (·.select s.writeNames) := by
    intro σ σ' h
    obtain ⟨sl, sl', w, h1, w1, p, cur, snap, hl, hr, hr'⟩ := h.landing hk.names
    obtain ⟨a, b, c, he⟩ := hl.succ.insertG hk rfl
    refine ⟨sl, _, _, hl.slot, hr, ?_, hr', ?_⟩
    · rintro hnum (hx | ⟨k, h1, h2⟩)
      · exact hx a
      · rw [keysOf_select hk] at h2
        obtain ⟨x, hx, rfl⟩ := List.mem_map.mp h2
        exact c x hx (hnum.of_mem h1) h1
    · refine (he.map _).trans ?_
      rw [List.map_append, List.map_map]
      have : (·.select s.writeNames) ∘ (·.select s.writeNames) = ((·.select s.writeNames) : Row → Row) := by
        funext r
        exact select_select (fun c hc => hc)
      rw [this]
  refine ⟨?_, second⟩
  intro σ σ' sl old r hreach hsl hold hst
  obtain ⟨md, hok⟩ := reach_ok hk.names hreach
  have hh := (hok.slots _ (List.mem_of_getElem? hsl)).1
  obtain ⟨cur, htar, rfl⟩ := reads_target hok hsl hold
  have hcur := (target_ok hok.wok htar).1
  obtain ⟨hidle, h', w', hrun, hσ'⟩ : sl.phase = .idle ∧ ∃ h' w',
      exec E (.mutate (.rayInsert .insert n sched rows)) sl.h σ.w = (r, h', w') ∧ σ'.w = w' := by
    cases hst with
    | call hi hadm hrun =>
      simp only at hsl
      rw [hi] at hsl
      cases hsl
      exact ⟨rfl, _, _, hrun, rfl⟩
  constructor
  · intro hnum hcl
    have hr : r = .job .failed ∨ ∃ e, r = .raised e := by
      cases r with
      | raised e => exact Or.inr ⟨e, rfl⟩
      | returned =>
        simp only [exec] at hrun
        split at hrun <;> cases hrun
      | job j =>
        by_cases hj : j = .failed
        · exact Or.inl (by rw [hj])
        obtain ⟨h1, p, w1, e1, e2, e3, e4⟩ := body_of_exec hok.wok hh hj hrun
        simp only [Mutation.body] at e4
        obtain ⟨-, hf1, hx⟩ := Post.elim (rayInsertBody_post hok.wok.fresh e3 .insert n sched rows) e4
        rcases hx with ⟨hx, -⟩ | ⟨hx, snap, e, mf, hsn, hout⟩
        · subst hx
          rcases hcl with h | ⟨k, h, -⟩
          · exact absurd List.Pairwise.nil h
          · cases h
        · have : snap = cur := by
            have hb := htar
            rw [← e1, ← e2] at hb
            rw [handle_snapshot] at hsn
            rw [hsn] at hb
            exact Except.ok.inj hb
          subst this
          obtain ⟨a, -, c⟩ := hout.keys hk hcur.manifests
          rcases hcl with h | ⟨k, h1, h2⟩
          · exact absurd a h
          · rw [keysOf_select hk] at h2
            obtain ⟨x, hx, rfl⟩ := List.mem_map.mp h2
            exact absurd h1 (c x hx (hnum.of_mem h1))
    have hq : Quiet (.call i (.mutate (.rayInsert .insert n sched rows)) r) := by
      refine .mutation ?_
      rintro rfl
      rcases hr with h | ⟨e, h⟩ <;> cases h
    obtain ⟨c1, c2⟩ := C14 hk.names hreach hst hq
    refine ⟨hr, c1, ?_⟩
    intro a ha hb
    rw [c2 sl (List.mem_of_getElem? hsl) a ha {} none (fun _ => hb)]
    exact hold sl (List.mem_of_getElem? hsl) rfl
  · intro hcl hne hn0 htakes hlast hb
    have hsucc : r = .job .succeeded := by
      obtain ⟨p, h2, w2, hp, he⟩ := exec_total (E := E) (m := .rayInsert .insert n sched rows)
        (R := fun p => p.isSome = true)
        hk.names hok.wok hh trivial ((branchIn_iff hok).mp hb) (by
          intro h1 e1 e2 hh1
          simp only [Mutation.body]
          refine rayInsertBody_total hk hlast hok.wok.fresh hh1 (cur := cur) ?_ hn0 sched hne htakes ?_ ?_ ?_
          · rw [handle_snapshot, e1, e2]; exact htar
          · exact Classical.byContradiction fun h => hcl (Or.inl h)
          · intro _ x hx hm
            refine hcl (Or.inr ⟨keyOf s.pks x, hm, ?_⟩)
            rw [keysOf_select hk]
            refine List.mem_map.mpr ⟨deref σ.w.fs.records s x, List.mem_map.mpr ⟨x, hx, rfl⟩, ?_⟩
            exact keyOf_deref hk _ x
          · intro h; cases h)
      rw [hrun] at he
      rw [hp] at he
      exact congrArg Prod.fst he
    subst hsucc
    obtain ⟨sl', old', new, k1, k2, -, k4, k5⟩ := second (.call hreach hst)
    rw [hlast] at k5
    exact ⟨rfl, sl', old', new, k1, k2, k4, k5⟩

/-- C58 for upserts by Ray, under the conditions of `C08_partial`, and that they succeed
under those of `C08_succeeds`. -/
theorem C58_upsert_partial {E : Env} {s : Schema} (hk : KeySchema s) {i n : Nat} {sched : List Nat}
    {rows : List Row} {σ : Sys} :
    (∀ {σ' : Sys}, Done E s i (.rayInsert .upsert n sched rows) σ σ' →
      (keysOf s rows).Nodup ∧ ∃ sl old, σ.slots[i]? = some sl ∧ Reads E σ sl.h.branch old ∧
        (KeysSet s old →
          DeleteSafe (fun r => some (decide (s.pks.map r.val ∈ keysOf s rows))) (headLayout s sl.h σ.w) →
          ∃ new, Reads E σ' sl.h.branch new ∧
            new ~ old.filter (fun r => decide (s.pks.map r.val ∉ keysOf s rows)) ++ rows.map (·.select s.writeNames))) ∧
    (∀ {sl : Slot}, s.writeNames = s.names → Reach E s anyStep σ → σ.slots[i]? = some sl → sl.phase = .idle →
      branchIn sl.h.branch σ → rows ≠ [] → n ≠ 0 → (∀ r ∈ rows, Takes s r) → (keysOf s rows).Nodup →
      KeysSet s (headLayout s sl.h σ.w).flatten.flatten →
      (∀ man ∈ headLayout s sl.h σ.w, ∀ file ∈ man, file ≠ []) →
      ∃ σ', Step E s σ (.call i (.mutate (.rayInsert .upsert n sched rows)) (.job .succeeded)) σ') := by
  constructor
  · intro σ' h
    obtain ⟨sl, sl', w, h1, w1, p, cur, snap, hl, hr, hr'⟩ := h.landing hk.names
    obtain ⟨hnd, -⟩ := hl.succ.upsert_lost hk rfl
    refine ⟨hnd, sl, _, hl.slot, hr, fun hset hsafe => ⟨_, hr', ?_⟩⟩
    rw [hl.layout] at hsafe
    have hset' : KeysSet s (snapRows w.fs s cur) := by
      intro r hr k hkk
      have := hset _ (List.mem_map_of_mem hr) k hkk
      rw [select_val (writeNames_sub.mpr (hk.keys k hkk))] at this
      exact this
    obtain ⟨-, -, hperm⟩ := hl.succ.upsert hk rfl hset' hsafe
    refine (hperm.map _).trans ?_
    rw [List.map_append, List.map_map, List.filter_map]
    have : (·.select s.writeNames) ∘ (·.select s.writeNames) = ((·.select s.writeNames) : Row → Row) := by
      funext r
      exact select_select (fun c hc => hc)
    rw [this]
    refine List.Perm.append_right _ (List.Perm.of_eq ?_)
    congr 1
    refine List.filter_congr fun r _ => ?_
    have e : s.pks.map (r.select s.writeNames).val = keyOf s.pks r := keyOf_select hk r
    simp only [Function.comp_apply, e]
    rfl
  · intro sl hlast hr hsl hi hb hne hn0 ht hd hset hfull
    obtain ⟨md, hok⟩ := reach_ok hk.names hr
    have hh := (hok.slots _ (List.mem_of_getElem? hsl)).1
    have hob := (branchIn_iff hok).mp hb
    obtain ⟨cur, hid, hget, -⟩ := hob.head hok.wok.ok
    have htar := target_head hid hget
    have hlay : headLayout s sl.h σ.w = layout σ.w.fs s cur := by
      simp [headLayout, headOf, hok.wok.storedEq, htar, Except.toOption]
    rw [hlay] at hset hfull
    rw [layout_flatten] at hset
    obtain ⟨p, h2, w2, hp, he⟩ := exec_total (E := E) (m := .rayInsert .upsert n sched rows)
      (R := fun p => p.isSome = true)
      hk.names hok.wok hh trivial hob (by
        intro h1 e1 e2 hh1
        simp only [Mutation.body]
        refine rayInsertBody_total hk hlast hok.wok.fresh hh1 (cur := cur) ?_ hn0 sched hne ht hd ?_ ?_
        · rw [handle_snapshot, e1, e2]; exact htar
        · intro h; cases h
        · intro _
          constructor
          · intro x hx k hkk
            obtain ⟨v, hv⟩ := hset _ (List.mem_map_of_mem (f := deref σ.w.fs.records s) hx) k hkk
            have hkr := keyOf_deref hk σ.w.fs.records x
            have := List.map_inj_left.mp hkr k hkk
            exact ⟨v, by rw [← this]; exact hv⟩
          · intro q hq m hm hnil
            refine hfull _ (mem_layout hq) _ (List.mem_map_of_mem hm) ?_
            rw [hnil]
            rfl)
    rw [hp] at he
    exact call_of_exec hsl hi trivial he

/-- C58 for upserts by Ray, exactly what they do on every layout, for stored rows without null
keys: what the local upsert of the rows does (`C08_effect`), whatever the number of writers
and the schedule. -/
theorem C58_effect {E : Env} {s : Schema} (hk : KeySchema s) {i n : Nat} {sched : List Nat} {rows : List Row}
    {σ σ' : Sys} (h : Done E s i (.rayInsert .upsert n sched rows) σ σ') :
    ∃ sl old new, σ.slots[i]? = some sl ∧ Reads E σ sl.h.branch old ∧ Reads E σ' sl.h.branch new ∧
      (KeysSet s old →
        new ~ (leftBy (fun r => some (decide (s.pks.map r.val ∈ keysOf s rows))) (headLayout s sl.h σ.w) ++ rows).map
          (·.select s.writeNames) ∧
        (new ~ old.filter (fun r => decide (s.pks.map r.val ∉ keysOf s rows)) ++ rows.map (·.select s.writeNames) ↔
          Spared (fun r => some (decide (s.pks.map r.val ∈ keysOf s rows))) (headLayout s sl.h σ.w))) :=
  h.upsertEffect hk rfl

/-- An upsert by Ray of all rows of one of two files of a manifest: the rows of the other go with them. -/
example : ∃ σ σ' sl, Done env schema 0 (.rayInsert .upsert 2 [1] [row 5 "E" [9], row 6 "f" [4]]) σ σ' ∧
    σ.slots[0]? = some sl ∧
    Reads env σ sl.h.branch [row 1 "a" [1], row 2 "b" [2], row 3 "c" [3], row 4 "d" [4], row 5 "e" [5], row 7 "g" [3]] ∧
    Reads env σ' sl.h.branch [row 7 "g" [3], row 5 "E" [9], row 6 "f" [4]] ∧
    leftBy (fun r => some (decide (schema.pks.map r.val ∈ keysOf schema [row 5 "E" [9], row 6 "f" [4]])))
      (headLayout schema sl.h σ.w) = [row 7 "g" [3]] := by
  let σ := after env anyB schema [.call 0 (.mutate (.append [[row 1 "a" [1], row 2 "b" [2], row 3 "c" [3], row 4 "d" [4]],
    [row 5 "e" [5]]])), .call 0 (.mutate (.append [[row 7 "g" [3]]]))]
  obtain ⟨e, hst⟩ := doing_step (E := env) (s := schema) (σ := σ)
    (a := .call 0 (.mutate (.rayInsert .upsert 2 [1] [row 5 "E" [9], row 6 "f" [4]])))
    (o := .res (.job .succeeded)) (by decide +kernel)
  obtain ⟨sl, h0, -, h2⟩ := slot_of (σ := σ) (i := 0)
    (f := fun sl => (headLayout schema sl.h σ.w, sl.h.branch))
    (x := ([[[row 1 "a" [1], row 2 "b" [2], row 3 "c" [3], row 4 "d" [4]], [row 5 "e" [5]]],
      [[row 7 "g" [3]]]], mainBranch)) (by decide +kernel)
  simp only [Prod.mk.injEq] at h2
  refine ⟨σ, _, sl, .call (after_reach (fun _ _ _ => trivial) _) hst, h0, ?_, ?_, ?_⟩
  · rw [h2.2]
    exact reads_of (by decide +kernel)
  · rw [h2.2]
    exact reads_of (by decide +kernel)
  · rw [h2.1]
    decide +kernel

/-- C58 is false for keys with NaN, as C07 is: the insert clashes and succeeds. -/
theorem C58_violated_nan : ∃ σ σ' sl, Reach env floatKey solo σ ∧ σ.slots[0]? = some sl ∧
    Reads env σ sl.h.branch [rowX .nan "a"] ∧ Clash floatKey [rowX .nan "b"] [rowX .nan "a"] ∧
    Step env floatKey σ (.call 0 (.mutate (.rayInsert .insert 2 [] [rowX .nan "b"])) (.job .succeeded)) σ' ∧
    Reads env σ' sl.h.branch [rowX .nan "a", rowX .nan "b"] := by
  let σ := after env soloB floatKey [.call 0 (.mutate (.insert [rowX .nan "a"]))]
  obtain ⟨sl, h0, -, h2⟩ := slot_of (σ := σ) (i := 0) (f := fun sl => sl.h.branch) (x := mainBranch) (by decide +kernel)
  refine ⟨σ, _, sl, after_reach soloB_solo _, h0, ?_, by unfold Clash; decide,
    (doing_step (E := env) (s := floatKey) (σ := σ) (a := .call 0 (.mutate (.rayInsert _ _ _ _)))
      (o := .res (.job .succeeded)) (by decide +kernel)).2, ?_⟩
  · rw [h2]
    exact reads_of (by decide +kernel)
  · rw [h2]
    exact reads_of (by decide +kernel)

/-- Inserts by Ray into a table with the keys 1 and 2: 3 is new, 2 is not.  An upsert
over two files. -/
example : ∃ σ σ' sl, Reach env schema anyStep σ ∧ σ.slots[0]? = some sl ∧ sl.phase = .idle ∧ branchIn sl.h.branch σ ∧
    Reads env σ sl.h.branch [row 1 "a" [1], row 2 "b" [2], row 3 "c" [3]] ∧
    ¬ Clash schema [row 4 "c" [3], row 5 "e" []] [row 1 "a" [1], row 2 "b" [2], row 3 "c" [3]] ∧
    Clash schema [row 4 "c" [3], row 2 "d" []] [row 1 "a" [1], row 2 "b" [2], row 3 "c" [3]] ∧
    (∃ σ', Step env schema σ (.call 0 (.mutate (.rayInsert .insert 2 [] [row 4 "c" [3], row 5 "e" []])) (.job .succeeded)) σ') ∧
    (∃ σ', Step env schema σ (.call 0 (.mutate (.rayInsert .insert 2 [] [row 4 "c" [3], row 2 "d" []])) (.job .failed)) σ') ∧
    Done env schema 0 (.rayInsert .upsert 2 [1] [row 2 "B" [9], row 4 "d" [4]]) σ σ' ∧
    KeysSet schema [row 1 "a" [1], row 2 "b" [2], row 3 "c" [3]] ∧
    DeleteSafe (fun r => some (decide (schema.pks.map r.val ∈ keysOf schema [row 2 "B" [9], row 4 "d" [4]])))
      (headLayout schema sl.h σ.w) ∧
    Reads env σ' sl.h.branch [row 3 "c" [3], row 1 "a" [1], row 2 "B" [9], row 4 "d" [4]] := by
  let σ := after env anyB schema [.call 0 (.mutate (.append [[row 1 "a" [1], row 2 "b" [2]]])),
    .call 0 (.mutate (.append [[row 3 "c" [3]]]))]
  obtain ⟨e, hst⟩ := doing_step (E := env) (s := schema) (σ := σ)
    (a := .call 0 (.mutate (.rayInsert .upsert 2 [1] [row 2 "B" [9], row 4 "d" [4]])))
    (o := .res (.job .succeeded)) (by decide +kernel)
  obtain ⟨sl, h0, -, h2⟩ := slot_of (σ := σ) (i := 0)
    (f := fun sl => (headLayout schema sl.h σ.w, sl.h.branch))
    (x := ([[[row 1 "a" [1], row 2 "b" [2]]], [[row 3 "c" [3]]]], mainBranch)) (by decide +kernel)
  obtain ⟨sl2, h3, -, h4⟩ := slot_of (σ := σ) (i := 0)
    (f := fun sl => match sl.phase with | .idle => true | _ => false) (x := true) (by decide +kernel)
  rw [h0] at h3
  cases h3
  simp only [Prod.mk.injEq] at h2
  refine ⟨σ, _, sl, after_reach (fun _ _ _ => trivial) _, h0, ?_, Or.inl h2.2, ?_, by unfold Clash; decide,
    by unfold Clash; decide, ?_, ?_, .call (after_reach (fun _ _ _ => trivial) _) hst, ?_, ?_, ?_⟩
  · split at h4
    · assumption
    · cases h4
  · rw [h2.2]
    exact reads_of (by decide +kernel)
  · exact ⟨_, (doing_step (E := env) (s := schema) (σ := σ) (a := .call 0 (.mutate (.rayInsert .insert 2 [] _)))
      (o := .res (.job _)) (by decide +kernel)).2⟩
  · exact ⟨_, (doing_step (E := env) (s := schema) (σ := σ) (a := .call 0 (.mutate (.rayInsert .insert 2 [] _)))
      (o := .res (.job _)) (by decide +kernel)).2⟩
  · intro r hr k hk
    simp only [schema, List.mem_cons, List.not_mem_nil, or_false] at hk hr
    subst hk
    rcases hr with rfl | rfl | rfl <;> exact ⟨_, rfl, by decide⟩
  · rw [h2.1]
    exact Or.inl ⟨_, List.mem_cons_self, _, List.mem_cons_self,
      ⟨row 2 "b" [2], by simp, by decide⟩, ⟨row 1 "a" [1], by simp, by decide⟩⟩
  · rw [h2.2]
    exact reads_of (by decide +kernel)

end Space
