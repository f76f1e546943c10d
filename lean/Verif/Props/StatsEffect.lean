import Verif.StatsEffect
import Verif.Props.Stats
import Verif.Props.RayDelete

/-!
# C35: what each mutation adds to the row count
-/

set_option autoImplicit false

namespace Space

open Demo List

/-- The statistics of the snapshot at the head of branch `b` count `c` rows. -/
def CountAt (σ : Sys) (b : String) (c : Int) : Prop :=
  ∃ md snap, σ.w.stored = some md ∧ md.target b none = .ok snap ∧ snap.stats.rows = c

/-- What a mutation adds to the row count, given the rows read before and after it.  Deletes take
off the rows on which the filter is true, if it is null on none; upserts and refreshes take off the
rows with a given key, if no stored key is null or NaN. -/
def Mutation.CountsBy (I : Interp) (s : Schema) (old new : List Row) (d : Int) : Mutation → Prop
  | .append tables => d = tables.flatten.length
  | .rayAppend _ _ rows => d = rows.length
  | .rayAppendFrom _ _ sources => d = sources.flatten.flatten.length
  | .appendParquet _ => d = new.length - old.length
  | .appendArrayRecord _ _ => d = new.length - old.length
  | .insert rows => d = rows.length
  | .rayInsert .insert _ _ rows => d = rows.length
  | .upsert rows => KeySchema s → KeysSet s old →
      d = rows.length - (old.filter (fun r => decide (s.pks.map r.val ∈ keysOf s rows))).length
  | .rayInsert .upsert _ _ rows => KeySchema s → KeysSet s old →
      d = rows.length - (old.filter (fun r => decide (s.pks.map r.val ∈ keysOf s rows))).length
  | .sync _ _ gone added => KeySchema s → KeysSet s old →
      d = (syncRows added).length - (old.filter (fun r => decide (s.pks.map r.val ∈ keysOf s gone))).length
  | .delete e => FilterFits s e → (∀ r ∈ old, e.truth I r ≠ none) →
      d = -(old.filter (fun r => e.truth I r == some true)).length
  | .rayDelete e => FilterFits s e → (∀ r ∈ old, e.truth I r ≠ none) →
      d = -(old.filter (fun r => e.truth I r == some true)).length

theorem countAt_head {σ : Sys} {h : Handle} {snap : Snapshot} (hh : headOf h σ.w = some snap) :
    CountAt σ h.branch snap.stats.rows := by
  unfold headOf at hh
  cases hm : σ.w.stored with
  | none => rw [hm] at hh; cases hh
  | some md =>
    rw [hm] at hh
    simp only [Option.bind_some] at hh
    cases ht : md.target h.branch none with
    | error e => rw [ht] at hh; cases hh
    | ok x =>
      rw [ht] at hh
      cases hh
      exact ⟨md, snap, hm, ht, rfl⟩

theorem filter_keys_length {s : Schema} (hk : KeySchema s) (rows given : List Row) :
    ((rows.map (·.select s.writeNames)).filter (fun r => decide (s.pks.map r.val ∈ keysOf s given))).length =
      (rows.filter (fun r => decide (keyOf s.pks r ∈ given.map (keyOf s.pks)))).length := by
  rw [List.filter_map, List.length_map]
  congr 1
  refine List.filter_congr fun r _ => ?_
  have e : s.pks.map (r.select s.writeNames).val = s.pks.map r.val := keyOf_select hk r
  simp only [Function.comp_apply, e]
  rfl

theorem keysSet_of_select {s : Schema} (hk : KeySchema s) {rows : List Row}
    (h : KeysSet s (rows.map (·.select s.writeNames))) : KeysSet s rows := by
  intro r hr k hkk
  have := h _ (List.mem_map_of_mem hr) k hkk
  rw [select_val (writeNames_sub.mpr (hk.keys k hkk))] at this
  exact this

theorem filter_truth_length {s : Schema} {e : Expr} (he : FilterFits s e) (I : Interp) (rows : List Row) :
    ((rows.map (·.select s.writeNames)).filter (fun r => e.truth I r == some true)).length =
      (rows.filter (fun r => e.truth I r == some true)).length := by
  rw [List.filter_map, List.length_map]
  congr 1
  refine List.filter_congr fun r _ => ?_
  simp only [Function.comp_apply, truth_select he]

/-- C35, one step: the row count of the head changes by what the mutation is meant to add and
remove, on every layout, whether rows are lost, kept or doubled. -/
theorem C35_effect {E : Env} {s : Schema} (hn : s.names.Nodup) {i : Nat} {m : Mutation} {σ σ' : Sys}
    (h : Done E s i m σ σ') :
    ∃ sl old new c c', σ.slots[i]? = some sl ∧ Reads E σ sl.h.branch old ∧ Reads E σ' sl.h.branch new ∧
      CountAt σ sl.h.branch c ∧ CountAt σ' sl.h.branch c' ∧ m.CountsBy E.I s old new (c' - c) := by
  obtain ⟨sl, sl', w, h1, w1, p, cur, snap, hl, hr, hr'⟩ := h.landing hn
  refine ⟨sl, _, _, cur.stats.rows, snap.stats.rows, hl.slot, hr, hr', countAt_head hl.succ.head,
    hl.branch ▸ countAt_head hl.succ.head', ?_⟩
  have hsel : ∀ {e : Expr}, FilterFits s e →
      (∀ r ∈ (snapRows w.fs s cur).map (·.select s.writeNames), e.truth E.I r ≠ none) →
      ∀ r ∈ snapRows w.fs s cur, e.truth E.I r ≠ none := by
    intro e he hnull r hm
    have := hnull _ (List.mem_map_of_mem hm)
    rwa [truth_select he] at this
  cases m with
  | append tables => have := hl.succ.statAdded rfl; simp only [Mutation.CountsBy]; omega
  | rayAppend n sched rows => have := hl.succ.statAdded rfl; simp only [Mutation.CountsBy]; omega
  | rayAppendFrom n sched sources => have := hl.succ.statAdded rfl; simp only [Mutation.CountsBy]; omega
  | appendParquet files =>
    have := hl.succ.statLoaded hn (Or.inl ⟨_, rfl⟩)
    simp only [Mutation.CountsBy, List.length_map]
    exact this
  | appendArrayRecord fn files =>
    have := hl.succ.statLoaded hn (Or.inr ⟨_, _, rfl⟩)
    simp only [Mutation.CountsBy, List.length_map]
    exact this
  | insert rows => have := (hl.succ.statInserted rfl).1 rfl; simp only [Mutation.CountsBy]; omega
  | upsert rows =>
    intro hk hset
    have := (hl.succ.statInserted rfl).2 rfl hk (keysSet_of_select hk hset)
    rw [filter_keys_length hk]
    omega
  | rayInsert mode n sched rows =>
    cases mode with
    | insert => have := (hl.succ.statInserted rfl).1 rfl; simp only [Mutation.CountsBy]; omega
    | upsert =>
      intro hk hset
      have := (hl.succ.statInserted rfl).2 rfl hk (keysSet_of_select hk hset)
      rw [filter_keys_length hk]
      omega
  | sync n sched gone added =>
    intro hk hset
    have := hl.succ.statSync hk (keysSet_of_select hk hset)
    rw [filter_keys_length hk]
    omega
  | delete e =>
    intro he hnull
    have := hl.succ.statDeleted hn (Or.inl rfl) he (hsel he hnull)
    rw [filter_truth_length he]
    omega
  | rayDelete e =>
    intro he hnull
    have := hl.succ.statDeleted hn (Or.inr rfl) he (hsel he hnull)
    rw [filter_truth_length he]
    omega

/-- Calm steps in which no delete of the Ray runner lands. -/
def unrayed (σ : Sys) (ev : Event) : Prop :=
  calm σ ev ∧ ∀ i m sl, Lands σ ev i m → σ.slots[i]? = some sl → ¬ ∃ e, m = .rayDelete e

/-- C35, the half that always holds but for deletes of the Ray runner: the row count of every
stored snapshot is at least the number of rows read, whatever deletes and upserts lose.
Missing: that it is not more (`C35_violated`), and histories with Ray deletes, which can double
rows (`C35_violated_ray`). -/
theorem C35_atleast_partial {E : Env} {s : Schema} (hn : s.names.Nodup) {σ : Sys} (h : Reach E s unrayed σ)
    {md : Metadata} (hmd : σ.w.stored = some md) {n : Nat} {snap : Snapshot} (hs : md.snaps.get? n = some snap)
    {sl : Slot} (hsl : sl ∈ σ.slots) :
    ∃ rows, tableRead E sl.h σ.w {} (some (.id n)) = .ok rows ∧ (rows.length : Int) ≤ snap.stats.rows := by
  have key : ((snapRows σ.w.fs s snap).length : Int) ≤ snap.stats.rows := by
    refine snaps_invariant hn (P := unrayed) (fun h => h.1)
      (Good := fun fs snap => ((snapRows fs s snap).length : Int) ≤ snap.stats.rows) ?_ ?_ ?_ h hmd hs
    · intro fs fs' snap hle hok hg
      rw [snapRows_mono hle hok]
      exact hg
    · intro fs
      exact Int.le_refl 0
    · intro σ σ' ev i m sl sl' w h1 w1 p cur snap hp hl hl' hg
      obtain ⟨lost, hc, -⟩ := hl'.succ.countLost hn (hp.2 i m sl hl hl'.slot)
      unfold Counted at hc
      rw [snapRows_mono hl'.succ.earlier hl'.succ.curOK] at hg
      omega
  obtain ⟨md0, hok⟩ := reach_ok hn (P := unrayed) h
  have := stored_of hok hmd
  subst this
  refine ⟨(snapRows σ.w.fs s snap).map (·.select s.writeNames), ?_, ?_⟩
  · rw [tableRead_full hok.wok (hok.slots sl hsl).1]
    simp [Metadata.target, Metadata.versionId, Metadata.snapshot, hs]
  · simpa using key

/-- Decides `unrayed`. -/
def Demo.unrayedB (σ : Sys) (ev : Event) : Bool :=
  calmB σ ev && landsB (fun _ m => match m with
    | .rayDelete _ => false
    | _ => true) σ ev

theorem Demo.unrayedB_unrayed (σ : Sys) (ev : Event) (h : unrayedB σ ev = true) : unrayed σ ev := by
  simp only [unrayedB, Bool.and_eq_true] at h
  refine ⟨calmB_calm _ _ h.1, ?_⟩
  rintro i m sl hl hsl ⟨e, rfl⟩
  have := landsB_lands h.2 hl hsl
  cases this

/-- A history with a delete that loses rows: row counts, and rows read. -/
example : ∃ σ md sl, Reach env schema unrayed σ ∧ σ.w.stored = some md ∧ sl ∈ σ.slots ∧
    md.snaps.map (fun x => (x.1, x.2.stats.rows,
      (tableRead env sl.h σ.w {} (some (.id x.1))).map (·.length))) =
      [(0, 0, .ok 0), (1, 5, .ok 5), (2, 4, .ok 0), (3, 6, .ok 2)] := by
  let σ := after env unrayedB schema [.call 0 (.mutate (.append [[row 1 "a" [1], row 2 "b" [2], row 3 "c" [3], row 4 "d" [4]],
        [row 5 "e" [5]]])), .call 0 (.mutate (.delete (idIs "gt" 4))), .call 0 (.mutate (.upsert [row 1 "A" [], row 7 "g" []]))]
  obtain ⟨sl, -, h3, h4⟩ := slot_of (σ := σ) (i := 0) (f := fun sl => σ.w.stored.map (fun md => md.snaps.map (fun x =>
      (x.1, x.2.stats.rows, (tableRead env sl.h σ.w {} (some (.id x.1))).map (·.length)))))
    (x := some [(0, 0, .ok 0), (1, 5, .ok 5), (2, 4, .ok 0), (3, 6, .ok 2)]) (by decide +kernel)
  obtain ⟨md, h1, h2⟩ := stored_of_map h4
  exact ⟨σ, md, sl, after_reach unrayedB_unrayed _, h1, h3, h2⟩

/-- A delete that loses rows, and what it takes off the count. -/
example : ∃ σ σ' old, Done env schema 0 (.delete (idIs "gt" 4)) σ σ' ∧ FilterFits schema (idIs "gt" 4) ∧
    Reads env σ mainBranch old ∧ Reads env σ' mainBranch [] ∧ (∀ r ∈ old, (idIs "gt" 4).truth env.I r ≠ none) ∧
    old.length = 5 ∧ (old.filter (fun r => (idIs "gt" 4).truth env.I r == some true)).length = 1 := by
  obtain ⟨σ, σ', h1, -, h2, h3, -⟩ : Before env schema (.delete (idIs "gt" 4))
      [row 1 "a" [1], row 2 "b" [2], row 3 "c" [3], row 4 "d" [4], row 5 "e" [5]] [] :=
    before_of [.call 0 (.mutate (.append [[row 1 "a" [1], row 2 "b" [2], row 3 "c" [3], row 4 "d" [4]],
      [row 5 "e" [5]]]))] (by decide +kernel) (by decide +kernel) (by decide +kernel) (by decide +kernel)
  exact ⟨σ, σ', _, h1, FilterFits.of_flat (by decide) (by decide) (by decide) (by decide) (by decide) (by decide),
    h2, h3, by decide, by decide, by decide⟩

/-- C35 is false after a Ray delete that doubles rows: four rows are counted, ten are read. -/
theorem C35_violated_ray : ∃ σ md snap sl rows, Reach env schema solo σ ∧ σ.w.stored = some md ∧
    md.snaps.get? 2 = some snap ∧ sl ∈ σ.slots ∧
    tableRead env sl.h σ.w {} (some (.id 2)) = .ok rows ∧ rows.length = 10 ∧ snap.stats.rows = 4 := by
  let σ := after env soloB schema [.call 0 (.mutate (.append [[row 1 "a" [1], row 2 "b" [2], row 3 "c" [3], row 4 "d" [4]],
        [row 5 "e" [5], row 6 "f" [6]]])), .call 0 (.mutate (.rayDelete (idIn 3 6)))]
  obtain ⟨md, h1, h2⟩ := stored_of_map (w := σ.w)
    (f := fun md => (md.snaps.get? 2).map (fun x => x.stats.rows)) (x := some 4) (by decide +kernel)
  obtain ⟨sl, -, h3, h4⟩ := slot_of (σ := σ) (i := 0) (f := fun sl => tableRead env sl.h σ.w {} (some (.id 2)))
    (x := .ok [row 5 "e" [5], row 6 "f" [6], row 1 "a" [1], row 2 "b" [2], row 3 "c" [3],
      row 1 "a" [1], row 2 "b" [2], row 3 "c" [3], row 4 "d" [4], row 6 "f" [6]]) (by decide +kernel)
  rw [Option.map_eq_some_iff] at h2
  obtain ⟨snap, h5, h6⟩ := h2
  exact ⟨σ, md, snap, sl, _, after_reach soloB_solo _, h1, h5, h3, h4, rfl, h6⟩

end Space
