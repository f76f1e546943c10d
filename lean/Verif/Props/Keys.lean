import Verif.Props.Delete

/-!
# C07, C08, C09: insert, upsert and unique keys
-/

set_option autoImplicit false

namespace Space

open Demo List

/-! ## C07 -/

/-- The keys of the rows. -/
def keysOf (s : Schema) (rows : List Row) : List (List Val) := rows.map (fun r => s.pks.map r.val)

/-- Two of the given rows share a key, or a key is there already. -/
def Clash (s : Schema) (given old : List Row) : Prop :=
  ¬ (keysOf s given).Nodup ∨ ∃ k ∈ keysOf s given, k ∈ keysOf s old

theorem KeysNum.of_mem {s : Schema} {rows : List Row} (h : KeysNum s rows) {x : Row}
    (hx : keyOf s.pks x ∈ rows.map (keyOf s.pks)) : KeyNum s.pks x := by
  obtain ⟨y, hy, he⟩ := List.mem_map.mp hx
  exact (keyNum_of_eq he).mp (h y hy)

theorem keyOf_select {s : Schema} (hk : KeySchema s) (r : Row) :
    keyOf s.pks (r.select s.writeNames) = keyOf s.pks r :=
  List.map_congr_left fun k h => select_val (writeNames_sub.mpr (hk.keys k h))

theorem keysOf_select {s : Schema} (hk : KeySchema s) (rows : List Row) :
    keysOf s (rows.map (·.select s.writeNames)) = keysOf s rows := by
  unfold keysOf
  rw [List.map_map]
  exact List.map_congr_left fun r _ => keyOf_select hk r

/-- A mutation that does not fail or raise ran its body to the end. -/
theorem body_of_exec {E : Env} {s : Schema} {w w' : World} {md : Metadata} {h h' : Handle} {m : Mutation}
    (hw : WOK s w md) (hh : HandleOK s w h) {j : Job} (hj : j ≠ .failed)
    (hrun : exec E (.mutate m) h w = (.job j, h', w')) :
    ∃ h1 p w1, h1.md = md ∧ h1.branch = h.branch ∧ HandleOK s w h1 ∧ m.body E h1 w = (.ok p, w1) := by
  have key : Post (runMutation E m (h, w)) (fun _ _ => ∃ h1 p w1, h1.md = md ∧ h1.branch = h.branch ∧
      HandleOK s w h1 ∧ m.body E h1 w = (.ok p, w1)) (fun _ => True) := by
    unfold runMutation
    refine Post.bind ((enter_post hw hh).imp (fun _ _ h => h) (fun st hst => trivial)) ?_
    rintro t ⟨h1, w0⟩ ⟨rfl, h2, h3, h4, -⟩
    refine Post.bind (Q := fun a st => h1 = a ∧ st = (h1, w0)) ⟨rfl, rfl⟩ ?_
    rintro _ _ ⟨he, rfl⟩
    subst he
    refine Post.bind (Q := fun p st => m.body E h1 w0 = (.ok p, st.2)) ?_ ?_
    · unfold liftW
      simp only
      cases hbody : m.body E h1 w0 with
      | mk r w1 =>
        cases r with
        | ok p => exact rfl
        | error e => exact trivial
    rintro p ⟨hx, w1⟩ hb
    have : ∃ h1 p w1, h1.md = md ∧ h1.branch = h.branch ∧ HandleOK s w0 h1 ∧ m.body E h1 w0 = (.ok p, w1) :=
      ⟨h1, p, w1, h2, h3, h4, hb⟩
    cases hc : t.commit p (hx, w1) with
    | mk r st =>
      cases r with
      | ok j => exact this
      | error e => exact trivial
  simp only [exec, mutate] at hrun
  cases hr : runMutation E m (h, w) with
  | mk r st =>
    rw [hr] at key hrun
    cases r with
    | ok j => exact key
    | error e =>
      simp only at hrun
      cases hc : e.caught <;> simp [hc] at hrun
      exact absurd hrun.1.symm hj

theorem handle_snapshot (h : Handle) : h.snapshot none = h.md.target h.branch none := rfl

/-- What every handle on the branch of handle `i` reads. -/
theorem reads_target {E : Env} {s : Schema} {σ : Sys} {md : Metadata} (hok : SysOK E s σ md) {i : Nat} {sl : Slot}
    (hsl : σ.slots[i]? = some sl) {old : List Row} (h : Reads E σ sl.h.branch old) :
    ∃ snap, md.target sl.h.branch none = .ok snap ∧ old = (snapRows σ.w.fs s snap).map (·.select s.writeNames) := by
  have hm := List.mem_of_getElem? hsl
  have := h sl hm rfl
  rw [tableRead_full hok.wok (hok.slots _ hm).1] at this
  cases ht : md.target sl.h.branch none with
  | error e => rw [ht] at this; cases this
  | ok snap =>
    rw [ht] at this
    exact ⟨snap, rfl, (Except.ok.inj this).symm⟩

/-- C07 for rows that fit the schema and have no null or NaN in their key: an insert with a
clash of keys fails, and every read stays as it was; without one it succeeds, and the
branch reads as before, followed by exactly the given rows.  In any history.  The
second part covers inserts that other handles run interleaved with: the check for
existing keys is against the rows at the time of the commit.
Missing: rows with a null in their key never clash but are not inserted,
see `C07_violated`; rows with a NaN in their key are inserted though they clash, see
`C07_violated_nan`. -/
theorem C07_partial {E : Env} {s : Schema} (hk : KeySchema s) {i : Nat} {rows : List Row} :
    (∀ {σ σ' : Sys} {sl : Slot} {old : List Row} {r : Result}, Reach E s anyStep σ → σ.slots[i]? = some sl →
      Reads E σ sl.h.branch old → Step E s σ (.call i (.mutate (.insert rows)) r) σ' →
      (KeysNum s rows → Clash s rows old → (r = .job .failed ∨ ∃ e, r = .raised e) ∧ σ'.w.stored = σ.w.stored ∧
        Reads E σ' sl.h.branch old) ∧
      (¬ Clash s rows old → rows ≠ [] → (∀ x ∈ rows, Takes s x) → s.writeNames = s.names →
        branchIn sl.h.branch σ → r = .job .succeeded ∧
        Reads E σ' sl.h.branch (old ++ rows.map (·.select s.names)))) ∧
    (∀ {σ σ' : Sys}, Done E s i (.insert rows) σ σ' →
      ∃ sl old, σ.slots[i]? = some sl ∧ Reads E σ sl.h.branch old ∧ (KeysNum s rows → ¬ Clash s rows old) ∧
        Reads E σ' sl.h.branch (old ++ rows.map (·.select s.writeNames))) := by
  have second : ∀ {σ σ' : Sys}, Done E s i (.insert rows) σ σ' →
      ∃ sl old, σ.slots[i]? = some sl ∧ Reads E σ sl.h.branch old ∧ (KeysNum s rows → ¬ Clash s rows old) ∧
        Reads E σ' sl.h.branch (old ++ rows.map (·.select s.writeNames)) := by
    intro σ σ' h
    obtain ⟨sl, sl', w, h1, w1, p, cur, snap, hl, hr, hr'⟩ := h.landing hk.names
    refine ⟨sl, _, hl.slot, hr, ?_, ?_⟩
    · obtain ⟨a, b, c, -⟩ := hl.succ.insert hk
      rintro hnum (hx | ⟨k, h1, h2⟩)
      · exact hx a
      · rw [keysOf_select hk] at h2
        obtain ⟨x, hx, rfl⟩ := List.mem_map.mp h2
        exact c x hx (hnum.of_mem h1) h1
    · obtain ⟨-, -, -, he⟩ := hl.succ.insert hk
      rw [he, List.map_append, List.map_map] at hr'
      have : (·.select s.writeNames) ∘ (·.select s.writeNames) = ((·.select s.writeNames) : Row → Row) := by
        funext r
        exact select_select (fun c hc => hc)
      rw [this] at hr'
      exact hr'
  refine ⟨?_, second⟩
  intro σ σ' sl old r hreach hsl hold hst
  obtain ⟨md, hok⟩ := reach_ok hk.names hreach
  have hh := (hok.slots _ (List.mem_of_getElem? hsl)).1
  obtain ⟨cur, htar, rfl⟩ := reads_target hok hsl hold
  have hcur := (target_ok hok.wok htar).1
  obtain ⟨hidle, h', w', hrun, hσ'⟩ : sl.phase = .idle ∧ ∃ h' w', exec E (.mutate (.insert rows)) sl.h σ.w = (r, h', w') ∧
      σ'.w = w' := by
    cases hst with
    | call hi hadm hrun =>
      simp only at hsl
      rw [hi] at hsl
      cases hsl
      exact ⟨rfl, _, _, hrun, rfl⟩
  constructor
  · intro hnum hcl
    have hr : r = .job .failed ∨ ∃ e, r = .raised e := by
      cases r with
      | raised e => exact Or.inr ⟨e, rfl⟩
      | returned =>
        simp only [exec] at hrun
        split at hrun <;> cases hrun
      | job j =>
        by_cases hj : j = .failed
        · exact Or.inl (by rw [hj])
        obtain ⟨h1, p, w1, e1, e2, e3, e4⟩ := body_of_exec hok.wok hh hj hrun
        simp only [Mutation.body] at e4
        obtain ⟨-, hf1, hx⟩ := Post.elim (insertBody_post hok.wok.fresh e3 .insert rows) e4
        rcases hx with ⟨hx, -⟩ | ⟨hx, snap, e, mf, hsn, hout⟩
        · subst hx
          rcases hcl with h | ⟨k, h, -⟩
          · exact absurd List.Pairwise.nil h
          · cases h
        · have : snap = cur := by
            have hb := htar
            rw [← e1, ← e2] at hb
            rw [handle_snapshot] at hsn
            rw [hsn] at hb
            exact Except.ok.inj hb
          subst this
          obtain ⟨a, -, c⟩ := hout.keys hk hf1 hcur.manifests
          rcases hcl with h | ⟨k, h1, h2⟩
          · exact absurd a h
          · rw [keysOf_select hk] at h2
            obtain ⟨x, hx, rfl⟩ := List.mem_map.mp h2
            exact absurd h1 (c x hx (hnum.of_mem h1))
    have hq : Quiet (.call i (.mutate (.insert rows)) r) := by
      refine .mutation ?_
      rintro rfl
      rcases hr with h | ⟨e, h⟩ <;> cases h
    obtain ⟨c1, c2⟩ := C14 hk.names hreach hst hq
    refine ⟨hr, c1, ?_⟩
    intro a ha hb
    rw [c2 sl (List.mem_of_getElem? hsl) a ha {} none (fun _ => hb)]
    exact hold sl (List.mem_of_getElem? hsl) rfl
  · intro hcl hne htakes hlast hb
    have hsucc : r = .job .succeeded := by
      obtain ⟨p, h2, w2, hp, he⟩ := exec_total (E := E) (m := .insert rows) (R := fun p => p.isSome = true)
        hk.names hok.wok hh trivial ((branchIn_iff hok).mp hb) (by
          intro h1 e1 e2 hh1
          simp only [Mutation.body]
          refine insertBody_total hk hlast hok.wok.fresh hh1 (cur := cur) ?_ hne htakes ?_ ?_ ?_
          · rw [handle_snapshot, e1, e2]; exact htar
          · exact Classical.byContradiction fun h => hcl (Or.inl h)
          · intro _ x hx hm
            refine hcl (Or.inr ⟨keyOf s.pks x, hm, ?_⟩)
            rw [keysOf_select hk]
            refine List.mem_map.mpr ⟨deref σ.w.fs.records s x, List.mem_map.mpr ⟨x, hx, rfl⟩, ?_⟩
            exact keyOf_deref hk _ x
          · intro h; cases h)
      rw [hrun] at he
      rw [hp] at he
      exact congrArg Prod.fst he
    subst hsucc
    refine ⟨rfl, ?_⟩
    obtain ⟨sl', old', k1, k2, -, k4⟩ := second (.call hreach hst)
    rw [hsl] at k1
    cases k1
    have : old' = (snapRows σ.w.fs s cur).map (·.select s.writeNames) := by
      have h1 := k2 sl (List.mem_of_getElem? hsl) rfl
      rw [hold sl (List.mem_of_getElem? hsl) rfl] at h1
      exact (Except.ok.inj h1).symm
    rw [this, hlast] at k4
    rw [hlast]
    exact k4

/-- Inserts into a table with the keys 1 and 2: 3 is new, 2 is not, and 4 comes twice. -/
example : ∃ σ sl, Reach env schema anyStep σ ∧ σ.slots[0]? = some sl ∧ branchIn sl.h.branch σ ∧
    Reads env σ sl.h.branch [row 1 "a" [1], row 2 "b" [2]] ∧
    ¬ Clash schema [row 3 "c" [3]] [row 1 "a" [1], row 2 "b" [2]] ∧
    Clash schema [row 3 "c" [3], row 2 "d" []] [row 1 "a" [1], row 2 "b" [2]] ∧
    Clash schema [row 4 "c" [3], row 4 "d" []] [row 1 "a" [1], row 2 "b" [2]] ∧
    (∃ σ', Step env schema σ (.call 0 (.mutate (.insert [row 3 "c" [3]])) (.job .succeeded)) σ') ∧
    (∃ σ', Step env schema σ (.call 0 (.mutate (.insert [row 3 "c" [3], row 2 "d" []])) (.job .failed)) σ') ∧
    (∃ σ', Step env schema σ (.call 0 (.mutate (.insert [row 4 "c" [3], row 4 "d" []])) (.job .failed)) σ') := by
  let σ := after env anyB schema [.call 0 (.mutate (.append [[row 1 "a" [1], row 2 "b" [2]]]))]
  obtain ⟨sl, h0, -, h2⟩ := slot_of (σ := σ) (i := 0) (f := fun sl => sl.h.branch) (x := mainBranch) (by decide +kernel)
  refine ⟨σ, sl, after_reach (fun _ _ _ => trivial) _, h0, Or.inl h2, ?_, by unfold Clash; decide, by unfold Clash; decide,
    by unfold Clash; decide, ?_, ?_, ?_⟩
  · rw [h2]
    exact reads_of (by decide +kernel)
  all_goals exact ⟨_, (doing_step (E := env) (s := schema) (σ := σ) (a := .call 0 (.mutate (.insert _)))
    (o := .res (.job _)) (by decide +kernel)).2⟩

/-- A row without a key. -/
def Demo.rowKeyless (t : String) (b : List Nat) : Row :=
  [("id", .null), ("txt", .sc (.str t)), ("img", .sc (.bytes b))]

/-- C07 is false for keys with nulls: one row into an empty table, no clash, and yet it is
not inserted; the comparison with null that `primary_key_filter` builds raises.  An
append takes the same row. -/
theorem C07_violated : ∃ σ σ' sl e σ'', Reach env schema solo σ ∧ σ.slots[0]? = some sl ∧
    Reads env σ sl.h.branch [] ∧ branchIn sl.h.branch σ ∧ ¬ Clash schema [rowKeyless "a" [1]] [] ∧
    Step env schema σ (.call 0 (.mutate (.insert [rowKeyless "a" [1]])) (.raised e)) σ' ∧
    Step env schema σ (.call 0 (.mutate (.append [[rowKeyless "a" [1]]])) (.job .succeeded)) σ'' := by
  let σ := after env soloB schema []
  obtain ⟨sl, h0, -, h2⟩ := slot_of (σ := σ) (i := 0) (f := fun sl => sl.h.branch) (x := mainBranch) (by decide +kernel)
  refine ⟨σ, _, sl, .other "ArrowInvalid", _, after_reach soloB_solo _, h0, ?_, Or.inl h2, by unfold Clash; decide,
    (doing_step (E := env) (s := schema) (σ := σ) (a := .call 0 (.mutate (.insert _)))
      (o := .res (.raised (.other "ArrowInvalid"))) (by decide +kernel)).2,
    (doing_step (E := env) (s := schema) (σ := σ) (a := .call 0 (.mutate (.append _)))
      (o := .res (.job .succeeded)) (by decide +kernel)).2⟩
  rw [h2]
  exact reads_of (by decide +kernel)

/-- C07 is false for keys with NaN: the key is there, the insert clashes with it, and yet it
succeeds; the filter for existing keys compares with `==`, which is false on NaN
(`ops/utils.py:73`, `ops/insert.py:103-106`).  Twice in one insert it is noticed, as the
filters of both rows are written alike (`ops/utils.py:79-86`). -/
theorem C07_violated_nan : ∃ σ σ' σ'' sl, Reach env floatKey solo σ ∧ σ.slots[0]? = some sl ∧
    Reads env σ sl.h.branch [rowX .nan "a"] ∧ Clash floatKey [rowX .nan "b"] [rowX .nan "a"] ∧
    Step env floatKey σ (.call 0 (.mutate (.insert [rowX .nan "b"])) (.job .succeeded)) σ' ∧
    Reads env σ' sl.h.branch [rowX .nan "a", rowX .nan "b"] ∧
    Step env floatKey σ (.call 0 (.mutate (.insert [rowX .nan "b", rowX .nan "c"])) (.job .failed)) σ'' := by
  let σ := after env soloB floatKey [.call 0 (.mutate (.insert [rowX .nan "a"]))]
  obtain ⟨sl, h0, -, h2⟩ := slot_of (σ := σ) (i := 0) (f := fun sl => sl.h.branch) (x := mainBranch) (by decide +kernel)
  refine ⟨σ, _, _, sl, after_reach soloB_solo _, h0, ?_, by unfold Clash; decide,
    (doing_step (E := env) (s := floatKey) (σ := σ) (a := .call 0 (.mutate (.insert _)))
      (o := .res (.job .succeeded)) (by decide +kernel)).2, ?_,
    (doing_step (E := env) (s := floatKey) (σ := σ) (a := .call 0 (.mutate (.insert _)))
      (o := .res (.job .failed)) (by decide +kernel)).2⟩
  · rw [h2]
    exact reads_of (by decide +kernel)
  · rw [h2]
    exact reads_of (by decide +kernel)

/-- What an insert does with any keys.  When it takes effect no given key has a null, the given
keys are distinct (NaN counts as equal to NaN here), no given key without NaN is there already,
and the branch reads as before, followed by the given rows.  And an insert with a clash of which
the key has no NaN, or with a key that has a null, fails and changes nothing. -/
theorem C07_effect {E : Env} {s : Schema} (hk : KeySchema s) {i : Nat} {rows : List Row} :
    (∀ {σ σ' : Sys}, Done E s i (.insert rows) σ σ' →
      (∀ k ∈ keysOf s rows, ∀ v ∈ k, v ≠ .null) ∧ (keysOf s rows).Nodup ∧
      ∃ sl old, σ.slots[i]? = some sl ∧ Reads E σ sl.h.branch old ∧
        (∀ k ∈ keysOf s rows, .sc .nan ∉ k → k ∉ keysOf s old) ∧
        Reads E σ' sl.h.branch (old ++ rows.map (·.select s.writeNames))) ∧
    (∀ {σ σ' : Sys} {sl : Slot} {old : List Row} {r : Result}, Reach E s anyStep σ → σ.slots[i]? = some sl →
      Reads E σ sl.h.branch old → Step E s σ (.call i (.mutate (.insert rows)) r) σ' →
      ((∃ k ∈ keysOf s rows, ∃ v ∈ k, v = .null) ∨ ¬ (keysOf s rows).Nodup ∨
        (∃ k ∈ keysOf s rows, .sc .nan ∉ k ∧ k ∈ keysOf s old)) →
      r ≠ .job .succeeded ∧ σ'.w.stored = σ.w.stored ∧ Reads E σ' sl.h.branch old) := by
  have first : ∀ {σ σ' : Sys}, Done E s i (.insert rows) σ σ' →
      (∀ k ∈ keysOf s rows, ∀ v ∈ k, v ≠ .null) ∧ (keysOf s rows).Nodup ∧
      ∃ sl old, σ.slots[i]? = some sl ∧ Reads E σ sl.h.branch old ∧
        (∀ k ∈ keysOf s rows, .sc .nan ∉ k → k ∉ keysOf s old) ∧
        Reads E σ' sl.h.branch (old ++ rows.map (·.select s.writeNames)) := by
    intro σ σ' h
    obtain ⟨sl, sl', w, h1, w1, p, cur, snap, hl, hr, hr'⟩ := h.landing hk.names
    obtain ⟨a, b, c, he⟩ := hl.succ.insert hk
    refine ⟨?_, a, sl, _, hl.slot, hr, ?_, ?_⟩
    · intro k hkm v hv
      obtain ⟨x, hx, rfl⟩ := List.mem_map.mp hkm
      obtain ⟨c, hc, rfl⟩ := List.mem_map.mp hv
      obtain ⟨u, hu⟩ := b x hx c hc
      rw [hu]
      exact fun h => by cases h
    · intro k hkm hnum hold
      rw [keysOf_select hk] at hold
      obtain ⟨x, hx, rfl⟩ := List.mem_map.mp hold
      refine c x hx ?_ hkm
      intro c hc h
      exact hnum (h ▸ List.mem_map_of_mem hc)
    · rw [he, List.map_append, List.map_map] at hr'
      have : (·.select s.writeNames) ∘ (·.select s.writeNames) = ((·.select s.writeNames) : Row → Row) := by
        funext r
        exact select_select (fun c hc => hc)
      rw [this] at hr'
      exact hr'
  refine ⟨first, ?_⟩
  intro σ σ' sl old r hreach hsl hold hst hbad
  have hr : r ≠ .job .succeeded := by
    rintro rfl
    obtain ⟨a, b, sl', old', c1, c2, c3, -⟩ := first (.call hreach hst)
    rw [hsl] at c1
    cases c1
    have : old' = old := by
      have h1 := c2 sl (List.mem_of_getElem? hsl) rfl
      rw [hold sl (List.mem_of_getElem? hsl) rfl] at h1
      exact (Except.ok.inj h1).symm
    subst this
    rcases hbad with ⟨k, hkm, v, hv, hnull⟩ | h | ⟨k, hkm, hnum, hmem⟩
    · exact a k hkm v hv hnull
    · exact h b
    · exact c3 k hkm hnum hmem
  obtain ⟨c1, c2⟩ := C14 hk.names hreach hst (.mutation hr)
  refine ⟨hr, c1, ?_⟩
  intro a ha hb
  rw [c2 sl (List.mem_of_getElem? hsl) a ha {} none (fun _ => hb)]
  exact hold sl (List.mem_of_getElem? hsl) rfl

/-! ## C08 -/

/-- C08 for stored rows without null or NaN keys and layouts on which the delete of the old rows
loses no file: when an upsert takes effect the given keys are distinct and the branch
reads as the old rows with other keys, together with the given rows.
Missing: other layouts, see `C08_violated_loss`; stored rows with null keys, see
`C08_violated_null`, or NaN, see `C08_violated_nan`. -/
theorem C08_partial {E : Env} {s : Schema} (hk : KeySchema s) {i : Nat} {rows : List Row} {σ σ' : Sys}
    (h : Done E s i (.upsert rows) σ σ') :
    (keysOf s rows).Nodup ∧ ∃ sl old, σ.slots[i]? = some sl ∧ Reads E σ sl.h.branch old ∧
      (KeysSet s old →
        DeleteSafe (fun r => some (decide (s.pks.map r.val ∈ keysOf s rows))) (headLayout s sl.h σ.w) →
        ∃ new, Reads E σ' sl.h.branch new ∧
          new ~ old.filter (fun r => decide (s.pks.map r.val ∉ keysOf s rows)) ++ rows.map (·.select s.writeNames)) := by
  obtain ⟨sl, sl', w, h1, w1, p, cur, snap, hl, hr, hr'⟩ := h.landing hk.names
  obtain ⟨hnd, -⟩ := hl.succ.upsert_lost hk rfl
  refine ⟨hnd, sl, _, hl.slot, hr, fun hset hsafe => ⟨_, hr', ?_⟩⟩
  rw [hl.layout] at hsafe
  have hset' : KeysSet s (snapRows w.fs s cur) := by
    intro r hr k hkk
    have := hset _ (List.mem_map_of_mem hr) k hkk
    rw [select_val (writeNames_sub.mpr (hk.keys k hkk))] at this
    exact this
  obtain ⟨-, -, hperm⟩ := hl.succ.upsert hk rfl hset' hsafe
  refine (hperm.map _).trans ?_
  rw [List.map_append, List.map_map, List.filter_map]
  have : (·.select s.writeNames) ∘ (·.select s.writeNames) = ((·.select s.writeNames) : Row → Row) := by
    funext r
    exact select_select (fun c hc => hc)
  rw [this]
  refine List.Perm.append_right _ (List.Perm.of_eq ?_)
  congr 1
  refine List.filter_congr fun r _ => ?_
  have e : s.pks.map (r.select s.writeNames).val = keyOf s.pks r := keyOf_select hk r
  simp only [Function.comp_apply, e]
  rfl

/-- What an upsert, by the local runner or by Ray, does on every layout. -/
theorem Done.upsertEffect {E : Env} {s : Schema} (hk : KeySchema s) {i : Nat} {m : Mutation} {rows : List Row}
    {σ σ' : Sys} (h : Done E s i m σ σ') (hmi : m.inserts = some (.upsert, rows)) :
    ∃ sl old new, σ.slots[i]? = some sl ∧ Reads E σ sl.h.branch old ∧ Reads E σ' sl.h.branch new ∧
      (KeysSet s old →
        new ~ (leftBy (fun r => some (decide (s.pks.map r.val ∈ keysOf s rows))) (headLayout s sl.h σ.w) ++ rows).map
          (·.select s.writeNames) ∧
        (new ~ old.filter (fun r => decide (s.pks.map r.val ∉ keysOf s rows)) ++ rows.map (·.select s.writeNames) ↔
          Spared (fun r => some (decide (s.pks.map r.val ∈ keysOf s rows))) (headLayout s sl.h σ.w))) := by
  obtain ⟨sl, sl', w, h1, w1, p, cur, snap, hl, hr, hr'⟩ := h.landing hk.names
  refine ⟨sl, _, _, hl.slot, hr, hr', fun hset => ?_⟩
  have hset' : KeysSet s (snapRows w.fs s cur) := by
    intro r hr k hkk
    have := hset _ (List.mem_map_of_mem hr) k hkk
    rw [select_val (writeNames_sub.mpr (hk.keys k hkk))] at this
    exact this
  have hss : (·.select s.writeNames) ∘ (·.select s.writeNames) = ((·.select s.writeNames) : Row → Row) := by
    funext r
    exact select_select (fun c hc => hc)
  have heff : (snapRows σ'.w.fs s snap).map (·.select s.writeNames) ~
      (leftBy (fun r => some (decide (s.pks.map r.val ∈ keysOf s rows))) (layout w.fs s cur)).map (·.select s.writeNames) ++
        rows.map (·.select s.writeNames) := by
    have := (hl.succ.upsert_effect hk hmi hset').map (·.select s.writeNames)
    rw [List.map_append, List.map_map, hss] at this
    exact this
  rw [hl.layout]
  refine ⟨by rw [List.map_append]; exact heff, ?_⟩
  obtain ⟨a1, a2⟩ := leftBy_iff (truth := fun r => some (decide (s.pks.map r.val ∈ keysOf s rows)))
    (lay := layout w.fs s cur) (fun r _ => by simp)
  rw [layout_flatten] at a1 a2
  have hfil : ((snapRows w.fs s cur).map (·.select s.writeNames)).filter (fun r => decide (s.pks.map r.val ∉ keysOf s rows)) =
      ((snapRows w.fs s cur).filter (fun r => some (decide (s.pks.map r.val ∈ keysOf s rows)) != some true)).map
        (·.select s.writeNames) := by
    rw [List.filter_map]
    congr 1
    refine List.filter_congr fun r _ => ?_
    have e : s.pks.map (r.select s.writeNames).val = s.pks.map r.val := keyOf_select hk r
    simp only [Function.comp_apply, e]
    by_cases hx : s.pks.map r.val ∈ keysOf s rows <;> simp [hx]
  rw [hfil]
  constructor
  · intro hp
    refine a1 ?_
    have h3 := (heff.symm.trans hp).length_eq
    simp only [List.length_append, List.length_map] at h3
    omega
  · intro hs
    rw [← a2 hs]
    exact heff

/-- C08, exactly what an upsert does on every layout, for stored rows without null or NaN keys: the
given rows come to what a delete of their keys leaves (`leftBy`).  This is the table with the
rows replaced by key if and only if some file has both rows to replace and rows to keep, or
manifests with rows to replace have no others. -/
theorem C08_effect {E : Env} {s : Schema} (hk : KeySchema s) {i : Nat} {rows : List Row} {σ σ' : Sys}
    (h : Done E s i (.upsert rows) σ σ') :
    ∃ sl old new, σ.slots[i]? = some sl ∧ Reads E σ sl.h.branch old ∧ Reads E σ' sl.h.branch new ∧
      (KeysSet s old →
        new ~ (leftBy (fun r => some (decide (s.pks.map r.val ∈ keysOf s rows))) (headLayout s sl.h σ.w) ++ rows).map
          (·.select s.writeNames) ∧
        (new ~ old.filter (fun r => decide (s.pks.map r.val ∉ keysOf s rows)) ++ rows.map (·.select s.writeNames) ↔
          Spared (fun r => some (decide (s.pks.map r.val ∈ keysOf s rows))) (headLayout s sl.h σ.w))) :=
  h.upsertEffect hk rfl

/-- An upsert succeeds in any state, on a branch that exists, for rows that fit with
distinct keys, if no stored key is null or NaN and no stored file is empty. -/
theorem C08_succeeds {E : Env} {s : Schema} (hk : KeySchema s) (hlast : s.writeNames = s.names)
    {σ : Sys} (hr : Reach E s anyStep σ) {i : Nat} {sl : Slot} (hsl : σ.slots[i]? = some sl)
    (hi : sl.phase = .idle) (hb : branchIn sl.h.branch σ) {rows : List Row} (hne : rows ≠ [])
    (ht : ∀ r ∈ rows, Takes s r) (hd : (keysOf s rows).Nodup)
    (hset : KeysSet s (headLayout s sl.h σ.w).flatten.flatten)
    (hfull : ∀ man ∈ headLayout s sl.h σ.w, ∀ file ∈ man, file ≠ []) :
    ∃ σ', Step E s σ (.call i (.mutate (.upsert rows)) (.job .succeeded)) σ' := by
  obtain ⟨md, hok⟩ := reach_ok hk.names hr
  have hh := (hok.slots _ (List.mem_of_getElem? hsl)).1
  have hob := (branchIn_iff hok).mp hb
  obtain ⟨cur, hid, hget, -⟩ := hob.head hok.wok.ok
  have htar := target_head hid hget
  have hlay : headLayout s sl.h σ.w = layout σ.w.fs s cur := by
    simp [headLayout, headOf, hok.wok.storedEq, htar, Except.toOption]
  rw [hlay] at hset hfull
  rw [layout_flatten] at hset
  obtain ⟨p, h2, w2, hp, he⟩ := exec_total (E := E) (m := .upsert rows) (R := fun p => p.isSome = true)
    hk.names hok.wok hh trivial hob (by
      intro h1 e1 e2 hh1
      simp only [Mutation.body]
      refine insertBody_total hk hlast hok.wok.fresh hh1 (cur := cur) ?_ hne ht hd ?_ ?_
      · rw [handle_snapshot, e1, e2]; exact htar
      · intro h; cases h
      · intro _
        constructor
        · intro x hx k hkk
          obtain ⟨v, hv⟩ := hset _ (List.mem_map_of_mem (f := deref σ.w.fs.records s) hx) k hkk
          have hkr := keyOf_deref hk σ.w.fs.records x
          have := List.map_inj_left.mp hkr k hkk
          exact ⟨v, by rw [← this]; exact hv⟩
        · intro q hq m hm hnil
          refine hfull _ (mem_layout hq) _ (List.mem_map_of_mem hm) ?_
          rw [hnil]
          rfl)
  rw [hp] at he
  exact call_of_exec hsl hi trivial he

/-- An upsert of one old and one new key over two files. -/
example : ∃ σ σ' sl, Done env schema 0 (.upsert [row 2 "B" [9], row 4 "d" [4]]) σ σ' ∧ σ.slots[0]? = some sl ∧
    KeysSet schema [row 1 "a" [1], row 2 "b" [2], row 3 "c" [3]] ∧
    DeleteSafe (fun r => some (decide (schema.pks.map r.val ∈ keysOf schema [row 2 "B" [9], row 4 "d" [4]])))
      (headLayout schema sl.h σ.w) ∧
    Reads env σ sl.h.branch [row 1 "a" [1], row 2 "b" [2], row 3 "c" [3]] ∧
    Reads env σ' sl.h.branch [row 3 "c" [3], row 1 "a" [1], row 2 "B" [9], row 4 "d" [4]] := by
  let σ := after env anyB schema [.call 0 (.mutate (.append [[row 1 "a" [1], row 2 "b" [2]]])),
    .call 0 (.mutate (.append [[row 3 "c" [3]]]))]
  obtain ⟨e, hst⟩ := doing_step (E := env) (s := schema) (σ := σ)
    (a := .call 0 (.mutate (.upsert [row 2 "B" [9], row 4 "d" [4]]))) (o := .res (.job .succeeded)) (by decide +kernel)
  obtain ⟨sl, h0, -, h2⟩ := slot_of (σ := σ) (i := 0)
    (f := fun sl => (headLayout schema sl.h σ.w, sl.h.branch))
    (x := ([[[row 1 "a" [1], row 2 "b" [2]]], [[row 3 "c" [3]]]], mainBranch)) (by decide +kernel)
  simp only [Prod.mk.injEq] at h2
  refine ⟨σ, _, sl, .call (after_reach (fun _ _ _ => trivial) _) hst, h0, ?_, ?_, ?_, ?_⟩
  · intro r hr k hk
    simp only [schema, List.mem_cons, List.not_mem_nil, or_false] at hk hr
    subst hk
    rcases hr with rfl | rfl | rfl <;> exact ⟨_, rfl, by decide⟩
  · rw [h2.1]
    exact Or.inl ⟨_, List.mem_cons_self, _, List.mem_cons_self,
      ⟨row 2 "b" [2], by simp, by decide⟩, ⟨row 1 "a" [1], by simp, by decide⟩⟩
  · rw [h2.2]
    exact reads_of (by decide +kernel)
  · rw [h2.2]
    exact reads_of (by decide +kernel)

/-- The claim of C08 on one upsert. -/
def Upserts (s : Schema) (given old new : List Row) : Prop :=
  new ~ old.filter (fun r => decide (s.pks.map r.val ∉ keysOf s given)) ++ given

/-- C08 is false if a manifest has two files and the upsert replaces all rows of one: the
rows of the other file are lost. -/
theorem C08_violated_loss : ∃ given old new, Before env schema (.upsert given) old new ∧
    KeysSet schema old ∧ ¬ Upserts schema given old new := by
  refine ⟨[row 5 "E" [5]], [row 1 "a" [1], row 2 "b" [2], row 3 "c" [3], row 4 "d" [4], row 5 "e" [5]],
    [row 5 "E" [5]], before_of [.call 0 (.mutate (.append [[row 1 "a" [1], row 2 "b" [2], row 3 "c" [3], row 4 "d" [4]],
        [row 5 "e" [5]]]))] ?_ ?_ ?_ ?_, ?_, ?_⟩
  · decide +kernel
  · decide +kernel
  · decide +kernel
  · decide +kernel
  · intro r hr k hk
    simp only [schema, List.mem_cons, List.not_mem_nil, or_false] at hk hr
    subst hk
    rcases hr with rfl | rfl | rfl | rfl | rfl <;> exact ⟨_, rfl, by decide⟩
  · intro h
    have := h.length_eq
    revert this
    decide

/-- C08 is false if a stored row without a key shares a file with a row that is replaced:
it is not among the given keys and goes nevertheless. -/
theorem C08_violated_null : ∃ given old new, Before env schema (.upsert given) old new ∧
    ¬ Upserts schema given old new := by
  refine ⟨[row 1 "A" [5]], [row 1 "a" [1], rowKeyless "b" [2], row 3 "c" [3]],
    [row 3 "c" [3], row 1 "A" [5]],
    before_of [.call 0 (.mutate (.append [[row 1 "a" [1], rowKeyless "b" [2], row 3 "c" [3]]]))] ?_ ?_ ?_ ?_, ?_⟩
  · decide +kernel
  · decide +kernel
  · decide +kernel
  · decide +kernel
  · intro h
    have := h.length_eq
    revert this
    decide

/-- C08 is false for keys with NaN: the row stored under the given key is not replaced. -/
theorem C08_violated_nan : ∃ given old new, Before env floatKey (.upsert given) old new ∧
    ¬ Upserts floatKey given old new := by
  refine ⟨[rowX .nan "A"], [rowX (.flt 1) "a", rowX .nan "b"], [rowX (.flt 1) "a", rowX .nan "b", rowX .nan "A"],
    before_of [.call 0 (.mutate (.append [[rowX (.flt 1) "a", rowX .nan "b"]]))] ?_ ?_ ?_ ?_, ?_⟩
  · decide +kernel
  · decide +kernel
  · decide +kernel
  · decide +kernel
  · intro h
    have := h.length_eq
    revert this
    decide

/-! ## C09 -/

/-- No key is NaN. -/
def numKey (s : Schema) (r : Row) : Bool := s.pks.all fun k => r.val k != .sc .nan

theorem numKey_iff {s : Schema} {r : Row} : numKey s r = true ↔ KeyNum s.pks r := by
  simp [numKey, KeyNum]

theorem numKey_eq {s : Schema} {a b : Row} (h : keyOf s.pks a = keyOf s.pks b) : numKey s a = numKey s b := by
  rw [Bool.eq_iff_iff, numKey_iff, numKey_iff]
  exact keyNum_of_eq h

/-- No two rows have equal keys; a key with a NaN equals nothing. -/
def UniqueKeys (s : Schema) (rows : List Row) : Prop := (keysOf s (rows.filter (numKey s))).Nodup

/-- The branch has rows, with distinct keys. -/
def UniqueOn (s : Schema) (b : String) (σ : Sys) : Prop :=
  ∃ md snap, σ.w.stored = some md ∧ md.target b none = .ok snap ∧ UniqueKeys s (snapRows σ.w.fs s snap)

/-- Insert, upsert and delete. -/
def Mutation.keyed : Mutation → Prop
  | .insert _ | .upsert _ | .delete _ | .rayInsert _ _ _ _ => True
  | _ => False

theorem inj_of_nodup_map {α β : Type} {f : α → β} : ∀ {l : List α}, (l.map f).Nodup → ∀ {a b : α}, a ∈ l → b ∈ l →
    f a = f b → a = b
  | [], _, _, _, h, _, _ => by cases h
  | x :: l, h, a, b, ha, hb, he => by
    simp only [List.map_cons, List.nodup_cons] at h
    rcases List.mem_cons.mp ha with ha' | ha'
    · rcases List.mem_cons.mp hb with hb' | hb'
      · rw [ha', hb']
      · exact absurd (List.mem_map.mpr ⟨b, hb', by rw [← he, ha']⟩) h.1
    · rcases List.mem_cons.mp hb with hb' | hb'
      · exact absurd (List.mem_map.mpr ⟨a, ha', by rw [he, hb']⟩) h.1
      · exact inj_of_nodup_map h.2 ha' hb' he

theorem nodup_map_disjoint {α β : Type} {f : α → β} {l : List α} (h : (l.map f).Nodup) {p q : α → Bool}
    (hpq : ∀ a ∈ l, ¬ (p a = true ∧ q a = true)) {n : List α} (hn : n.Sublist (l.filter q)) :
    ((l.filter p ++ n).map f).Nodup := by
  rw [List.map_append, List.nodup_append]
  refine ⟨h.sublist (List.filter_sublist.map f), (h.sublist ((hn.trans List.filter_sublist).map f)), ?_⟩
  intro x hx y hy hxy
  subst hxy
  obtain ⟨a, ha, rfl⟩ := List.mem_map.mp hx
  obtain ⟨b, hb, hab⟩ := List.mem_map.mp hy
  have ha' := List.mem_filter.mp ha
  have hb' := List.mem_filter.mp (hn.subset hb)
  have : b = a := by
    exact inj_of_nodup_map h hb'.1 ha'.1 hab
  subst this
  exact hpq b ha'.1 ⟨ha'.2, hb'.2⟩

theorem filter_comm {α : Type} (p q : α → Bool) (l : List α) : (l.filter p).filter q = (l.filter q).filter p := by
  rw [List.filter_filter, List.filter_filter]
  exact List.filter_congr fun x _ => Bool.and_comm ..

/-- A keyed mutation keeps keys unique, among the rows with `q`: a property of keys, that
rows with NaN do not have or the given rows do not need. -/
theorem Success.uniqueG {E : Env} {s : Schema} {m : Mutation} {h h' h1 : Handle} {wb w w' w1 : World} {p : Patch}
    {cur snap : Snapshot} (hk : KeySchema s) (hs : Success E s m h wb w h' w' h1 w1 p cur snap) (hm : m.keyed)
    {q : Row → Bool} (hq : ∀ a b, keyOf s.pks a = keyOf s.pks b → q a = q b)
    (hnum : ∀ mode rows, m.inserts = some (mode, rows) → ∀ r, q r = true → keyOf s.pks r ∈ rows.map (keyOf s.pks) →
      KeyNum s.pks r)
    (hu : (((snapRows w.fs s cur).filter q).map (keyOf s.pks)).Nodup) :
    (((snapRows w'.fs s snap).filter q).map (keyOf s.pks)).Nodup := by
  have hsel : ∀ rows : List Row, ((rows.map (·.select s.writeNames)).filter q).map (keyOf s.pks) =
      (rows.filter q).map (keyOf s.pks) := by
    intro rows
    rw [List.filter_map, List.map_map]
    have : q ∘ (fun r : Row => r.select s.writeNames) = q := by
      funext r
      exact hq _ _ (keyOf_select hk r)
    rw [this]
    exact List.map_congr_left fun r _ => keyOf_select hk r
  have hsub : ∀ {rows : List Row}, (rows.map (keyOf s.pks)).Nodup → ((rows.filter q).map (keyOf s.pks)).Nodup :=
    fun h => h.sublist (List.filter_sublist.map _)
  have ins : ∀ {rows : List Row}, m.inserts = some (.insert, rows) →
      (((snapRows w'.fs s snap).filter q).map (keyOf s.pks)).Nodup := by
    intro rows hmi
    obtain ⟨a, -, c, d⟩ := hs.insertG hk hmi
    refine ((d.filter q).map (keyOf s.pks)).nodup_iff.mpr ?_
    rw [List.filter_append, List.map_append, hsel, List.nodup_append]
    refine ⟨hu, hsub a, ?_⟩
    intro x hx y hy hxy
    subst hxy
    obtain ⟨r, hr, rfl⟩ := List.mem_map.mp hx
    have hr := List.mem_filter.mp hr
    have hy' := (List.filter_sublist.map _).subset hy
    exact c r hr.1 (hnum _ _ hmi r hr.2 hy') hy'
  have ups : ∀ {rows : List Row}, m.inserts = some (.upsert, rows) →
      (((snapRows w'.fs s snap).filter q).map (keyOf s.pks)).Nodup := by
    intro rows hmi
    obtain ⟨a, -, e, kept, nulls, lost, hke, hsem, b1, b2, b3, -⟩ := hs.upsert_lost hk hmi
    have hkept : (((kept ++ lost).filter q).map (keyOf s.pks)).Nodup := by
      refine ((b3.filter q).map _).nodup_iff.mpr ?_
      rw [List.filter_append, filter_comm]
      refine nodup_map_disjoint hu ?_ (q := fun r => e.truth E.I r == none) ?_
      · rintro r - ⟨h1, h2⟩
        simp only [beq_iff_eq] at h1 h2
        rw [h1] at h2
        cases h2
      · rw [filter_comm]
        exact b1.filter q
    refine ((b2.filter q).map (keyOf s.pks)).nodup_iff.mpr ?_
    rw [List.filter_append, List.map_append, hsel, List.nodup_append]
    rw [List.filter_append] at hkept
    refine ⟨hkept.sublist ((List.sublist_append_left _ _).map _), hsub a, ?_⟩
    intro x hx y hy hxy
    subst hxy
    obtain ⟨r, hr, rfl⟩ := List.mem_map.mp hx
    have hr := List.mem_filter.mp hr
    have hy' := (List.filter_sublist.map _).subset hy
    have htrue := (hsem r).mpr ⟨hy', hnum _ _ hmi r hr.2 hy'⟩
    have hmem := b3.subset (List.mem_append_left lost hr.1)
    rcases List.mem_append.mp hmem with h | h
    · have := (List.mem_filter.mp h).2
      rw [htrue] at this
      cases this
    · have := (List.mem_filter.mp (b1.subset h)).2
      rw [htrue] at this
      cases this
  cases m with
  | insert rows => exact ins rfl
  | upsert rows => exact ups rfl
  | rayInsert mode n sched rows =>
    cases mode with
    | insert => exact ins rfl
    | upsert => exact ups rfl
  | delete e =>
    obtain ⟨rest, hp⟩ := hs.delete_rest hk.names
    have : (((snapRows w'.fs s snap ++ rest).filter q).map (keyOf s.pks)).Nodup := ((hp.filter q).map _).nodup_iff.mpr hu
    rw [List.filter_append] at this
    exact this.sublist ((List.sublist_append_left _ _).map _)
  | append _ => cases hm
  | appendParquet _ => cases hm
  | appendArrayRecord _ _ => cases hm
  | rayAppend _ _ _ => cases hm
  | rayAppendFrom _ _ _ => cases hm
  | rayDelete _ => cases hm
  | sync _ _ _ _ => cases hm

/-- A keyed mutation keeps keys unique. -/
theorem Success.unique {E : Env} {s : Schema} {m : Mutation} {h h' h1 : Handle} {wb w w' w1 : World} {p : Patch}
    {cur snap : Snapshot} (hk : KeySchema s) (hs : Success E s m h wb w h' w' h1 w1 p cur snap) (hm : m.keyed)
    (hu : UniqueKeys s (snapRows w.fs s cur)) : UniqueKeys s (snapRows w'.fs s snap) :=
  hs.uniqueG hk hm (fun _ _ => numKey_eq) (fun _ _ _ _ h _ => numKey_iff.mp h) hu

/-- A keyed mutation of rows without NaN keeps keys distinct. -/
theorem Success.distinct {E : Env} {s : Schema} {m : Mutation} {h h' h1 : Handle} {wb w w' w1 : World} {p : Patch}
    {cur snap : Snapshot} (hk : KeySchema s) (hs : Success E s m h wb w h' w' h1 w1 p cur snap) (hm : m.keyed)
    (hnum : ∀ mode rows, m.inserts = some (mode, rows) → KeysNum s rows)
    (hu : (keysOf s (snapRows w.fs s cur)).Nodup) : (keysOf s (snapRows w'.fs s snap)).Nodup := by
  have ft : ∀ l : List Row, l.filter (fun _ => true) = l := fun l => List.filter_eq_self.mpr fun _ _ => rfl
  have := hs.uniqueG hk hm (q := fun _ => true) (fun _ _ _ => rfl)
    (fun mode rows hmi r _ hr => (hnum mode rows hmi).of_mem hr) (by rw [ft]; exact hu)
  rw [ft] at this
  exact this

/-- Calm steps that keep the branch `b` and change it by insert, upsert and delete only. -/
def keyedOn (b : String) (σ : Sys) (ev : Event) : Prop :=
  calm σ ev ∧ (∀ j r, ev ≠ .call j (.removeBranch b) r ∧ ev ≠ .call j (.removeTag b) r) ∧
    ∀ i m, Lands σ ev i m → (∃ sl, σ.slots[i]? = some sl ∧ sl.h.branch = b) → m.keyed

/-- A tidy step that neither commits to nor removes a reference leaves it in place. -/
theorem Change.headKeep {fs0 : FS} {σ : Sys} {ev : Event} {fs' : FS} {md md' : Metadata} (hok : MdOK fs0 md)
    (h : Change σ ev fs' md md') {b : String} {snap : Snapshot} (ht : md.target b none = .ok snap)
    (hc : ¬ CommitEvent σ ev b)
    (hk : ∀ j r, ev ≠ .call j (.removeBranch b) r ∧ ev ≠ .call j (.removeTag b) r) :
    md'.target b none = .ok snap := by
  simp only [Metadata.target] at ht ⊢
  cases h1 : md.currentId b with
  | error e => rw [h1] at ht; cases ht
  | ok n =>
    rw [h1] at ht
    simp only at ht
    have hle : n ≤ md.maxRefId := Live.le hok (currentId_live h1)
    have hkeep : md'.snaps.get? n = md.snaps.get? n := h.keep hle
    have hid : md'.currentId b = .ok n := by
      cases h with
      | same eq => subst eq; exact h1
      | commit b' p k cur snap com new ev =>
        by_cases hbb : b = b'
        · subst hbb
          exact absurd ev hc
        · rw [com.otherHead hbb]; exact h1
      | addRef name kind k can eq =>
        subst eq
        unfold Metadata.currentId Metadata.lookupRef at h1 ⊢
        split at h1
        · rename_i hm
          rw [if_pos hm]
          exact h1
        · rename_i hm
          rw [if_neg hm]
          simp only at h1 ⊢
          rw [AMap.get?_set_ne]
          · exact h1
          · intro he
            rw [he, can.unused] at h1
            cases h1
      | removeRef name kind k was eq call =>
        subst eq
        have hne : name ≠ b := by
          rintro rfl
          obtain ⟨i, r, ⟨-, hc⟩ | ⟨-, hc⟩⟩ := call
          · exact (hk i r).2 hc
          · exact (hk i r).1 hc
        unfold Metadata.currentId Metadata.lookupRef at h1 ⊢
        split at h1
        · rename_i hm
          rw [if_pos hm]
          exact h1
        · rename_i hm
          rw [if_neg hm]
          simp only at h1 ⊢
          rw [AMap.get?_erase_ne _ (fun he => hne he.symm)]
          exact h1
    rw [hid]
    simp only [Metadata.snapshot, hkeep]
    exact ht

theorem UniqueOn.step {E : Env} {s : Schema} (hk : KeySchema s) {b : String} {σ σ' : Sys} {ev : Event}
    (hr : Reach E s calm σ) (hu : UniqueOn s b σ) (hp : keyedOn b σ ev) (hs : Step E s σ ev σ') :
    UniqueOn s b σ' := by
  obtain ⟨md, hok⟩ := reach_ok hk.names (hr.imp anyStep_of)
  obtain ⟨md0, snap, h1, h2, h3⟩ := hu
  have := stored_of hok h1
  subst this
  obtain ⟨md', hok', hle, hch, -, -⟩ := step_full hk.names hok hs
  by_cases hc : CommitEvent σ ev b
  · obtain ⟨i, sl, hsl, hb, hev⟩ := hc
    obtain ⟨m, hd, hm⟩ : ∃ m, Done E s i m σ σ' ∧ m.keyed := by
      rcases hev with ⟨m, rfl⟩ | rfl
      · exact ⟨m, .call (hr.imp anyStep_of) hs, hp.2.2 i m (Or.inl rfl) ⟨sl, hsl, hb⟩⟩
      · obtain ⟨t, m, p, hph⟩ : ∃ t m p, sl.phase = .ready t m p := by
          cases hs with
          | commit hi hrun =>
            simp only at hsl
            rw [hi] at hsl
            cases hsl
            exact ⟨_, _, _, rfl⟩
        exact ⟨m, .commit hr hsl hph hs, hp.2.2 i m (Or.inr ⟨rfl, sl, t, p, hsl, hph⟩) ⟨sl, hsl, hb⟩⟩
    obtain ⟨sl0, sl', w, h1', w1, p, cur, snap', hl, -, -⟩ := hd.landing hk.names
    have := hl.slot
    rw [hsl] at this
    cases this
    have hcur : cur = snap := by
      have := hl.succ.head
      simp only [headOf, hok.wok.storedEq, Option.bind_some, hb, h2, Except.toOption, Option.some.injEq] at this
      exact this.symm
    subst hcur
    refine ⟨md', snap', hok'.wok.storedEq, ?_, hl.succ.unique hk hm ?_⟩
    · have := hl.succ.head'
      simp only [headOf, hok'.wok.storedEq, Option.bind_some, hl.branch, hb] at this
      cases ht : md'.target b none with
      | error e => rw [ht] at this; cases this
      | ok x => rw [ht] at this; cases this; rfl
    · rw [← snapRows_mono hl.succ.earlier hl.succ.curOK]
      exact h3
  · refine ⟨md', snap, hok'.wok.storedEq, (hch hp.1.1).headKeep hok.wok.ok h2 hc hp.2.1, ?_⟩
    rw [snapRows_mono hle (target_ok hok.wok h2).1]
    exact h3

/-- C09 for calm histories (commits are atomic, references are changed through handles
that are up to date, and no branch is removed while a mutation on it is under way): if
the rows on a branch have distinct keys, they have after any steps of any number of
handles, whole calls or interleaved, that change the branch by insert, upsert and
delete; what happens on other branches does not matter.
A key with a NaN counts as different from every key, as `==` has it; taken as a value it
can be there twice, see `C09_violated_nan`.  Missing: other histories, see
`C09_violated`. -/
theorem C09_partial {E : Env} {s : Schema} (hk : KeySchema s) {b : String} {σ σ' : Sys}
    (hr : Reach E s calm σ) (hu : UniqueOn s b σ) (h : Run E s (keyedOn b) σ σ') :
    UniqueOn s b σ' ∧ ∀ sl ∈ σ'.slots, sl.h.branch = b →
      ∃ rows, tableRead E sl.h σ'.w {} none = .ok rows ∧ UniqueKeys s rows := by
  have key : Reach E s calm σ' ∧ UniqueOn s b σ' :=
    Run.invariant (I := fun σ => Reach E s calm σ ∧ UniqueOn s b σ)
      (fun h hp hs => ⟨h.1.step hp.1 hs, h.2.step hk h.1 hp hs⟩) ⟨hr, hu⟩ h
  refine ⟨key.2, fun sl hsl hb => ?_⟩
  obtain ⟨md, hok⟩ := reach_ok hk.names (key.1.imp anyStep_of)
  obtain ⟨md0, snap, h1, h2, h3⟩ := key.2
  have := stored_of hok h1
  subst this
  refine ⟨(snapRows σ'.w.fs s snap).map (·.select s.writeNames), ?_, ?_⟩
  · rw [tableRead_full hok.wok (hok.slots sl hsl).1, hb, h2]
  · unfold UniqueKeys
    rw [List.filter_map]
    have : numKey s ∘ (fun r : Row => r.select s.writeNames) = numKey s := by
      funext r
      exact numKey_eq (keyOf_select hk r)
    rw [this, keysOf_select hk]
    exact h3

/-- In particular from the creation of the storage on. -/
theorem C09_start {E : Env} {s : Schema} (hk : KeySchema s) {σ0 σ : Sys} (h0 : Started s σ0)
    (h : Run E s (keyedOn mainBranch) σ0 σ) : UniqueOn s mainBranch σ := by
  refine (C09_partial hk ⟨σ0, h0, .refl _⟩ ?_ h).1
  obtain ⟨w0, x, he, hc, -⟩ := h0
  obtain ⟨h1, -, -, -, h2⟩ := create_ok he hc
  refine ⟨x.md, { id := 0 }, h1.storedEq, ?_, ?_⟩
  · rw [h2]
    rfl
  · simp [UniqueKeys, keysOf, snapRows, physRows]

/-- Tidy steps; all mutations are inserts, upserts and deletes. -/
def keyedOnly (σ : Sys) (ev : Event) : Prop := tidy σ ev ∧ ∀ i m, Lands σ ev i m → m.keyed

/-- Decides `Mutation.keyed`. -/
def Demo.keyedM : Mutation → Bool
  | .insert _ | .upsert _ | .delete _ => true
  | _ => false

/-- Decides `keyedOnly`. -/
def Demo.keyedOnlyB (σ : Sys) (ev : Event) : Bool :=
  tidyB σ ev && (match ev with
    | .call _ (.mutate m) _ => keyedM m
    | .commit i _ => (match σ.slots[i]? with
      | some ⟨_, .ready _ m _⟩ => keyedM m
      | _ => true)
    | _ => true)

theorem Demo.keyedM_keyed {m : Mutation} (h : keyedM m = true) : m.keyed := by
  cases m <;> first | trivial | cases h

theorem Demo.keyedOnlyB_keyedOnly (σ : Sys) (ev : Event) (h : keyedOnlyB σ ev = true) : keyedOnly σ ev := by
  simp only [keyedOnlyB, Bool.and_eq_true] at h
  refine ⟨tidyB_tidy σ ev h.1, ?_⟩
  rintro i m (rfl | ⟨rfl, ⟨x, ph⟩, t, p, hsl, hph⟩)
  · exact keyedM_keyed h.2
  · simp only at hph
    subst hph
    have := h.2
    simp only [hsl] at this
    exact keyedM_keyed this

/-- C09 is false if a branch is removed and created again while an insert on it is under
way: its head gets the snapshot id it had before, the insert does not notice, and its
check for existing keys was against the rows of the removed branch.  There are only
inserts in this history, and one key is there twice. -/
theorem C09_violated : ∃ σ sl rows, Reach env schema keyedOnly σ ∧ sl ∈ σ.slots ∧
    tableRead env sl.h σ.w {} none = .ok rows ∧ ¬ (keysOf schema rows).Nodup := by
  let σ := after env keyedOnlyB schema [.call 0 (.addBranch "b"), .call 0 (.setBranch "b"),
    .call 0 (.mutate (.insert [row 1 "x" []])), .load, .call 1 (.setBranch "b"), .begin 1 (.insert [row 5 "a" []]),
    .compute 1, .call 0 (.setBranch "main"), .call 0 (.removeBranch "b"), .call 0 (.addBranch "b"),
    .call 0 (.setBranch "b"), .call 0 (.mutate (.insert [row 5 "b" []])), .commit 1]
  obtain ⟨sl, -, h1, h2⟩ := slot_of (σ := σ) (i := 1) (f := fun sl => tableRead env sl.h σ.w {} none)
    (x := .ok [row 5 "b" [], row 5 "a" []]) (by decide +kernel)
  exact ⟨σ, sl, _, after_reach keyedOnlyB_keyedOnly _, h1, h2, by decide⟩

/-- C09 is false of keys with NaN taken as values: inserted twice they are there twice. -/
theorem C09_violated_nan : ∃ σ sl rows, Reach env floatKey (fun σ ev => calm σ ev ∧ keyedOnly σ ev) σ ∧ sl ∈ σ.slots ∧
    tableRead env sl.h σ.w {} none = .ok rows ∧ ¬ (keysOf floatKey rows).Nodup := by
  let σ := after env (fun σ ev => calmB σ ev && keyedOnlyB σ ev) floatKey
    [.call 0 (.mutate (.insert [rowX .nan "a"])), .call 0 (.mutate (.insert [rowX .nan "b"]))]
  obtain ⟨sl, -, h1, h2⟩ := slot_of (σ := σ) (i := 0) (f := fun sl => tableRead env sl.h σ.w {} none)
    (x := .ok [rowX .nan "a", rowX .nan "b"]) (by decide +kernel)
  refine ⟨σ, sl, _, after_reach (fun σ ev h => ?_) _, h1, h2, by decide⟩
  rw [Bool.and_eq_true] at h
  exact ⟨calmB_calm _ _ h.1, keyedOnlyB_keyedOnly _ _ h.2⟩

/-- Decides `keyedOn`. -/
def Demo.keyedOnB (b : String) (σ : Sys) (ev : Event) : Bool :=
  calmB σ ev && keyedOnlyB σ ev && (match ev with
    | .call _ (.removeBranch x) _ | .call _ (.removeTag x) _ => x != b
    | _ => true)

theorem Demo.keyedOnB_keyedOn (b : String) (σ : Sys) (ev : Event) (h : keyedOnB b σ ev = true) : keyedOn b σ ev := by
  simp only [keyedOnB, Bool.and_eq_true] at h
  refine ⟨calmB_calm _ _ h.1.1, ?_, fun i m hl _ => (keyedOnlyB_keyedOnly _ _ h.1.2).2 i m hl⟩
  have h2 := h.2
  intro j r
  constructor <;> (rintro rfl; simp at h2)

/-- Two handles insert, upsert and delete on main, one insert being refused because the
other handle was faster. -/
example : ∃ σ0 σ sl, Started schema σ0 ∧ Run env schema (keyedOn mainBranch) σ0 σ ∧ sl ∈ σ.slots ∧
    tableRead env sl.h σ.w {} none = .ok [row 3 "c" [], row 2 "B" [2]] := by
  let σ := more env (keyedOnB mainBranch) [.call 0 (.mutate (.insert [row 1 "a" [1], row 2 "b" [2]])), .load,
    .begin 1 (.insert [row 3 "x" []]), .compute 1, .call 0 (.mutate (.insert [row 3 "c" []])), .commit 1,
    .call 1 (.mutate (.upsert [row 2 "B" [2]])), .call 0 (.mutate (.delete (idIs "lt" 2)))] (begun schema)
  obtain ⟨sl, -, h1, h2⟩ := slot_of (σ := σ) (i := 1) (f := fun sl => tableRead env sl.h σ.w {} none)
    (x := .ok [row 3 "c" [], row 2 "B" [2]]) (by decide +kernel)
  exact ⟨begun schema, σ, sl, begun_started schema, more_run (keyedOnB_keyedOn _) _ _, h1, h2⟩

end Space
