import Verif.UpsertMarked
import Verif.Props.RayWrite

/-!
# C08, C58: upserts and inserts for keys of every kind
-/

set_option autoImplicit false

namespace Space

open Demo List

/-- C08, exactly what an upsert does on every layout for stored rows of every kind, null and NaN
keys included: the given keys are distinct and have no nulls; some files of the branch are
changed (`leftMarked`), and the given rows are added.  Each changed file has a row whose key is
not known to differ from the given ones, and every file with a row whose key is one of the given
ones is among them. -/
theorem C08_files {E : Env} {s : Schema} (hk : KeySchema s) {i : Nat} {rows : List Row} {σ σ' : Sys}
    (h : Done E s i (.upsert rows) σ σ') :
    (keysOf s rows).Nodup ∧ KeysGiven s rows ∧
    ∃ sl new lay, σ.slots[i]? = some sl ∧ Reads E σ' sl.h.branch new ∧
      lay.map (·.map (·.2)) = headLayout s sl.h σ.w ∧
      new ~ (leftMarked (keyTruth s rows) lay ++ rows).map (·.select s.writeNames) ∧
      (∀ man ∈ lay, ∀ file ∈ man, file.1 = true → ∃ r ∈ file.2, keyTruth s rows r ≠ some false) ∧
      (∀ man ∈ lay, ∀ file ∈ man, (∃ r ∈ file.2, keyTruth s rows r = some true) → file.1 = true) :=
  h.upsertFiles hk rfl

/-- C58 for upserts by Ray on stored rows of every kind: what the local upsert does. -/
theorem C58_files {E : Env} {s : Schema} (hk : KeySchema s) {i n : Nat} {sched : List Nat} {rows : List Row}
    {σ σ' : Sys} (h : Done E s i (.rayInsert .upsert n sched rows) σ σ') :
    (keysOf s rows).Nodup ∧ KeysGiven s rows ∧
    ∃ sl new lay, σ.slots[i]? = some sl ∧ Reads E σ' sl.h.branch new ∧
      lay.map (·.map (·.2)) = headLayout s sl.h σ.w ∧
      new ~ (leftMarked (keyTruth s rows) lay ++ rows).map (·.select s.writeNames) ∧
      (∀ man ∈ lay, ∀ file ∈ man, file.1 = true → ∃ r ∈ file.2, keyTruth s rows r ≠ some false) ∧
      (∀ man ∈ lay, ∀ file ∈ man, (∃ r ∈ file.2, keyTruth s rows r = some true) → file.1 = true) :=
  h.upsertFiles hk rfl

/-- Two files with a row each that has no key.  An upsert of key 1 changes the first file, and its
row without a key goes; the range of the second shows that it has no key 1, and all its rows stay. -/
example : ∃ σ σ' sl, Done env schema 0 (.upsert [row 1 "A" [2]]) σ σ' ∧ σ.slots[0]? = some sl ∧
    headLayout schema sl.h σ.w =
      [[[rowKeyless "n" [9], row 1 "a" [1], row 2 "b" [2]]], [[row 5 "e" [5], rowKeyless "m" []]]] ∧
    keyTruth schema [row 1 "A" [2]] (rowKeyless "n" [9]) = none ∧
    keyTruth schema [row 1 "A" [2]] (row 1 "a" [1]) = some true ∧
    keyTruth schema [row 1 "A" [2]] (row 5 "e" [5]) = some false ∧
    Reads env σ' sl.h.branch [row 5 "e" [5], rowKeyless "m" [], row 2 "b" [2], row 1 "A" [2]] ∧
    leftMarked (keyTruth schema [row 1 "A" [2]])
      [[(true, [rowKeyless "n" [9], row 1 "a" [1], row 2 "b" [2]])], [(false, [row 5 "e" [5], rowKeyless "m" []])]] =
      [row 2 "b" [2], row 5 "e" [5], rowKeyless "m" []] := by
  let σ := after env anyB schema [.call 0 (.mutate (.append [[rowKeyless "n" [9], row 1 "a" [1], row 2 "b" [2]]])),
    .call 0 (.mutate (.append [[row 5 "e" [5], rowKeyless "m" []]]))]
  obtain ⟨sl, h0, -, h2⟩ := slot_of (σ := σ) (i := 0)
    (f := fun sl => (headLayout schema sl.h σ.w, sl.h.branch))
    (x := ([[[rowKeyless "n" [9], row 1 "a" [1], row 2 "b" [2]]], [[row 5 "e" [5], rowKeyless "m" []]]], mainBranch))
    (by decide +kernel)
  simp only [Prod.mk.injEq] at h2
  obtain ⟨e, hst⟩ := doing_step (E := env) (s := schema) (σ := σ) (a := .call 0 (.mutate (.upsert [row 1 "A" [2]])))
    (o := .res (.job .succeeded)) (by decide +kernel)
  refine ⟨σ, _, sl, .call (after_reach (fun _ _ _ => trivial) _) hst, h0, h2.1, by decide +kernel, by decide +kernel,
    by decide +kernel, ?_, by decide +kernel⟩
  rw [h2.2]
  exact reads_of (by decide +kernel)

/-- C58, what an insert by Ray does with any keys: the same as a local one (`C07_effect`), up to the
order of the rows. -/
theorem C58_insert_effect {E : Env} {s : Schema} (hk : KeySchema s) {i n : Nat} {sched : List Nat} {rows : List Row} :
    (∀ {σ σ' : Sys}, Done E s i (.rayInsert .insert n sched rows) σ σ' →
      (∀ k ∈ keysOf s rows, ∀ v ∈ k, v ≠ .null) ∧ (keysOf s rows).Nodup ∧
      ∃ sl old new, σ.slots[i]? = some sl ∧ Reads E σ sl.h.branch old ∧
        (∀ k ∈ keysOf s rows, .sc .nan ∉ k → k ∉ keysOf s old) ∧
        Reads E σ' sl.h.branch new ∧ new ~ old ++ rows.map (·.select s.writeNames)) ∧
    (∀ {σ σ' : Sys} {sl : Slot} {old : List Row} {r : Result}, Reach E s anyStep σ → σ.slots[i]? = some sl →
      Reads E σ sl.h.branch old → Step E s σ (.call i (.mutate (.rayInsert .insert n sched rows)) r) σ' →
      ((∃ k ∈ keysOf s rows, ∃ v ∈ k, v = .null) ∨ ¬ (keysOf s rows).Nodup ∨
        (∃ k ∈ keysOf s rows, .sc .nan ∉ k ∧ k ∈ keysOf s old)) →
      r ≠ .job .succeeded ∧ σ'.w.stored = σ.w.stored ∧ Reads E σ' sl.h.branch old) := by
  have first : ∀ {σ σ' : Sys}, Done E s i (.rayInsert .insert n sched rows) σ σ' →
      (∀ k ∈ keysOf s rows, ∀ v ∈ k, v ≠ .null) ∧ (keysOf s rows).Nodup ∧
      ∃ sl old new, σ.slots[i]? = some sl ∧ Reads E σ sl.h.branch old ∧
        (∀ k ∈ keysOf s rows, .sc .nan ∉ k → k ∉ keysOf s old) ∧
        Reads E σ' sl.h.branch new ∧ new ~ old ++ rows.map (·.select s.writeNames) := by
    intro σ σ' h
    obtain ⟨sl, sl', w, h1, w1, p, cur, snap, hl, hr, hr'⟩ := h.landing hk.names
    obtain ⟨a, b, c, he⟩ := hl.succ.insertG hk rfl
    refine ⟨?_, a, sl, _, _, hl.slot, hr, ?_, hr', ?_⟩
    · intro k hkm v hv
      obtain ⟨x, hx, rfl⟩ := List.mem_map.mp hkm
      obtain ⟨c, hc, rfl⟩ := List.mem_map.mp hv
      obtain ⟨u, hu⟩ := b x hx c hc
      rw [hu]
      exact fun h => by cases h
    · intro k hkm hnum hold
      rw [keysOf_select hk] at hold
      obtain ⟨x, hx, rfl⟩ := List.mem_map.mp hold
      refine c x hx ?_ hkm
      intro c hc h
      exact hnum (h ▸ List.mem_map_of_mem hc)
    · refine (he.map _).trans ?_
      rw [List.map_append, List.map_map]
      have : (·.select s.writeNames) ∘ (·.select s.writeNames) = ((·.select s.writeNames) : Row → Row) := by
        funext r
        exact select_select (fun c hc => hc)
      rw [this]
  refine ⟨first, ?_⟩
  intro σ σ' sl old r hreach hsl hold hst hbad
  have hr : r ≠ .job .succeeded := by
    rintro rfl
    obtain ⟨a, b, sl', old', -, c1, c2, c3, -⟩ := first (.call hreach hst)
    rw [hsl] at c1
    cases c1
    have : old' = old := by
      have h1 := c2 sl (List.mem_of_getElem? hsl) rfl
      rw [hold sl (List.mem_of_getElem? hsl) rfl] at h1
      exact (Except.ok.inj h1).symm
    subst this
    rcases hbad with ⟨k, hkm, v, hv, hnull⟩ | h | ⟨k, hkm, hnum, hmem⟩
    · exact a k hkm v hv hnull
    · exact h b
    · exact c3 k hkm hnum hmem
  obtain ⟨c1, c2⟩ := C14 hk.names hreach hst (.mutation hr)
  refine ⟨hr, c1, ?_⟩
  intro a ha hb
  rw [c2 sl (List.mem_of_getElem? hsl) a ha {} none (fun _ => hb)]
  exact hold sl (List.mem_of_getElem? hsl) rfl

/-- A row without a key given to an insert by Ray: the insert raises.  One with a NaN that is
there already: the insert takes effect. -/
example : ∃ σ σ' e τ τ', Reach env schema anyStep σ ∧
    Step env schema σ (.call 0 (.mutate (.rayInsert .insert 2 [] [rowKeyless "a" [1]])) (.raised e)) σ' ∧
    Reads env τ mainBranch [rowX .nan "a"] ∧ Done env floatKey 0 (.rayInsert .insert 2 [] [rowX .nan "b"]) τ τ' ∧
    Reads env τ' mainBranch [rowX .nan "a", rowX .nan "b"] := by
  let σ := after env anyB schema []
  let τ := after env anyB floatKey [.call 0 (.mutate (.insert [rowX .nan "a"]))]
  refine ⟨σ, _, .other "ArrowInvalid", τ, _, after_reach (fun _ _ _ => trivial) _,
    (doing_step (E := env) (s := schema) (σ := σ) (a := .call 0 (.mutate (.rayInsert .insert 2 [] _)))
      (o := .res (.raised (.other "ArrowInvalid"))) (by decide +kernel)).2, reads_of (by decide +kernel),
    .call (after_reach (fun _ _ _ => trivial) _)
      (doing_step (E := env) (s := floatKey) (σ := τ) (a := .call 0 (.mutate (.rayInsert .insert 2 [] _)))
      (o := .res (.job .succeeded)) (by decide +kernel)).2, reads_of (by decide +kernel)⟩

end Space
