import Verif.RecPacking
import Verif.Props.Records
import Verif.Props.Serial

/-!
# C85: an append fills its files up to the size limits
-/

set_option autoImplicit false

namespace Space

open Demo

/-- C85.  After an append the version lists the files of before followed by new ones.  The tables given,
leaving out empty ones, are divided in order into row groups and files as `Packed` says, and each new file holds
its part, with addresses in place of record values. -/
theorem C85 {E : Env} {s : Schema} (hn : s.names.Nodup) {i : Nat} {tables : List (List Row)} {σ σ' : Sys}
    (h : Done E s i (.append tables) σ σ') :
    ∃ sl sl' cur snap new files, σ.slots[i]? = some sl ∧ σ'.slots[i]? = some sl' ∧
      headOf sl.h σ.w = some cur ∧ headOf sl'.h σ'.w = some snap ∧
      listedFiles σ'.w.fs snap.index = listedFiles σ.w.fs cur.index ++ new ∧
      Packed E files ∧
      files.flatten.flatten.map (·.map (deref σ'.w.fs.records s)) =
        (tables.filter (fun t => decide (t ≠ []))).map (·.map (·.select s.writeNames)) ∧
      new.map σ'.w.fs.parquet = files.map (fun f => some (stored E f)) := by
  obtain ⟨sl, sl', w, h1, w1, p, cur, snap, hl, -⟩ := h.landing hn
  have hs := hl.succ
  have hb := hs.body
  simp only [Mutation.body, hs.schema] at hb
  have hp := Post.elim (appendBody_packed (E := E) (s := s) hs.fresh tables) hb
  obtain ⟨files, p1, p2, p3⟩ := hp p rfl
  obtain ⟨hd, -, P, mf, rmf, hfin, -⟩ := hs.append
  have hents := hfin.entries
  refine ⟨sl, sl', cur, snap, mf.map (·.file), files, hl.slot, hl.slot', hs.head, hs.head', ?_, p1, ?_, ?_⟩
  · rw [hs.index, hd]
    unfold listedFiles
    rw [List.flatMap_append, List.map_append]
    congr 1
    · have hkeep : cur.index.filter (fun m => !([] : List Path).contains m) = cur.index :=
        List.filter_eq_self.mpr fun _ _ => rfl
      rw [hkeep, flatMap_congr' fun q hq => entriesOf_mono (hs.grows.le.trans hs.le) (hs.curOK.manifests q hq),
        flatMap_congr' fun q hq => entriesOf_mono hs.earlier (hs.curOK.manifests q hq)]
    · rw [flatMap_congr' fun q hq => entriesOf_mono hs.le (hs.patch.idx q hq), hents]
      simp
  · rw [← p2]
    refine List.map_congr_left fun t ht => ?_
    refine map_deref_mono hs.le.lookLe fun r hr => ?_
    obtain ⟨g, hg, htg⟩ := List.mem_flatten.mp ht
    obtain ⟨f, hf, hgf⟩ := List.mem_flatten.mp hg
    have ht' : t ∈ f.flatten := List.mem_flatten.mpr ⟨g, hgf, htg⟩
    have : some (stored E f) ∈ (p.addIdx.flatMap (entriesOf w1.fs)).map (fun m => w1.fs.parquet m.file) := by
      rw [p3]; exact List.mem_map_of_mem (f := fun f => some (stored E f)) hf
    rw [hents] at this
    obtain ⟨m, hm, hmf⟩ := List.mem_map.mp this
    refine (fileRows_mem (hfin.ents m hm) r ?_).2
    unfold fileRows
    rw [hmf, Option.getD_some, stored_flatten]
    exact List.mem_flatten.mpr ⟨t, ht', hr⟩
  · rw [hents, List.nil_append] at p3
    rw [← p3, List.map_map]
    refine List.map_congr_left fun m hm => ?_
    obtain ⟨g, hg, -⟩ := hfin.ents m hm
    show σ'.w.fs.parquet m.file = _
    rw [hg]
    exact hs.le.parquet hg

/-- C85 for a record field: its values are divided, table by table, into new record files as `RecPacked` says. -/
theorem C85_records {E : Env} {s : Schema} (hn : s.names.Nodup) {i : Nat} {tables : List (List Row)} {σ σ' : Sys}
    (h : Done E s i (.append tables) σ σ') {c : String} (hc : c ∈ s.recNames) :
    ∃ sl sl' cur snap new files, σ.slots[i]? = some sl ∧ σ'.slots[i]? = some sl' ∧
      headOf sl.h σ.w = some cur ∧ headOf sl'.h σ'.w = some snap ∧
      recFilesOf c (snap.recs.flatMap (recEntriesOf σ'.w.fs)) = recFilesOf c (cur.recs.flatMap (recEntriesOf σ.w.fs)) ++ new ∧
      RecPacked E files ∧
      files.flatten.map (·.map (fun b => Val.sc (.bytes b))) =
        (tables.filter (fun t => decide (t ≠ []))).map (·.map (·.val c)) ∧
      new.map σ'.w.fs.records = files.map (fun f => some f.flatten) := by
  obtain ⟨sl, sl', w, h1, w1, p, cur, snap, hl, -⟩ := h.landing hn
  have hs := hl.succ
  have hb := hs.body
  simp only [Mutation.body, hs.schema] at hb
  have hp := Post.elim (appendBody_recs (E := E) (s := s) hn hc hs.fresh tables) hb
  obtain ⟨files, p1, p2, p3⟩ := hp p rfl
  have mono : ∀ {fs fs' : FS} {q : Path}, FSLe fs fs' → RecManifestOK fs q → recEntriesOf fs' q = recEntriesOf fs q := by
    intro fs fs' q hle hq
    obtain ⟨rows, hq, -⟩ := hq
    simp [recEntriesOf, hq, hle.rmanifest hq]
  refine ⟨sl, sl', cur, snap, recFilesOf c (p.addRec.flatMap (recEntriesOf w1.fs)), files, hl.slot, hl.slot', hs.head,
    hs.head', ?_, p1, p2, ?_⟩
  · rw [hs.recs, List.flatMap_append]
    rw [flatMap_congr' fun q hq => mono (hs.grows.le.trans hs.le) (hs.curOK.records q hq),
      flatMap_congr' fun q hq => mono hs.earlier (hs.curOK.records q hq),
      flatMap_congr' fun q hq => mono hs.le (hs.patch.recs q hq)]
    simp [recFilesOf]
  · rw [← p3]
    refine List.map_congr_left fun q hq => ?_
    have : w1.fs.records q ∈ files.map (fun f => some f.flatten) := by
      rw [← p3]; exact List.mem_map_of_mem hq
    obtain ⟨y, -, hy⟩ := List.mem_map.mp this
    rw [← hy]
    exact hs.le.records hy.symm

/-- Row counts of the row groups of the files of the head, per handle. -/
def Demo.headGroups (σ : Sys) : List (Option (List (List Nat))) :=
  σ.slots.map fun sl => (headOf sl.h σ.w).map fun cur =>
    (listedFiles σ.w.fs cur.index).map fun p => ((σ.w.fs.parquet p).getD []).map List.length

/-- Records of the files of field `img` of the head, per handle. -/
def Demo.headRecords (σ : Sys) : List (Option (List (List (List Nat)))) :=
  σ.slots.map fun sl => (headOf sl.h σ.w).map fun cur =>
    (recFilesOf "img" (cur.recs.flatMap (recEntriesOf σ.w.fs))).map fun p => (σ.w.fs.records p).getD []

/-- An append of five tables, one of them empty, where a row group may have one row, a file three and a
record file two before they are closed: two new files, the first of two row groups of which one is made of two
tables, and two new record files. -/
example : ∃ σ σ', Done env schema 0 (.append [[row 2 "b" [2]], [row 3 "c" [3]], [], [row 4 "d" [4], row 5 "e" [5]],
      [row 6 "f" [6]]]) σ σ' ∧ "img" ∈ schema.recNames ∧
    headGroups σ = [some [[1]]] ∧ headGroups σ' = [some [[1], [2, 2], [1]]] ∧
    headRecords σ = [some [[[1]]]] ∧ headRecords σ' = [some [[[1]], [[2], [3], [4], [5]], [[6]]]] := by
  let σ := after env anyB schema [.call 0 (.mutate (.append [[row 1 "a" [1]]]))]
  let m : Mutation := .append [[row 2 "b" [2]], [row 3 "c" [3]], [], [row 4 "d" [4], row 5 "e" [5]], [row 6 "f" [6]]]
  obtain ⟨e, hst⟩ := doing_step (E := env) (s := schema) (σ := σ) (a := .call 0 (.mutate m))
    (o := .res (.job .succeeded)) (by decide +kernel)
  exact ⟨σ, _, .call (after_reach (fun _ _ _ => trivial) _) hst, by decide +kernel, by decide +kernel,
    by decide +kernel, by decide +kernel, by decide +kernel⟩

/-- That division into files is `Packed`. -/
example : Packed env [[[[row 2 "b" [2]], [row 3 "c" [3]]], [[row 4 "d" [4], row 5 "e" [5]]]], [[[row 6 "f" [6]]]]] := by
  have one : ∀ {α : Type} (size : List α → Nat) (limit : Nat) (x : α), size [x] ≤ limit → Under size limit [x] :=
    fun size limit x h => Under.nil.snoc (x := x) h
  refine ⟨[_], [_], rfl, ?_, .inr ⟨[], [_], rfl, by decide, .nil, by simp, .inr ⟨_, by decide, rfl, ?_⟩⟩⟩
  · intro f hf
    simp only [List.mem_singleton] at hf
    subst hf
    refine ⟨⟨[_], _, rfl, one _ _ _ (by decide +kernel), by decide +kernel⟩, fun g hg => ?_⟩
    simp only [List.mem_cons, List.not_mem_nil, or_false] at hg
    rcases hg with rfl | rfl
    · exact ⟨[_], _, rfl, one _ _ _ (by decide +kernel), by decide +kernel⟩
    · exact ⟨[], _, rfl, .nil, by decide +kernel⟩
  · exact one _ _ _ (by decide +kernel)

/-- Two small files are not: the first had to be filled further. -/
example : ¬ Packed env [[[[row 2 "b" [2]]]], [[[row 3 "c" [3]]]]] := by
  rintro ⟨full, rest, he, h1, h2⟩
  have hm : [[[row 2 "b" [2]]]] ∈ full := by
    rcases full with _ | ⟨f, full⟩
    · rcases h2 with rfl | ⟨gs, tail, rfl, -⟩
      · cases he
      · exact absurd (congrArg List.length he) (by simp)
    · rw [List.cons_append, List.cons.injEq] at he
      rw [he.1]
      exact List.mem_cons_self
  obtain ⟨init, last, -, -, h⟩ := (h1 _ hm).1
  exact absurd h (by decide +kernel)

end Space
