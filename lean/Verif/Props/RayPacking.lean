import Verif.RayPacking
import Verif.RayRecPacking
import Verif.Props.Packing

/-!
# C85 for Ray appends: every actor fills its own files up to the size limits
-/

set_option autoImplicit false

namespace Space

open Demo

/-- The version after a landing whose patch only adds files. -/
theorem Landing.rayPacked {E : Env} {s : Schema} {i : Nat} {m : Mutation} {σ σ' : Sys} {sl sl' : Slot} {w : World}
    {h1 : Handle} {w1 : World} {p : Patch} {cur snap : Snapshot}
    (hl : Landing E s m i σ σ' sl sl' w h1 w1 p cur snap) (hd : p.delIdx = [])
    {qs : List (List (List Row))} {parts : List (List (List (List (List Row))))}
    (hp : RayPacked E s w1.fs qs parts (addedFiles w1.fs (some p))) :
    ∃ new, listedFiles σ'.w.fs snap.index = listedFiles σ.w.fs cur.index ++ new ∧
      (∀ files ∈ parts, Packed E files) ∧
      parts.map (fun files => files.flatten.flatten.map (·.map (deref σ'.w.fs.records s))) = qs.map (givenTables s) ∧
      new.map σ'.w.fs.parquet = parts.flatten.map (fun f => some (stored E f)) := by
  have hs := hl.succ
  obtain ⟨r1, r2, r3⟩ := hp
  refine ⟨(p.addIdx.flatMap (entriesOf w1.fs)).map (·.file), ?_, r1, ?_, ?_⟩
  · rw [hs.index, hd]
    unfold listedFiles
    rw [List.flatMap_append, List.map_append]
    congr 1
    · have hkeep : cur.index.filter (fun m => !([] : List Path).contains m) = cur.index :=
        List.filter_eq_self.mpr fun _ _ => rfl
      rw [hkeep, flatMap_congr' fun q hq => entriesOf_mono (hs.grows.le.trans hs.le) (hs.curOK.manifests q hq),
        flatMap_congr' fun q hq => entriesOf_mono hs.earlier (hs.curOK.manifests q hq)]
    · rw [flatMap_congr' fun q hq => entriesOf_mono hs.le (hs.patch.idx q hq)]
  · rw [← r2]
    refine List.map_congr_left fun files hfiles => List.map_congr_left fun t ht => ?_
    refine map_deref_mono hs.le.lookLe fun r hr => ?_
    obtain ⟨g, hg, htg⟩ := List.mem_flatten.mp ht
    obtain ⟨f, hf, hgf⟩ := List.mem_flatten.mp hg
    have ht' : t ∈ f.flatten := List.mem_flatten.mpr ⟨g, hgf, htg⟩
    have : some (stored E f) ∈ addedFiles w1.fs (some p) := by
      rw [r3]
      exact List.mem_map_of_mem (f := fun f => some (stored E f)) (List.mem_flatten.mpr ⟨files, hfiles, hf⟩)
    obtain ⟨m, hm, hmf⟩ := List.mem_map.mp this
    obtain ⟨x, hx, hm⟩ := List.mem_flatMap.mp hm
    refine (fileRows_mem ((hs.patch.idx x hx).entry hm) r ?_).2
    unfold fileRows
    rw [hmf, Option.getD_some, stored_flatten]
    exact List.mem_flatten.mpr ⟨t, ht', hr⟩
  · rw [← r3, List.map_map]
    refine List.map_congr_left fun m hm => ?_
    obtain ⟨x, hx, hm⟩ := List.mem_flatMap.mp hm
    obtain ⟨g, hg, -⟩ := (hs.patch.idx x hx).entry hm
    show σ'.w.fs.parquet m.file = _
    rw [hg]
    exact hs.le.parquet hg

/-- C85 for a Ray append of one table by `n` actors, whatever their schedule.  Actor `i` is given the `i`-th
piece of `max 1 (rows / n)` rows, and the first one also what is left over.  The version lists the files of before
followed by those of actor 0, of actor 1, and so on, and the tables of each actor are divided as `Packed` says. -/
theorem C85_ray {E : Env} {s : Schema} (hn : s.names.Nodup) {i n : Nat} {sched : List Nat} {rows : List Row} {σ σ' : Sys}
    (h : Done E s i (.rayAppend n sched rows) σ σ') :
    ∃ sl sl' cur snap new, ∃ parts : List (List (List (List (List Row)))), σ.slots[i]? = some sl ∧ σ'.slots[i]? = some sl' ∧
      headOf sl.h σ.w = some cur ∧ headOf sl'.h σ'.w = some snap ∧
      listedFiles σ'.w.fs snap.index = listedFiles σ.w.fs cur.index ++ new ∧
      (∀ files ∈ parts, Packed E files) ∧
      parts.map (fun files => files.flatten.flatten.map (·.map (deref σ'.w.fs.records s))) =
        (List.range n).map (fun a =>
          ((((rows.drop (a * max 1 (rows.length / n))).take (max 1 (rows.length / n)) ::
            (if a = 0 then [rows.drop (n * max 1 (rows.length / n))] else [])).filter
              (fun t => decide (t ≠ []))).map (·.map (·.select s.writeNames)))) ∧
      new.map σ'.w.fs.parquet = parts.flatten.map (fun f => some (stored E f)) := by
  obtain ⟨sl, sl', w, h1, w1, p, cur, snap, hl, -⟩ := h.landing hn
  have hs := hl.succ
  have hb := hs.body
  simp only [Mutation.body, hs.schema] at hb
  have hpost : Post (rayAppendBody E s n sched rows w) (fun p w' => (∀ q, p = some q → q.delIdx = []) ∧
      ∃ qs parts, shardQueues n rows = .ok qs ∧ RayPacked E s w'.fs qs parts (addedFiles w'.fs p)) (fun _ => True) := by
    unfold rayAppendBody
    refine Post.bind (Q := fun qs b => shardQueues n rows = .ok qs ∧ w = b)
      (Post.lift (fun a ha => ⟨ha, rfl⟩) trivial) ?_
    rintro qs b ⟨hq, rfl⟩
    refine ((rayWrite_post hs.fresh sched qs).and (rayWrite_packed (E := E) (s := s) hs.fresh sched qs)).imp ?_
      (fun _ _ => trivial)
    rintro p w' ⟨⟨-, -, P, hg, -⟩, parts, hp⟩
    exact ⟨hg.del, qs, parts, hq, hp⟩
  obtain ⟨hd, qs, parts, hq, hp⟩ := Post.elim hpost hb
  obtain ⟨new, a1, a2, a3, a4⟩ := hl.rayPacked (hd p rfl) hp
  refine ⟨sl, sl', cur, snap, new, parts, hl.slot, hl.slot', hs.head, hs.head', a1, a2, ?_, a4⟩
  rw [a3, shardQueues_given s hq]
  rfl

/-- C85 for a Ray append from sources by `k` actors, the smaller of the number of sources and the parallelism:
actor `a` is given the tables of the sources `j` with `j % k = a`, in order. -/
theorem C85_rayFrom {E : Env} {s : Schema} (hn : s.names.Nodup) {i n : Nat} {sched : List Nat}
    {sources : List (List (List Row))} {σ σ' : Sys} (h : Done E s i (.rayAppendFrom n sched sources) σ σ') :
    ∃ sl sl' cur snap new, ∃ parts : List (List (List (List (List Row)))), σ.slots[i]? = some sl ∧ σ'.slots[i]? = some sl' ∧
      headOf sl.h σ.w = some cur ∧ headOf sl'.h σ'.w = some snap ∧
      listedFiles σ'.w.fs snap.index = listedFiles σ.w.fs cur.index ++ new ∧
      (∀ files ∈ parts, Packed E files) ∧
      parts.map (fun files => files.flatten.flatten.map (·.map (deref σ'.w.fs.records s))) =
        (List.range (min sources.length n)).map (fun a =>
          ((((List.range sources.length).filter (fun j => decide (j % min sources.length n = a))).flatMap
            (fun j => sources[j]?.getD [])).filter (fun t => decide (t ≠ []))).map (·.map (·.select s.writeNames))) ∧
      new.map σ'.w.fs.parquet = parts.flatten.map (fun f => some (stored E f)) := by
  obtain ⟨sl, sl', w, h1, w1, p, cur, snap, hl, -⟩ := h.landing hn
  have hs := hl.succ
  have hb := hs.body
  simp only [Mutation.body, hs.schema] at hb
  have hpost : Post (rayAppendFromBody E s n sched sources w) (fun p w' => (∀ q, p = some q → q.delIdx = []) ∧
      ∃ qs parts, sourceQueues (min sources.length n) sources = .ok qs ∧
        RayPacked E s w'.fs qs parts (addedFiles w'.fs p)) (fun _ => True) := by
    unfold rayAppendFromBody rayAppendFromAll
    refine Post.bind (Q := fun qs b => sourceQueues (min sources.length n) sources = .ok qs ∧ w = b)
      (Post.lift (fun a ha => ⟨ha, rfl⟩) trivial) ?_
    rintro qs b ⟨hq, rfl⟩
    refine ((rayWrite_post hs.fresh sched qs).and (rayWrite_packed (E := E) (s := s) hs.fresh sched qs)).imp ?_
      (fun _ _ => trivial)
    rintro p w' ⟨⟨-, -, P, hg, -⟩, parts, hp⟩
    exact ⟨hg.del, qs, parts, hq, hp⟩
  obtain ⟨hd, qs, parts, hq, hp⟩ := Post.elim hpost hb
  obtain ⟨new, a1, a2, a3, a4⟩ := hl.rayPacked (hd p rfl) hp
  refine ⟨sl, sl', cur, snap, new, parts, hl.slot, hl.slot', hs.head, hs.head', a1, a2, ?_, a4⟩
  rw [a3, sourceQueues_given hq, List.map_map]
  rfl

/-- The record files of the version after a landing. -/
theorem Landing.rayRecs {E : Env} {s : Schema} {i : Nat} {m : Mutation} {σ σ' : Sys} {sl sl' : Slot} {w : World}
    {h1 : Handle} {w1 : World} {p : Patch} {cur snap : Snapshot}
    (hl : Landing E s m i σ σ' sl sl' w h1 w1 p cur snap) {c : String}
    {qs : List (List (List Row))} {parts : List (List (List (List (List Nat))))}
    (hp : RayRecPacked E c qs parts (addedRecs c w1.fs (some p))) :
    ∃ new, recFilesOf c (snap.recs.flatMap (recEntriesOf σ'.w.fs)) =
        recFilesOf c (cur.recs.flatMap (recEntriesOf σ.w.fs)) ++ new ∧
      (∀ files ∈ parts, RecPacked E files) ∧
      parts.map (fun files => files.flatten.map (·.map recVal)) = qs.map (givenCols c) ∧
      new.map σ'.w.fs.records = parts.flatten.map (fun f => some f.flatten) := by
  have hs := hl.succ
  obtain ⟨r1, r2, r3⟩ := hp
  have mono : ∀ {fs fs' : FS} {q : Path}, FSLe fs fs' → RecManifestOK fs q → recEntriesOf fs' q = recEntriesOf fs q :=
    fun hle hq => rmanifest_mono hle hq
  refine ⟨recFilesOf c (p.addRec.flatMap (recEntriesOf w1.fs)), ?_, r1, r2, ?_⟩
  · rw [hs.recs, List.flatMap_append]
    rw [flatMap_congr' fun q hq => mono (hs.grows.le.trans hs.le) (hs.curOK.records q hq),
      flatMap_congr' fun q hq => mono hs.earlier (hs.curOK.records q hq),
      flatMap_congr' fun q hq => mono hs.le (hs.patch.recs q hq)]
    simp [recFilesOf]
  · have r3 : (recFilesOf c (p.addRec.flatMap (recEntriesOf w1.fs))).map w1.fs.records = _ := r3
    rw [← r3]
    refine List.map_congr_left fun q hq => ?_
    have : w1.fs.records q ∈ parts.flatten.map (fun f => some f.flatten) := by
      rw [← r3]; exact List.mem_map_of_mem hq
    obtain ⟨y, -, hy⟩ := List.mem_map.mp this
    rw [← hy]
    exact hs.le.records hy.symm

/-- C85 for a record field and a Ray append of one table: every actor divides the columns of its pieces into new record
files as `RecPacked` says. -/
theorem C85_ray_records {E : Env} {s : Schema} (hn : s.names.Nodup) {i n : Nat} {sched : List Nat} {rows : List Row}
    {σ σ' : Sys} (h : Done E s i (.rayAppend n sched rows) σ σ') {c : String} (hc : c ∈ s.recNames) :
    ∃ sl sl' cur snap new, ∃ parts : List (List (List (List (List Nat)))), σ.slots[i]? = some sl ∧ σ'.slots[i]? = some sl' ∧
      headOf sl.h σ.w = some cur ∧ headOf sl'.h σ'.w = some snap ∧
      recFilesOf c (snap.recs.flatMap (recEntriesOf σ'.w.fs)) = recFilesOf c (cur.recs.flatMap (recEntriesOf σ.w.fs)) ++ new ∧
      (∀ files ∈ parts, RecPacked E files) ∧
      parts.map (fun files => files.flatten.map (·.map (fun b => Val.sc (.bytes b)))) =
        (List.range n).map (fun a =>
          ((((rows.drop (a * max 1 (rows.length / n))).take (max 1 (rows.length / n)) ::
            (if a = 0 then [rows.drop (n * max 1 (rows.length / n))] else [])).filter
              (fun t => decide (t ≠ []))).map (·.map (·.val c)))) ∧
      new.map σ'.w.fs.records = parts.flatten.map (fun f => some f.flatten) := by
  obtain ⟨sl, sl', w, h1, w1, p, cur, snap, hl, -⟩ := h.landing hn
  have hs := hl.succ
  have hb := hs.body
  simp only [Mutation.body, hs.schema] at hb
  have hpost : Post (rayAppendBody E s n sched rows w) (fun p w' =>
      ∃ qs parts, shardQueues n rows = .ok qs ∧ RayRecPacked E c qs parts (addedRecs c w'.fs p)) (fun _ => True) := by
    unfold rayAppendBody
    refine Post.bind (Q := fun qs b => shardQueues n rows = .ok qs ∧ w = b)
      (Post.lift (fun a ha => ⟨ha, rfl⟩) trivial) ?_
    rintro qs b ⟨hq, rfl⟩
    exact (rayWrite_recs (E := E) hn hc hs.fresh sched qs).imp (fun _ _ ⟨parts, hp⟩ => ⟨qs, parts, hq, hp⟩)
      (fun _ _ => trivial)
  obtain ⟨qs, parts, hq, hp⟩ := Post.elim hpost hb
  obtain ⟨new, a1, a2, a3, a4⟩ := hl.rayRecs hp
  refine ⟨sl, sl', cur, snap, new, parts, hl.slot, hl.slot', hs.head, hs.head', a1, a2, ?_, a4⟩
  exact a3.trans (shardQueues_cols c hq)

/-- C85 for a record field and a Ray append from sources. -/
theorem C85_rayFrom_records {E : Env} {s : Schema} (hn : s.names.Nodup) {i n : Nat} {sched : List Nat}
    {sources : List (List (List Row))} {σ σ' : Sys} (h : Done E s i (.rayAppendFrom n sched sources) σ σ')
    {c : String} (hc : c ∈ s.recNames) :
    ∃ sl sl' cur snap new, ∃ parts : List (List (List (List (List Nat)))), σ.slots[i]? = some sl ∧ σ'.slots[i]? = some sl' ∧
      headOf sl.h σ.w = some cur ∧ headOf sl'.h σ'.w = some snap ∧
      recFilesOf c (snap.recs.flatMap (recEntriesOf σ'.w.fs)) = recFilesOf c (cur.recs.flatMap (recEntriesOf σ.w.fs)) ++ new ∧
      (∀ files ∈ parts, RecPacked E files) ∧
      parts.map (fun files => files.flatten.map (·.map (fun b => Val.sc (.bytes b)))) =
        (List.range (min sources.length n)).map (fun a =>
          ((((List.range sources.length).filter (fun j => decide (j % min sources.length n = a))).flatMap
            (fun j => sources[j]?.getD [])).filter (fun t => decide (t ≠ []))).map (·.map (·.val c))) ∧
      new.map σ'.w.fs.records = parts.flatten.map (fun f => some f.flatten) := by
  obtain ⟨sl, sl', w, h1, w1, p, cur, snap, hl, -⟩ := h.landing hn
  have hs := hl.succ
  have hb := hs.body
  simp only [Mutation.body, hs.schema] at hb
  have hpost : Post (rayAppendFromBody E s n sched sources w) (fun p w' =>
      ∃ qs parts, sourceQueues (min sources.length n) sources = .ok qs ∧
        RayRecPacked E c qs parts (addedRecs c w'.fs p)) (fun _ => True) := by
    unfold rayAppendFromBody rayAppendFromAll
    refine Post.bind (Q := fun qs b => sourceQueues (min sources.length n) sources = .ok qs ∧ w = b)
      (Post.lift (fun a ha => ⟨ha, rfl⟩) trivial) ?_
    rintro qs b ⟨hq, rfl⟩
    exact (rayWrite_recs (E := E) hn hc hs.fresh sched qs).imp (fun _ _ ⟨parts, hp⟩ => ⟨qs, parts, hq, hp⟩)
      (fun _ _ => trivial)
  obtain ⟨qs, parts, hq, hp⟩ := Post.elim hpost hb
  obtain ⟨new, a1, a2, a3, a4⟩ := hl.rayRecs hp
  refine ⟨sl, sl', cur, snap, new, parts, hl.slot, hl.slot', hs.head, hs.head', a1, a2, ?_, a4⟩
  refine a3.trans ?_
  rw [sourceQueues_given hq, List.map_map]
  rfl

/-- Seven rows appended by two actors: three to each and one left over for the first. -/
example : ∃ σ σ', Done env schema 0 (.rayAppend 2 [1, 0] [row 2 "b" [2], row 3 "c" [3], row 4 "d" [4], row 5 "e" [5],
      row 6 "f" [6], row 7 "g" [7], row 8 "h" [8]]) σ σ' ∧
    headGroups σ = [some [[1]]] ∧ headGroups σ' = [some [[1], [3, 1], [3]]] ∧
    headRecords σ' = [some [[[1]], [[2], [3], [4]], [[8]], [[5], [6], [7]]]] := by
  let σ := after env anyB schema [.call 0 (.mutate (.append [[row 1 "a" [1]]]))]
  let m : Mutation := .rayAppend 2 [1, 0] [row 2 "b" [2], row 3 "c" [3], row 4 "d" [4], row 5 "e" [5],
      row 6 "f" [6], row 7 "g" [7], row 8 "h" [8]]
  obtain ⟨e, hst⟩ := doing_step (E := env) (s := schema) (σ := σ) (a := .call 0 (.mutate m))
    (o := .res (.job .succeeded)) (by decide +kernel)
  exact ⟨σ, _, .call (after_reach (fun _ _ _ => trivial) _) hst, by decide +kernel, by decide +kernel, by decide +kernel⟩

/-- Three sources appended by two actors: the first one takes the first and the third. -/
example : ∃ σ σ', Done env schema 0 (.rayAppendFrom 2 [1, 0] [[[row 2 "b" [2]], [row 3 "c" [3]]], [[row 4 "d" [4]]],
      [[], [row 5 "e" [5], row 6 "f" [6]]]]) σ σ' ∧
    headGroups σ = [some [[1]]] ∧ headGroups σ' = [some [[1], [2, 2], [1]]] ∧
    headRecords σ' = [some [[[1]], [[2], [3], [5], [6]], [[4]]]] := by
  let σ := after env anyB schema [.call 0 (.mutate (.append [[row 1 "a" [1]]]))]
  let m : Mutation := .rayAppendFrom 2 [1, 0] [[[row 2 "b" [2]], [row 3 "c" [3]]], [[row 4 "d" [4]]],
      [[], [row 5 "e" [5], row 6 "f" [6]]]]
  obtain ⟨e, hst⟩ := doing_step (E := env) (s := schema) (σ := σ) (a := .call 0 (.mutate m))
    (o := .res (.job .succeeded)) (by decide +kernel)
  exact ⟨σ, _, .call (after_reach (fun _ _ _ => trivial) _) hst, by decide +kernel, by decide +kernel, by decide +kernel⟩

end Space
