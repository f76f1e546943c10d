import Verif.Props.UpsertPacking
import Verif.Props.RecStats

/-!
# C85 for the record files of inserts, upserts, deletes and refreshes
-/

set_option autoImplicit false

namespace Space

open Demo

/-- Of a delete and an append, the append alone adds record files. -/
theorem addedRecs_merged {c : String} {fs : FS} {dp ap : Option Patch} {p : Patch}
    (hp : some p = mergePatches [dp, ap]) (hd : (dp.map (·.addRec)).getD [] = []) :
    addedRecs c fs (some p) = addedRecs c fs ap := by
  unfold addedRecs
  rw [Option.map_some, Option.getD_some, (merge_rub hp).2, hd, List.nil_append]

theorem DelPart.addRec {E : Env} {s : Schema} {gone : List Row} {w w1 : World} {index : List Path} {dp : Option Patch}
    (h : DelPart E s gone w w1 index dp) : (dp.map (·.addRec)).getD [] = [] := by
  rcases h with ⟨-, rfl, -⟩ | ⟨e, mf, -, -, hout⟩
  · rfl
  · exact hout.recBytes.2

/-- C85 for a record field and an insert or upsert: its values in the rows given, however many, make one new record file,
listed after those of before, all of which stay listed. -/
theorem C85_insert_records {E : Env} {s : Schema} (hn : s.names.Nodup) {i : Nat} {m : Mutation} {rows : List Row}
    (hm : m = .insert rows ∨ m = .upsert rows) {σ σ' : Sys} (h : Done E s i m σ σ') {c : String} (hc : c ∈ s.recNames) :
    ∃ sl sl' cur snap f, ∃ vals : List (List Nat), σ.slots[i]? = some sl ∧ σ'.slots[i]? = some sl' ∧
      headOf sl.h σ.w = some cur ∧ headOf sl'.h σ'.w = some snap ∧
      recFilesOf c (snap.recs.flatMap (recEntriesOf σ'.w.fs)) = recFilesOf c (cur.recs.flatMap (recEntriesOf σ.w.fs)) ++ [f] ∧
      vals.map (fun b => Val.sc (.bytes b)) = rows.map (·.val c) ∧ σ'.w.fs.records f = some vals := by
  obtain ⟨sl, sl', w, h1, w1, p, cur, snap, hl, -⟩ := h.landing hn
  have hs := hl.succ
  obtain ⟨mode, hbody⟩ : ∃ mode, m.body E h1 = insertBody E h1 mode rows := by
    rcases hm with rfl | rfl
    · exact ⟨.insert, rfl⟩
    · exact ⟨.upsert, rfl⟩
  obtain ⟨e, mf, hout⟩ := hs.inserted hbody
  obtain ⟨w0, dp, ap, P, mf', rmf, g1, f1, g2, hp, hfin, hP, hins, hups, happ⟩ := hout.out
  obtain ⟨-, -, -, -, hne⟩ := primaryKeyFilter_sem hout.key E.I
  have hd : (dp.map (·.addRec)).getD [] = [] := by
    cases mode with
    | insert => rw [(hins rfl).1]; rfl
    | upsert => exact (hups rfl).recBytes.2
  cases ap with
  | none =>
    have h0 := hfin.none_iff.mp rfl
    rw [sumRows_zero hfin.ents, hfin.rowsEq] at h0
    have h0 := List.length_eq_zero_iff.mp (Int.ofNat_eq_zero.mp h0)
    rw [h0] at hP
    exact absurd (List.map_eq_nil_iff.mp hP.symm) hne
  | some a =>
    obtain ⟨files, p1, p2, p3⟩ := Post.elim (appendBody_recs (E := E) (s := s) hn hc f1 [rows]) happ a rfl
    rw [List.filter_cons_of_pos (by simpa using hne)] at p2
    simp only [List.filter_nil, List.map_cons, List.map_nil] at p2
    obtain ⟨vals, hflat, hvals⟩ : ∃ vals, files.flatten = [vals] ∧ vals.map recVal = rows.map (·.val c) := by
      generalize files.flatten = l at p2
      cases l with
      | nil => cases p2
      | cons t l =>
        simp only [List.map_cons, List.cons.injEq, List.map_eq_nil_iff] at p2
        exact ⟨t, by rw [p2.2], p2.1⟩
    have hfiles : files = [[vals]] := by
      refine flatten_single (fun f hf => ?_) hflat
      obtain ⟨full, rest, rfl, q1, q2⟩ := p1
      rcases List.mem_append.mp hf with hf | hf
      · obtain ⟨init, last, rfl, -⟩ := q1 f hf
        simp
      · rcases q2 with rfl | ⟨g, hg, rfl, -⟩
        · cases hf
        · rw [List.mem_singleton.mp hf]; exact hg
    subst hfiles
    have hrp : RayRecPacked E c [[rows]] [[[vals]]] (addedRecs c w1.fs (some p)) := by
      refine ⟨by simpa using p1, ?_, ?_⟩
      · simp [givenCols, hne, hvals]
      · rw [addedRecs_merged hp hd]
        exact p3
    obtain ⟨new, a1, -, -, a4⟩ := hl.rayRecs hrp
    obtain ⟨f, rfl⟩ : ∃ f, new = [f] := by
      cases new with
      | nil => cases a4
      | cons x l =>
        cases l with
        | nil => exact ⟨x, rfl⟩
        | cons y l => simp at a4
    exact ⟨sl, sl', cur, snap, f, vals, hl.slot, hl.slot', hs.head, hs.head', a1, hvals, by simpa using a4⟩

/-- C85 for a record field and a Ray insert or upsert: as for a Ray append. -/
theorem C85_rayInsert_records {E : Env} {s : Schema} (hn : s.names.Nodup) {i n : Nat} {mode : InsertMode} {sched : List Nat}
    {rows : List Row} {σ σ' : Sys} (h : Done E s i (.rayInsert mode n sched rows) σ σ') {c : String} (hc : c ∈ s.recNames) :
    ∃ sl sl' cur snap new, ∃ parts : List (List (List (List (List Nat)))), σ.slots[i]? = some sl ∧ σ'.slots[i]? = some sl' ∧
      headOf sl.h σ.w = some cur ∧ headOf sl'.h σ'.w = some snap ∧
      recFilesOf c (snap.recs.flatMap (recEntriesOf σ'.w.fs)) = recFilesOf c (cur.recs.flatMap (recEntriesOf σ.w.fs)) ++ new ∧
      (∀ files ∈ parts, RecPacked E files) ∧
      parts.map (fun files => files.flatten.map (·.map (fun b => Val.sc (.bytes b)))) =
        (List.range n).map (fun a =>
          ((((rows.drop (a * max 1 (rows.length / n))).take (max 1 (rows.length / n)) ::
            (if a = 0 then [rows.drop (n * max 1 (rows.length / n))] else [])).filter
              (fun t => decide (t ≠ []))).map (·.map (·.val c)))) ∧
      new.map σ'.w.fs.records = parts.flatten.map (fun f => some f.flatten) := by
  obtain ⟨sl, sl', w, h1, w1, p, cur, snap, hl, -⟩ := h.landing hn
  have hs := hl.succ
  obtain ⟨e, mf, hout⟩ := hs.insertedG (mode := mode) (data := rows) rfl
  obtain ⟨w0, dp, ap, P, g1, f1, g2, hp, hga, hP, hins, hups, happ⟩ := hout.out
  have hd : (dp.map (·.addRec)).getD [] = [] := by
    cases mode with
    | insert => rw [(hins rfl).1]; rfl
    | upsert => exact (hups rfl).recBytes.2
  have hpost : Post (rayAppendBody E s n sched rows w0) (fun p w' =>
      ∃ qs parts, shardQueues n rows = .ok qs ∧ RayRecPacked E c qs parts (addedRecs c w'.fs p)) (fun _ => True) := by
    unfold rayAppendBody
    refine Post.bind (Q := fun qs b => shardQueues n rows = .ok qs ∧ w0 = b)
      (Post.lift (fun a ha => ⟨ha, rfl⟩) trivial) ?_
    rintro qs b ⟨hq, rfl⟩
    exact (rayWrite_recs (E := E) hn hc f1 sched qs).imp (fun _ _ ⟨parts, hp⟩ => ⟨qs, parts, hq, hp⟩)
      (fun _ _ => trivial)
  obtain ⟨qs, parts, hq, hpk⟩ := Post.elim hpost happ
  rw [← addedRecs_merged hp hd] at hpk
  obtain ⟨new, a1, a2, a3, a4⟩ := hl.rayRecs hpk
  exact ⟨sl, sl', cur, snap, new, parts, hl.slot, hl.slot', hs.head, hs.head', a1, a2, a3.trans (shardQueues_cols c hq), a4⟩

/-- C85 for a record field and a transaction of a refresh: the record files of before stay listed, and the tables appended are
divided as by a Ray append from sources. -/
theorem C85_refresh_records {E : Env} {s : Schema} (hn : s.names.Nodup) {i n : Nat} {sched : List Nat} {gone : List Row}
    {added : Option (List (List (List Row)))} {σ σ' : Sys} (h : Done E s i (.sync n sched gone added) σ σ')
    {c : String} (hc : c ∈ s.recNames) :
    ∃ sl sl' cur snap new, ∃ parts : List (List (List (List (List Nat)))), σ.slots[i]? = some sl ∧ σ'.slots[i]? = some sl' ∧
      headOf sl.h σ.w = some cur ∧ headOf sl'.h σ'.w = some snap ∧
      recFilesOf c (snap.recs.flatMap (recEntriesOf σ'.w.fs)) = recFilesOf c (cur.recs.flatMap (recEntriesOf σ.w.fs)) ++ new ∧
      (∀ files ∈ parts, RecPacked E files) ∧
      parts.map (fun files => files.flatten.map (·.map (fun b => Val.sc (.bytes b)))) =
        ((added.map (fun sources => (List.range n).map (fun a =>
          ((((List.range sources.length).filter (fun j => decide (j % n = a))).flatMap
            (fun j => sources[j]?.getD [])).filter (fun t => decide (t ≠ []))).map (·.map (·.val c))))).getD []) ∧
      new.map σ'.w.fs.records = parts.flatten.map (fun f => some f.flatten) := by
  obtain ⟨sl, sl', w, h1, w1, p, cur, snap, hl, -⟩ := h.landing hn
  have hs := hl.succ
  obtain ⟨w0, dp, ap, P, g1, f1, g2, hp, hga, hP, hdel, happ⟩ := hs.syncedG.out
  have hpost : Post (syncAppend E s n sched added w0) (fun p w' => ∃ qs parts,
      qs = (added.map (fun sources => (List.range n).map (fun a =>
        ((List.range sources.length).filter (fun j => decide (j % n = a))).flatMap (fun j => sources[j]?.getD [])))).getD [] ∧
      RayRecPacked E c qs parts (addedRecs c w'.fs p)) (fun _ => True) := by
    cases added with
    | none => exact Post.pure ⟨[], [], rfl, ⟨(fun d hd => by cases hd), rfl, rfl⟩⟩
    | some sources =>
      show Post (rayAppendFromAll E s n sched sources w0) _ _
      unfold rayAppendFromAll
      refine Post.bind (Q := fun qs b => sourceQueues n sources = .ok qs ∧ w0 = b)
        (Post.lift (fun a ha => ⟨ha, rfl⟩) trivial) ?_
      rintro qs b ⟨hq, rfl⟩
      exact (rayWrite_recs (E := E) hn hc f1 sched qs).imp (fun _ _ ⟨parts, hp⟩ => ⟨qs, parts, sourceQueues_given hq, hp⟩)
        (fun _ _ => trivial)
  obtain ⟨qs, parts, hq, hpk⟩ := Post.elim hpost happ
  rw [← addedRecs_merged hp hdel.addRec] at hpk
  obtain ⟨new, a1, a2, a3, a4⟩ := hl.rayRecs hpk
  refine ⟨sl, sl', cur, snap, new, parts, hl.slot, hl.slot', hs.head, hs.head', a1, a2, a3.trans ?_, a4⟩
  subst hq
  cases added with
  | none => rfl
  | some sources =>
    simp only [Option.map_some, Option.getD_some, List.map_map]
    rfl

/-- C85 for record files and deletes, of the local runner and of Ray: they write none and list those of before. -/
theorem C85_delete_records {E : Env} {s : Schema} (hn : s.names.Nodup) {i : Nat} {m : Mutation} {e : Expr}
    (hm : m = .delete e ∨ m = .rayDelete e) {σ σ' : Sys} (h : Done E s i m σ σ') :
    ∃ sl sl' cur snap, σ.slots[i]? = some sl ∧ σ'.slots[i]? = some sl' ∧
      headOf sl.h σ.w = some cur ∧ headOf sl'.h σ'.w = some snap ∧
      snap.recs.flatMap (recEntriesOf σ'.w.fs) = cur.recs.flatMap (recEntriesOf σ.w.fs) := by
  obtain ⟨sl, sl', w, h1, w1, p, cur, snap, hl, -⟩ := h.landing hn
  have hs := hl.succ
  have hb := hs.body
  have hr : p.addRec = [] := by
    rcases hm with rfl | rfl
    · simp only [Mutation.body] at hb
      obtain ⟨-, -, cur', mf, -, -, hout⟩ := Post.elim (deleteBody_post (E := E) (e := e) hs.fresh hs.handle) hb
      exact hout.recBytes.2
    · simp only [Mutation.body] at hb
      obtain ⟨-, -, cur', mf, -, -, hout⟩ := Post.elim (rayDeleteBody_post (E := E) (e := e) hs.fresh hn hs.handle) hb
      rcases hout.out with ⟨hx, -⟩ | ⟨q, hx, -, -, -, hd⟩
      · cases hx
      · cases hx
        exact hd.recs
  refine ⟨sl, sl', cur, snap, hl.slot, hl.slot', hs.head, hs.head', ?_⟩
  rw [hs.recs, hr, List.append_nil]
  exact flatMap_congr' fun q hq => (rmanifest_mono (hs.grows.le.trans hs.le) (hs.curOK.records q hq)).trans
    (rmanifest_mono hs.earlier (hs.curOK.records q hq)).symm

/-- A file of two records, and an upsert, a Ray upsert, a transaction of a refresh and a delete. -/
example : "img" ∈ schema.recNames ∧ ∃ σ σ1 σ2 σ3 σ4,
    Done env schema 0 (.upsert [row 1 "A" [3], row 5 "E" [], row 9 "I" [9], row 20 "z" [7]]) σ σ1 ∧
    Done env schema 0 (.rayInsert .upsert 2 [1, 0] [row 1 "A" [3], row 5 "E" [], row 9 "I" [9], row 20 "z" [7]]) σ σ2 ∧
    Done env schema 0 (.sync 2 [1, 0] [row 1 "A" [1]]
      (some [[[row 17 "g" [1]]], [[row 18 "h" [2]]], [[row 19 "i" [3]]]])) σ σ3 ∧
    Done env schema 0 (.delete (idIs "equal" 1)) σ σ4 ∧
    headRecords σ = [some [[[1], [2]]]] ∧ headRecords σ1 = [some [[[1], [2]], [[3], [], [9], [7]]]] ∧
    headRecords σ2 = [some [[[1], [2]], [[3], []], [[9], [7]]]] ∧
    headRecords σ3 = [some [[[1], [2]], [[1], [3]], [[2]]]] ∧ headRecords σ4 = [some [[[1], [2]]]] := by
  let σ := after env anyB schema [.call 0 (.mutate (.append [[row 1 "a" [1], row 2 "b" [2]]]))]
  let m1 : Mutation := .upsert [row 1 "A" [3], row 5 "E" [], row 9 "I" [9], row 20 "z" [7]]
  let m2 : Mutation := .rayInsert .upsert 2 [1, 0] [row 1 "A" [3], row 5 "E" [], row 9 "I" [9], row 20 "z" [7]]
  let m3 : Mutation := .sync 2 [1, 0] [row 1 "A" [1]]
    (some [[[row 17 "g" [1]]], [[row 18 "h" [2]]], [[row 19 "i" [3]]]])
  have hr : Reach env schema anyStep σ := after_reach (fun _ _ _ => trivial) _
  obtain ⟨-, h1⟩ := doing_step (E := env) (s := schema) (σ := σ) (a := .call 0 (.mutate m1))
    (o := .res (.job .succeeded)) (by decide +kernel)
  obtain ⟨-, h2⟩ := doing_step (E := env) (s := schema) (σ := σ) (a := .call 0 (.mutate m2))
    (o := .res (.job .succeeded)) (by decide +kernel)
  obtain ⟨-, h3⟩ := doing_step (E := env) (s := schema) (σ := σ) (a := .call 0 (.mutate m3))
    (o := .res (.job .succeeded)) (by decide +kernel)
  obtain ⟨-, h4⟩ := doing_step (E := env) (s := schema) (σ := σ) (a := .call 0 (.mutate (.delete (idIs "equal" 1))))
    (o := .res (.job .succeeded)) (by decide +kernel)
  exact ⟨by decide, σ, _, _, _, _, .call hr h1, .call hr h2, .call hr h3, .call hr h4, by decide +kernel, by decide +kernel,
    by decide +kernel, by decide +kernel, by decide +kernel⟩

end Space
