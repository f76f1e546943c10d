import Verif.Props.RayPacking
import Verif.Props.DeletePacking

/-!
# C85 for Ray inserts and upserts: the rows given are divided as by a Ray append
-/

set_option autoImplicit false

namespace Space

open Demo

theorem rayAppendBody_packed {E : Env} {s : Schema} {w : World} (hf : w.Fresh) (n : Nat) (sched : List Nat)
    (rows : List Row) :
    Post (rayAppendBody E s n sched rows w) (fun p w' => ∃ qs parts, shardQueues n rows = .ok qs ∧
      RayPacked E s w'.fs qs parts (addedFiles w'.fs p)) (fun _ => True) := by
  unfold rayAppendBody
  refine Post.bind (Q := fun qs b => shardQueues n rows = .ok qs ∧ w = b)
    (Post.lift (fun a ha => ⟨ha, rfl⟩) trivial) ?_
  rintro qs b ⟨hq, rfl⟩
  refine (rayWrite_packed (E := E) (s := s) hf sched qs).imp ?_ (fun _ _ => trivial)
  rintro p w' ⟨parts, hp⟩
  exact ⟨qs, parts, hq, hp⟩

/-- C85 for Ray inserts and upserts of one table by `n` actors, whatever their schedule: the rows given are divided
among the actors as by a Ray append, and what each actor is given is divided into files as `Packed` says.  The version
lists the files of actor 0, of actor 1, and so on, after all others; an insert leaves the files of before as they were. -/
theorem C85_rayInsert {E : Env} {s : Schema} (hn : s.names.Nodup) {i n : Nat} {mode : InsertMode} {sched : List Nat}
    {rows : List Row} {σ σ' : Sys} (h : Done E s i (.rayInsert mode n sched rows) σ σ') :
    ∃ sl sl' cur snap now new, ∃ parts : List (List (List (List (List Row)))),
      σ.slots[i]? = some sl ∧ σ'.slots[i]? = some sl' ∧
      headOf sl.h σ.w = some cur ∧ headOf sl'.h σ'.w = some snap ∧
      listedFiles σ'.w.fs snap.index = now ++ new ∧ (∀ f ∈ new, f ∉ listedFiles σ.w.fs cur.index) ∧
      (∀ files ∈ parts, Packed E files) ∧
      parts.map (fun files => files.flatten.flatten.map (·.map (deref σ'.w.fs.records s))) =
        (List.range n).map (fun a =>
          ((((rows.drop (a * max 1 (rows.length / n))).take (max 1 (rows.length / n)) ::
            (if a = 0 then [rows.drop (n * max 1 (rows.length / n))] else [])).filter
              (fun t => decide (t ≠ []))).map (·.map (·.select s.writeNames)))) ∧
      new.map σ'.w.fs.parquet = parts.flatten.map (fun f => some (stored E f)) ∧
      (mode = .insert → now = listedFiles σ.w.fs cur.index) := by
  obtain ⟨sl, sl', w, h1, w1, p, cur, snap, hl, -⟩ := h.landing hn
  have hs := hl.succ
  obtain ⟨e, mf, hout⟩ := hs.insertedG (mode := mode) (data := rows) rfl
  obtain ⟨w0, dp, ap, P, g1, f1, g2, hp, hga, hP, hins, hups, happ⟩ := hout.out
  obtain ⟨qs, parts, hq, r1, r2, r3⟩ := Post.elim (rayAppendBody_packed (E := E) (s := s) f1 n sched rows) happ
  have hnew := Post.elim (rayAppendBody_new (E := E) (s := s) f1 n sched rows) happ
  obtain ⟨hd, ha, -⟩ := merge_delIdx hp (fun q hq => hga.del q hq)
  have haok : ∀ q ∈ (ap.map (·.addIdx)).getD [], ManifestOK w1.fs s q := by
    cases ap with
    | none => intro q hq; cases hq
    | some a => exact (hga.ok a rfl).idx
  refine ⟨sl, sl', cur, snap, listedFiles w1.fs (cur.index.filter (fun q => !p.delIdx.contains q) ++
    (dp.map (·.addIdx)).getD []), (((ap.map (·.addIdx)).getD []).flatMap (entriesOf w1.fs)).map (·.file), parts,
    hl.slot, hl.slot', hs.head, hs.head', ?_, ?_, r1, ?_, ?_, ?_⟩
  · rw [hl.after, ha, ← List.append_assoc]
    unfold listedFiles
    rw [List.flatMap_append, List.map_append]
  · intro f hf hmem
    rw [hl.before] at hmem
    obtain ⟨x, hx, rfl⟩ := List.mem_map.mp hf
    obtain ⟨y, hy, hxy⟩ := List.mem_map.mp hmem
    obtain ⟨q, hq, hy⟩ := List.mem_flatMap.mp hy
    have a := hasFile_mono g1.le ((hs.curOK.manifests q hq).entry hy).hasFile
    cases ap with
    | none => cases hx
    | some ap =>
      have b := (hnew ap rfl).2 x hx
      unfold hasFile at a b
      rw [hxy, b] at a
      cases a
  · refine Eq.trans ?_ (r2.trans (shardQueues_given s hq))
    refine List.map_congr_left fun files hfiles => List.map_congr_left fun t ht => ?_
    refine map_deref_mono hs.le.lookLe fun r hr => ?_
    obtain ⟨g, hg, htg⟩ := List.mem_flatten.mp ht
    obtain ⟨f, hf, hgf⟩ := List.mem_flatten.mp hg
    have ht' : t ∈ f.flatten := List.mem_flatten.mpr ⟨g, hgf, htg⟩
    have : some (stored E f) ∈ addedFiles w1.fs ap := by
      rw [r3]
      exact List.mem_map_of_mem (f := fun f => some (stored E f)) (List.mem_flatten.mpr ⟨files, hfiles, hf⟩)
    obtain ⟨m, hm, hmf⟩ := List.mem_map.mp this
    obtain ⟨x, hx, hm⟩ := List.mem_flatMap.mp hm
    refine (fileRows_mem ((haok x hx).entry hm) r ?_).2
    unfold fileRows
    rw [hmf, Option.getD_some, stored_flatten]
    exact List.mem_flatten.mpr ⟨t, ht', hr⟩
  · rw [← r3, List.map_map]
    refine List.map_congr_left fun m hm => ?_
    obtain ⟨x, hx, hm⟩ := List.mem_flatMap.mp hm
    obtain ⟨g, hg, -⟩ := (haok x hx).entry hm
    show σ'.w.fs.parquet m.file = _
    rw [hg]
    exact hs.le.parquet hg
  · intro hmi
    obtain ⟨rfl, rfl, -⟩ := hins hmi
    have hd' : p.delIdx = [] := hd
    rw [hl.before, hd']
    have hkeep : cur.index.filter (fun q => !([] : List Path).contains q) = cur.index :=
      List.filter_eq_self.mpr fun _ _ => rfl
    rw [hkeep]
    unfold listedFiles
    simp only [Option.map_none, Option.getD_none, List.append_nil]
    rw [flatMap_congr' fun q hq => entriesOf_mono g2.le (hs.curOK.manifests q hq)]

/-- A Ray insert by two actors, the first of which gets what is left over, and a Ray upsert that cuts a file. -/
example : (∃ σ σ', Done env schema 0 (.rayInsert .insert 2 [1, 0] [row 2 "b" [2], row 3 "c" [3], row 4 "d" [4],
      row 5 "e" [5], row 6 "f" [6], row 7 "g" [7], row 8 "h" [8]]) σ σ' ∧
    headGroups σ = [some [[1]]] ∧ headGroups σ' = [some [[1], [3, 1], [3]]]) ∧
    ∃ σ σ', Done env schema 0 (.rayInsert .upsert 2 [1, 0] [row 2 "b" [], row 5 "e" [5]]) σ σ' ∧
      headGroups σ = [some [[3]]] ∧ headGroups σ' = [some [[2], [1], [1]]] := by
  constructor
  · let σ := after env anyB schema [.call 0 (.mutate (.append [[row 1 "a" [1]]]))]
    let m : Mutation := .rayInsert .insert 2 [1, 0] [row 2 "b" [2], row 3 "c" [3], row 4 "d" [4], row 5 "e" [5],
      row 6 "f" [6], row 7 "g" [7], row 8 "h" [8]]
    obtain ⟨e, hst⟩ := doing_step (E := env) (s := schema) (σ := σ) (a := .call 0 (.mutate m))
      (o := .res (.job .succeeded)) (by decide +kernel)
    exact ⟨σ, _, .call (after_reach (fun _ _ _ => trivial) _) hst, by decide +kernel, by decide +kernel⟩
  · let σ := after env anyB schema [.call 0 (.mutate (.append [[row 1 "a" [1], row 2 "b" [2], row 3 "c" [3]]]))]
    let m : Mutation := .rayInsert .upsert 2 [1, 0] [row 2 "b" [], row 5 "e" [5]]
    obtain ⟨e, hst⟩ := doing_step (E := env) (s := schema) (σ := σ) (a := .call 0 (.mutate m))
      (o := .res (.job .succeeded)) (by decide +kernel)
    exact ⟨σ, _, .call (after_reach (fun _ _ _ => trivial) _) hst, by decide +kernel, by decide +kernel⟩

end Space
