import Verif.Props.Records
import Verif.Props.Serial

/-!
# C66: record bytes in the statistics of snapshots
-/

set_option autoImplicit false

namespace Space

open Demo List

/-- The bytes of the record files that the record manifests of a snapshot list. -/
def listedBytes (fs : FS) (recs : List Path) : Int :=
  ((recs.flatMap (recEntriesOf fs)).map (fun m => (m.bytes : Int))).sum

/-- The bytes of the records that a mutation takes from files it was given. -/
def Mutation.loadedBytes (fs : FS) : Mutation → Int
  | .appendArrayRecord _ files => ((files.flatMap (fun p => (fs.records p).getD [])).map (fun r => (r.length : Int))).sum
  | _ => 0

theorem listedBytes_append (fs : FS) (a b : List Path) :
    listedBytes fs (a ++ b) = listedBytes fs a + listedBytes fs b := by
  simp [listedBytes]

theorem listedBytes_nil (fs : FS) : listedBytes fs [] = 0 := rfl

theorem listedBytes_mono {fs fs' : FS} (hle : FSLe fs fs') {recs : List Path} (hok : ∀ q ∈ recs, RecManifestOK fs q) :
    listedBytes fs' recs = listedBytes fs recs := by
  unfold listedBytes
  rw [flatMap_congr' (g := recEntriesOf fs)]
  intro q hq
  obtain ⟨rows, h1, -⟩ := hok q hq
  simp [recEntriesOf, h1, hle.rmanifest h1]

section
variable {E : Env} {s : Schema} {m : Mutation} {h h' h1 : Handle} {wb w w' w1 : World} {p : Patch}
  {cur snap : Snapshot}

theorem Gathered.recBytes {w0 : World} {rows : List Row} {q : Option Patch} (h : Gathered E s w0 w1 rows q) :
    (q.map (·.stats.rub)).getD 0 = listedBytes w1.fs ((q.map (·.addRec)).getD []) := by
  cases q with
  | none => rfl
  | some q =>
    simp only [Option.map_some, Option.getD_some, h.stats q rfl]
    rfl

theorem DeleteOut.recBytes {e : Expr} {index : List Path} {mf : Option MExpr} {dp : Option Patch}
    (h : DeleteOut E s e w w1 index mf dp) :
    (dp.map (·.stats.rub)).getD 0 = 0 ∧ (dp.map (·.addRec)).getD [] = [] := by
  rcases h.out with ⟨rfl, -⟩ | ⟨q, dms, carried, mf', rmf, rp, rfl, hd⟩
  · exact ⟨rfl, rfl⟩
  · exact ⟨hd.rub, hd.addRec⟩

theorem merge_rub {a b : Option Patch} {p : Patch} (h : some p = mergePatches [a, b]) :
    p.stats.rub = (a.map (·.stats.rub)).getD 0 + (b.map (·.stats.rub)).getD 0 ∧
    p.addRec = (a.map (·.addRec)).getD [] ++ (b.map (·.addRec)).getD [] := by
  rw [merge_two] at h
  cases a <;> cases b <;> simp_all [SStats.addIndex, SStats.addRecord]

theorem Finished.recBytes {w0 : World} {rows : List Row} {c mf : List ManifestRow} {rmf : List RecManifestRow}
    {q : Patch} (h : Finished E s w0 w1 rows c mf rmf (some q)) : q.stats.rub = listedBytes w1.fs q.addRec := by
  rw [h.stats q rfl]
  rcases h.recs q rfl with ⟨rfl, hr⟩ | ⟨v, -, hr, hm⟩
  · simp [hr, listedBytes, sumRub]
  · simp [hr, listedBytes, sumRub, recEntriesOf, hm]

/-- The record bytes of a patch. -/
theorem Success.recBytes (hn : s.names.Nodup) (hs : Success E s m h wb w h' w' h1 w1 p cur snap) :
    p.stats.rub = listedBytes w1.fs p.addRec + m.loadedBytes w1.fs := by
  have added : ∀ rows, m.added = some rows → p.stats.rub = listedBytes w1.fs p.addRec + 0 := by
    intro rows hm
    obtain ⟨P, hg, -⟩ := hs.addedG hm
    simpa using hg.recBytes
  have inserted : ∀ mode data, m.inserts = some (mode, data) → p.stats.rub = listedBytes w1.fs p.addRec + 0 := by
    intro mode data hm
    obtain ⟨e, mf, hout⟩ := hs.insertedG hm
    obtain ⟨w0, dp, ap, P, -, -, -, hp, hg, -, hi, hu, -⟩ := hout.out
    obtain ⟨a, b⟩ := merge_rub hp
    have hd : (dp.map (·.stats.rub)).getD 0 = 0 ∧ (dp.map (·.addRec)).getD [] = [] := by
      cases mode with
      | insert => rw [(hi rfl).1]; exact ⟨rfl, rfl⟩
      | upsert => exact (hu rfl).recBytes
    rw [a, b, hd.1, hd.2, hg.recBytes]
    simp
  cases m with
  | append tables => exact added _ rfl
  | rayAppend n sched rows => exact added _ rfl
  | rayAppendFrom n sched sources => exact added _ rfl
  | insert data => exact inserted _ _ rfl
  | upsert data => exact inserted _ _ rfl
  | rayInsert mode n sched data => exact inserted _ _ rfl
  | delete e =>
    have hb := hs.body
    simp only [Mutation.body] at hb
    obtain ⟨-, -, snap', mf, -, -, hout⟩ := Post.elim (deleteBody_post hs.fresh hs.handle) hb
    obtain ⟨a, b⟩ := hout.recBytes
    simp only [Option.map_some, Option.getD_some] at a b
    rw [a, b]
    rfl
  | rayDelete e =>
    obtain ⟨mf, -, hd⟩ := hs.rayDeleted hn
    rw [hd.rub, hd.recs]
    rfl
  | appendParquet files =>
    obtain ⟨-, -, hr, -, rows, -, -, -, hst, -⟩ := hs.loadParquet
    rw [hr, hst]
    rfl
  | appendArrayRecord fn files =>
    obtain ⟨rows, mf, rmf, p0, hf, h2, h3, -⟩ := hs.loadRecords_bytes
    rw [h2, h3, hf.recBytes]
    congr 1
    simp only [Mutation.loadedBytes]
    clear hs added inserted hf h2 h3
    induction files with
    | nil => rfl
    | cons q qs ih =>
      simp only [List.map_cons, List.sum_cons, List.flatMap_cons, List.map_append, List.sum_append, ← ih]
      have : ∀ l : List (List Nat), ((l.map List.length).sum : Int) = (l.map (fun r => (r.length : Int))).sum := by
        intro l
        induction l with
        | nil => rfl
        | cons a l ih => simp [ih]
      simp [recordBytes, this]
  | sync n sched gone added' =>
    obtain ⟨w0, dp, ap, P, -, -, -, hp, hg, -, hdp, -⟩ := hs.syncedG.out
    obtain ⟨a, b⟩ := merge_rub hp
    have hd : (dp.map (·.stats.rub)).getD 0 = 0 ∧ (dp.map (·.addRec)).getD [] = [] := by
      rcases hdp with ⟨-, rfl, -⟩ | ⟨e, mf, -, -, ho⟩
      · exact ⟨rfl, rfl⟩
      · exact ho.recBytes
    rw [a, b, hd.1, hd.2, hg.recBytes]
    simp [Mutation.loadedBytes]

/-- How the record bytes of the head change. -/
theorem Success.recBytes_snap (hn : s.names.Nodup) (hs : Success E s m h wb w h' w' h1 w1 p cur snap) :
    snap.stats.rub = cur.stats.rub + listedBytes w'.fs p.addRec + m.loadedBytes w1.fs := by
  have h1 : snap.stats.rub = cur.stats.rub + p.stats.rub := by
    rw [hs.stats]; simp [SStats.addIndex, SStats.addRecord]
  rw [h1, hs.recBytes hn, listedBytes_mono hs.le hs.patch.recs, Int.add_assoc]

end

/-- C66, one step: when a mutation of any kind takes effect, the record bytes of the head grow by
the bytes of the record files that the new record manifests list, and by the bytes of the records in
the files given to `append_array_record`. -/
theorem C66_effect {E : Env} {s : Schema} (hn : s.names.Nodup) {i : Nat} {m : Mutation} {σ σ' : Sys}
    (h : Done E s i m σ σ') :
    ∃ sl sl' cur snap new, σ.slots[i]? = some sl ∧ σ'.slots[i]? = some sl' ∧
      headOf sl.h σ.w = some cur ∧ headOf sl'.h σ'.w = some snap ∧ snap.recs = cur.recs ++ new ∧
      snap.stats.rub = cur.stats.rub + listedBytes σ'.w.fs new + m.loadedBytes σ'.w.fs := by
  obtain ⟨sl, sl', w, h1, w1, p, cur, snap, hl, -, -⟩ := h.landing hn
  refine ⟨sl, sl', cur, snap, p.addRec, hl.slot, hl.slot', hl.succ.head, hl.succ.head', hl.succ.recs, ?_⟩
  rw [hl.succ.recBytes_snap hn]
  congr 1
  cases m with
  | appendArrayRecord fn files =>
    obtain ⟨-, -, -, -, -, -, -, hsome⟩ := hl.succ.loadRecords_bytes
    simp only [Mutation.loadedBytes]
    rw [flatMap_congr' (g := fun p => (σ'.w.fs.records p).getD [])]
    intro q hq
    obtain ⟨rs, hrs⟩ := Option.isSome_iff_exists.mp (hsome q hq)
    rw [hrs, hl.succ.le.records hrs]
  | _ => rfl

/-- Calm steps in which no record file of the user is loaded. -/
def unloaded (σ : Sys) (ev : Event) : Prop :=
  calm σ ev ∧ ∀ i m sl, Lands σ ev i m → σ.slots[i]? = some sl → ∀ fn files, m ≠ .appendArrayRecord fn files

/-- C66 for calm histories without `append_array_record`: the record bytes in the statistics of every
stored snapshot are the sum of the bytes of the record files that its record manifests list, whatever
was appended, upserted, deleted (with or without loss, local or by Ray) or refreshed.
Missing: histories with such loads (`C66_violated`; what a load adds is in `C66_effect`). -/
theorem C66_partial {E : Env} {s : Schema} (hn : s.names.Nodup) {σ : Sys} (h : Reach E s unloaded σ)
    {md : Metadata} (hmd : σ.w.stored = some md) {n : Nat} {snap : Snapshot} (hs : md.snaps.get? n = some snap) :
    snap.stats.rub = listedBytes σ.w.fs snap.recs := by
  refine snaps_invariant hn (P := unloaded) (fun h => h.1)
    (Good := fun fs snap => snap.stats.rub = listedBytes fs snap.recs) ?_ ?_ ?_ h hmd hs
  · intro fs fs' snap hle hok hg
    rw [listedBytes_mono hle hok.records]
    exact hg
  · intro fs
    rfl
  · intro σ σ' ev i m sl sl' w h1 w1 p cur snap hp hl hl' hg
    have h0 : m.loadedBytes w1.fs = 0 := by
      cases m with
      | appendArrayRecord fn files => exact absurd rfl (hp.2 i _ sl hl hl'.slot fn files)
      | _ => rfl
    have h1 := listedBytes_mono hl'.succ.earlier hl'.succ.curOK.records
    have h2 := listedBytes_mono hl'.succ.grows.le hl'.succ.curOK.records
    have h3 := listedBytes_mono hl'.succ.le (fun q hq => (hl'.succ.curOK.records q hq).mono hl'.succ.grows.le)
    rw [hl'.succ.recBytes_snap hn, h0, hl'.succ.recs, listedBytes_append, h3, h2, hg, h1]
    omega

/-- Decides `unloaded`. -/
def Demo.unloadedB (σ : Sys) (ev : Event) : Bool :=
  calmB σ ev && landsB (fun _ m => match m with
    | .appendArrayRecord _ _ => false
    | _ => true) σ ev

theorem Demo.unloadedB_unloaded (σ : Sys) (ev : Event) (h : unloadedB σ ev = true) : unloaded σ ev := by
  simp only [unloadedB, Bool.and_eq_true] at h
  refine ⟨calmB_calm _ _ h.1, ?_⟩
  rintro i m sl hl hsl fn files rfl
  have := landsB_lands h.2 hl hsl
  cases this

/-- Appends by both runners, an upsert, a delete that loses rows and a Ray delete: what the statistics
say and what the record manifests list. -/
example : ∃ σ md, Reach env schema unloaded σ ∧ σ.w.stored = some md ∧
    md.snaps.map (fun x => (x.1, x.2.stats.rub, listedBytes σ.w.fs x.2.recs)) =
      [(0, 0, 0), (1, 3, 3), (2, 5, 5), (3, 6, 6), (4, 6, 6), (5, 6, 6)] := by
  let σ := after env unloadedB schema [.call 0 (.mutate (.append [[row 1 "a" [1], row 2 "b" [2], row 3 "c" []]])),
    .call 0 (.mutate (.rayAppend 2 [] [row 4 "d" [4], row 5 "e" [5]])), .call 0 (.mutate (.upsert [row 2 "B" []])),
    .call 0 (.mutate (.delete (idIs "lt" 3))), .call 0 (.mutate (.rayDelete (idIs "gt" 4)))]
  obtain ⟨md, h1, h2⟩ := stored_of_map (w := σ.w)
    (f := fun md => md.snaps.map (fun x => (x.1, x.2.stats.rub, listedBytes σ.w.fs x.2.recs))) (x := [(0, 0, 0), (1, 3, 3), (2, 5, 5), (3, 6, 6), (4, 6, 6), (5, 6, 6)]) (by decide +kernel)
  exact ⟨σ, md, after_reach unloadedB_unloaded _, h1, h2⟩

/-- An appended row, then a record file of the user. -/
def Demo.withFile : Sys :=
  placed (after env calmB schema [.call 0 (.mutate (.append [[row 1 "a" [1]]]))]) "/in/a.array_record" (.records [[2], [3, 3, 3]])

/-- The load of that file. -/
def Demo.loadFile : Mutation := .appendArrayRecord indexer [.external "/in/a.array_record"]

theorem Demo.withFile_reach : Reach env schema calm withFile :=
  (after_reach (E := env) (s := schema) calmB_calm [.call 0 (.mutate (.append [[row 1 "a" [1]]]))]).step
    (ev := .external (.external "/in/a.array_record"))
    ⟨⟨trivial, trivial⟩, fun j b r h => by rcases h with h | h <;> cases h⟩
    (.external (w := (after env calmB schema [.call 0 (.mutate (.append [[row 1 "a" [1]]]))]).w)
      (slots := (after env calmB schema [.call 0 (.mutate (.append [[row 1 "a" [1]]]))]).slots)
      (c := .records [[2], [3, 3, 3]]) (by decide +kernel))

theorem Demo.loadFile_step : Step env schema withFile (.call 0 (.mutate loadFile) (.job .succeeded))
    (calling env withFile 0 (.mutate loadFile)) :=
  calling_step trivial (by decide +kernel)

/-- A load, with four loaded bytes. -/
example : Done env schema 0 loadFile withFile (calling env withFile 0 (.mutate loadFile)) ∧
    loadFile.loadedBytes (calling env withFile 0 (.mutate loadFile)).w.fs = 4 :=
  ⟨.call (withFile_reach.imp (Q := anyStep) fun _ _ _ => trivial) loadFile_step, by decide +kernel⟩

/-- **C66 is violated** by `append_array_record`: it adds the bytes of the records of the loaded files,
which no record manifest lists. -/
theorem C66_violated : ∃ σ md snap, Reach env schema calm σ ∧ σ.w.stored = some md ∧ md.snaps.get? 2 = some snap ∧
    snap.stats.rub = 5 ∧ listedBytes σ.w.fs snap.recs = 1 := by
  let σ := calling env withFile 0 (.mutate loadFile)
  obtain ⟨md, h1, h2⟩ := stored_of_map (w := σ.w)
    (f := fun md => (md.snaps.get? 2).map (fun x => (x.stats.rub, listedBytes σ.w.fs x.recs)))
    (x := some (5, 1)) (by decide +kernel)
  rw [Option.map_eq_some_iff] at h2
  obtain ⟨snap, h5, h6⟩ := h2
  refine ⟨σ, md, snap, ?_, h1, h5, congrArg (·.1) h6, congrArg (·.2) h6⟩
  exact withFile_reach.step (ev := .call 0 (.mutate loadFile) (.job .succeeded))
    ⟨⟨trivial, fun h => by cases h⟩, fun j b r h => by rcases h with h | h <;> cases h⟩ loadFile_step

end Space
