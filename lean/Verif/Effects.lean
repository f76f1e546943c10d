import Verif.History
import Verif.ReadSpec

/-!
# What a successful mutation does to the rows of its branch
-/

namespace Space

/-- The snapshot at the head of the branch of a handle. -/
def headOf (h : Handle) (w : World) : Option Snapshot :=
  w.stored.bind (fun md => (md.target h.branch none).toOption)

/-- A successful mutation by a handle, `h` in `wb` just before the commit, `h'` in `w'`
after it: the snapshot `cur` at the head of the branch became `snap`, by the patch `p`
computed in `w`, at the same time or earlier (files written up to `w1`). -/
structure Success (E : Env) (s : Schema) (m : Mutation) (h : Handle) (wb w : World) (h' : Handle)
    (w' : World) (h1 : Handle) (w1 : World) (p : Patch) (cur snap : Snapshot) : Prop where
  earlier : FSLe w.fs wb.fs
  head : headOf h wb = some cur
  head' : headOf h' w' = some snap
  before : tableRead E h wb {} none = .ok ((snapRows w.fs s cur).map (·.select s.writeNames))
  after : tableRead E h' w' {} none = .ok ((snapRows w'.fs s snap).map (·.select s.writeNames))
  curOK : SnapOK w.fs s cur
  snapOK : SnapOK w'.fs s snap
  fresh : w.Fresh
  handle : HandleOK s w h1
  schema : h1.md.schema = s
  base : h1.snapshot none = .ok cur
  body : m.body E h1 w = (.ok (some p), w1)
  grows : Grows w w1
  le : FSLe w1.fs w'.fs
  patch : PatchOK w1.fs s p
  index : snap.index = cur.index.filter (fun m => !p.delIdx.contains m) ++ p.addIdx
  recs : snap.recs = cur.recs ++ p.addRec
  del : ∀ d ∈ p.delIdx, d ∈ cur.index
  stats : snap.stats = (cur.stats.addIndex p.stats).addRecord p.stats
  log : (p.log = none ∧ snap.log = none) ∨
    ∃ cl q, p.log = some cl ∧ snap.log = some q ∧ w'.fs.log q = some cl
  parent : snap.parent = some cur.id
  wok : ∃ md', WOK s w' md'
  handle' : HandleOK s w' h'
  branch : h'.branch = h.branch
  adm : m.Admissible s w.fs

theorem target_head {md : Metadata} {b : String} {n : Nat} {snap : Snapshot}
    (h : md.currentId b = .ok n) (hg : md.snaps.get? n = some snap) : md.target b none = .ok snap := by
  simp [Metadata.target, h, Metadata.snapshot, hg]

theorem Committed.newSnap {fs' : FS} {md md' : Metadata} {b : String} {p : Patch} {n : Nat}
    {cur snap : Snapshot} (com : Committed fs' md md' b p n cur snap) :
    md'.snaps.get? n = some snap := by
  rw [com.snaps]
  exact AMap.get?_set_self ..

theorem exec_mutate {E : Env} {m : Mutation} {h h' : Handle} {w w' : World}
    (hrun : exec E (.mutate m) h w = (.job .succeeded, h', w')) :
    mutate E m h w = (.job .succeeded, h', w') := by
  simp only [exec] at hrun
  split at hrun
  · rename_i h1
    rw [h1]
    simpa using hrun
  · simp at hrun

theorem Mutated.success {E : Env} {s : Schema} {w : World} {md : Metadata}
    {h : Handle} (hw : WOK s w md) (hh : HandleOK s w h) {m : Mutation} (hadm : m.Admissible s w.fs)
    {h' h1 : Handle} {w' w1 : World} {p : Patch} {n : Nat} {cur snap : Snapshot} (hb : h'.branch = h.branch)
    (hh' : HandleOK s w' h') (hm : Mutated E s m h w md h' w' h1 w1 p n cur snap) :
    Success E s m h w w h' w' h1 w1 p cur snap := by
  have com := hm.step.com
  have ht : md.target h.branch none = .ok cur := target_head com.head com.curGet
  have ht' : h'.md.target h'.branch none = .ok snap := by
    rw [hb]; exact target_head com.newHead com.newSnap
  have hcur := (target_ok hw ht).1
  have hsnap := (target_ok hm.step.wok ht').1
  refine ⟨FSLe.refl _, by simp [headOf, hw.storedEq, ht, Except.toOption],
    by simp [headOf, hm.step.wok.storedEq, ht', Except.toOption], ?_, ?_, hcur, hsnap, hw.fresh, hm.handle, ?_, ?_, hm.body, hm.grows, hm.step.le, hm.patch,
    com.index, com.recs, com.del, com.stats, com.log, com.parent, ⟨_, hm.step.wok⟩, hh', hb, hadm⟩
  · rw [tableRead_full hw hh, ht]
  · rw [tableRead_full hm.step.wok hh', ht']
  · rw [hm.start]; exact hw.schema
  · have := ht
    simp only [Metadata.target, com.head] at this
    simp only [Handle.snapshot, hm.start, hm.branch, com.head]
    simpa using this

theorem success_of {E : Env} {s : Schema} (hn : s.names.Nodup) {w : World} {md : Metadata}
    {h : Handle} (hw : WOK s w md) (hh : HandleOK s w h) {m : Mutation} (hadm : m.Admissible s w.fs)
    {h' : Handle} {w' : World} (hrun : exec E (.mutate m) h w = (.job .succeeded, h', w')) :
    ∃ h1 w1 p cur snap, Success E s m h w w h' w' h1 w1 p cur snap := by
  obtain ⟨hb, hh', hm⟩ := mutate_post hw hh hn m hadm (exec_mutate hrun)
  rcases hm with hm | ⟨-, h1, w1, p, n, cur, snap, hm⟩
  · exact absurd rfl hm.1
  exact ⟨h1, w1, p, cur, snap, hm.success hw hh hadm hb hh'⟩

theorem Post.elim {σ α : Type} {r : Except Err α × σ} {a : α} {s : σ} {Q : α → σ → Prop} {F : σ → Prop}
    (h : Post r Q F) (hr : r = (.ok a, s)) : Q a s := by
  rw [hr] at h
  exact h

section
variable {E : Env} {s : Schema} {m : Mutation} {h h' h1 : Handle} {wb w w' w1 : World} {p : Patch}
  {cur snap : Snapshot}

/-- The rows of the new snapshot in terms of the files present when the body ended. -/
theorem Success.rows (hs : Success E s m h wb w h' w' h1 w1 p cur snap) :
    snapRows w'.fs s snap =
      (physRows w1.fs (cur.index.filter (fun m => !p.delIdx.contains m) ++ p.addIdx)).map
        (deref w1.fs.records s) := by
  have hm : ∀ q ∈ snap.index, ManifestOK w1.fs s q := by
    intro q hq
    rw [hs.index] at hq
    rcases List.mem_append.mp hq with hq | hq
    · exact (hs.curOK.manifests q (List.mem_filter.mp hq).1).mono hs.grows.le
    · exact hs.patch.idx q hq
  unfold snapRows
  rw [physRows_mono hs.le hm, hs.index]
  refine map_deref_mono hs.le.lookLe fun r hr => ?_
  rw [← hs.index] at hr
  exact (physRows_ok hm r hr).2

theorem filter_none {α : Type} [BEq α] (l : List α) : l.filter (fun m => !([] : List α).contains m) = l := by
  simp

/-- The rows of the new snapshot if the patch removes no manifest. -/
theorem Success.adds (hs : Success E s m h wb w h' w' h1 w1 p cur snap) (hd : p.delIdx = []) :
    snapRows w'.fs s snap = snapRows w.fs s cur ++ (physRows w1.fs p.addIdx).map (deref w1.fs.records s) := by
  rw [hs.rows, hd, filter_none, physRows_append, List.map_append]
  congr 1
  rw [physRows_mono hs.grows.le hs.curOK.manifests]
  exact map_deref_mono hs.grows.le.lookLe fun r hr => (physRows_ok hs.curOK.manifests r hr).2

/-- `append` and `append_from`. -/
theorem Success.append {tables : List (List Row)}
    (hs : Success E s (.append tables) h wb w h' w' h1 w1 p cur snap) :
    p.delIdx = [] ∧ p.stats.rows = tables.flatten.length ∧
    ∃ P mf rmf, Finished E s w w1 P [] mf rmf (some p) ∧
      P.map (deref w1.fs.records s) = tables.flatten.map (·.select s.writeNames) ∧
      snapRows w'.fs s snap = snapRows w.fs s cur ++ tables.flatten.map (·.select s.writeNames) := by
  have hb := hs.body
  simp only [Mutation.body, hs.schema] at hb
  obtain ⟨h1, h2, P, mf, rmf, hf, hp⟩ := Post.elim (appendBody_post (E := E) (s := s) hs.fresh tables) hb
  have hd := hf.del p rfl
  have ha := hf.addRows
  rcases ha with ha | ⟨q, hq, hr, -⟩
  · cases ha.1
  cases hq
  refine ⟨hd, ?_, P, mf, rmf, hf, hp, ?_⟩
  · rw [hf.stats p rfl]
    show sumRows mf = _
    rw [sumRows_zero hf.ents, hf.rowsEq]
    have := congrArg List.length hp
    simp only [List.length_map] at this
    exact congrArg _ this
  · rw [hs.adds hd, hr, hp]

/-- `append_parquet`. -/
theorem Success.loadParquet {files : List Path}
    (hs : Success E s (.appendParquet files) h wb w h' w' h1 w1 p cur snap) :
    s.recs = [] ∧ p.delIdx = [] ∧ p.addRec = [] ∧ p.log = none ∧
    ∃ rows, p.addIdx.flatMap (entriesOf w1.fs) = rows ∧ rows.map (·.file) = files ∧
      (∀ m ∈ rows, EntryOK w1.fs w1.fs.records s m) ∧
      p.stats = { rows := sumRows rows, icb := sumIcb rows, iub := sumIub rows } ∧
      physRows w1.fs p.addIdx = files.flatMap (fileRows w1.fs) := by
  have hb := hs.body
  simp only [Mutation.body, hs.schema] at hb
  obtain ⟨-, -, hl⟩ := Post.elim (appendParquetBody_post (E := E) (s := s) hs.fresh files hs.adm) hb
  obtain ⟨q, rows, hq, hfiles, hok, h1, h2, h3, h4, h5⟩ := hl.out
  cases hq
  have he : p.addIdx.flatMap (entriesOf w1.fs) = rows := by
    rcases h5 with ⟨rfl, h⟩ | ⟨-, h, hm⟩
    · simp [h]
    · simp [h, entriesOf, hm]
  refine ⟨hl.recs, h2, h1, h3, rows, he, hfiles, hok, h4, ?_⟩
  unfold physRows
  rw [← List.flatMap_assoc, he, ← hfiles, List.flatMap_map]

/-- `append_array_record`. -/
theorem Success.loadRecords {fn : List Nat → Row} {files : List Path}
    (hs : Success E s (.appendArrayRecord fn files) h wb w h' w' h1 w1 p cur snap) :
    ∃ f mf rmf p0, s.recFields = [f] ∧ (∀ q ∈ files, (w1.fs.records q).isSome) ∧
      Finished E s w w1 ((recordIndexRows w1.fs s f.name fn files).map (·.select s.writeNames)) [] mf rmf (some p0) ∧
      p.addIdx = p0.addIdx ∧ p.delIdx = [] ∧ p.addRec = p0.addRec ∧ p.stats.rows = p0.stats.rows ∧
      p.stats.icb = p0.stats.icb ∧ p.stats.iub = p0.stats.iub ∧ p.log = p0.log := by
  have hb := hs.body
  simp only [Mutation.body, hs.schema] at hb
  obtain ⟨-, -, hl⟩ := Post.elim (appendArrayRecordBody_post (E := E) (s := s) hs.fresh fn files) hb
  obtain ⟨f, mf, rmf, p0, bytes, hf, hrec, hfin, -, hp⟩ := hl.out
  cases p0 with
  | none => simp at hp
  | some p0 =>
    simp only [Option.map_some, Option.some.injEq] at hp
    subst hp
    exact ⟨f, mf, rmf, p0, hf, hrec, hfin, rfl, hfin.del p0 rfl, rfl, rfl, rfl, rfl, rfl⟩

/-- The record bytes of `append_array_record`. -/
theorem Success.loadRecords_bytes {fn : List Nat → Row} {files : List Path}
    (hs : Success E s (.appendArrayRecord fn files) h wb w h' w' h1 w1 p cur snap) :
    ∃ rows mf rmf p0, Finished E s w w1 rows [] mf rmf (some p0) ∧ p.addRec = p0.addRec ∧
      p.stats.rub = p0.stats.rub + (files.map (recordBytes w1.fs)).sum ∧
      ∀ q ∈ files, (w1.fs.records q).isSome := by
  have hb := hs.body
  simp only [Mutation.body, hs.schema] at hb
  obtain ⟨-, -, hl⟩ := Post.elim (appendArrayRecordBody_post (E := E) (s := s) hs.fresh fn files) hb
  obtain ⟨f, mf, rmf, p0, bytes, hf, hrec, hfin, hby, hp⟩ := hl.out
  cases p0 with
  | none => simp at hp
  | some p0 =>
    simp only [Option.map_some, Option.some.injEq] at hp
    subst hp
    subst hby
    exact ⟨_, mf, rmf, p0, hfin, rfl, rfl, hrec⟩

end

end Space
