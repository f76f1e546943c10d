import Verif.Crash
import Verif.Lazy
import Verif.Demo

/-!
# C15, C16, C46, C47: crashes, creation, running reads, and what is referenced
-/

set_option autoImplicit false

namespace Space

open Demo

/-- What a process that opens the storage now reads on a branch. -/
def freshRead (E : Env) (w : World) (branch : String) (o : ReadOpts) (v : Option Version) :
    Except Err (List Row) :=
  match load w with
  | .error e => .error e
  | .ok h => tableRead E { h with branch := branch } w o v

/-- Opened again, the storage is the same: the same metadata (snapshots, tags,
branches, schema), and every read on every branch gives the same rows or the same
error. -/
structure SameStorage (E : Env) (a b : World) : Prop where
  opens : (∃ h, load a = .ok h) ∧ ∃ h, load b = .ok h
  stored : b.stored = a.stored
  reads : ∀ branch o v, freshRead E b branch o v = freshRead E a branch o v

theorem HandleOK.onBranch {s : Schema} {w : World} {h : Handle} (hh : HandleOK s w h) (b : String) :
    HandleOK s w { h with branch := b } := ⟨hh.file, hh.ok, hh.schema, hh.max⟩

theorem same_of {E : Env} {s : Schema} {a b : World} {md : Metadata} (ha : WOK s a md)
    (hb : WOK s b md) (hf : FSLe a.fs b.fs) : SameStorage E a b := by
  obtain ⟨h, e1, e2, -, e4⟩ := load_eq ha
  obtain ⟨h', f1, f2, -, f4⟩ := load_eq hb
  refine ⟨⟨⟨h, e1⟩, ⟨h', f1⟩⟩, by rw [ha.storedEq, hb.storedEq], fun branch o v => ?_⟩
  simp only [freshRead, e1, f1]
  exact tableRead_agree ha (e4.onBranch branch) hb (f4.onBranch branch) hf rfl

/-! ## C15 -/

/-- C15: if a process dies at any point of a call, or of any part of a split
mutation, then opening the storage later finds exactly the storage before the step
or exactly the storage after it; and in both cases everything proved about reachable
states holds of what it finds. -/
theorem C15 {E : Env} {s : Schema} (hn : s.names.Nodup) {σ σ' : Sys} {ev : Event} {wc : World}
    (h1 : Reach E s anyStep σ) (hs : Step E s σ ev σ') (he : ev.slot ≠ none)
    (hc : CrashedIn σ.w σ'.w wc) :
    (SameStorage E σ.w wc ∧ Reach E s anyStep ⟨wc, σ.slots⟩) ∨
    (SameStorage E σ'.w wc ∧ Reach E s anyStep ⟨wc, σ'.slots⟩) := by
  obtain ⟨md, hok⟩ := reach_ok hn h1
  obtain ⟨md', hok', -, -⟩ := step_full hn hok hs
  obtain ⟨σ0, hst, hr⟩ := h1
  have before : Adds σ.w wc → (SameStorage E σ.w wc ∧ Reach E s anyStep ⟨wc, σ.slots⟩) := fun ha =>
    ⟨same_of hok.wok (hok.wok.adds ha) ha.le, σ0, hst, .step (ev := .orphans) hr trivial (.orphans ha)⟩
  rcases step_writes hn hok hs he with g | g
  · exact Or.inl (before (g.crash hc))
  · rcases g.crash hc with ha | ha
    · exact Or.inl (before ha)
    · exact Or.inr ⟨same_of hok'.wok (hok'.wok.adds ha) ha.le, σ0, hst,
        .step (ev := .orphans) (.step hr trivial hs) trivial (.orphans ha)⟩

theorem createHead_empty {s : Schema} {w : World} (hw : w.Empty) :
    ∃ md, createHead s w = (.ok (.metadata w.next, md),
        { w with next := w.next + 1 }.put (.metadata w.next) (.mdata md)) ∧
      md = { schema := s, current := 0, snaps := [(0, { id := 0 })], refs := [] } := by
  refine ⟨_, ?_, rfl⟩
  have hne : ∀ c, AMap.get? (AMap.set w.fs (.metadata w.next) c) .entryPoint = none := by
    intro c
    rw [AMap.get?_set_ne _ _ (by simp)]; exact hw.noEntry
  simp only [createHead, Bind.bind, M.andThen, fresh, putFile, M.modify, M.get, World.put, hne,
    Pure.pure, M.ret]

theorem create_installs {s : Schema} {w w' : World} {h : Handle} (hw : w.Empty)
    (hc : create s w = (.ok h, w')) : Installs w w' := by
  obtain ⟨md, h1, -⟩ := createHead_empty (s := s) hw
  have hnone : AMap.get? w.fs (.metadata w.next) = none := hw.fresh _ _ rfl (Nat.le_refl _)
  refine ⟨_, .metadata w.next, (Grows.fresh' w).trans (Grows.put (w := { w with next := w.next + 1 })
    (p := .metadata w.next) (c := .mdata md) rfl (Nat.lt_succ_self _) hnone), ?_⟩
  simp only [create, Bind.bind, M.andThen, h1, createTail, putFile, M.modify, Pure.pure, M.ret,
    Prod.mk.injEq] at hc
  exact hc.2.symm

/-- C15 for `create`: if the process dies while creating the storage, there is none
or the whole of it. -/
theorem C15_create {E : Env} {s : Schema} {w w' wc : World} {h : Handle} (hw : w.Empty)
    (hc : create s w = (.ok h, w')) (hcr : CrashedIn w w' wc) :
    (wc.Empty ∧ ∃ e, load wc = .error e) ∨ SameStorage E w' wc := by
  rcases (create_installs hw hc).crash hcr with ha | ha
  · left
    have hn : AMap.get? wc.fs .entryPoint = none := ha.entry.trans hw.noEntry
    refine ⟨⟨ha.fresh hw.fresh, hn⟩, .other "FileNotFoundError", ?_⟩
    simp [load, readStored, FS.entry, hn]
  · right
    have hok := (create_ok hw hc).1
    exact same_of hok (hok.adds ha) ha.le

/-- The process dies right before, and right after, the last move of an append: both
outcomes occur. -/
example : ∃ (σ σ' : Sys) (ev : Event) (w1 w2 : World), Reach env schema anyStep σ ∧
    Step env schema σ ev σ' ∧ ev.slot ≠ none ∧ CrashedIn σ.w σ'.w w1 ∧ CrashedIn σ.w σ'.w w2 ∧
    freshRead env w1 "main" {} none = .ok [row 1 "x" [1]] ∧
    freshRead env w2 "main" {} none = .ok [row 1 "x" [1], row 2 "y" [2]] := by
  let σ := after env anyB schema [.call 0 (.mutate (.append [[row 1 "x" [1]]]))]
  let a : Act := .call 0 (.mutate (.append [[row 2 "y" [2]]]))
  obtain ⟨-, hst⟩ := doing_step (E := env) (s := schema) (σ := σ) (a := a)
    (o := .res (.job .succeeded)) (by decide +kernel)
  let σ' := doing env σ a
  let ops := σ'.w.log.drop σ.w.log.length
  have hops : σ'.w.log = σ.w.log ++ ops := by decide +kernel
  let at_ (k : Nat) : World :=
    { fs := applyOps σ.w.fs (ops.take k), next := σ'.w.next, log := σ.w.log ++ ops.take k }
  refine ⟨σ, σ', _, at_ (ops.length - 1), at_ ops.length, after_reach (fun _ _ _ => trivial) _,
    hst, by simp [Act.event, Event.slot, a],
    ⟨ops, _, hops, ⟨FSLe.refl _, Nat.le_refl _, rfl, id⟩⟩,
    ⟨ops, _, hops, ⟨FSLe.refl _, Nat.le_refl _, rfl, id⟩⟩, by decide +kernel, by decide +kernel⟩

/-! ## C16 -/

/-- C16, for a creator that finds the storage: creating a storage (with any schema)
where one exists fails with the already-exists error, and the existing storage is as
before; other handles go on as if nothing had happened.
Missing: two creators that both pass the check, see `C16_violated`. -/
theorem C16_partial {E : Env} {s s' : Schema} (hn : s.names.Nodup) {σ : Sys} {w' : World}
    {r : Except Err Handle} (h1 : Reach E s anyStep σ) (hc : create s' σ.w = (r, w')) :
    r = .error .storageExists ∧ SameStorage E σ.w w' ∧ Reach E s anyStep ⟨w', σ.slots⟩ := by
  obtain ⟨md, hok⟩ := reach_ok hn h1
  obtain ⟨p, hp, -⟩ := hok.wok.stored
  have he : ∃ c, AMap.get? σ.w.fs .entryPoint = some c := by
    unfold FS.entry at hp
    cases hg : AMap.get? σ.w.fs .entryPoint with
    | none => rw [hg] at hp; cases hp
    | some c => exact ⟨c, rfl⟩
  obtain ⟨c, he⟩ := he
  have hne : ∀ c', AMap.get? (AMap.set σ.w.fs (.metadata σ.w.next) c') .entryPoint = some c := by
    intro c'
    rw [AMap.get?_set_ne _ _ (by simp)]; exact he
  have hnone : AMap.get? σ.w.fs (.metadata σ.w.next) = none := hok.wok.fresh _ _ rfl (Nat.le_refl _)
  simp only [create, createHead, Bind.bind, M.andThen, fresh, putFile, M.modify, M.get, World.put, hne,
    M.raise, Prod.mk.injEq] at hc
  obtain ⟨rfl, rfl⟩ := hc
  have g := ((Grows.fresh' σ.w).trans (Grows.put (w := { σ.w with next := σ.w.next + 1 })
    (p := .metadata σ.w.next)
    (c := .mdata { schema := s', current := 0, snaps := [(0, { id := 0 })], refs := [] })
    rfl (Nat.lt_succ_self _) hnone)).adds
  obtain ⟨σ0, hst, hr⟩ := h1
  exact ⟨rfl, same_of hok.wok (hok.wok.adds g) g.le, σ0, hst,
    .step (ev := .orphans) hr trivial (.orphans g)⟩

/-- The schema of a second creator. -/
def otherSchema : Schema := { fields := [⟨"k", 0, .int⟩], pks := ["k"], recs := [] }

/-- C16 fails in a race: a second creator has found the location empty (`createHead`);
the first creator creates the storage and appends a row; the second creator goes on
(`createTail`), succeeds, and the row and the schema of the first are gone.  The
check and the move in `write_proto` are not one operation (`fs/arrow.py:46-57`). -/
theorem C16_violated : ∃ (w0 w1 w2 w3 : World) (x : Path × Metadata) (h h' h2 : Handle) (r : Result),
    w0.Empty ∧ createHead otherSchema w0 = (.ok x, w1) ∧
    create schema w1 = (.ok h, w2) ∧
    exec env (.mutate (.append [[row 1 "x" [1]]])) h w2 = (r, h', w3) ∧ r = .job .succeeded ∧
    freshRead env w3 "main" {} none = .ok [row 1 "x" [1]] ∧
    ∃ w4, createTail x w3 = (.ok h2, w4) ∧ freshRead env w4 "main" {} none = .ok [] ∧
      tableRead env h' w4 {} none = .ok [] ∧
      (w4.stored).map (·.schema) = some otherSchema := by
  let w0 : World := {}
  let a := createHead otherSchema w0
  let x : Path × Metadata := match a.1 with
    | .ok x => x
    | .error _ => (.entryPoint, { schema := schema, current := 0, snaps := [], refs := [] })
  let b := create schema a.2
  let h : Handle := match b.1 with
    | .ok h => h
    | .error _ => (start schema).1
  let c := exec env (.mutate (.append [[row 1 "x" [1]]])) h b.2
  let d := createTail x c.2.2
  let h2 : Handle := match d.1 with
    | .ok h => h
    | .error _ => (start schema).1
  exact ⟨w0, a.2, b.2, c.2.2, x, h, c.2.1, h2, c.1, empty, rfl, rfl, rfl, by decide +kernel,
    by decide +kernel, d.2, rfl, by decide +kernel, by decide +kernel, by decide +kernel⟩

/-- C16, what the race does: a creator whose check found no storage at `w0` makes its move at any later time `w`, at
which its metadata file is still there.  It always succeeds, and replaces the entry point by its own: what is stored
is an empty storage with its schema, whatever was stored before.  No other file is touched. -/
theorem C16_effect {s' : Schema} {w0 w1 w w' : World} {x : Path × Metadata} {r : Except Err Handle}
    (hh : createHead s' w0 = (.ok x, w1)) (hl : FSLe w1.fs w.fs) (ht : createTail x w = (r, w')) :
    AMap.get? w0.fs .entryPoint = none ∧ (∃ h, r = .ok h ∧ h.md = x.2 ∧ h.branch = mainBranch) ∧
    w'.stored = some { schema := s', current := 0, snaps := [(0, { id := 0 })], refs := [] } ∧
    ∀ p, p ≠ .entryPoint → AMap.get? w'.fs p = AMap.get? w.fs p := by
  have hno : AMap.get? w0.fs .entryPoint = none := by
    cases hg : AMap.get? w0.fs .entryPoint with
    | none => rfl
    | some c =>
      have : AMap.get? (AMap.set w0.fs (.metadata w0.next) (Content.mdata
          { schema := s', current := 0, snaps := [(0, { id := 0 })], refs := [] })) .entryPoint = some c := by
        rw [AMap.get?_set_ne _ _ (by simp)]; exact hg
      simp only [createHead, Bind.bind, M.andThen, fresh, putFile, M.modify, M.get, World.put, this, M.raise] at hh
      cases hh
  have hno' : AMap.get? (AMap.set w0.fs (.metadata w0.next) (Content.mdata
      { schema := s', current := 0, snaps := [(0, { id := 0 })], refs := [] })) .entryPoint = none := by
    rw [AMap.get?_set_ne _ _ (by simp)]; exact hno
  simp only [createHead, Bind.bind, M.andThen, fresh, putFile, M.modify, M.get, World.put, hno', Pure.pure, M.ret,
    Prod.mk.injEq, Except.ok.injEq] at hh
  obtain ⟨rfl, rfl⟩ := hh
  have hm := hl (.metadata w0.next) _ rfl (AMap.get?_set_self ..)
  simp only [createTail, Bind.bind, M.andThen, putFile, M.modify, World.put, Pure.pure, M.ret, Prod.mk.injEq] at ht
  obtain ⟨rfl, rfl⟩ := ht
  refine ⟨hno, ⟨_, rfl, rfl, rfl⟩, ?_, fun p hp => AMap.get?_set_ne _ _ (by simpa using hp)⟩
  simp only [World.stored, readStored, FS.entry, FS.mdata, AMap.get?_set_self]
  rw [AMap.get?_set_ne _ _ (by simp), hm]

/-- A second creator has found the location empty; then the first creates the storage. -/
example : ∃ (w0 w1 w w' : World) (x : Path × Metadata) (h : Handle) (r : Except Err Handle),
    createHead otherSchema w0 = (.ok x, w1) ∧ create schema w1 = (.ok h, w) ∧ FSLe w1.fs w.fs ∧
    createTail x w = (r, w') ∧ w.stored.map (·.schema) = some schema ∧
    w'.stored.map (·.schema) = some otherSchema := by
  let w0 : World := {}
  let a := createHead otherSchema w0
  let md : Metadata := { schema := otherSchema, current := 0, snaps := [(0, { id := 0 })], refs := [] }
  let b := create schema a.2
  let h : Handle := match b.1 with
    | .ok h => h
    | .error _ => (start schema).1
  refine ⟨w0, a.2, b.2, (createTail (.metadata 0, md) b.2).2, (.metadata 0, md), h,
    (createTail (.metadata 0, md) b.2).1, rfl, rfl, ?_, rfl, by decide +kernel, by decide +kernel⟩
  intro p c _ hg
  have hp : p = .metadata 0 := by
    apply Decidable.byContradiction
    intro hne
    rw [show a.2.fs = AMap.set [] (.metadata 0) (.mdata md) from rfl, AMap.get?_set_ne _ _ (by simpa using hne)] at hg
    cases hg
  subst hp
  rw [← hg]
  rfl

/-! ## C46 -/

/-- C46: a read that has been called reads the same rows (or fails the same way)
whenever it is consumed: every file it opens may be opened at a different later
time, in any state the other handles have brought about by commits, deletes, tags,
branches and crashes. -/
theorem C46 {E : Env} {s : Schema} (hn : s.names.Nodup) {σ : Sys} {sl : Slot}
    (h1 : Reach E s anyStep σ) (hsl : sl ∈ σ.slots) {later : Nat → Nat → Sys}
    (hl : ∀ i j, Run E s anyStep σ (later i j)) (o : ReadOpts) (v : Option Version) :
    lazyRead E sl.h σ.w (fun i j => (later i j).w.fs) o v = tableRead E sl.h σ.w o v := by
  obtain ⟨md, hok⟩ := reach_ok hn h1
  refine lazyRead_eq hok.wok (hok.slots sl hsl).1 (fun i j => ?_) o v
  obtain ⟨-, -, hf⟩ := run_ok hn hok (hl i j)
  exact hf

/-- A read consumed while another handle deletes the row: the index file is opened
before, the record file after the delete has been committed. -/
example : ∃ (σ : Sys) (sl : Slot) (later : Nat → Nat → Sys),
    Reach env schema anyStep σ ∧ sl ∈ σ.slots ∧ (∀ i j, Run env schema anyStep σ (later i j)) ∧
    lazyRead env sl.h σ.w (fun i j => (later i j).w.fs) {} none =
      .ok [row 1 "x" [1], row 2 "y" [2]] ∧
    tableRead env sl.h (later 0 1).w {} none = .ok [row 2 "y" [2]] := by
  let σ := after env anyB schema [.call 0 (.mutate (.append [[row 1 "x" [1], row 2 "y" [2]]])), .load]
  let a : Act := .call 1 (.mutate (.delete (.bin "equal" (.sel "id") (.lit (.int 1)))))
  let σ' := more env anyB [a] σ
  let later : Nat → Nat → Sys := fun _ j => if j = 0 then σ else σ'
  obtain ⟨sl, -, h1, h2⟩ := slot_of (σ := σ) (i := 0)
    (f := fun sl => (lazyRead env sl.h σ.w (fun i j => (later i j).w.fs) {} none,
      tableRead env sl.h (later 0 1).w {} none))
    (x := (.ok [row 1 "x" [1], row 2 "y" [2]], .ok [row 2 "y" [2]])) (by decide +kernel)
  simp only [Prod.mk.injEq] at h2
  refine ⟨σ, sl, later, after_reach (fun _ _ _ => trivial) _, h1, fun i j => ?_, h2⟩
  by_cases hj : j = 0
  · simp only [later, hj, if_true]
    exact .refl _
  · simp only [later, hj, if_false]
    exact more_run (fun _ _ _ => trivial) _ _

/-! ## C47 -/

/-- Everything a snapshot refers to is there, with the recorded contents. -/
structure AllThere (fs : FS) (s : Schema) (snap : Snapshot) : Prop where
  /-- index manifests and index files, with the recorded numbers of rows -/
  index : ∀ p ∈ snap.index, ∃ rows, fs.imanifest p = some rows ∧
    ∀ m ∈ rows, ∃ groups, fs.parquet m.file = some groups ∧ groups.flatten.length = m.numRows
  /-- the records the rows point to -/
  addrs : ∀ p ∈ snap.index, ∀ rows, fs.imanifest p = some rows → ∀ m ∈ rows,
    ∀ groups, fs.parquet m.file = some groups → ∀ r ∈ groups.flatten, ∀ c ∈ s.recs, ∀ v, (c, v) ∈ r →
      ∃ f i rs, v = .addr f i ∧ fs.records f = some rs ∧ i < rs.length
  /-- record manifests and record files, with the recorded numbers of records -/
  recs : ∀ p ∈ snap.recs, ∃ rows, fs.rmanifest p = some rows ∧
    ∀ m ∈ rows, ∃ rs, fs.records m.file = some rs ∧ rs.length = m.numRows
  /-- the change log, and the index files and rows it speaks of -/
  log : ∀ p, snap.log = some p → ∃ cl, fs.log p = some cl ∧
    ∀ b ∈ cl.deleted ++ cl.added, ∃ groups, fs.parquet b.file = some groups ∧
      groups.flatten.length = b.numRows ∧ ∀ i ∈ b.bits, i < b.numRows

theorem SnapOK.allThere {fs : FS} {s : Schema} {snap : Snapshot} (h : SnapOK fs s snap) :
    AllThere fs s snap := by
  refine ⟨fun p hp => ?_, fun p hp rows hr m hm groups hg r hrm c hc v hv => ?_, fun p hp => ?_, fun p hp => ?_⟩
  · obtain ⟨rows, h1, -, h3⟩ := h.manifests p hp
    refine ⟨rows, h1, fun m hm => ?_⟩
    obtain ⟨g, g1, g2, -⟩ := h3 m hm
    exact ⟨g, g1, g2.symm⟩
  · obtain ⟨rows', h1, -, h3⟩ := h.manifests p hp
    rw [hr] at h1
    cases h1
    obtain ⟨g, g1, -, -, g4⟩ := h3 m hm
    rw [hg] at g1
    cases g1
    exact (g4 r hrm).2 c hc v hv
  · obtain ⟨rows, h1, h2⟩ := h.records p hp
    refine ⟨rows, h1, fun m hm => ?_⟩
    obtain ⟨rs, r1, r2⟩ := h2 m hm
    exact ⟨rs, r1, r2.symm⟩
  · obtain ⟨cl, h1, h2⟩ := h.log p hp
    refine ⟨cl, h1, fun b hb => ?_⟩
    obtain ⟨g, g1, g2, g3, -⟩ := h2 b (List.mem_append.mp hb)
    exact ⟨g, g1, g2.symm, g3⟩

/-- C47: in every reachable state (including those a crash leaves, by `C15`, and those
failed calls leave) the entry point leads to metadata all of whose snapshots have all
their files; and a file other than the entry point never changes or disappears. -/
theorem C47 {E : Env} {s : Schema} (hn : s.names.Nodup) {σ : Sys} (h1 : Reach E s anyStep σ) :
    (∃ p md, σ.w.fs.entry = some p ∧ σ.w.fs.mdata p = some md ∧ md.schema = s ∧
      ∀ n snap, md.snaps.get? n = some snap → AllThere σ.w.fs s snap) ∧
    ∀ σ', Run E s anyStep σ σ' → ∀ p c, c.isData = true → AMap.get? σ.w.fs p = some c →
      AMap.get? σ'.w.fs p = some c := by
  obtain ⟨md, hok⟩ := reach_ok hn h1
  obtain ⟨p, hp, hm⟩ := hok.wok.stored
  refine ⟨⟨p, md, hp, hm, hok.wok.schema, fun n snap hs => ?_⟩, fun σ' hr => ?_⟩
  · have := hok.wok.ok.snaps n snap hs
    rw [hok.wok.schema] at this
    exact this.allThere
  · obtain ⟨-, -, hf⟩ := run_ok hn hok hr
    exact hf

/-- A state with something to lose: two snapshots with rows, records and change logs,
one of them written by a delete. -/
example : ∃ (σ : Sys) (md : Metadata) (snap : Snapshot), Reach env schema anyStep σ ∧
    σ.w.stored = some md ∧ md.snaps.get? 2 = some snap ∧ snap.index ≠ [] ∧ snap.recs ≠ [] ∧
    snap.log.isSome := by
  let σ := after env anyB schema [.call 0 (.mutate (.append [[row 1 "x" [1], row 2 "y" [2]]])),
    .call 0 (.mutate (.delete (.bin "equal" (.sel "id") (.lit (.int 1)))))]
  obtain ⟨md, h1, h2⟩ := stored_of_map (w := σ.w)
    (f := fun md => (md.snaps.get? 2).map fun sn => (sn.index.isEmpty, sn.recs.isEmpty, sn.log.isSome))
    (x := some (false, false, true)) (by decide +kernel)
  cases hs : md.snaps.get? 2 with
  | none => rw [hs] at h2; cases h2
  | some snap =>
    rw [hs] at h2
    simp only [Option.map_some, Option.some.injEq, Prod.mk.injEq] at h2
    refine ⟨σ, md, snap, after_reach (fun _ _ _ => trivial) _, h1, hs, ?_, ?_, h2.2.2⟩
    · rintro h; rw [h] at h2; simp at h2
    · rintro h; rw [h] at h2; simp at h2

end Space
