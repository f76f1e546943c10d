import Verif.Memory
import Verif.Props.RayDelete
import Verif.Filled

/-!
# One handle and a table in memory: the simulation
-/

namespace Space

open List (Perm)
open scoped List

/-- The counter of snapshot ids is what a new object would have, if the object does not
reload before the next commit. -/
def InCount (h : Handle) : Prop := h.full = false → h.maxId = h.md.maxRefId

theorem reload_counted {s : Schema} {w : World} {md : Metadata} {h : Handle} (hw : WOK s w md)
    (hh : HandleOK s w h) (hc : InCount h) {F : Handle × World → Prop} :
    Post (reload (h, w)) (fun _ st => st.2 = w ∧ st.1.md = md ∧ st.1.branch = h.branch ∧ HandleOK s w st.1 ∧
      InCount st.1) F := by
  refine (reload_post hw hh (F := F)).imp ?_ (fun _ h => h)
  rintro b ⟨h1, w1⟩ ⟨e1, e2, e3, e4, e5, e6, e7⟩
  refine ⟨e1, e2, e3, e4, ?_⟩
  cases b with
  | false => rw [e6 rfl]; exact hc
  | true =>
    rw [e7 rfl]
    intro _
    rfl

/-- The counter after a mutation that did not take effect. -/
theorem runMutation_counted {E : Env} {s : Schema} {w : World} {md : Metadata} {h : Handle} (hn : s.names.Nodup)
    (hw : WOK s w md) (hh : HandleOK s w h) {m : Mutation} (hadm : m.Admissible s w.fs)
    (hb : OnBranch md h.branch) (hc : InCount h) :
    Post (runMutation E m (h, w)) (fun j st => j ≠ .succeeded → InCount st.1) (fun st => InCount st.1) := by
  obtain ⟨cur, hid, hget, -⟩ := hb.head hw.ok
  unfold runMutation
  refine Post.bind (Q := fun t st => st.2 = w ∧ st.1.md = md ∧ st.1.branch = h.branch ∧
        HandleOK s w st.1 ∧ InCount st.1 ∧ t.branch = h.branch ∧ t.start = cur.id) ?_ ?_
  · unfold Txn.enter
    refine Post.bind (Q := fun a st => h = a ∧ st = (h, w)) ⟨rfl, rfl⟩ ?_
    rintro a _ ⟨ha, rfl⟩
    subst ha
    refine Post.bind (reload_counted hw hh hc) ?_
    rintro b ⟨h1, w1⟩ ⟨e1, e2, e3, e4, e5⟩
    refine Post.bind (Q := fun a st => h1 = a ∧ st = (h1, w1)) ⟨rfl, rfl⟩ ?_
    rintro a _ ⟨ha, rfl⟩
    subst ha
    simp only at e2
    rw [e2, hid]
    exact ⟨e1, e2, e3, e4, e5, rfl, rfl⟩
  rintro t ⟨h1, w1⟩ ⟨rfl, h2, h3, h4, h4', h5, h6⟩
  simp only at h2 h3 h4 h4' h5 h6
  refine Post.bind (Q := fun a st => h1 = a ∧ st = (h1, w1)) ⟨rfl, rfl⟩ ?_
  rintro a _ ⟨ha, rfl⟩
  subst ha
  have hbp := body_post (E := E) hw.fresh h4 hn m hadm
  refine Post.bind (Q := fun a st => m.body E h1 w1 = (.ok a, st.2) ∧ st.1 = h1) ?_ ?_
  · unfold liftW
    simp only
    cases hx : m.body E h1 w1 with
    | mk r w2 =>
      cases r with
      | ok p => exact ⟨rfl, rfl⟩
      | error e => exact h4'
  rintro p ⟨hx, w2⟩ ⟨h7, hx'⟩
  simp only at h7 hx'
  subst hx'
  obtain ⟨hg, hf2, hpp⟩ := Post.elim hbp h7
  have hw2 := hw.grows hg
  have hh2 := h4.mono hg.le
  unfold Txn.commit
  refine Post.bind (Q := fun a st => a = true ∧ st.2 = w2 ∧ st.1.md = md ∧ HandleOK s w2 st.1 ∧ InCount st.1) ?_ ?_
  · unfold Txn.check
    refine Post.bind (reload_counted hw2 hh2 h4') ?_
    rintro b ⟨h', w'⟩ ⟨e1, e2, e3, e4, e5⟩
    refine Post.bind (Q := fun a st => h' = a ∧ st = (h', w')) ⟨rfl, rfl⟩ ?_
    rintro a _ ⟨ha, rfl⟩
    subst ha
    simp only at e2
    rw [e2, h5, hid]
    exact ⟨by simp [h6], e1, e2, e4, e5⟩
  rintro _ ⟨h', w'⟩ ⟨rfl, rfl, e2, e4, e5⟩
  simp only at e2 e4 e5
  simp only [Bool.not_true, Bool.false_eq_true, ite_false]
  cases p with
  | none => exact Post.pure fun _ => e5
  | some q =>
    have hsnap : hx.snapshot none = .ok cur := by
      simp [Handle.snapshot, h2, h3, hid, Metadata.snapshot, hget]
    have hpn := (hpp q rfl).2 cur hsnap
    refine Post.bind ((commit_total (w0 := w1) e4 (by rw [e2, h5]; exact hb) (by rw [e2, h5]; exact hid)
      (by rw [e2]; exact hget) (by rw [← hw.schema]; exact hw.ok.snaps _ _ hget) hpn).imp (fun _ _ h => h) (fun _ h => h.elim)) ?_
    intro _ _ _
    exact Post.pure fun h => absurd rfl h

/-- A whole call, computed. -/
theorem call_run {E : Env} {s : Schema} {σ σ' : Sys} {i : Nat} {c : Call} {r : Result} {sl : Slot}
    (hsl : σ.slots[i]? = some sl) (hs : Step E s σ (.call i c r) σ') :
    sl.phase = .idle ∧ c.Admissible s σ.w.fs ∧ ∃ h' w', exec E c sl.h σ.w = (r, h', w') ∧
      σ' = ⟨w', σ.slots.set i ⟨h', .idle⟩⟩ := by
  cases hs with
  | call hi hadm hrun =>
    simp only at hsl
    rw [hi] at hsl
    cases hsl
    exact ⟨rfl, hadm, _, _, hrun, rfl⟩

/-- The result of a call is determined. -/
theorem call_unique {E : Env} {s : Schema} {σ σ' σ'' : Sys} {i : Nat} {c : Call} {r r' : Result} {sl : Slot}
    (hsl : σ.slots[i]? = some sl) (hs : Step E s σ (.call i c r) σ') (hs' : Step E s σ (.call i c r') σ'') :
    r = r' := by
  obtain ⟨-, -, _, _, h1, -⟩ := call_run hsl hs
  obtain ⟨-, -, _, _, h2, -⟩ := call_run hsl hs'
  rw [h1] at h2
  cases h2
  rfl

/-- The rows of a snapshot, up to their order. -/
def Held (s : Schema) (fs : FS) : Option Snapshot → Option (List Row) → Prop
  | none, none => True
  | some snap, some rows => (snapRows fs s snap).map (·.select s.writeNames) ~ rows
  | _, _ => False

/-- The stored metadata `md` and the table in memory agree. -/
structure Holds (E : Env) (s : Schema) (m : Mem) (σ : Sys) (md : Metadata) : Prop where
  ok : SysOK E s σ md
  main : m.main = md.current
  refs : m.refs = md.refs
  rows : ∀ n, Held s σ.w.fs (md.snaps.get? n) (m.versions n)
  keys : ∀ n rows, m.versions n = some rows → KeysSet s rows

/-- The one handle and the table in memory agree. -/
structure Sim (E : Env) (s : Schema) (m : Mem) (σ : Sys) (h : Handle) : Prop where
  slots : σ.slots = [⟨h, .idle⟩]
  ok : SysOK E s σ h.md
  main : m.main = h.md.current
  refs : m.refs = h.md.refs
  on : m.on = h.branch
  branch : OnBranch h.md h.branch
  counted : InCount h
  rows : ∀ n, Held s σ.w.fs (h.md.snaps.get? n) (m.versions n)
  keys : ∀ n rows, m.versions n = some rows → KeysSet s rows

theorem Held.isSome {s : Schema} {fs : FS} {a : Option Snapshot} {b : Option (List Row)} (h : Held s fs a b) :
    a.isSome = b.isSome := by
  cases a <;> cases b <;> first | rfl | exact h.elim

theorem Held.mono {s : Schema} {fs fs' : FS} (hf : FSLe fs fs') {a : Option Snapshot} {b : Option (List Row)}
    (ha : ∀ snap, a = some snap → SnapOK fs s snap) (h : Held s fs a b) : Held s fs' a b := by
  cases a with
  | none => cases b <;> exact h
  | some snap =>
    cases b with
    | none => exact h
    | some rows =>
      simp only [Held] at h ⊢
      rw [snapRows_mono hf (ha _ rfl)]
      exact h

section
variable {E : Env} {s : Schema} {m : Mem} {σ σ' : Sys} {h h' : Handle}

theorem Sim.holds (hs : Sim E s m σ h) : Holds E s m σ h.md := ⟨hs.ok, hs.main, hs.refs, hs.rows, hs.keys⟩

theorem Sim.slot (hs : Sim E s m σ h) : σ.slots[0]? = some ⟨h, .idle⟩ := by rw [hs.slots]; rfl

theorem Sim.handle (hs : Sim E s m σ h) : HandleOK s σ.w h :=
  hs.ok.slot (sl := ⟨h, .idle⟩) (by rw [hs.slots]; exact List.mem_singleton.mpr rfl)

theorem Sim.snapOK (hs : Sim E s m σ h) {n : Nat} {snap : Snapshot} (hg : h.md.snaps.get? n = some snap) :
    SnapOK σ.w.fs s snap := by
  rw [← hs.ok.wok.schema]
  exact hs.ok.wok.ok.snaps _ _ hg

/-- Calls that change neither metadata nor branch. -/
theorem Sim.same (hs : Sim E s m σ h) (hsl : σ'.slots = [⟨h', .idle⟩]) (hok : SysOK E s σ' h'.md)
    (hle : FSLe σ.w.fs σ'.w.fs) (hmd : h'.md = h.md) (hb : h'.branch = h.branch) (hc : InCount h') :
    Sim E s m σ' h' where
  slots := hsl
  ok := hok
  main := by rw [hmd]; exact hs.main
  refs := by rw [hmd]; exact hs.refs
  on := by rw [hb]; exact hs.on
  branch := by rw [hmd, hb]; exact hs.branch
  counted := hc
  rows := fun n => by
    rw [hmd]
    exact (hs.rows n).mono hle fun snap hg => hs.snapOK hg
  keys := hs.keys

theorem Sim.next (hs : Sim E s m σ h) : m.next = h.md.maxRefId + 1 := by
  unfold Mem.next Metadata.maxRefId
  rw [hs.main, hs.refs]

/-- A commit. -/
theorem Sim.commit (hs : Sim E s m σ h) (hsl : σ'.slots = [⟨h', .idle⟩]) (hok : SysOK E s σ' h'.md)
    (hle : FSLe σ.w.fs σ'.w.fs) (hb : h'.branch = h.branch) {p : Patch} {n : Nat} {cur snap : Snapshot}
    (com : Committed σ'.w.fs h.md h'.md h.branch p n cur snap) (hn : n = h.md.maxRefId + 1)
    (hmax : h'.maxId = n) {rows : List Row}
    (hrows : (snapRows σ'.w.fs s snap).map (·.select s.writeNames) ~ rows) (hkeys : KeysSet s rows) :
    Sim E s (m.put rows) σ' h' := by
  have hnext : m.next = n := by rw [hs.next, hn]
  have hhead := com.newHead
  refine ⟨hsl, hok, ?_, ?_, ?_, ?_, ?_, ?_, ?_⟩
  · simp only [Mem.put, hs.on, hnext, hs.main]
    rcases com.move with ⟨c1, c2, -⟩ | ⟨c1, c2, -⟩
    · rw [if_pos (show h.branch = "main" from c1), c2]
    · rw [if_neg (show h.branch ≠ "main" from c1), c2]
  · simp only [Mem.put, hs.on, hnext, hs.refs]
    rcases com.move with ⟨c1, -, c2⟩ | ⟨c1, -, r, -, c3, c2⟩
    · rw [if_pos (show h.branch = "main" from c1), c2]
    · rw [if_neg (show h.branch ≠ "main" from c1), c2]
      obtain ⟨i, k⟩ := r
      simp only at c3
      subst c3
      rfl
  · show m.on = h'.branch
    rw [hs.on, hb]
  · rw [hb]
    rcases com.move with ⟨c1, -⟩ | ⟨c1, -, r, -, c3, c2⟩
    · exact Or.inl c1
    · refine Or.inr ⟨{ r with id := n }, ?_, c3⟩
      rw [c2]
      exact AMap.get?_set_self ..
  · intro hf
    have h1 : h'.md.maxRefId ≤ h'.maxId :=
      (hok.slot (sl := ⟨h', .idle⟩) (by rw [hsl]; exact List.mem_singleton.mpr rfl)).max hf
    have h2 : n ≤ h'.md.maxRefId := Live.le hok.wok.ok (currentId_live hhead)
    rw [hmax] at h1 ⊢
    omega
  · intro k
    simp only [Mem.put, hnext, com.snaps]
    by_cases hk : k = n
    · subst hk
      rw [AMap.get?_set_self, if_pos rfl]
      exact hrows
    · rw [AMap.get?_set_ne _ _ hk, if_neg hk]
      exact (hs.rows k).mono hle fun snap hg => hs.snapOK hg
  · intro k rs hk
    simp only [Mem.put] at hk
    split at hk
    · cases hk; exact hkeys
    · exact hs.keys k rs hk

/-- A change of references. -/
theorem Sim.refsWritten (hs : Sim E s m σ h) (hsl : σ'.slots = [⟨h', .idle⟩]) (hok : SysOK E s σ' h'.md)
    {refs : AMap String Ref} (hw : RefsWritten s h σ.w refs h' σ'.w)
    (hb : OnBranch { h.md with refs := refs } h.branch) : Sim E s { m with refs := refs } σ' h' where
  slots := hsl
  ok := hok
  main := by rw [hw.md]; exact hs.main
  refs := by rw [hw.md]
  on := by rw [hw.branch]; exact hs.on
  branch := by rw [hw.branch, hw.md]; exact hb
  counted := fun hf => by rw [hw.full] at hf; cases hf
  rows := fun n => by
    rw [hw.md]
    exact (hs.rows n).mono hw.le fun snap hg => hs.snapOK hg
  keys := hs.keys

/-- The head of the branch. -/
theorem Sim.head (hs : Sim E s m σ h) : ∃ cur, h.md.target h.branch none = .ok cur ∧
    SnapOK σ.w.fs s cur ∧ h.md.currentId h.branch = .ok cur.id ∧ h.md.snaps.get? cur.id = some cur ∧
    headLayout s h σ.w = layout σ.w.fs s cur ∧
    (snapRows σ.w.fs s cur).map (·.select s.writeNames) ~ m.head ∧ KeysSet s m.head := by
  obtain ⟨cur, hid, hget, -⟩ := hs.branch.head hs.ok.wok.ok
  have htar := target_head hid hget
  have hv : m.version none = some cur.id := by
    unfold Mem.version
    simp only [hs.on, hs.main, hs.refs]
    unfold Metadata.currentId Metadata.lookupRef at hid
    by_cases hm : h.branch = mainBranch
    · rw [if_pos hm] at hid
      rw [if_pos (show h.branch = "main" from hm)]
      rw [Except.ok.inj hid]
    · rw [if_neg hm] at hid
      rw [if_neg (show h.branch ≠ "main" from hm)]
      cases hg : h.md.refs.get? h.branch with
      | none => rw [hg] at hid; cases hid
      | some r =>
        rw [hg] at hid
        simp only [Except.map, Except.ok.injEq] at hid
        simp [hid]
  have hr := hs.rows cur.id
  rw [hget] at hr
  cases hx : m.versions cur.id with
  | none => rw [hx] at hr; exact hr.elim
  | some rows =>
    rw [hx] at hr
    have hh : m.head = rows := by simp [Mem.head, Mem.rows, hv, hx]
    refine ⟨cur, htar, hs.snapOK hget, hid, hget, ?_, by rw [hh]; exact hr, by rw [hh]; exact hs.keys _ _ hx⟩
    simp [headLayout, headOf, hs.ok.wok.storedEq, htar, Except.toOption]

/-- A mutation: nothing changed, or a version was put on the branch. -/
theorem Sim.mutate (hn : s.names.Nodup) (hs : Sim E s m σ h) {mu : Mutation} {r : Result}
    (hst : Step E s σ (.call 0 (.mutate mu) r) σ') :
    ∃ h', (r ≠ .job .succeeded ∧ Sim E s m σ' h') ∨
      (r = .job .succeeded ∧ ∃ h1 w1 p cur snap, Success E s mu h σ.w σ.w h' σ'.w h1 w1 p cur snap ∧
        (snapRows σ.w.fs s cur).map (·.select s.writeNames) ~ m.head ∧ headLayout s h σ.w = layout σ.w.fs s cur ∧
        ∀ rows, (snapRows σ'.w.fs s snap).map (·.select s.writeNames) ~ rows → KeysSet s rows →
          Sim E s (m.put rows) σ' h') := by
  obtain ⟨-, h', hsl', hok'⟩ := solo_step hn ⟨h, hs.slots, hs.ok⟩
    ⟨by rw [hs.slots]; rfl, Or.inl ⟨_, _, rfl⟩⟩ hst
  obtain ⟨-, hadm, h2, w2, hrun, rfl⟩ := call_run hs.slot hst
  simp only at hrun hadm
  rw [hs.slots] at hsl'
  have : h2 = h' := by simpa using hsl'
  subst this
  have hw := hs.ok.wok
  have hh := hs.handle
  refine ⟨h2, ?_⟩
  have hm : ∃ o, mutate E mu h σ.w = (o, h2, w2) ∧ (o = .job .succeeded ↔ r = .job .succeeded) := by
    simp only [exec] at hrun
    cases ho : mutate E mu h σ.w with
    | mk o st =>
      rw [ho] at hrun
      cases o with
      | job j =>
        simp only [Prod.mk.injEq] at hrun
        obtain ⟨rfl, rfl, rfl⟩ := hrun
        exact ⟨_, rfl, by simp⟩
      | raised e =>
        simp only [Prod.mk.injEq] at hrun
        obtain ⟨rfl, rfl, rfl⟩ := hrun
        exact ⟨_, rfl, by simp⟩
  obtain ⟨o, ho, hor⟩ := hm
  obtain ⟨hb, hh', hcase⟩ := mutate_post hw hh hn mu hadm ho
  rcases hcase with ⟨h1, hg, hmd⟩ | ⟨h1, x1, w1, p, n, cur, snap, hmu⟩
  · left
    refine ⟨fun hc => h1 (hor.mpr hc), hs.same (by simp [hs.slots]) hok' hg.le hmd hb ?_⟩
    have hc := runMutation_counted (E := E) (m := mu) hn hw hh hadm hs.branch hs.counted
    unfold Space.mutate at ho
    cases hr : runMutation E mu (h, σ.w) with
    | mk q st =>
      obtain ⟨h3, w3⟩ := st
      rw [hr] at ho hc
      cases q with
      | ok j =>
        simp only [Prod.mk.injEq] at ho
        obtain ⟨rfl, rfl, rfl⟩ := ho
        exact hc fun hj => h1 (by rw [hj])
      | error e =>
        simp only [Prod.mk.injEq] at ho
        obtain ⟨rfl, rfl, rfl⟩ := ho
        exact hc
  · right
    have hsucc := hmu.success hw hh hadm hb hh'
    obtain ⟨cur', htar, hcok, hid, hget, hlay, hrows, hkeys⟩ := hs.head
    have hcc : cur' = cur := by
      have := hsucc.head
      simpa [headOf, hw.storedEq, htar, Except.toOption] using this
    subst hcc
    refine ⟨hor.mp h1, x1, w1, p, cur', snap, hsucc, hrows, hlay, fun rows hr hkk => ?_⟩
    have hnum : n = h.md.maxRefId + 1 := by
      rcases hmu.num with ⟨h0, h3⟩ | h3
      · rw [h3, hs.counted h0]
      · exact h3
    exact hs.commit (σ' := ⟨w2, σ.slots.set 0 ⟨h2, .idle⟩⟩) (by simp [hs.slots]) hok'
      (hmu.grows.le.trans hmu.step.le) hb hmu.step.com hnum hmu.step.max hr hkk

theorem Sim.reads (hs : Sim E s m σ h) {cur : Snapshot} (ht : h.md.target h.branch none = .ok cur) :
    Reads E σ h.branch ((snapRows σ.w.fs s cur).map (·.select s.writeNames)) := by
  intro sl hsl _
  rw [hs.slots] at hsl
  simp only [List.mem_singleton] at hsl
  subst hsl
  rw [tableRead_full hs.ok.wok hs.handle, ht]

theorem Sim.branchIn (hs : Sim E s m σ h) : branchIn h.branch σ := (branchIn_iff hs.ok).mpr hs.branch

theorem keysSet_append {a b : List Row} (ha : KeysSet s a) (hb : KeysSet s b) : KeysSet s (a ++ b) := by
  intro r hr
  rcases List.mem_append.mp hr with hr | hr
  · exact ha r hr
  · exact hb r hr

theorem keysSet_takes (hk : KeySchema s) {rows : List Row} (ht : ∀ r ∈ rows, Takes s r) :
    KeysSet s (rows.map (·.select s.names)) := by
  intro r hr k hkk
  obtain ⟨x, hx, rfl⟩ := List.mem_map.mp hr
  rw [select_val (hk.keys k hkk)]
  exact (ht x hx).keys k hkk

theorem keysSet_filter {a : List Row} (ha : KeysSet s a) (f : Row → Bool) : KeysSet s (a.filter f) :=
  fun r hr => ha r (List.mem_filter.mp hr).1

theorem KeysSet.perm {a b : List Row} (h : KeysSet s a) (hp : a ~ b) : KeysSet s b :=
  fun r hr => h r (hp.mem_iff.mpr hr)

/-- Keys are set in the files, too. -/
theorem keysSet_written (hk : KeySchema s) {rows : List Row} :
    KeysSet s (rows.map (·.select s.writeNames)) ↔ KeysSet s rows := by
  constructor
  · intro h r hr k hkk
    have := h _ (List.mem_map_of_mem hr) k hkk
    rwa [select_val (writeNames_sub.mpr (hk.keys k hkk))] at this
  · intro h r hr k hkk
    obtain ⟨x, hx, rfl⟩ := List.mem_map.mp hr
    rw [select_val (writeNames_sub.mpr (hk.keys k hkk))]
    exact h x hx k hkk

/-- Calls that are compared: appends, inserts and upserts of rows that fit the schema,
with keys; deletes by filters that fit the schema and are null on no row; upserts and
deletes where no row is lost (`Spared`); all calls on tags and branches. -/
def Fine (E : Env) (s : Schema) (h : Handle) (w : World) : Call → Prop
  | .mutate (.append tables) => ∀ t ∈ tables, ∀ r ∈ t, Takes s r
  | .mutate (.insert rows) => ∀ r ∈ rows, Takes s r
  | .mutate (.upsert rows) => (∀ r ∈ rows, Takes s r) ∧
      Spared (fun r => some (decide (s.pks.map r.val ∈ rows.map (fun r => s.pks.map r.val)))) (headLayout s h w)
  | .mutate (.delete e) => FilterFits s e ∧ Spared (e.truth E.I) (headLayout s h w) ∧
      ∀ r ∈ (headLayout s h w).flatten.flatten, e.truth E.I r ≠ none
  | .mutate _ => False
  | _ => True

section
variable (hk : KeySchema s) (hlast : s.writeNames = s.names) (hs : Sim E s m σ h) (hr : Reach E s anyStep σ)
  (hfill : Filled σ.w)
include hk hlast hs hr hfill

theorem Sim.append {tables : List (List Row)} {r : Result} (hf : Fine E s h σ.w (.mutate (.append tables)))
    (hst : Step E s σ (.call 0 (.mutate (.append tables)) r) σ') :
    ∃ h', Sim E s (m.call E.I s (.mutate (.append tables))).2 σ' h' ∧
      (m.call E.I s (.mutate (.append tables))).1.means r := by
  obtain ⟨σ'', hst'⟩ := C01_succeeds (tables := tables) hk hlast hr hs.slot rfl hs.branchIn hf
  have hres := call_unique hs.slot hst hst'
  obtain ⟨h', hx⟩ := hs.mutate hk.names hst
  refine ⟨h', ?_⟩
  simp only [Mem.call]
  by_cases hnil : tables.flatten = []
  · rw [if_pos hnil] at hres ⊢
    rcases hx with ⟨-, hx⟩ | ⟨hx, -⟩
    · exact ⟨hx, hres⟩
    · rw [hres] at hx; cases hx
  · rw [if_neg hnil] at hres ⊢
    rcases hx with ⟨hx, -⟩ | ⟨-, h1, w1, p, cur, snap, hsucc, hrows, -, hput⟩
    · exact absurd hres hx
    refine ⟨hput _ ?_ ?_, Or.inl hres⟩
    · obtain ⟨-, -, P, mf, rmf, -, -, he⟩ := hsucc.append
      rw [he, List.map_append, List.map_map]
      have : (·.select s.writeNames) ∘ (·.select s.writeNames) = ((·.select s.writeNames) : Row → Row) := by
        funext r
        exact select_select (fun c hc => hc)
      rw [this, ← hlast]
      exact hrows.append (Perm.refl _)
    · obtain ⟨-, -, -, -, -, -, -, hkeys⟩ := hs.head
      refine keysSet_append hkeys (keysSet_takes hk ?_)
      intro r hr
      obtain ⟨t, ht, hrt⟩ := List.mem_flatten.mp hr
      exact hf t ht r hrt

theorem Sim.insert {rows : List Row} {r : Result} (hf : Fine E s h σ.w (.mutate (.insert rows)))
    (hst : Step E s σ (.call 0 (.mutate (.insert rows)) r) σ') :
    ∃ h', Sim E s (m.call E.I s (.mutate (.insert rows))).2 σ' h' ∧
      (m.call E.I s (.mutate (.insert rows))).1.means r := by
  obtain ⟨h', hx⟩ := hs.mutate hk.names hst
  refine ⟨h', ?_⟩
  simp only [Mem.call]
  obtain ⟨cur, htar, hcok, -, -, hlay, hrows, hkeys⟩ := hs.head
  by_cases hnil : rows = []
  · rw [if_pos hnil]
    have hres : r = .job .skipped := by
      obtain ⟨p, h2, w2, hp, he⟩ := exec_total (E := E) (m := .insert rows) (R := fun p => p = none)
        hk.names hs.ok.wok hs.handle trivial hs.branch (by
          intro h1 _ _ _
          simp only [Mutation.body, insertBody, if_pos hnil]
          exact Post.pure rfl)
      obtain ⟨-, -, h3, w3, hrun, -⟩ := call_run hs.slot hst
      simp only at hrun
      rw [hrun, hp] at he
      exact congrArg Prod.fst he
    rcases hx with ⟨-, hx⟩ | ⟨hx, -⟩
    · exact ⟨hx, hres⟩
    · rw [hres] at hx; cases hx
  rw [if_neg hnil]
  obtain ⟨hcl, hno⟩ := (C07_partial (E := E) (rows := rows) hk).1 hr hs.slot (hs.reads htar) hst
  have hiff : ((rows.map (rowKey s)).Nodup ∧ ∀ r ∈ m.head, rowKey s r ∉ rows.map (rowKey s)) ↔
      ¬ Clash s rows ((snapRows σ.w.fs s cur).map (·.select s.writeNames)) := by
    unfold Clash
    constructor
    · rintro ⟨h1, h2⟩ (h3 | ⟨k, h3, h4⟩)
      · exact h3 h1
      · obtain ⟨x, hx, rfl⟩ := List.mem_map.mp h4
        exact h2 x (hrows.mem_iff.mp hx) h3
    · intro h1
      refine ⟨Classical.byContradiction fun h2 => h1 (Or.inl h2), fun x hx h2 => h1 (Or.inr ⟨rowKey s x, h2, ?_⟩)⟩
      exact List.mem_map.mpr ⟨x, hrows.mem_iff.mpr hx, rfl⟩
  by_cases hc : Clash s rows ((snapRows σ.w.fs s cur).map (·.select s.writeNames))
  · rw [if_neg (fun h => (hiff.mp h) hc)]
    obtain ⟨hres, -⟩ := hcl (show KeysSet s rows from fun r hr => (hf r hr).keys).num hc
    rcases hx with ⟨-, hx⟩ | ⟨hx, -⟩
    · exact ⟨hx, hres⟩
    · rw [hx] at hres
      rcases hres with h | ⟨e, h⟩ <;> cases h
  · rw [if_pos (hiff.mpr hc)]
    obtain ⟨hres, -⟩ := hno hc hnil hf hlast hs.branchIn
    rcases hx with ⟨hx, -⟩ | ⟨-, h1, w1, p, cur', snap, hsucc, hrows', -, hput⟩
    · exact absurd hres hx
    refine ⟨hput _ ?_ (keysSet_append hkeys (keysSet_takes hk hf)), Or.inl hres⟩
    obtain ⟨-, -, -, he⟩ := hsucc.insert hk
    rw [he, List.map_append, List.map_map]
    have : (·.select s.writeNames) ∘ (·.select s.writeNames) = ((·.select s.writeNames) : Row → Row) := by
      funext r
      exact select_select (fun c hc => hc)
    rw [this, ← hlast]
    exact hrows'.append (Perm.refl _)

theorem Sim.upsert {rows : List Row} {r : Result} (hf : Fine E s h σ.w (.mutate (.upsert rows)))
    (hst : Step E s σ (.call 0 (.mutate (.upsert rows)) r) σ') :
    ∃ h', Sim E s (m.call E.I s (.mutate (.upsert rows))).2 σ' h' ∧
      (m.call E.I s (.mutate (.upsert rows))).1.means r := by
  obtain ⟨h', hx⟩ := hs.mutate hk.names hst
  refine ⟨h', ?_⟩
  simp only [Mem.call]
  obtain ⟨cur, htar, hcok, -, -, hlay, hrows, hkeys⟩ := hs.head
  obtain ⟨hfit, hsafe⟩ := hf
  have hfull := hfill.layout hcok
  rw [← hlay] at hfull
  by_cases hnil : rows = []
  · rw [if_pos hnil]
    have hres : r = .job .skipped := by
      obtain ⟨p, h2, w2, hp, he⟩ := exec_total (E := E) (m := .upsert rows) (R := fun p => p = none)
        hk.names hs.ok.wok hs.handle trivial hs.branch (by
          intro h1 _ _ _
          simp only [Mutation.body, insertBody, if_pos hnil]
          exact Post.pure rfl)
      obtain ⟨-, -, h3, w3, hrun, -⟩ := call_run hs.slot hst
      simp only at hrun
      rw [hrun, hp] at he
      exact congrArg Prod.fst he
    rcases hx with ⟨-, hx⟩ | ⟨hx, -⟩
    · exact ⟨hx, hres⟩
    · rw [hres] at hx; cases hx
  rw [if_neg hnil]
  have hset : KeysSet s (snapRows σ.w.fs s cur) := (keysSet_written hk).mp (hkeys.perm hrows.symm)
  by_cases hd : (rows.map (rowKey s)).Nodup
  · rw [if_pos hd]
    obtain ⟨σ'', hst'⟩ := C08_succeeds hk hlast hr hs.slot rfl hs.branchIn hnil hfit hd
      (by rw [hlay, layout_flatten]; exact hset) hfull
    have hres := call_unique hs.slot hst hst'
    rcases hx with ⟨hx, -⟩ | ⟨-, h1, w1, p, cur', snap, hsucc, hrows', hlay', hput⟩
    · exact absurd hres hx
    have hset' : KeysSet s (snapRows σ.w.fs s cur') := (keysSet_written hk).mp (hkeys.perm hrows'.symm)
    refine ⟨hput _ ?_ (keysSet_append (keysSet_filter hkeys _) (keysSet_takes hk hfit)), Or.inl hres⟩
    have he := hsucc.upsert_effect hk (data := rows) rfl hset'
    have hsp := (leftBy_iff (lay := layout σ.w.fs s cur')
      (truth := fun r => some (decide (s.pks.map r.val ∈ rows.map (fun r => s.pks.map r.val)))) (fun r _ => by simp)).2
      (hlay' ▸ hsafe)
    rw [layout_flatten] at hsp
    refine (he.map (·.select s.writeNames)).trans ?_
    rw [List.map_append, List.map_map]
    have : (·.select s.writeNames) ∘ (·.select s.writeNames) = ((·.select s.writeNames) : Row → Row) := by
      funext r
      exact select_select (fun c hc => hc)
    rw [this, ← hlast]
    refine Perm.append ?_ (Perm.refl _)
    refine Perm.trans (Perm.of_eq (congrArg (List.map (·.select s.writeNames)) hsp)) ?_
    refine Perm.trans ?_ (hrows'.filter _)
    rw [List.filter_map]
    refine Perm.of_eq ?_
    congr 1
    refine List.filter_congr fun x _ => ?_
    have hx : rowKey s (x.select s.writeNames) = rowKey s x := keyOf_select hk x
    simp only [Function.comp_apply, hx]
    rw [Bool.eq_iff_iff]
    simp only [Bool.not_eq_true', List.contains_eq_mem, decide_eq_false_iff_not, bne_iff_ne, ne_eq,
      Option.some.injEq, decide_eq_true_eq]
    exact Iff.rfl
  · rw [if_neg hd]
    have hres : r = .job .failed ∨ ∃ e, r = .raised e := by
      obtain ⟨-, -, h3, w3, hrun, -⟩ := call_run hs.slot hst
      cases r with
      | raised e => exact Or.inr ⟨e, rfl⟩
      | returned =>
        simp only [exec] at hrun
        split at hrun <;> cases hrun
      | job j =>
        by_cases hj : j = .failed
        · exact Or.inl (by rw [hj])
        obtain ⟨h1, p, w1, e1, e2, e3, e4⟩ := body_of_exec hs.ok.wok hs.handle hj hrun
        simp only [Mutation.body] at e4
        obtain ⟨-, -, hx⟩ := Post.elim (insertBody_post hs.ok.wok.fresh e3 .upsert rows) e4
        rcases hx with ⟨hx, -⟩ | ⟨-, snap, e, mf, hsn, hout⟩
        · exact absurd hx hnil
        · obtain ⟨-, -, hnd, -, -⟩ := primaryKeyFilter_sem hout.key E.I
          exact absurd hnd hd
    rcases hx with ⟨-, hx⟩ | ⟨hx, -⟩
    · exact ⟨hx, hres⟩
    · rw [hx] at hres
      rcases hres with h | ⟨e, h⟩ <;> cases h

theorem Sim.delete {e : Expr} {r : Result} (hf : Fine E s h σ.w (.mutate (.delete e)))
    (hst : Step E s σ (.call 0 (.mutate (.delete e)) r) σ') :
    ∃ h', Sim E s (m.call E.I s (.mutate (.delete e))).2 σ' h' ∧
      (m.call E.I s (.mutate (.delete e))).1.means r := by
  obtain ⟨h', hx⟩ := hs.mutate hk.names hst
  refine ⟨h', ?_⟩
  simp only [Mem.call]
  obtain ⟨cur, htar, hcok, -, -, hlay, hrows, hkeys⟩ := hs.head
  obtain ⟨he, hsafe, hnn⟩ := hf
  have hfull := hfill.layout hcok
  rw [← hlay] at hfull
  have hset : KeysSet s (snapRows σ.w.fs s cur) := (keysSet_written hk).mp (hkeys.perm hrows.symm)
  obtain ⟨j1, j2, σ1, σ2, hst1, -, hj, hj2, htrue⟩ := C23_status hk hlast hr hs.slot rfl hs.branchIn he
    (by rw [hlay, layout_flatten]; exact hset) hfull
  have hres := call_unique hs.slot hst hst1
  rw [hlay, layout_flatten] at htrue hnn
  by_cases hany : m.head.any (fun r => e.truth E.I r == some true) = true
  · rw [if_pos hany]
    have : ∃ r ∈ snapRows σ.w.fs s cur, e.truth E.I r = some true := by
      obtain ⟨x, hx, ht⟩ := List.any_eq_true.mp hany
      obtain ⟨y, hy, rfl⟩ := List.mem_map.mp (hrows.mem_iff.mpr hx)
      exact ⟨y, hy, by rw [← truth_select he]; simpa using ht⟩
    rw [htrue this] at hres
    rcases hx with ⟨hx, -⟩ | ⟨-, h1, w1, p, cur', snap, hsucc, hrows', hlay', hput⟩
    · exact absurd hres hx
    have hcc : cur' = cur := by
      have := hsucc.head
      have h2 : headOf h σ.w = some cur := by simp [headOf, hs.ok.wok.storedEq, htar, Except.toOption]
      rw [h2] at this
      exact (Option.some.inj this).symm
    subst hcc
    refine ⟨hput _ ?_ (keysSet_filter hkeys _), Or.inl hres⟩
    have k2 := hsucc.delete_effect hk.names he hnn
    have hsp := (leftBy_iff (truth := e.truth E.I) (lay := layout σ.w.fs s cur')
      (by rw [layout_flatten]; exact hnn)).2 (hlay' ▸ hsafe)
    rw [layout_flatten] at hsp
    rw [hsp] at k2
    refine (k2.map _).trans (Perm.trans (Perm.of_eq ?_) (hrows'.filter _))
    rw [List.filter_map]
    congr 1
    refine List.filter_congr fun x _ => ?_
    simp only [Function.comp_apply, truth_select he]
  · rw [if_neg hany]
    rcases hx with ⟨hx, hsim⟩ | ⟨hx, h1, w1, p, cur', snap, hsucc, hrows', hlay', -⟩
    · refine ⟨hsim, ?_⟩
      rw [hres] at hx ⊢
      rcases hj with rfl | ⟨rfl, -⟩
      · rcases hj2 with rfl | rfl
        · exact absurd rfl hx
        · exact Or.inl rfl
      · exact Or.inr rfl
    · exfalso
      have hcc : cur' = cur := by
        have := hsucc.head
        have h2 : headOf h σ.w = some cur := by simp [headOf, hs.ok.wok.storedEq, htar, Except.toOption]
        rw [h2] at this
        exact (Option.some.inj this).symm
      subst hcc
      have hb := hsucc.body
      simp only [Mutation.body] at hb
      obtain ⟨hg, -, snap', mf, hsn, hm, hout⟩ := Post.elim (deleteBody_post hsucc.fresh hsucc.handle) hb
      rw [hsucc.base] at hsn
      cases hsn
      rcases hout.out with ⟨hx, -⟩ | ⟨q, dms, carried, mf', rmf, rp, -, hd⟩
      · cases hx
      obtain ⟨f, hfm⟩ := List.exists_mem_of_ne_nil _ hd.nonempty
      obtain ⟨q, hq, m', hmm, hmod, -⟩ := visited_mods f hfm
      obtain ⟨y, hy, hyt⟩ := not_false_of_mod ((hcok.manifests q hq).entry hmm) hmod
      have hmem : deref σ.w.fs.records s y ∈ snapRows σ.w.fs s cur' :=
        List.mem_map_of_mem (List.mem_flatMap.mpr ⟨q, hq, List.mem_flatMap.mpr ⟨m', hmm, hy⟩⟩)
      have h3 := hnn _ hmem
      apply hany
      refine List.any_eq_true.mpr ⟨_, hrows'.mem_iff.mp (List.mem_map_of_mem hmem), ?_⟩
      rw [truth_select he]
      rw [truth_deref he.plain] at h3 ⊢
      cases ht : e.truth E.I y with
      | none => exact absurd ht h3
      | some b =>
        cases b with
        | true => rfl
        | false => exact absurd ht hyt

end

end

end Space
