import Verif.Bodies

/-! # Transactions and calls -/

namespace Space

theorem reload_post {s : Schema} {w : World} {md : Metadata} {h : Handle} (hw : WOK s w md)
    (hh : HandleOK s w h) {F : Handle × World → Prop} :
    Post (reload (h, w)) (fun b st => st.2 = w ∧ st.1.md = md ∧ st.1.branch = h.branch ∧
      HandleOK s w st.1 ∧ st.1.full = false ∧ (b = false → st.1 = h) ∧
      (b = true → st.1 = Handle.init md st.1.mdFile false h.branch)) F := by
  obtain ⟨b, h', h1, h2, h3, h4, -, hfl, h5, h6⟩ := reload_eq hw hh
  rw [h1]
  exact ⟨rfl, h2, h3, h4, hfl, h5, h6⟩

/-- `__enter__`. -/
theorem enter_post {s : Schema} {w : World} {md : Metadata} {h : Handle} (hw : WOK s w md)
    (hh : HandleOK s w h) :
    Post (Txn.enter (h, w)) (fun t st => st.2 = w ∧ st.1.md = md ∧ st.1.branch = h.branch ∧
        HandleOK s w st.1 ∧ st.1.full = false ∧ t.branch = h.branch ∧ md.currentId h.branch = .ok t.start ∧
        (st.1 = h ∨ st.1 = Handle.init md st.1.mdFile false h.branch))
      (fun st => st.2 = w ∧ st.1.md = md ∧ st.1.branch = h.branch ∧ HandleOK s w st.1) := by
  unfold Txn.enter
  refine Post.bind (Q := fun a st => h = a ∧ st = (h, w)) ⟨rfl, rfl⟩ ?_
  rintro a _ ⟨ha, rfl⟩
  subst ha
  refine Post.bind (reload_post hw hh) ?_
  rintro b ⟨h1, w1⟩ ⟨rfl, h2, h3, h4, hfl, h5, h6⟩
  refine Post.bind (Q := fun a st => h1 = a ∧ st = (h1, w1)) ⟨rfl, rfl⟩ ?_
  rintro _ _ ⟨he, rfl⟩
  subst he
  refine Post.bind (Q := fun a st => h1.md.currentId h.branch = .ok a ∧ st = (h1, w1))
    (Post.lift (fun a ha => ⟨ha, rfl⟩) ⟨rfl, h2, h3, h4⟩) ?_
  rintro n _ ⟨hn, rfl⟩
  refine Post.pure ⟨rfl, h2, h3, h4, hfl, rfl, by rw [← h2]; exact hn, ?_⟩
  cases b with
  | false => exact Or.inl (h5 rfl)
  | true => exact Or.inr (h6 rfl)

/-- The check before a commit. -/
theorem check_post {s : Schema} {w : World} {md : Metadata} {h : Handle} {t : Txn} (hw : WOK s w md)
    (hh : HandleOK s w h) :
    Post (t.check (h, w)) (fun b st => st.2 = w ∧ st.1.md = md ∧ st.1.branch = h.branch ∧
        HandleOK s w st.1 ∧ st.1.full = false ∧ (b = true ↔ md.currentId t.branch = .ok t.start) ∧
        (st.1 = h ∨ st.1 = Handle.init md st.1.mdFile false h.branch))
      (fun st => st.2 = w ∧ st.1.branch = h.branch ∧ HandleOK s w st.1 ∧ st.1.md = md) := by
  unfold Txn.check
  refine Post.bind (reload_post hw hh) ?_
  rintro b ⟨h1, w1⟩ ⟨rfl, h2, h3, h4, hfl, h5, h6⟩
  refine Post.bind (Q := fun a st => h1 = a ∧ st = (h1, w1)) ⟨rfl, rfl⟩ ?_
  rintro _ _ ⟨he, rfl⟩
  subst he
  refine Post.bind (Q := fun a st => h1.md.currentId t.branch = .ok a ∧ st = (h1, w1))
    (Post.lift (fun a ha => ⟨ha, rfl⟩) ⟨rfl, h3, h4, h2⟩) ?_
  rintro n _ ⟨hn, rfl⟩
  refine Post.pure ⟨rfl, h2, h3, h4, hfl, ?_, ?_⟩
  · rw [← h2, hn]
    simp only [decide_eq_true_eq, Except.ok.injEq]
    exact eq_comm
  · cases b with
    | false => exact Or.inl (h5 rfl)
    | true => exact Or.inr (h6 rfl)

/-- What a successful commit leaves. -/
structure CommitStep (s : Schema) (w w' : World) (md : Metadata) (h' : Handle) (branch : String)
    (p : Patch) (n : Nat) (cur snap : Snapshot) : Prop where
  le : FSLe w.fs w'.fs
  next : w.next ≤ w'.next
  wok : WOK s w' h'.md
  handle : HandleOK s w' h'
  com : Committed w'.fs md h'.md branch p n cur snap
  new : md.maxRefId < n
  max : h'.maxId = n
  inst : Installs w w'

/-- `Transaction.commit`. -/
theorem txnCommit_post {s : Schema} {w : World} {md : Metadata} {h : Handle} {t : Txn}
    {p : Option Patch} (hw : WOK s w md) (hh : HandleOK s w h)
    (hp : ∀ q, p = some q → PatchOK w.fs s q) :
    Post (t.commit p (h, w))
      (fun j st => st.1.branch = h.branch ∧
        ((j ≠ .succeeded ∧ st.2 = w ∧ HandleOK s w st.1 ∧ st.1.md = md ∧
            (j = .failed ↔ md.currentId t.branch ≠ .ok t.start)) ∨
          (j = .succeeded ∧ md.currentId t.branch = .ok t.start ∧ ∃ q h1 cur snap, p = some q ∧
            (h1 = h ∨ h1 = Handle.init md h1.mdFile false h.branch) ∧ h1.md = md ∧
            CommitStep s w st.2 md st.1 t.branch q (h1.maxId + 1) cur snap)))
      (fun st => Grows w st.2 ∧ HandleOK s st.2 st.1 ∧ st.1.branch = h.branch ∧ st.1.md = md) := by
  unfold Txn.commit
  refine Post.bind ((check_post (t := t) hw hh).imp (fun _ _ h => h)
    (fun st hst => ?_)) ?_
  · obtain ⟨h1, w1⟩ := st
    obtain ⟨rfl, a, b, c⟩ := hst
    exact ⟨Grows.refl _, b, a, c⟩
  rintro b ⟨h1, w1⟩ ⟨rfl, h2, h3, h4, hfl, h5, h6⟩
  cases b with
  | false =>
    refine Post.pure ⟨h3, Or.inl ⟨by simp, rfl, h4, h2, ?_⟩⟩
    simp only [true_iff]
    intro hc
    have := h5.mpr hc
    cases this
  | true =>
    have hstart := h5.mp rfl
    cases p with
    | none =>
      refine Post.pure ⟨h3, Or.inl ⟨by simp, rfl, h4, h2, ?_⟩⟩
      simp [hstart]
    | some q =>
      refine Post.bind ((commit_post (branch := t.branch) (p := q) hw h4 hfl
        (hp q rfl)).imp (fun _ _ h => h) (fun st hst => ?_)) ?_
      · obtain ⟨g, he⟩ := hst
        refine ⟨g, ?_, by rw [he]; exact h3, by rw [he]; exact h2⟩
        rw [he]
        have := h4.mono g.le
        exact ⟨this.file, this.ok, this.schema, fun hf => Nat.le_succ_of_le (this.max hf)⟩
      · rintro _ ⟨h', w'⟩ ⟨cur, snap, a1, a2, a3, a4, a5, a6, a7, a8⟩
        refine Post.pure ⟨a5.trans h3, Or.inr ⟨rfl, hstart, q, h1, cur, snap, rfl, h6, h2,
          ⟨a1, a2, a3, a4, by rw [← h2]; exact a7, ?_, a6, a8⟩⟩⟩
        rw [← h2]
        exact Nat.lt_succ_of_le (h4.max hfl)

/-- A mutation call: either nothing visible changed, or it committed the patch its
body computed from the stored metadata. -/
structure Mutated (E : Env) (s : Schema) (m : Mutation) (h : Handle) (w : World) (md : Metadata)
    (h' : Handle) (w' : World) (h1 : Handle) (w1 : World) (p : Patch) (n : Nat)
    (cur snap : Snapshot) : Prop where
  start : h1.md = md
  branch : h1.branch = h.branch
  handle : HandleOK s w h1
  enter : h1 = h ∨ h1 = Handle.init md h1.mdFile false h.branch
  body : m.body E h1 w = (.ok (some p), w1)
  grows : Grows w w1
  patch : PatchOK w1.fs s p
  step : CommitStep s w1 w' md h' h.branch p n cur snap
  num : (h.full = false ∧ n = h.maxId + 1) ∨ n = md.maxRefId + 1

theorem runMutation_post {E : Env} {s : Schema} {w : World} {md : Metadata} {h : Handle}
    (hw : WOK s w md) (hh : HandleOK s w h) (hn : s.names.Nodup) (m : Mutation)
    (hadm : m.Admissible s w.fs) :
    Post (runMutation E m (h, w))
      (fun j st => st.1.branch = h.branch ∧ HandleOK s st.2 st.1 ∧
        ((j ≠ .succeeded ∧ Grows w st.2 ∧ st.1.md = md) ∨
          (j = .succeeded ∧ ∃ h1 w1 p n cur snap,
            Mutated E s m h w md st.1 st.2 h1 w1 p n cur snap)))
      (fun st => Grows w st.2 ∧ HandleOK s st.2 st.1 ∧ st.1.branch = h.branch ∧ st.1.md = md) := by
  unfold runMutation
  refine Post.bind ((enter_post hw hh).imp (fun _ _ h => h) (fun st hst => ?_)) ?_
  · obtain ⟨h1, w1⟩ := st
    obtain ⟨rfl, a, b, c⟩ := hst
    exact ⟨Grows.refl _, c, b, a⟩
  rintro t ⟨h1, w0⟩ ⟨rfl, h2, h3, h4, hfl, h5, h6, h7⟩
  refine Post.bind (Q := fun a st => h1 = a ∧ st = (h1, w0)) ⟨rfl, rfl⟩ ?_
  rintro _ _ ⟨he, rfl⟩
  subst he
  have hb := body_post (E := E) hw.fresh h4 hn m hadm
  refine Post.bind (Q := fun p st => h1 = st.1 ∧ m.body E h1 w0 = (.ok p, st.2) ∧
      Grows w0 st.2 ∧ ∀ q, p = some q → PatchOK st.2.fs s q) ?_ ?_
  · unfold liftW
    simp only
    cases hbody : m.body E h1 w0 with
    | mk r w1 =>
      rw [hbody] at hb
      cases r with
      | ok p => exact ⟨rfl, rfl, hb.1, fun q hq => (hb.2.2 q hq).1⟩
      | error e => exact ⟨hb, h4.mono hb.le, h3, h2⟩
  rintro p ⟨hx, w1⟩ ⟨hx1, hbody, hg, hp⟩
  simp only at hx1 hbody hg hp
  subst hx1
  refine (txnCommit_post (t := t) (hw.grows hg) (h4.mono hg.le) hp).imp ?_ ?_
  · rintro j ⟨h', w'⟩ ⟨a1, a2⟩
    refine ⟨a1.trans h3, ?_⟩
    rcases a2 with ⟨b1, rfl, b3, b4, -⟩ | ⟨b1, b2, q, h2', cur, snap, rfl, b4, b5, b6⟩
    · exact ⟨b3, Or.inl ⟨b1, hg, b4⟩⟩
    · refine ⟨b6.handle, Or.inr ⟨b1, h1, w1, q, h2'.maxId + 1, cur, snap, h2, h3, h4, h7, hbody, hg, hp q rfl, ?_, ?_⟩⟩
      · rw [← h5]
        exact b6
      · rcases b4 with b4 | b4
        · rw [b4]
          rcases h7 with h7 | h7
          · exact Or.inl ⟨h7 ▸ hfl, by rw [h7]⟩
          · rw [h7]
            exact Or.inr rfl
        · rw [b4]
          exact Or.inr rfl
  · rintro ⟨h', w'⟩ ⟨a1, a2, a3, a4⟩
    exact ⟨hg.trans a1, a2, a3.trans h3, a4⟩

/-- `transactional`. -/
theorem mutate_post {E : Env} {s : Schema} {w : World} {md : Metadata} {h : Handle}
    (hw : WOK s w md) (hh : HandleOK s w h) (hn : s.names.Nodup) (m : Mutation)
    (hadm : m.Admissible s w.fs) {o : Outcome} {h' : Handle} {w' : World}
    (hrun : mutate E m h w = (o, h', w')) :
    h'.branch = h.branch ∧ HandleOK s w' h' ∧
      ((o ≠ .job .succeeded ∧ Grows w w' ∧ h'.md = md) ∨
        (o = .job .succeeded ∧ ∃ h1 w1 p n cur snap,
          Mutated E s m h w md h' w' h1 w1 p n cur snap)) := by
  have hp := runMutation_post (E := E) hw hh hn m hadm
  unfold mutate at hrun
  cases hr : runMutation E m (h, w) with
  | mk r st =>
    obtain ⟨h2, w2⟩ := st
    rw [hr] at hp hrun
    cases r with
    | ok j =>
      simp only [Prod.mk.injEq] at hrun
      obtain ⟨rfl, rfl, rfl⟩ := hrun
      obtain ⟨a, b, c⟩ := hp
      refine ⟨a, b, ?_⟩
      rcases c with ⟨c1, c2, c3⟩ | ⟨rfl, c2⟩
      · left; exact ⟨by simpa using c1, c2, c3⟩
      · right; exact ⟨rfl, c2⟩
    | error e =>
      simp only [Prod.mk.injEq] at hrun
      obtain ⟨rfl, rfl, rfl⟩ := hrun
      obtain ⟨a, b, c, d⟩ := hp
      refine ⟨c, b, Or.inl ⟨?_, a, d⟩⟩
      cases hc : e.caught <;> simp

/-! ## Maps -/

theorem get?_of_erase {α β : Type} [DecidableEq α] {m : AMap α β} {k k' : α} {v : β}
    (h : (m.erase k).get? k' = some v) : m.get? k' = some v := by
  by_cases he : k' = k
  · subst he; rw [AMap.get?_erase_self] at h; cases h
  · rwa [AMap.get?_erase_ne _ he] at h

theorem mem_set {α β : Type} [DecidableEq α] {x : α × β} : ∀ {m : AMap α β} {k : α} {v : β},
    x ∈ m.set k v → x ∈ m ∨ x = (k, v)
  | [], k, v, h => by
    simp only [AMap.set, List.mem_singleton] at h; exact Or.inr h
  | (a, b) :: m, k, v, h => by
    simp only [AMap.set] at h
    split at h
    · rcases List.mem_cons.mp h with h | h
      · exact Or.inr h
      · exact Or.inl (List.mem_cons_of_mem _ h)
    · rcases List.mem_cons.mp h with h | h
      · exact Or.inl (by rw [h]; exact List.mem_cons_self ..)
      · rcases mem_set h with h | h
        · exact Or.inl (List.mem_cons_of_mem _ h)
        · exact Or.inr h

theorem mem_le_max {md : Metadata} : ∀ x ∈ md.refs, x.2.id ≤ md.maxRefId := by
  intro x hx
  unfold Metadata.maxRefId
  revert hx
  generalize md.refs = l
  induction l with
  | nil => intro h; simp at h
  | cons a l ih =>
    intro hm
    simp only [List.map_cons, List.foldr_cons]
    rcases List.mem_cons.mp hm with rfl | hm
    · omega
    · have := ih hm; omega

end Space
