import Verif.RayWrite
import Verif.AppendLemmas

/-! # Append operations that run side by side -/

namespace Space

theorem Post.and {σ α : Type} {r : Except Err α × σ} {Q Q' : α → σ → Prop} {F F' : σ → Prop}
    (h : Post r Q F) (h' : Post r Q' F') : Post r (fun a s => Q a s ∧ Q' a s) (fun s => F s ∧ F' s) := by
  unfold Post at h h' ⊢
  split at h
  · exact ⟨h, h'⟩
  · exact ⟨h, h'⟩

/-- The files an operation has opened and not yet put in place. -/
def Own (op : AppendOp) (p : Path) : Prop :=
  (∃ iw, op.iw = some iw ∧ iw.path = p) ∨ ∃ f rw, op.rws.get? f = some rw ∧ rw.path = p

/-- Named by a uuid drawn when the next one went from `n` to `m`. -/
def Later (n m : Nat) (p : Path) : Prop := ∃ u, p.uuid = some u ∧ n ≤ u ∧ u < m

/-- An operation only puts files in place that it has opened. -/
structure Drawn (w w' : World) (op : AppendOp) : Prop where
  next : w.next ≤ w'.next
  made : ∀ p c, AMap.get? w'.fs p = some c → AMap.get? w.fs p = none → Own op p ∨ Later w.next w'.next p

/-- Moreover the files open afterwards are those open before or new. -/
structure Sep (w w' : World) (op op' : AppendOp) : Prop extends Drawn w w' op where
  own : ∀ p, Own op' p → Own op p ∨ Later w.next w'.next p

theorem Later.mono {n m n' m' : Nat} {p : Path} (h : Later n' m' p) (hn : n ≤ n') (hm : m' ≤ m) : Later n m p := by
  obtain ⟨u, h1, h2, h3⟩ := h
  exact ⟨u, h1, by omega, by omega⟩

theorem Drawn.refl (w : World) (op : AppendOp) : Drawn w w op :=
  ⟨Nat.le_refl _, fun p c h h' => by rw [h] at h'; cases h'⟩

theorem Sep.refl (w : World) (op : AppendOp) : Sep w w op op := ⟨Drawn.refl w op, fun _ h => Or.inl h⟩

theorem Sep.made_trans {w w' w'' : World} {a b : AppendOp} (h : Sep w w' a b) (h' : Drawn w' w'' b) :
    Drawn w w'' a where
  next := Nat.le_trans h.next h'.next
  made p x hx hn := by
    cases hc : AMap.get? w'.fs p with
    | some y => exact (h.made p y hc hn).imp_right fun l => l.mono (Nat.le_refl _) h'.next
    | none =>
      rcases h'.made p x hx hc with h1 | h1
      · exact (h.own p h1).imp_right fun l => l.mono (Nat.le_refl _) h'.next
      · exact Or.inr (h1.mono h.next (Nat.le_refl _))

theorem Sep.trans {w w' w'' : World} {a b c : AppendOp} (h : Sep w w' a b) (h' : Sep w' w'' b c) :
    Sep w w'' a c where
  toDrawn := h.made_trans h'.toDrawn
  own p hp := by
    rcases h'.own p hp with h1 | h1
    · exact (h.own p h1).imp_right fun l => l.mono (Nat.le_refl _) h'.next
    · exact Or.inr (h1.mono h.next (Nat.le_refl _))

/-- Files keep being named by uuids drawn. -/
theorem Drawn.fresh {w w' : World} {op : AppendOp} (h : Drawn w w' op) (hf : w.Fresh)
    (ho : ∀ p, Own op p → ∃ u, p.uuid = some u ∧ u < w.next) : w'.Fresh := by
  intro p u hu hle
  cases hc : AMap.get? w'.fs p with
  | none => rfl
  | some c =>
    have := h.next
    rcases h.made p c hc (hf p u hu (by omega)) with h1 | ⟨v, h1, -, h2⟩
    · obtain ⟨v, h1, h2⟩ := ho p h1
      rw [hu] at h1
      cases h1
      omega
    · rw [hu] at h1
      cases h1
      omega

/-- Only the writers matter. -/
theorem Sep.keep {w w' : World} {a b c : AppendOp} (h : Sep w w' a b) (h1 : c.iw = b.iw) (h2 : c.rws = b.rws) :
    Sep w w' a c :=
  ⟨h.toDrawn, fun p hp => h.own p (by unfold Own at hp ⊢; rwa [h1, h2] at hp)⟩

theorem Sep.keepl {w w' : World} {a b c : AppendOp} (h : Sep w w' a b) (h1 : c.iw = a.iw) (h2 : c.rws = a.rws) :
    Sep w w' c b :=
  ⟨⟨h.next, fun p x hx hn => by have := h.made p x hx hn; unfold Own at this ⊢; rwa [h1, h2]⟩,
    fun p hp => by have := h.own p hp; unfold Own at this ⊢; rwa [h1, h2]⟩

theorem Drawn.keepl {w w' : World} {a c : AppendOp} (h : Drawn w w' a) (h1 : c.iw = a.iw) (h2 : c.rws = a.rws) :
    Drawn w w' c :=
  ⟨h.next, fun p x hx hn => by have := h.made p x hx hn; unfold Own at this ⊢; rwa [h1, h2]⟩

section
variable {E : Env} {s : Schema} {w : World} {op : AppendOp}

theorem Drawn.put {op : AppendOp} {p : Path} {c : Content} (hp : Own op p) : Drawn w (w.put p c) op :=
  ⟨Nat.le_refl _, fun q x h h' => by
    simp only [World.put] at h
    by_cases hq : q = p
    · subst hq; exact Or.inl hp
    · rw [AMap.get?_set_ne _ _ hq, h'] at h
      cases h⟩

theorem Drawn.draw (w : World) (op : AppendOp) : Drawn w { w with next := w.next + 1 } op :=
  ⟨Nat.le_succ _, fun p c h h' => by rw [h] at h'; cases h'⟩

theorem maybeCreate_sep : Post (op.maybeCreate w) (fun op' w' => Sep w w' op op') (fun w' => Drawn w w' op) := by
  unfold AppendOp.maybeCreate
  cases hiw : op.iw with
  | some _ => exact Post.pure (Sep.refl _ _)
  | none =>
    refine Post.bind (Q := fun u w' => u = w.next ∧ w' = { w with next := w.next + 1 }) (Post.fresh ⟨rfl, rfl⟩) ?_
    rintro u w' ⟨rfl, rfl⟩
    refine Post.pure ⟨Drawn.draw _ _, ?_⟩
    rintro p (⟨iw, h1, rfl⟩ | h1)
    · cases h1
      exact Or.inr ⟨_, rfl, Nat.le_refl _, Nat.lt_succ_self _⟩
    · exact Or.inl (Or.inr h1)

theorem writeTable_sep {rows : List Row} :
    Post (op.writeTable E s rows w) (fun op' w' => Sep w w' op op') (fun w' => Drawn w w' op) := by
  unfold AppendOp.writeTable
  cases hiw : op.iw with
  | none => exact Post.raise (Drawn.refl _ _)
  | some iw =>
    dsimp only
    split
    · refine Post.pure ⟨Drawn.refl _ _, ?_⟩
      rintro p (⟨iw', h1, rfl⟩ | h1)
      · cases h1
        exact Or.inl (Or.inl ⟨iw, hiw, rfl⟩)
      · exact Or.inl (Or.inr h1)
    · exact Post.raise (Drawn.refl _ _)

theorem finishIndex_sep : Post (op.finishIndex E s w) (fun op' w' => Sep w w' op op') (fun w' => Drawn w w' op) := by
  unfold AppendOp.finishIndex
  cases hiw : op.iw with
  | none => exact Post.pure (Sep.refl _ _)
  | some iw =>
    have hm : Drawn w (w.put iw.path (.parquet iw.groups)) op := Drawn.put (Or.inl ⟨iw, hiw, rfl⟩)
    refine Post.bind (Q := fun _ w' => w' = w.put iw.path (.parquet iw.groups)) (Post.put rfl) ?_
    rintro _ w' rfl
    refine Post.bind (Q := fun _ w' => w' = w.put iw.path (.parquet iw.groups)) (Post.lift (fun _ _ => rfl) hm) ?_
    rintro m w' rfl
    refine Post.pure ⟨hm, ?_⟩
    rintro p (⟨iw', h1, rfl⟩ | h1)
    · cases h1
    · exact Or.inl (Or.inr h1)

theorem finishRecord_sep {f : Field} {rw : RecWriter} (hg : op.rws.get? f.name = some rw) :
    Post (op.finishRecord f rw w) (fun op' w' => Sep w w' op op') (fun w' => Drawn w w' op) := by
  unfold AppendOp.finishRecord
  refine Post.bind (Q := fun _ w' => w' = w.put rw.path (.records rw.buf)) (Post.put rfl) ?_
  rintro _ w' rfl
  refine Post.pure ⟨Drawn.put (Or.inr ⟨_, rw, hg, rfl⟩), ?_⟩
  rintro p (h1 | ⟨g, rw', h1, rfl⟩)
  · exact Or.inl (Or.inl h1)
  · by_cases hgf : g = f.name
    · subst hgf
      simp at h1
    · simp only [AMap.get?_erase_ne _ hgf] at h1
      exact Or.inl (Or.inr ⟨g, rw', h1, rfl⟩)

theorem writeRecordCol_sep {f : Field} {col : List Val} :
    Post (op.writeRecordCol E f col w) (fun x w' => Sep w w' op x.1) (fun w' => Drawn w w' op) := by
  unfold AppendOp.writeRecordCol
  refine Post.bind (Q := fun rw w' => Drawn w w' op ∧ (op.rws.get? f.name = some rw ∨
    (w' = { w with next := w.next + 1 } ∧ rw.path = .record f.name w.next))) ?_ ?_
  · unfold AppendOp.recWriter
    cases hg : op.rws.get? f.name with
    | some rw => exact Post.pure ⟨Drawn.refl _ _, Or.inl rfl⟩
    | none =>
      refine Post.bind (Q := fun u w' => u = w.next ∧ w' = { w with next := w.next + 1 }) (Post.fresh ⟨rfl, rfl⟩) ?_
      rintro u w' ⟨rfl, rfl⟩
      exact Post.pure ⟨Drawn.draw _ _, Or.inr ⟨rfl, rfl⟩⟩
  · rintro rw w1 ⟨h0, h1⟩
    refine Post.bind (Q := fun _ w' => w' = w1) (Post.lift (fun _ _ => rfl) h0) ?_
    rintro bs w' rfl
    have key : ∀ rw' : RecWriter, rw'.path = rw.path → Sep w w' op { op with rws := op.rws.set f.name rw' } := by
      intro rw' hp
      refine ⟨h0, ?_⟩
      rintro p (h2 | ⟨g, rw2, h2, rfl⟩)
      · exact Or.inl (Or.inl h2)
      · by_cases hgf : g = f.name
        · subst hgf
          simp only [AMap.get?_set_self, Option.some.injEq] at h2
          subst h2
          rcases h1 with h3 | ⟨rfl, h3⟩
          · exact Or.inl (Or.inr ⟨_, rw, h3, hp.symm⟩)
          · exact Or.inr ⟨w.next, by rw [hp, h3]; rfl, Nat.le_refl _, Nat.lt_succ_self _⟩
        · simp only [AMap.get?_set_ne _ _ hgf] at h2
          exact Or.inl (Or.inr ⟨g, rw2, h2, rfl⟩)
    dsimp only
    split
    · refine Post.bind ((finishRecord_sep (by simp)).imp (fun _ _ h => h) (fun _ h => (key _ (by rfl)).made_trans h)) ?_
      intro op2 w2 h2
      exact Post.pure (Sep.trans (key _ (by rfl)) h2)
    · exact Post.pure (key _ rfl)

theorem writeRecords_sep {data : List Row} : ∀ (fs : List Field) {w : World} {op : AppendOp} {rows : List Row},
    Post (AppendOp.writeRecords E data fs op rows w) (fun x w' => Sep w w' op x.1) (fun w' => Drawn w w' op)
  | [], w, op, rows => Post.pure (Sep.refl _ _)
  | f :: fs, w, op, rows => by
    unfold AppendOp.writeRecords
    refine Post.bind writeRecordCol_sep ?_
    rintro ⟨op1, addrs⟩ w1 h1
    exact (writeRecords_sep fs).imp (fun _ _ h => h1.trans h) (fun _ h => h1.made_trans h)

theorem cacheRows_sep {rows : List Row} :
    Post (op.cacheRows E s rows w) (fun op' w' => Sep w w' op op') (fun w' => Drawn w w' op) := by
  rw [cacheRows_eq]
  dsimp only
  split
  · refine Post.bind (writeTable_sep.imp (fun _ _ h => h) (fun _ h => h.keepl rfl rfl)) ?_
    intro op1 w1 h1
    have h2 := (h1.keepl (c := op) rfl rfl).keep (c := { op1 with cache := none }) rfl rfl
    split
    · exact finishIndex_sep.imp (fun _ _ h => h2.trans h) (fun _ h => h2.made_trans h)
    · exact Post.pure h2
  · exact Post.pure ((Sep.refl w op).keep rfl rfl)

theorem write_sep {data : List Row} :
    Post (op.write E s data w) (fun op' w' => Sep w w' op op') (fun w' => Drawn w w' op) := by
  unfold AppendOp.write
  split
  · exact Post.pure (Sep.refl _ _)
  · refine Post.bind maybeCreate_sep ?_
    intro op1 w1 h1
    split
    · dsimp only
      split
      · exact cacheRows_sep.imp (fun _ _ h => h1.trans h) (fun _ h => h1.made_trans h)
      · refine Post.bind ((writeRecords_sep _).imp (fun _ _ h => h) (fun _ h => h1.made_trans h)) ?_
        rintro ⟨op2, rows⟩ w2 h2
        exact cacheRows_sep.imp (fun _ _ h => (h1.trans h2).trans h) (fun _ h => (h1.trans h2).made_trans h)
    · exact Post.raise h1.toDrawn

theorem finishRecords_sep : ∀ (fs : List Field) {w : World} {op : AppendOp},
    Post (AppendOp.finishRecords fs op w) (fun op' w' => Sep w w' op op') (fun w' => Drawn w w' op)
  | [], w, op => Post.pure (Sep.refl _ _)
  | f :: fs, w, op => by
    unfold AppendOp.finishRecords
    cases hg : op.rws.get? f.name with
    | none => exact finishRecords_sep fs
    | some rw =>
      refine Post.bind (finishRecord_sep hg) ?_
      intro op1 w1 h1
      exact (finishRecords_sep fs).imp (fun _ _ h => h1.trans h) (fun _ h => h1.made_trans h)

theorem flush_sep : Post (op.flush E s w) (fun op' w' => Sep w w' op op') (fun w' => Drawn w w' op) := by
  unfold AppendOp.flush
  cases hc : op.cache with
  | none => exact Post.pure (Sep.refl _ _)
  | some c =>
    refine Post.bind maybeCreate_sep ?_
    intro op1 w1 h1
    exact writeTable_sep.imp (fun _ _ h => h1.trans h) (fun _ h => h1.made_trans h)

/-- Drawing a uuid and putting a file named by it in place. -/
theorem Sep.manifest {p : Path} {c : Content} (hp : p.uuid = some w.next) :
    Sep w (World.put { w with next := w.next + 1 } p c) op op ∧
      Later w.next (World.put { w with next := w.next + 1 } p c).next p := by
  have hl : Later w.next (w.next + 1) p := ⟨w.next, hp, Nat.le_refl _, Nat.lt_succ_self _⟩
  refine ⟨⟨⟨Nat.le_succ _, ?_⟩, fun _ h => Or.inl h⟩, hl⟩
  intro q x h h'
  simp only [World.put] at h
  by_cases hq : q = p
  · subst hq; exact Or.inr hl
  · rw [AMap.get?_set_ne _ _ hq, h'] at h
    cases h

/-- The manifest of `finish`, if any, is new. -/
theorem finishIndexManifest_sep {carried own : List ManifestRow} {F : World → Prop} :
    Post (finishIndexManifest carried own w)
      (fun im w' => Sep w w' op op ∧ ∀ p, im = some p → Later w.next w'.next p) F := by
  unfold finishIndexManifest
  split
  · exact Post.pure ⟨Sep.refl _ _, fun p h => by cases h⟩
  · refine Post.bind (Q := fun u w' => u = w.next ∧ w' = { w with next := w.next + 1 }) (Post.fresh ⟨rfl, rfl⟩) ?_
    rintro u w' ⟨rfl, rfl⟩
    refine Post.bind (Q := fun _ w' => w' = World.put { w with next := w.next + 1 } (.indexManifest w.next) (.imanifest (carried ++ own)))
      (Post.put rfl) ?_
    rintro _ w' rfl
    refine Post.pure ⟨(Sep.manifest rfl).1, ?_⟩
    rintro p h
    cases h
    exact (Sep.manifest (op := op) (c := .imanifest (carried ++ own)) rfl).2

theorem finishRecordManifest_sep {rows : List RecManifestRow} {F : World → Prop} :
    Post (finishRecordManifest rows w)
      (fun im w' => Sep w w' op op ∧ ∀ p, im = some p → Later w.next w'.next p) F := by
  unfold finishRecordManifest
  split
  · exact Post.pure ⟨Sep.refl _ _, fun p h => by cases h⟩
  · refine Post.bind (Q := fun u w' => u = w.next ∧ w' = { w with next := w.next + 1 }) (Post.fresh ⟨rfl, rfl⟩) ?_
    rintro u w' ⟨rfl, rfl⟩
    refine Post.bind (Q := fun _ w' => w' = World.put { w with next := w.next + 1 } (.recordManifest w.next) (.rmanifest rows))
      (Post.put rfl) ?_
    rintro _ w' rfl
    refine Post.pure ⟨(Sep.manifest rfl).1, ?_⟩
    rintro p h
    cases h
    exact (Sep.manifest (op := op) (c := .rmanifest rows) rfl).2

/-- The manifests of a finished operation are new, and it put in place only its own files. -/
theorem finish_sep : Post (op.finish E s w)
    (fun p w' => (∃ op', Sep w w' op op') ∧
      ∀ q, p = some q → ∀ x ∈ q.addIdx ++ q.addRec, Later w.next w'.next x) (fun w' => Drawn w w' op) := by
  unfold AppendOp.finish
  refine Post.bind (finishRecords_sep _) ?_
  intro op1 w1 h1
  refine Post.bind (flush_sep.imp (fun _ _ h => h) (fun _ h => h1.made_trans h)) ?_
  intro op2 w2 h2
  refine Post.bind (finishIndex_sep.imp (fun _ _ h => h) (fun _ h => (h1.trans h2).made_trans h)) ?_
  intro op3 w3 h3
  refine Post.bind (finishIndexManifest_sep (op := op3)) ?_
  rintro im w4 ⟨h4, h5⟩
  refine Post.bind (finishRecordManifest_sep (op := op3)) ?_
  rintro rm w5 ⟨h6, h7⟩
  have h13 := (h1.trans h2).trans h3
  split
  · exact Post.pure ⟨⟨op3, (h13.trans h4).trans h6⟩, fun q h => by cases h⟩
  · refine Post.pure ⟨⟨op3, (h13.trans h4).trans h6⟩, ?_⟩
    intro q h x hx
    cases h
    rcases List.mem_append.mp hx with hx | hx
    · exact (h5 x (by simpa using hx)).mono h13.next h6.next
    · exact (h7 x (by simpa using hx)).mono (h13.trans h4).next (Nat.le_refl _)

end

end Space
