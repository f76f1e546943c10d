import Verif.Spec

/-! # Growing file systems, and lookups in them -/

namespace Space

theorem FSLe.refl (fs : FS) : FSLe fs fs := fun _ _ _ h => h
theorem FSLe.trans {a b c : FS} (h1 : FSLe a b) (h2 : FSLe b c) : FSLe a c :=
  fun p x hp h => h2 p x hp (h1 p x hp h)

theorem applyOps_append (fs : FS) (a b : List (Path × Content)) :
    applyOps fs (a ++ b) = applyOps (applyOps fs a) b := by
  simp [applyOps, List.foldl_append]

theorem Traced.none {w w' : World} (h1 : w'.log = w.log) (h2 : w'.fs = w.fs) : Traced w w' :=
  ⟨[], by simp [h1], h2, fun k => by simp [applyOps]; exact FSLe.refl _, by simp, by simp⟩

theorem Traced.trans {a b c : World} (h1 : Traced a b) (h2 : Traced b c) : Traced a c := by
  obtain ⟨o1, l1, f1, t1, n1, p1⟩ := h1
  obtain ⟨o2, l2, f2, t2, n2, p2⟩ := h2
  refine ⟨o1 ++ o2, by rw [l2, l1, List.append_assoc], by rw [f2, f1, applyOps_append], fun k => ?_,
    fun p g hp => (List.mem_append.mp hp).elim (n1 p g) (n2 p g), fun u p c v he => ?_⟩
  rotate_left
  · rcases List.append_eq_append_iff.mp he with ⟨x, h3, h4⟩ | ⟨x, h3, h4⟩
    · obtain ⟨h5, h6⟩ := p2 x p c v h4
      refine ⟨h5, ?_⟩
      rw [h3, applyOps_append, ← f1]
      exact h6
    · cases x with
      | nil =>
        simp only [List.nil_append] at h4
        obtain ⟨h5, h6⟩ := p2 [] p c v h4.symm
        refine ⟨h5, ?_⟩
        rw [List.append_nil] at h3
        rw [← h3, ← f1]
        exact h6
      | cons y x =>
        simp only [List.cons_append, List.cons.injEq] at h4
        obtain ⟨rfl, h4⟩ := h4
        exact p1 u p c x h3
  rw [List.take_append]
  rcases Nat.le_total k o1.length with hk | hk
  · rw [Nat.sub_eq_zero_of_le hk, List.take_zero, List.append_nil]
    exact t1 k
  · rw [List.take_of_length_le hk, applyOps_append, ← f1]
    have h0 := t1 o1.length
    rw [List.take_of_length_le (Nat.le_refl _), ← f1] at h0
    have h3 := t2 (k - o1.length)
    exact ⟨h0.1.trans h3.1, h3.2.trans h0.2⟩

theorem Grows.refl (w : World) : Grows w w :=
  ⟨FSLe.refl _, Nat.le_refl _, rfl, id, Traced.none rfl rfl⟩
theorem Grows.trans {a b c : World} (h1 : Grows a b) (h2 : Grows b c) : Grows a c :=
  ⟨h1.le.trans h2.le, Nat.le_trans h1.next h2.next, h2.entry.trans h1.entry,
   fun h => h2.fresh (h1.fresh h), h1.trace.trans h2.trace⟩
theorem Grows.adds {w w' : World} (h : Grows w w') : Adds w w' := ⟨h.le, h.next, h.entry, h.fresh⟩
theorem Adds.trans {a b c : World} (h1 : Adds a b) (h2 : Adds b c) : Adds a c :=
  ⟨h1.le.trans h2.le, Nat.le_trans h1.next h2.next, h2.entry.trans h1.entry,
   fun h => h2.fresh (h1.fresh h)⟩

section typed
variable {fs fs' : FS} (h : FSLe fs fs')
include h

theorem FSLe.parquet {p : Path} {g : List (List Row)} (hp : fs.parquet p = some g) :
    fs'.parquet p = some g := by
  unfold FS.parquet at hp ⊢
  split at hp <;> cases hp
  rename_i hg
  rw [h p _ rfl hg]

theorem FSLe.records {p : Path} {g : List (List Nat)} (hp : fs.records p = some g) :
    fs'.records p = some g := by
  unfold FS.records at hp ⊢
  split at hp <;> cases hp
  rename_i hg
  rw [h p _ rfl hg]

theorem FSLe.imanifest {p : Path} {g : List ManifestRow} (hp : fs.imanifest p = some g) :
    fs'.imanifest p = some g := by
  unfold FS.imanifest at hp ⊢
  split at hp <;> cases hp
  rename_i hg
  rw [h p _ rfl hg]

theorem FSLe.rmanifest {p : Path} {g : List RecManifestRow} (hp : fs.rmanifest p = some g) :
    fs'.rmanifest p = some g := by
  unfold FS.rmanifest at hp ⊢
  split at hp <;> cases hp
  rename_i hg
  rw [h p _ rfl hg]

theorem FSLe.log {p : Path} {g : ChangeLog} (hp : fs.log p = some g) :
    fs'.log p = some g := by
  unfold FS.log at hp ⊢
  split at hp <;> cases hp
  rename_i hg
  rw [h p _ rfl hg]

theorem FSLe.mdata {p : Path} {g : Metadata} (hp : fs.mdata p = some g) :
    fs'.mdata p = some g := by
  unfold FS.mdata at hp ⊢
  split at hp <;> cases hp
  rename_i hg
  rw [h p _ rfl hg]

end typed

section typedset
variable {fs : FS} {p : Path}
@[simp] theorem parquet_set (g : List (List Row)) : FS.parquet (AMap.set fs p (.parquet g)) p = some g := by
  simp [FS.parquet]
@[simp] theorem records_set (g : List (List Nat)) : FS.records (AMap.set fs p (.records g)) p = some g := by
  simp [FS.records]
@[simp] theorem imanifest_set (g : List ManifestRow) :
    FS.imanifest (AMap.set fs p (.imanifest g)) p = some g := by simp [FS.imanifest]
@[simp] theorem rmanifest_set (g : List RecManifestRow) :
    FS.rmanifest (AMap.set fs p (.rmanifest g)) p = some g := by simp [FS.rmanifest]
@[simp] theorem log_set (g : ChangeLog) : FS.log (AMap.set fs p (.log g)) p = some g := by
  simp [FS.log]
@[simp] theorem mdata_set (g : Metadata) : FS.mdata (AMap.set fs p (.mdata g)) p = some g := by
  simp [FS.mdata]

theorem records_set_ne {c : Content} {q : Path} (hne : q ≠ p) :
    FS.records (AMap.set fs p c) q = FS.records fs q := by
  simp [FS.records, AMap.get?_set_ne _ _ hne]
end typedset

/-- Adding a file that was absent. -/
theorem FSLe.set {fs : FS} {p : Path} {c : Content} (h : AMap.get? fs p = none) :
    FSLe fs (AMap.set fs p c) := by
  intro q c' _ hq
  rw [AMap.get?_set_ne]
  · exact hq
  · rintro rfl; rw [h] at hq; cases hq

/-- Drawing a uuid. -/
theorem Grows.fresh' (w : World) : Grows w { w with next := w.next + 1 } :=
  ⟨FSLe.refl _, Nat.le_succ _, rfl, fun h p u hp hu => h p u hp (by simp only at hu; omega),
    Traced.none rfl rfl⟩

/-- Writing a file whose uuid has been drawn and which does not exist yet. -/
theorem Grows.put {w : World} {p : Path} {c : Content} {u : Nat} (hu : p.uuid = some u)
    (hlt : u < w.next) (h : AMap.get? w.fs p = none)
    (hc : ∀ g, c = .parquet g → g.flatten ≠ [] := by exact fun _ h => nomatch h)
    (hk : ownName p c = true := by rfl) : Grows w (w.put p c) := by
  have hent : AMap.get? (AMap.set w.fs p c) .entryPoint = AMap.get? w.fs .entryPoint :=
    AMap.get?_set_ne _ _ (by rintro rfl; simp [Path.uuid] at hu)
  refine ⟨FSLe.set h, Nat.le_refl _, hent, ?_, ⟨[(p, c)], rfl, rfl, fun k => ?_, fun q g hg => ?_,
    fun a q d b he => ?_⟩⟩
  rotate_left
  · cases k with
    | zero => exact ⟨FSLe.refl _, rfl⟩
    | succ k =>
      simp only [List.take_succ_cons, List.take_nil]
      exact ⟨FSLe.set h, hent⟩
  · simp only [List.mem_singleton, Prod.mk.injEq] at hg
    exact hc g hg.2.symm
  · cases a with
    | nil =>
      simp only [List.nil_append, List.cons.injEq, Prod.mk.injEq] at he
      obtain ⟨⟨rfl, rfl⟩, -⟩ := he
      exact ⟨hk, h⟩
    | cons x a => simp at he
  · intro hf q v hq hv
    have hne : q ≠ p := by
      rintro rfl
      rw [hu] at hq
      cases hq
      simp only [World.put] at hv
      omega
    simp only [World.put]
    rw [AMap.get?_set_ne _ _ hne]
    exact hf q v hq hv

/-! ## Rows under growing lookups -/

/-- Record files only get longer. -/
def LookLe (L L' : Look) : Prop := ∀ p rs, L p = some rs → ∃ more, L' p = some (rs ++ more)

theorem LookLe.refl (L : Look) : LookLe L L := fun _ _ h => ⟨[], by simpa using h⟩
theorem LookLe.trans {a b c : Look} (h1 : LookLe a b) (h2 : LookLe b c) : LookLe a c := by
  intro p rs h
  obtain ⟨m, hm⟩ := h1 p rs h
  obtain ⟨m', hm'⟩ := h2 p _ hm
  exact ⟨m ++ m', by simpa using hm'⟩

theorem FSLe.lookLe {fs fs' : FS} (h : FSLe fs fs') : LookLe fs.records fs'.records :=
  fun _ _ hp => ⟨[], by simpa using h.records hp⟩

theorem AddrOK.mono {L L' : Look} {s : Schema} {r : Row} (hl : LookLe L L') (h : AddrOK L s r) :
    AddrOK L' s r := by
  intro c hc v hv
  obtain ⟨p, i, rs, h1, h2, h3⟩ := h c hc v hv
  obtain ⟨m, hm⟩ := hl p rs h2
  exact ⟨p, i, rs ++ m, h1, hm, by simp; omega⟩

theorem RowOK.mono {L L' : Look} {s : Schema} {r : Row} (hl : LookLe L L') (h : RowOK L s r) :
    RowOK L' s r := ⟨h.1, h.2.mono hl⟩

theorem deref_mono {L L' : Look} {s : Schema} {r : Row} (hl : LookLe L L') (h : AddrOK L s r) :
    deref L' s r = deref L s r := by
  apply List.map_congr_left
  rintro ⟨c, v⟩ hx
  simp only
  split
  · rename_i hc
    obtain ⟨p, i, rs, rfl, h2, h3⟩ := h c (by simpa using hc) v hx
    obtain ⟨m, hm⟩ := hl p rs h2
    simp [derefVal, h2, hm, List.getElem?_append_left h3]
  · rfl

theorem map_deref_mono {L L' : Look} {s : Schema} {rows : List Row} (hl : LookLe L L')
    (h : ∀ r ∈ rows, AddrOK L s r) : rows.map (deref L' s) = rows.map (deref L s) :=
  List.map_congr_left fun r hr => deref_mono hl (h r hr)

theorem EntryOK.mono {fs fs' : FS} {L L' : Look} {s : Schema} {m : ManifestRow} (hf : FSLe fs fs')
    (hl : LookLe L L') (h : EntryOK fs L s m) : EntryOK fs' L' s m := by
  obtain ⟨g, h1, h2, h3, h4⟩ := h
  exact ⟨g, hf.parquet h1, h2, h3, fun r hr => (h4 r hr).mono hl⟩

theorem ManifestOK.mono {fs fs' : FS} {s : Schema} {p : Path} (hf : FSLe fs fs')
    (h : ManifestOK fs s p) : ManifestOK fs' s p := by
  obtain ⟨rows, h1, h2, h3⟩ := h
  exact ⟨rows, hf.imanifest h1, h2, fun m hm => (h3 m hm).mono hf hf.lookLe⟩

theorem RecManifestOK.mono {fs fs' : FS} {p : Path} (hf : FSLe fs fs') (h : RecManifestOK fs p) :
    RecManifestOK fs' p := by
  obtain ⟨rows, h1, h2⟩ := h
  refine ⟨rows, hf.rmanifest h1, fun m hm => ?_⟩
  obtain ⟨rs, h3, h4⟩ := h2 m hm
  exact ⟨rs, hf.records h3, h4⟩

theorem BitmapOK.mono {fs fs' : FS} {s : Schema} {b : RowBitmap} (hf : FSLe fs fs')
    (h : BitmapOK fs s b) : BitmapOK fs' s b := by
  obtain ⟨g, h1, h2, h3, h4⟩ := h
  exact ⟨g, hf.parquet h1, h2, h3, fun r hr => (h4 r hr).mono hf.lookLe⟩

theorem LogOK.mono {fs fs' : FS} {s : Schema} {cl : ChangeLog} (hf : FSLe fs fs')
    (h : LogOK fs s cl) : LogOK fs' s cl := fun b hb => (h b hb).mono hf

theorem SnapOK.mono {fs fs' : FS} {s : Schema} {sn : Snapshot} (hf : FSLe fs fs')
    (h : SnapOK fs s sn) : SnapOK fs' s sn where
  manifests := fun p hp => (h.manifests p hp).mono hf
  records := fun p hp => (h.records p hp).mono hf
  nodup := h.nodup
  nodupRecs := h.nodupRecs
  log := fun p hp => by
    obtain ⟨cl, h1, h2⟩ := h.log p hp
    exact ⟨cl, hf.log h1, h2.mono hf⟩

/-- Rows of a well-formed manifest do not change as files are added. -/
theorem fileRows_mono {fs fs' : FS} {L : Look} {s : Schema} {m : ManifestRow} (hf : FSLe fs fs')
    (h : EntryOK fs L s m) : fileRows fs' m.file = fileRows fs m.file := by
  obtain ⟨g, h1, _⟩ := h
  simp [fileRows, h1, hf.parquet h1]

theorem entriesOf_mono {fs fs' : FS} {s : Schema} {p : Path} (hf : FSLe fs fs')
    (h : ManifestOK fs s p) : entriesOf fs' p = entriesOf fs p := by
  obtain ⟨rows, h1, _⟩ := h
  simp [entriesOf, h1, hf.imanifest h1]

theorem physRows_mono {fs fs' : FS} {s : Schema} {ms : List Path} (hf : FSLe fs fs')
    (h : ∀ p ∈ ms, ManifestOK fs s p) : physRows fs' ms = physRows fs ms := by
  unfold physRows
  rw [List.flatMap_def, List.flatMap_def]
  congr 1
  apply List.map_congr_left
  intro p hp
  rw [entriesOf_mono hf (h p hp), List.flatMap_def, List.flatMap_def]
  congr 1
  apply List.map_congr_left
  intro m hm
  obtain ⟨rows, h1, _, h3⟩ := h p hp
  refine fileRows_mono hf (h3 m ?_)
  simpa [entriesOf, h1] using hm

/-- Rows of well-formed manifests fit. -/
theorem physRows_ok {fs : FS} {s : Schema} {ms : List Path}
    (h : ∀ p ∈ ms, ManifestOK fs s p) : ∀ r ∈ physRows fs ms, RowOK fs.records s r := by
  intro r hr
  simp only [physRows, List.mem_flatMap] at hr
  obtain ⟨p, hp, m, hm, hr⟩ := hr
  obtain ⟨rows, h1, _, h3⟩ := h p hp
  obtain ⟨g, g1, g2, g3, g4⟩ := h3 m (by simpa [entriesOf, h1] using hm)
  exact g4 r (by simpa [fileRows, g1] using hr)

theorem snapRows_mono {fs fs' : FS} {s : Schema} {sn : Snapshot} (hf : FSLe fs fs')
    (h : SnapOK fs s sn) : snapRows fs' s sn = snapRows fs s sn := by
  unfold snapRows
  rw [physRows_mono hf h.manifests]
  exact map_deref_mono hf.lookLe fun r hr => (physRows_ok h.manifests r hr).2

/-! ## Running statements -/

/-- Postconditions of a run: `Q` on return, `F` on exception. -/
def Post {σ α : Type} (r : Except Err α × σ) (Q : α → σ → Prop) (F : σ → Prop) : Prop :=
  match r with
  | (.ok a, s) => Q a s
  | (.error _, s) => F s

theorem Post.bind {σ α β : Type} {m : M σ α} {f : α → M σ β} {s : σ} {Q : α → σ → Prop}
    {R : β → σ → Prop} {F : σ → Prop} (hm : Post (m s) Q F)
    (hf : ∀ a s', Q a s' → Post (f a s') R F) : Post ((m >>= f) s) R F := by
  show Post (M.andThen m f s) R F
  unfold M.andThen
  unfold Post at hm
  split at hm
  · rename_i a s' h; rw [h]; exact hf a s' hm
  · rename_i e s' h; rw [h]; exact hm

theorem Post.pure {σ α : Type} {a : α} {s : σ} {Q : α → σ → Prop} {F : σ → Prop} (h : Q a s) :
    Post ((Pure.pure a : M σ α) s) Q F := h
theorem Post.raise {σ α : Type} {e : Err} {s : σ} {Q : α → σ → Prop} {F : σ → Prop} (h : F s) :
    Post ((M.raise e : M σ α) s) Q F := h
theorem Post.lift {σ α : Type} {e : Except Err α} {s : σ} {Q : α → σ → Prop} {F : σ → Prop}
    (h : ∀ a, e = .ok a → Q a s) (hf : F s) : Post ((M.lift e : M σ α) s) Q F := by
  unfold M.lift Post
  split
  · rename_i a s' h'
    simp only [Prod.mk.injEq] at h'
    obtain ⟨h1, rfl⟩ := h'
    exact h a h1
  · rename_i h'
    simp only [Prod.mk.injEq] at h'
    rw [← h'.2]; exact hf
theorem Post.get {σ : Type} {s : σ} {Q : σ → σ → Prop} {F : σ → Prop} (h : Q s s) :
    Post ((M.get : M σ σ) s) Q F := h
theorem Post.imp {σ α : Type} {r : Except Err α × σ} {Q Q' : α → σ → Prop} {F F' : σ → Prop}
    (h : Post r Q F) (hq : ∀ a s, Q a s → Q' a s) (hf : ∀ s, F s → F' s) : Post r Q' F' := by
  unfold Post at h ⊢
  split at h
  · exact hq _ _ h
  · exact hf _ h
/-- Keep the run itself. -/
theorem Post.run {σ α : Type} {r : Except Err α × σ} {Q : α → σ → Prop} {F : σ → Prop}
    (h : Post r Q F) : Post r (fun a s => Q a s ∧ r = (.ok a, s)) F := by
  unfold Post at h ⊢
  split at h
  · exact ⟨h, rfl⟩
  · exact h
theorem Post.fresh {w : World} {Q : Nat → World → Prop} {F : World → Prop}
    (h : Q w.next { w with next := w.next + 1 }) : Post (Space.fresh w) Q F := h
theorem Post.put {w : World} {p : Path} {c : Content} {Q : Unit → World → Prop} {F : World → Prop}
    (h : Q () (w.put p c)) : Post (putFile p c w) Q F := h

end Space
