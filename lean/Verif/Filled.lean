import Verif.Crash
import Verif.RowEffects
import Verif.Demo

/-!
# Data files have rows
-/

set_option autoImplicit false

namespace Space

/-- No Parquet file is empty. -/
def Filled (w : World) : Prop := ∀ p g, w.fs.parquet p = some g → g.flatten ≠ []

theorem applyOps_parquet {p : Path} {g : List (List Row)} : ∀ {ops : List (Path × Content)} {fs : FS},
    (applyOps fs ops).parquet p = some g → fs.parquet p = some g ∨ (p, Content.parquet g) ∈ ops
  | [], _, h => Or.inl h
  | x :: ops, fs, h => by
    have h1 : FS.parquet (AMap.set fs x.1 x.2) p = some g ∨ (p, Content.parquet g) ∈ ops :=
      applyOps_parquet (ops := ops) h
    rcases h1 with h1 | h1
    · by_cases hp : p = x.1
      · right
        obtain ⟨q, c⟩ := x
        simp only at hp h1
        subst hp
        unfold FS.parquet at h1
        rw [AMap.get?_set_self] at h1
        split at h1 <;> cases h1
        rename_i hc
        cases hc
        exact List.mem_cons_self ..
      · left
        unfold FS.parquet at h1 ⊢
        rwa [AMap.get?_set_ne _ _ hp] at h1
    · exact Or.inr (List.mem_cons_of_mem _ h1)

theorem Grows.parquet {w w' : World} (h : Grows w w') {p : Path} {g : List (List Row)}
    (hp : w'.fs.parquet p = some g) : w.fs.parquet p = some g ∨ g.flatten ≠ [] := by
  obtain ⟨ops, -, h2, -, h4, -⟩ := h.trace
  rw [h2] at hp
  exact (applyOps_parquet hp).imp_right (h4 p g)

theorem Installs.parquet {w w' : World} (h : Installs w w') {p : Path} {g : List (List Row)}
    (hp : w'.fs.parquet p = some g) : w.fs.parquet p = some g ∨ g.flatten ≠ [] := by
  obtain ⟨w2, q, hg, rfl⟩ := h
  refine hg.parquet ?_
  rcases applyOps_parquet (ops := [(.entryPoint, .entry q)]) (fs := w2.fs) hp with h | h
  · exact h
  · simp at h

/-- `create` writes no data file. -/
theorem create_parquet {s : Schema} {w0 w : World} {h : Handle} (hw : w0.Empty) (hc : create s w0 = (.ok h, w))
    {p : Path} {g : List (List Row)} (hp : w.fs.parquet p = some g) : w0.fs.parquet p = some g := by
  have hne : AMap.get? (AMap.set w0.fs (.metadata w0.next)
      (.mdata { schema := s, current := 0, snaps := [(0, { id := 0 })], refs := [] })) .entryPoint
      = none := by
    rw [AMap.get?_set_ne _ _ (by simp)]; exact hw.noEntry
  simp only [create, createHead, createTail, Bind.bind, M.andThen, fresh, putFile, M.modify, M.get,
    World.put, hne, Pure.pure, M.ret,
    Prod.mk.injEq, Except.ok.injEq] at hc
  obtain ⟨-, rfl⟩ := hc
  rcases applyOps_parquet (ops := [(.metadata w0.next,
      .mdata { schema := s, current := 0, snaps := [(0, { id := 0 })], refs := [] }),
      (.entryPoint, .entry (.metadata w0.next))]) (fs := w0.fs) hp with h | h
  · exact h
  · simp at h

theorem Demo.begun_filled {s : Schema} : Filled (Demo.begun s).w := by
  obtain ⟨w0, h, h1, h2, -⟩ := Demo.begun_started s
  intro p g hp
  have := create_parquet (s := s) (w0 := {}) (h := (Demo.start s).1) (w := (Demo.begun s).w)
    Demo.empty rfl hp
  simp [FS.parquet, AMap.get?] at this

/-- A step of a handle keeps all data files filled. -/
theorem step_filled {E : Env} {s : Schema} (hn : s.names.Nodup) {σ σ' : Sys} {ev : Event} {md : Metadata}
    (hok : SysOK E s σ md) (hs : Step E s σ ev σ') (he : ev.slot ≠ none) (hf : Filled σ.w) : Filled σ'.w := by
  intro p g hp
  rcases step_writes hn hok hs he with h | h
  · exact (h.parquet hp).elim (hf p g) id
  · exact (h.parquet hp).elim (hf p g) id

theorem Filled.layout {w : World} (h : Filled w) {s : Schema} {snap : Snapshot} (hok : SnapOK w.fs s snap) :
    ∀ man ∈ layout w.fs s snap, ∀ file ∈ man, file ≠ [] := by
  intro man hm file hf
  simp only [Space.layout, List.mem_map] at hm
  obtain ⟨q, hq, rfl⟩ := hm
  obtain ⟨m, hmm, rfl⟩ := List.mem_map.mp hf
  obtain ⟨g, hg, -⟩ := (hok.manifests q hq).entry hmm
  have := h _ g hg
  simpa [fileRows, hg] using this

end Space
