import Verif.TableRead
import Verif.History

/-!
# Processes that die half way
-/

namespace Space

/-- A process that would have gone from `w` to `w'` died: the first `k` of the files
it puts in place are there, and besides possibly files it had not finished
(temporary files, `fs/arrow.py:52-57`; Parquet, ArrayRecord and manifest files not
yet closed), which are new files. -/
def CrashedIn (w w' wc : World) : Prop :=
  ∃ ops k, w'.log = w.log ++ ops ∧
    Adds { fs := applyOps w.fs (ops.take k), next := w'.next, log := w.log ++ ops.take k } wc

theorem applyOps_none {p : Path} : ∀ {ops : List (Path × Content)} {fs : FS},
    AMap.get? (applyOps fs ops) p = none → AMap.get? fs p = none
  | [], _, h => h
  | x :: ops, fs, h => by
    have h1 : AMap.get? (AMap.set fs x.1 x.2) p = none := applyOps_none (ops := ops) h
    rw [AMap.get?_set] at h1
    split at h1
    · cases h1
    · exact h1

theorem applyOps_take_none {p : Path} {ops : List (Path × Content)} {fs : FS} (k : Nat)
    (h : AMap.get? (applyOps fs ops) p = none) : AMap.get? (applyOps fs (ops.take k)) p = none := by
  rw [← List.take_append_drop k ops, applyOps_append] at h
  exact applyOps_none h

/-- After a crash of a process that did not replace the entry point. -/
theorem Grows.crash {w w' wc : World} (g : Grows w w') (h : CrashedIn w w' wc) : Adds w wc := by
  obtain ⟨ops, k, h1, h2⟩ := h
  obtain ⟨ops', t1, t2, t3, -⟩ := g.trace
  have : ops = ops' := by rw [t1] at h1; exact (List.append_cancel_left h1).symm
  subst this
  refine ⟨(t3 k).1.trans h2.le, Nat.le_trans g.next h2.next, h2.entry.trans (t3 k).2, fun hf => ?_⟩
  apply h2.fresh
  intro p u hp hu
  apply applyOps_take_none k
  rw [← t2]
  exact g.fresh hf p u hp hu

/-- After a crash of a process that replaced the entry point last. -/
theorem Installs.crash {w w' wc : World} (hi : Installs w w') (h : CrashedIn w w' wc) :
    Adds w wc ∨ Adds w' wc := by
  obtain ⟨w2, p, g, rfl⟩ := hi
  obtain ⟨ops, k, h1, h2⟩ := h
  obtain ⟨ops', t1, t2, t3, -⟩ := g.trace
  have : ops = ops' ++ [(.entryPoint, .entry p)] := by
    simp only [World.put, t1] at h1
    rw [List.append_assoc] at h1
    exact (List.append_cancel_left h1).symm
  subst this
  rcases Nat.lt_or_ge ops'.length k with hk | hk
  · right
    rw [List.take_of_length_le (by simp; omega)] at h2
    have hfs : applyOps w.fs (ops' ++ [(.entryPoint, .entry p)]) = (w2.put .entryPoint (.entry p)).fs := by
      rw [applyOps_append, ← t2]; rfl
    rw [hfs] at h2
    exact ⟨h2.le, h2.next, h2.entry, h2.fresh⟩
  · left
    rw [List.take_append_of_le_length hk] at h2
    refine Grows.crash g ⟨ops', k, t1, h2⟩

/-- A step of a handle either leaves the entry point alone or replaces it last. -/
theorem step_writes {E : Env} {s : Schema} (hn : s.names.Nodup) {σ σ' : Sys} {ev : Event} {md : Metadata}
    (hok : SysOK E s σ md) (hs : Step E s σ ev σ') (he : ev.slot ≠ none) :
    Grows σ.w σ'.w ∨ Installs σ.w σ'.w := by
  obtain ⟨hw, hsl⟩ := hok
  cases hs with
  | load => exact absurd rfl he
  | @call w slots i h c r h' w' hi hadm hx =>
    have hh := (slot_get hsl hi).1
    obtain ⟨a, b⟩ := exec_post hw hh hn c hadm hx
    cases b with
    | same g => exact Or.inl g
    | commit m h1 w1 p n cur snap hc hr mt =>
      obtain ⟨w2, q, g, e⟩ := mt.step.inst
      exact Or.inr ⟨w2, q, mt.grows.trans g, e⟩
    | addRef name kind n hc hr hcan o => exact Or.inr o.inst
    | removeRef name kind n hc hr hwas o => exact Or.inr o.inst
  | @begin w slots i h m t h' w' hi hx =>
    have hp := enter_post hw (slot_get hsl hi).1
    simp only at hp hx
    rw [hx] at hp
    obtain ⟨rfl, -⟩ := hp
    exact Or.inl (Grows.refl _)
  | @beginFail w slots i h e h' w' hi hx =>
    have hp := enter_post hw (slot_get hsl hi).1
    simp only at hp hx
    rw [hx] at hp
    obtain ⟨rfl, -⟩ := hp
    exact Or.inl (Grows.refl _)
  | @compute w slots i h t m p w' hi hadm hx =>
    have hp := body_post (E := E) hw.fresh (slot_get hsl hi).1 hn m hadm
    simp only at hp hx
    rw [hx] at hp
    exact Or.inl hp.1
  | @computeFail w slots i h t m e w' hi hadm hx =>
    have hp := body_post (E := E) hw.fresh (slot_get hsl hi).1 hn m hadm
    simp only at hp hx
    rw [hx] at hp
    exact Or.inl hp
  | @commit w slots i h t m p r h' w' hi hx =>
    obtain ⟨hh, hb1, hb2, hb3, hb4⟩ := slot_get hsl hi
    have hp := txnCommit_post (t := t) (p := p) hw hh hb3
    simp only at hp hx
    rw [hx] at hp
    cases r with
    | error e => exact Or.inl hp.1
    | ok j =>
      obtain ⟨-, ⟨-, h2, -⟩ | ⟨h1, h2, q, h1', cur, snap, h3, h4, h5, h6⟩⟩ := hp
      · simp only at h2
        subst h2
        exact Or.inl (Grows.refl _)
      · exact Or.inr h6.inst
  | @check w slots i h t m p h' w' hi hx =>
    have hp := check_post (t := t) hw (slot_get hsl hi).1
    simp only at hp hx
    rw [hx] at hp
    obtain ⟨rfl, -⟩ := hp
    exact Or.inl (Grows.refl _)
  | @write w slots i h t m p r h' w' hi hx =>
    obtain ⟨hh, hb1, hb2, hb3, hb4⟩ := slot_get hsl hi
    have hp := commit_post (branch := t.branch) hw hh hb3 hb4
    simp only at hp hx
    rw [hx] at hp
    cases r with
    | error e => exact Or.inl hp.1
    | ok j =>
      obtain ⟨cur, snap, a1, a2, a3, a4, a5, a6, a7, a8⟩ := hp
      exact Or.inr a8
  | external => exact absurd rfl he
  | orphans => exact absurd rfl he

end Space
