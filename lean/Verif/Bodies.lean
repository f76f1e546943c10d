import Verif.RayDelete

/-! # What any mutation leaves -/

namespace Space

open List

/-- What any mutation leaves: files added, and a patch that fits them. -/
theorem body_post {E : Env} {s : Schema} {w : World} {h : Handle} (hf : w.Fresh)
    (hh : HandleOK s w h) (hn : s.names.Nodup) (m : Mutation) (hadm : m.Admissible s w.fs) :
    Post (m.body E h w)
      (fun p w' => Grows w w' ∧ w'.Fresh ∧ ∀ q, p = some q → PatchOK w'.fs s q ∧
        ∀ snap, h.snapshot none = .ok snap → PatchNew w snap.index q)
      (fun w' => Grows w w') := by
  cases m with
  | append ts =>
    simp only [Mutation.body, hh.schema]
    refine (appendBody_post hf ts).imp ?_ (fun _ h => h)
    rintro p w' ⟨h1, h2, P, mf, rmf, h3, -⟩
    refine ⟨h1, h2, ?_⟩
    rintro q rfl
    exact ⟨h3.patchOK (by simp), fun snap _ => h3.patchNew hf _⟩
  | insert rows => exact insertBody_ok hf hh hn .insert rows
  | upsert rows => exact insertBody_ok hf hh hn .upsert rows
  | delete e =>
    simp only [Mutation.body]
    refine (deleteBody_post hf hh).imp ?_ (fun _ h => h)
    rintro p w' ⟨h1, h2, snap, mf, hs, -, ho⟩
    refine ⟨h1, h2, ?_⟩
    rintro q rfl
    obtain ⟨a, b, -⟩ := ho.facts hf hn (snapshot_manifests hh hs).manifests h1
    exact ⟨a, fun snap' hs' => by rw [hs] at hs'; cases hs'; exact b⟩
  | appendParquet files =>
    simp only [Mutation.body, hh.schema]
    refine (appendParquetBody_post hf files hadm).imp ?_ (fun _ h => h)
    rintro p w' ⟨h1, h2, h3⟩
    refine ⟨h1, h2, ?_⟩
    rintro q rfl
    obtain ⟨q', rows, h0, -, he, hr, hd, hlog, -, hc⟩ := h3.out
    cases h0
    refine ⟨⟨?_, by rw [hr]; simp, by rw [hlog]; simp⟩, fun snap _ => ⟨?_, by rw [hr]; simp, ?_, by rw [hr]; simp,
      by rw [hd]; simp⟩⟩
    · intro x hx
      rcases hc with ⟨-, h0⟩ | ⟨hne, h0, him⟩
      · rw [h0] at hx; simp at hx
      · rw [h0, List.mem_singleton] at hx
        subst hx
        exact ⟨rows, him, hne, he⟩
    · intro x hx
      rcases hc with ⟨-, h0⟩ | ⟨hne, h0, him⟩
      · rw [h0] at hx; simp at hx
      · rw [h0, List.mem_singleton] at hx
        subst hx
        exact imanifest_fresh hf (Nat.le_refl _)
    · rcases hc with ⟨-, h0⟩ | ⟨hne, h0, him⟩ <;> rw [h0] <;> simp
  | appendArrayRecord fn files =>
    simp only [Mutation.body, hh.schema]
    refine (appendArrayRecordBody_post hf fn files).imp ?_ (fun _ h => h)
    rintro p w' ⟨h1, h2, h3⟩
    refine ⟨h1, h2, ?_⟩
    rintro q rfl
    obtain ⟨f, mf, rmf, p0, bytes, -, -, hfin, -, hp⟩ := h3.out
    cases p0 with
    | none => cases hp
    | some p0 =>
      simp only [Option.map_some, Option.some.injEq] at hp
      subst hp
      have a := hfin.patchOK (by simp)
      have b := fun index => hfin.patchNew hf index
      exact ⟨⟨a.idx, a.recs, a.log⟩, fun snap _ => ⟨(b snap.index).idx, (b snap.index).recs,
        (b snap.index).idxNodup, (b snap.index).recsNodup, (b snap.index).del⟩⟩
  | rayAppend n sched rows =>
    simp only [Mutation.body, hh.schema]
    refine (rayAppendBody_post hf n sched rows).imp ?_ (fun _ h => h)
    rintro p w' ⟨h1, h2, P, h3, -⟩
    exact ⟨h1, h2, fun q hq => ⟨h3.ok q hq, fun snap _ => h3.new q hq _⟩⟩
  | rayAppendFrom n sched sources =>
    simp only [Mutation.body, hh.schema]
    refine (rayAppendFromAll_post hf _ sched sources).imp ?_ (fun _ h => h)
    rintro p w' ⟨h1, h2, P, h3, -⟩
    exact ⟨h1, h2, fun q hq => ⟨h3.ok q hq, fun snap _ => h3.new q hq _⟩⟩
  | rayInsert mode n sched rows => exact rayInsertBody_ok hf hh hn mode n sched rows
  | sync n sched gone added => exact syncBody_ok hf hh hn n sched gone added
  | rayDelete e =>
    simp only [Mutation.body]
    refine (rayDeleteBody_post hf hn hh).imp ?_ (fun _ h => h)
    rintro p w' ⟨h1, h2, snap, mf, hs, -, ho⟩
    refine ⟨h1, h2, ?_⟩
    rintro q rfl
    rcases ho.out with ⟨h0, -⟩ | ⟨p', h0, a, b, -⟩
    · cases h0
    · cases h0
      exact ⟨a, fun snap' hs' => by rw [hs] at hs'; cases hs'; exact b⟩

end Space
