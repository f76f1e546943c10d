import Verif.Packing
import Verif.Gather

/-!
# How the actors of a Ray append divide their tables into files
-/

set_option autoImplicit false

namespace Space

section
variable {E : Env} {s : Schema} {w : World}

/-- The tables that have rows, as they are stored. -/
def givenTables (s : Schema) (tables : List (List Row)) : List (List Row) :=
  (tables.filter (fun t => decide (t ≠ []))).map (·.map (·.select s.writeNames))

/-- Each actor fills its own files. -/
def ActorsFill (E : Env) (s : Schema) (w : World) (as : List Actor) (qs : List (List (List Row))) : Prop :=
  ∀ (i : Nat) (op : AppendOp) (q : List (List Row)), as[i]? = some (op, q) →
    ∃ full gs wait done, qs[i]? = some (done ++ q) ∧ Filling E w.fs op full gs wait ∧
      (tablesOf full gs wait).map (·.map (deref (op.look w.fs) s)) = givenTables s done

theorem tables_frame {w0 w : World} {op : AppendOp} {full : List (List (List (List Row)))} {gs : List (List (List Row))}
    {wait : List (List Row)} {L' : Look} (h : OpOK E s w0 w op) (hf : Filling E w.fs op full gs wait)
    (hl : LookLe (op.look w.fs) L') :
    (tablesOf full gs wait).map (·.map (deref L' s)) = (tablesOf full gs wait).map (·.map (deref (op.look w.fs) s)) := by
  refine List.map_congr_left fun t ht => map_deref_mono hl fun r hr => h.rowsAddr r ?_
  rw [hf.rows]
  exact List.mem_flatten.mpr ⟨t, ht, hr⟩

theorem actorStep_fill {n : Nat} {as : List Actor} {qs : List (List (List Row))} (h : ActorsOK E s n w as qs)
    (hf : ActorsFill E s w as qs) (i : Nat) :
    Post (actorStep E s i as w) (fun as' w' => ActorsFill E s w' as' qs) (fun _ => True) := by
  unfold actorStep
  cases ha : as[i]? with
  | none => exact Post.pure hf
  | some a =>
    obtain ⟨op, q⟩ := a
    cases q with
    | nil => exact Post.pure hf
    | cons t ts =>
      obtain ⟨hop, haddr, hcar, -⟩ := h.ops i op _ ha
      obtain ⟨full, gs, wait, done, hq, hfill, htab⟩ := hf i op _ ha
      refine Post.bind (((write_post (E := E) (s := s) hop (data := t) (fun hc => by rw [haddr] at hc; cases hc)).and
        (write_fill hop haddr hfill t)).imp (fun _ _ h => h) (fun _ _ => trivial)) ?_
      rintro op' w' ⟨⟨h1, h2, P, h3, -, h5⟩, full', gs', wait', new, f1, f2, f3⟩
      have hg : Grows w w' := h2.grows
      have h5 := h5 haddr
      refine Post.pure fun j opj qj hj => ?_
      by_cases hij : i = j
      · subst hij
        have hlt : i < as.length := (List.getElem?_eq_some_iff.mp ha).1
        rw [List.getElem?_set_self hlt] at hj
        cases hj
        refine ⟨full', gs', wait', done ++ [t], by simpa using hq, f1, ?_⟩
        have hP : new.flatten = P := by
          rw [f1.rows, hfill.rows] at h3
          have e := congrArg List.flatten f2
          unfold tablesOf at e
          rw [e, List.flatten_append] at h3
          exact List.append_cancel_left h3
        rw [f2, List.map_append, tables_frame hop hfill h2.look, htab]
        unfold givenTables
        rw [List.filter_append, List.map_append]
        congr 1
        by_cases ht : t = []
        · rw [if_pos ht] at f3
          subst f3
          simp [ht]
        · rw [if_neg ht] at f3
          obtain ⟨u, rfl⟩ := f3
          simp only [List.flatten_cons, List.flatten_nil, List.append_nil] at hP
          subst hP
          rw [List.filter_cons_of_pos (by simpa using ht)]
          simp only [List.filter_nil, List.map_cons, List.map_nil, List.cons.injEq, and_true]
          exact h5
      · rw [List.getElem?_set_ne hij] at hj
        obtain ⟨g1, -⟩ := h.ops j opj qj hj
        obtain ⟨full, gs, wait, done, a1, a2, a3⟩ := hf j opj qj hj
        refine ⟨full, gs, wait, done, a1, a2.mono hg.le, ?_⟩
        exact (tables_frame g1 a2 (overlay_mono hg.le)).trans a3

theorem actorsRun_fill {n : Nat} : ∀ (sched : List Nat) {w : World} {as : List Actor} {qs : List (List (List Row))}
    (_ : ActorsOK E s n w as qs) (_ : ActorsFill E s w as qs),
    Post (actorsRun E s sched as w) (fun as' w' => ActorsFill E s w' as' qs) (fun _ => True)
  | [], w, as, qs, h, hf => Post.pure hf
  | i :: sched, w, as, qs, h, hf => by
    unfold actorsRun
    refine Post.bind (((actorStep_post h i).and (actorStep_fill h hf i)).imp (fun _ _ h => h) (fun _ _ => trivial)) ?_
    rintro as1 w1 ⟨⟨-, h1, -⟩, f1⟩
    exact actorsRun_fill sched h1 f1

theorem ActorsFill.init (qs : List (List (List Row))) :
    ActorsFill E s w (qs.map (fun q => ({ addrInput := false }, q))) qs := by
  intro i op q h
  rw [List.getElem?_map] at h
  cases hq : qs[i]? with
  | none => rw [hq] at h; cases h
  | some q' =>
    rw [hq] at h
    cases h
    exact ⟨[], [], [], [], rfl, ⟨rfl, rfl, fun _ => ⟨rfl, rfl⟩, rfl, rfl, by simp, by simp, .nil, .nil⟩, rfl⟩

/-- The contents of the files that a patch adds. -/
def addedFiles (fs : FS) (p : Option Patch) : List (Option (List (List Row))) :=
  (((p.map (·.addIdx)).getD []).flatMap (entriesOf fs)).map (fun m => fs.parquet m.file)

theorem addedFiles_mono {fs fs' : FS} {p : Option Patch} (h : ∀ q, p = some q → PatchOK fs s q) (hle : FSLe fs fs') :
    addedFiles fs' p = addedFiles fs p := by
  cases p with
  | none => rfl
  | some q =>
    have hq := (h q rfl).idx
    unfold addedFiles
    simp only [Option.map_some, Option.getD_some]
    rw [flatMap_congr' fun x hx => entriesOf_mono hle (hq x hx)]
    refine List.map_congr_left fun m hm => ?_
    obtain ⟨x, hx, hm⟩ := List.mem_flatMap.mp hm
    obtain ⟨g, hg, -⟩ := (hq x hx).entry hm
    rw [hg]
    exact hle.parquet hg

theorem addedFiles_join (fs : FS) (p q : Option Patch) :
    addedFiles fs (joinOpt p q) = addedFiles fs p ++ addedFiles fs q := by
  cases p <;> cases q <;> simp [addedFiles, joinOpt, joinPatch]

/-- The division of each actor's tables into files. -/
def RayPacked (E : Env) (s : Schema) (fs : FS) (qs : List (List (List Row))) (parts : List (List (List (List (List Row)))))
    (contents : List (Option (List (List Row)))) : Prop :=
  (∀ d ∈ parts, Packed E d) ∧
  parts.map (fun d => d.flatten.flatten.map (·.map (deref fs.records s))) = qs.map (givenTables s) ∧
  contents = parts.flatten.map (fun f => some (stored E f))

theorem finishActors_fill {n : Nat} : ∀ (as : List Actor) {w : World} {qs : List (List (List Row))}
    (_ : ActorsOK E s n w as qs) (_ : ActorsFill E s w as qs) (_ : ∀ j, leftOver as j = 0),
    Post (finishActors E s as w) (fun ps w' => ∃ parts, RayPacked E s w'.fs qs parts (addedFiles w'.fs (mergePatches ps)))
      (fun _ => True)
  | [], w, qs, h, _, _ => by
    have : qs = [] := List.length_eq_zero_iff.mp h.length.symm
    subst this
    exact Post.pure ⟨[], by simp, rfl, rfl⟩
  | (op, q) :: as, w, qs, h, hfill, hl => by
    unfold finishActors
    obtain ⟨hop, haddr, hcar, -⟩ := h.ops 0 op q rfl
    obtain ⟨full, gs, wait, done, hq, hf0, htab⟩ := hfill 0 op q rfl
    have hq0 : q = [] := List.length_eq_zero_iff.mp (hl 0)
    subst hq0
    obtain ⟨q1, qs', rfl⟩ : ∃ a b, qs = a :: b := by
      cases qs with
      | nil => cases hq
      | cons a b => exact ⟨a, b, rfl⟩
    simp only [List.getElem?_cons_zero, List.append_nil, Option.some.injEq] at hq
    subst hq
    refine Post.bind (((finish_post hop).and ((finish_sep (E := E) (s := s) (w := w) (op := op)).and
      (finish_fill hop hf0 hcar))).imp (fun _ _ h => h) (fun _ _ => trivial)) ?_
    rintro p w1 ⟨⟨-, g1, f1, hlook, mf, rmf, hfin⟩, ⟨⟨op', hsep⟩, hlater⟩, hfiles⟩
    rw [hcar] at hfin
    have hgath := hfin.gathered h.fresh hlater
    have h1 : ActorsOK E s n w1 as qs' := h.tail g1 f1 hsep
    have hf1 : ActorsFill E s w1 as qs' := by
      intro i opi qi hi
      obtain ⟨o1, -⟩ := h.ops (i + 1) opi qi (by simpa using hi)
      obtain ⟨full, gs, wait, d, a1, a2, a3⟩ := hfill (i + 1) opi qi (by simpa using hi)
      refine ⟨full, gs, wait, d, by simpa using a1, a2.mono g1.le, ?_⟩
      exact (tables_frame o1 a2 (overlay_mono g1.le)).trans a3
    refine Post.bind (((finishActors_post as h1 (fun j => hl (j + 1))).and
      (finishActors_fill as h1 hf1 (fun j => hl (j + 1)))).imp (fun _ _ h => h) (fun _ _ => trivial)) ?_
    rintro ps w2 ⟨⟨g2, -⟩, parts, r1, r2, r3⟩
    refine Post.pure ?_
    have hl2 : LookLe (op.look w.fs) w2.fs.records := hlook.trans g2.le.lookLe
    have hadd : addedFiles w2.fs (mergePatches (p :: ps)) = addedFiles w1.fs p ++ addedFiles w2.fs (mergePatches ps) := by
      rw [mergePatches_cons, addedFiles_join, addedFiles_mono hgath.ok g2.le]
    rw [hadd]
    have htab2 := (tables_frame hop hf0 hl2).trans htab
    cases p with
    | none =>
      have h0 : op.rows w.fs = [] := hgath.none_iff.mp rfl
      have hd : givenTables s q1 = [] := by
        rw [← htab]
        rw [hf0.rows] at h0
        have h0 : (tablesOf full gs wait).flatten = [] := h0
        cases ht : tablesOf full gs wait with
        | nil => rfl
        | cons t ts =>
          rw [ht] at h0 htab
          have ht0 : t = [] := (List.append_eq_nil_iff.mp h0).1
          subst ht0
          have : ([] : List Row) ∈ givenTables s q1 := by rw [← htab]; simp
          obtain ⟨u, hu, hu'⟩ := List.mem_map.mp this
          have := (List.mem_filter.mp hu).2
          rw [List.map_eq_nil_iff] at hu'
          simp [hu'] at this
      refine ⟨[] :: parts, ?_, ?_, ?_⟩
      · intro d hd
        rcases List.mem_cons.mp hd with rfl | hd
        · exact ⟨[], [], rfl, by simp, Or.inl rfl⟩
        · exact r1 d hd
      · rw [List.map_cons, List.map_cons, r2, hd]
        rfl
      · rw [r3]
        rfl
    | some q =>
      obtain ⟨files, p1, p2, p3⟩ := hfiles q rfl
      refine ⟨files :: parts, ?_, ?_, ?_⟩
      · intro d hd
        rcases List.mem_cons.mp hd with rfl | hd
        · exact p1
        · exact r1 d hd
      · rw [List.map_cons, List.map_cons, r2, p2, htab2]
      · rw [r3, List.flatten_cons, List.map_append, ← p3]
        rfl

/-- The files of a write by actors. -/
theorem rayWrite_packed (hf : w.Fresh) (sched : List Nat) (qs : List (List (List Row))) :
    Post (rayWrite E s sched qs w) (fun p w' => ∃ parts, RayPacked E s w'.fs qs parts (addedFiles w'.fs p))
      (fun _ => True) := by
  unfold rayWrite
  have h0 := ActorsOK.init (E := E) (s := s) hf qs
  refine Post.bind (((actorsRun_post sched h0).and (actorsRun_fill sched h0 (ActorsFill.init qs))).imp (fun _ _ h => h)
    (fun _ _ => trivial)) ?_
  rintro as1 w1 ⟨⟨-, h1, -⟩, f1⟩
  refine Post.bind (((actorsRun_post (drain as1) h1).and (actorsRun_fill (drain as1) h1 f1)).imp (fun _ _ h => h)
    (fun _ _ => trivial)) ?_
  rintro as2 w2 ⟨⟨-, h2, h3⟩, f2⟩
  refine Post.bind (finishActors_fill as2 h2 f2 (fun j => by rw [h3 j, drain_count]; omega)) ?_
  rintro ps w3 h
  exact Post.pure h

end

/-! ## The tables given to the actors -/

theorem shardLoop_get (rows : List Row) (size : Nat) : ∀ (k off i : Nat),
    ((shardLoop rows size k off).1[i]?.toList).filter (fun t => decide (t ≠ [])) =
      (if i < k then [(rows.drop (off + i * size)).take size] else []).filter (fun t => decide (t ≠ []))
  | 0, off, i => by simp [shardLoop]
  | k + 1, off, 0 => by
    unfold shardLoop
    dsimp only
    split <;> simp
  | k + 1, off, i + 1 => by
    unfold shardLoop
    dsimp only
    split
    · rename_i hle
      have : rows.length ≤ off + (i + 1) * size := by
        rw [Nat.add_mul]
        omega
      simp only [List.getElem?_cons_succ, List.getElem?_nil, Option.toList_none, List.filter_nil]
      rw [List.drop_eq_nil_of_le this]
      split <;> simp
    · rw [List.getElem?_cons_succ, shardLoop_get rows size k (off + size) i]
      have e : off + size + i * size = off + (i + 1) * size := by rw [Nat.add_mul]; omega
      rw [e]
      simp

theorem shardLoop_off (rows : List Row) (size : Nat) : ∀ (k off : Nat),
    (if (shardLoop rows size k off).2 < rows.length then [rows.drop (shardLoop rows size k off).2] else []) =
      [rows.drop (off + k * size)].filter (fun t => decide (t ≠ []))
  | 0, off => by
    show (if off < rows.length then [rows.drop off] else []) = _
    rw [Nat.zero_mul, Nat.add_zero]
    by_cases h : off < rows.length
    · have h0 : rows.drop off ≠ [] := fun h0 => by
        have := List.drop_eq_nil_iff.mp h0
        omega
      rw [if_pos h, List.filter_cons_of_pos (by simpa using h0)]
      rfl
    · rw [if_neg h, List.drop_eq_nil_of_le (by omega)]
      rfl
  | k + 1, off => by
    unfold shardLoop
    dsimp only
    split
    · rename_i hle
      have : rows.length ≤ off + (k + 1) * size := by
        rw [Nat.add_mul]
        omega
      rw [List.drop_eq_nil_of_le this, if_neg (by show ¬ off + size < rows.length; omega)]
      rfl
    · rw [shardLoop_off rows size k (off + size)]
      have e : off + size + k * size = off + (k + 1) * size := by rw [Nat.add_mul]; omega
      rw [e]

theorem shardQueues_filtered {n : Nat} {rows : List Row} {qs : List (List (List Row))} (h : shardQueues n rows = .ok qs) :
    qs.map (List.filter (fun t => decide (t ≠ []))) = (List.range n).map (fun i => List.filter (fun t => decide (t ≠ []))
      ((rows.drop (i * max 1 (rows.length / n))).take (max 1 (rows.length / n)) ::
        (if i = 0 then [rows.drop (n * max 1 (rows.length / n))] else []))) := by
  unfold shardQueues at h
  split at h
  · cases h
  · cases h
    have hsize : shardSize n rows.length = max 1 (rows.length / n) := by
      unfold shardSize
      generalize rows.length / n = k
      split <;> omega
    rw [hsize]
    generalize max 1 (rows.length / n) = size
    rw [List.map_map]
    refine List.map_congr_left fun i hi => ?_
    have hi := List.mem_range.mp hi
    show List.filter _ _ = _
    rw [← List.singleton_append (l := if i = 0 then _ else _), List.filter_append, List.filter_append]
    congr 1
    · rw [shardLoop_get rows size n 0 i, if_pos hi, Nat.zero_add]
    · by_cases h0 : i = 0
      · subst h0
        have := shardLoop_off rows size n 0
        rw [Nat.zero_add] at this
        simp only [true_and, if_true]
        rw [this, List.filter_filter]
        simp
      · simp [h0]

theorem shardQueues_given {n : Nat} {rows : List Row} {qs : List (List (List Row))} (s : Schema)
    (h : shardQueues n rows = .ok qs) :
    qs.map (givenTables s) = (List.range n).map (fun i => givenTables s
      ((rows.drop (i * max 1 (rows.length / n))).take (max 1 (rows.length / n)) ::
        (if i = 0 then [rows.drop (n * max 1 (rows.length / n))] else []))) := by
  have := congrArg (List.map (List.map (List.map (fun r : Row => r.select s.writeNames)))) (shardQueues_filtered h)
  simp only [List.map_map] at this
  exact this

theorem zipIdx_range {α : Type} (l : List (List α)) :
    l.zipIdx = (List.range l.length).map (fun j => (l[j]?.getD [], j)) := by
  refine List.ext_getElem (by simp) fun i h1 h2 => ?_
  have hi : i < l.length := by simpa using h1
  simp [List.getElem?_eq_getElem hi]

theorem sourceQueues_given {n : Nat} {sources qs : List (List (List Row))} (h : sourceQueues n sources = .ok qs) :
    qs = (List.range n).map (fun i =>
      ((List.range sources.length).filter (fun j => decide (j % n = i))).flatMap (fun j => sources[j]?.getD [])) := by
  unfold sourceQueues at h
  split at h
  · cases h
  · cases h
    refine List.map_congr_left fun i _ => ?_
    rw [zipIdx_range, List.filter_map, List.flatMap_map]
    rfl

end Space
