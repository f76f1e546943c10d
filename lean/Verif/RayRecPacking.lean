import Verif.RecPacking
import Verif.RayPacking

/-!
# How the actors of a Ray append divide record columns into files
-/

set_option autoImplicit false

namespace Space

section
variable {E : Env} {s : Schema} {w : World} {c : String}

/-- The columns of field `c` of the tables that have rows. -/
def givenCols (c : String) (tables : List (List Row)) : List (List Val) :=
  (tables.filter (fun t => decide (t ≠ []))).map (·.map (·.val c))

/-- Each actor fills its own record files. -/
def ActorsRec (E : Env) (c : String) (w : World) (as : List Actor) (qs : List (List (List Row))) : Prop :=
  ∀ (i : Nat) (op : AppendOp) (q : List (List Row)), as[i]? = some (op, q) →
    ∃ full cols done, qs[i]? = some (done ++ q) ∧ RecFilling E w.fs op c full cols ∧
      (full.flatten ++ cols).map (·.map recVal) = givenCols c done

theorem actorStep_rec (hn : (s.recFields.map (·.name)).Nodup) (hc : c ∈ s.recNames) {n : Nat} {as : List Actor}
    {qs : List (List (List Row))} (h : ActorsOK E s n w as qs) (hf : ActorsRec E c w as qs) (i : Nat) :
    Post (actorStep E s i as w) (fun as' w' => ActorsRec E c w' as' qs) (fun _ => True) := by
  unfold actorStep
  cases ha : as[i]? with
  | none => exact Post.pure hf
  | some a =>
    obtain ⟨op, q⟩ := a
    cases q with
    | nil => exact Post.pure hf
    | cons t ts =>
      obtain ⟨hop, haddr, hcar, -⟩ := h.ops i op _ ha
      obtain ⟨full, cols, done, hq, hfill, htab⟩ := hf i op _ ha
      refine Post.bind (((write_post (E := E) (s := s) hop (data := t) (fun hc => by rw [haddr] at hc; cases hc)).and
        (write_rec hn hc hop haddr hfill t)).imp (fun _ _ h => h) (fun _ _ => trivial)) ?_
      rintro op' w' ⟨⟨h1, h2, -⟩, full', cols', new, f1, f2, f3⟩
      have hg : Grows w w' := h2.grows
      refine Post.pure fun j opj qj hj => ?_
      by_cases hij : i = j
      · subst hij
        have hlt : i < as.length := (List.getElem?_eq_some_iff.mp ha).1
        rw [List.getElem?_set_self hlt] at hj
        cases hj
        refine ⟨full', cols', done ++ [t], by simpa using hq, f1, ?_⟩
        rw [f2, List.map_append, htab]
        unfold givenCols
        rw [List.filter_append, List.map_append]
        congr 1
        by_cases ht : t = []
        · rw [if_pos ht] at f3
          subst f3
          simp [ht]
        · rw [if_neg ht] at f3
          obtain ⟨bs, rfl, hbs⟩ := f3
          rw [List.filter_cons_of_pos (by simpa using ht)]
          simp only [List.filter_nil, List.map_cons, List.map_nil, List.cons.injEq, and_true]
          exact hbs
      · rw [List.getElem?_set_ne hij] at hj
        obtain ⟨full, cols, done, a1, a2, a3⟩ := hf j opj qj hj
        exact ⟨full, cols, done, a1, a2.mono hg.le, a3⟩

theorem actorsRun_rec (hn : (s.recFields.map (·.name)).Nodup) (hc : c ∈ s.recNames) {n : Nat} : ∀ (sched : List Nat)
    {w : World} {as : List Actor} {qs : List (List (List Row))} (_ : ActorsOK E s n w as qs) (_ : ActorsRec E c w as qs),
    Post (actorsRun E s sched as w) (fun as' w' => ActorsRec E c w' as' qs) (fun _ => True)
  | [], w, as, qs, h, hf => Post.pure hf
  | i :: sched, w, as, qs, h, hf => by
    unfold actorsRun
    refine Post.bind (((actorStep_post h i).and (actorStep_rec hn hc h hf i)).imp (fun _ _ h => h)
      (fun _ _ => trivial)) ?_
    rintro as1 w1 ⟨⟨-, h1, -⟩, f1⟩
    exact actorsRun_rec hn hc sched h1 f1

theorem ActorsRec.init (qs : List (List (List Row))) :
    ActorsRec E c w (qs.map (fun q => ({ addrInput := false }, q))) qs := by
  intro i op q h
  rw [List.getElem?_map] at h
  cases hq : qs[i]? with
  | none => rw [hq] at h; cases h
  | some q' =>
    rw [hq] at h
    cases h
    exact ⟨[], [], [], rfl, ⟨rfl, fun _ => rfl, fun _ h => (by cases h), by simp, .nil⟩, rfl⟩

/-- The contents of the record files of field `c` that a patch adds. -/
def addedRecs (c : String) (fs : FS) (p : Option Patch) : List (Option (List (List Nat))) :=
  (recFilesOf c (((p.map (·.addRec)).getD []).flatMap (fun q => (fs.rmanifest q).getD []))).map fs.records

theorem rmanifest_mono {fs fs' : FS} {q : Path} (hle : FSLe fs fs') (hq : RecManifestOK fs q) :
    (fs'.rmanifest q).getD [] = (fs.rmanifest q).getD [] := by
  obtain ⟨rows, hq, -⟩ := hq
  rw [hq, hle.rmanifest hq]

theorem addedRecs_mono {fs fs' : FS} {p : Option Patch} (h : ∀ q, p = some q → PatchOK fs s q) (hle : FSLe fs fs')
    {x : List (List (List (List Nat)))} (hx : addedRecs c fs p = x.map (fun f => some f.flatten)) :
    addedRecs c fs' p = addedRecs c fs p := by
  cases p with
  | none => rfl
  | some q =>
    have hq := (h q rfl).recs
    unfold addedRecs at hx ⊢
    simp only [Option.map_some, Option.getD_some] at hx ⊢
    rw [flatMap_congr' fun y hy => rmanifest_mono hle (hq y hy)]
    refine List.map_congr_left fun y hy => ?_
    have : fs.records y ∈ x.map (fun f => some f.flatten) := by rw [← hx]; exact List.mem_map_of_mem hy
    obtain ⟨z, -, hz⟩ := List.mem_map.mp this
    rw [← hz]
    exact hle.records hz.symm

theorem addedRecs_join (fs : FS) (p q : Option Patch) :
    addedRecs c fs (joinOpt p q) = addedRecs c fs p ++ addedRecs c fs q := by
  cases p <;> cases q <;> simp [addedRecs, joinOpt, joinPatch, recFilesOf]

/-- The division of each actor's columns into record files. -/
def RayRecPacked (E : Env) (c : String) (qs : List (List (List Row))) (parts : List (List (List (List (List Nat)))))
    (contents : List (Option (List (List Nat)))) : Prop :=
  (∀ d ∈ parts, RecPacked E d) ∧
  parts.map (fun d => d.flatten.map (·.map recVal)) = qs.map (givenCols c) ∧
  contents = parts.flatten.map (fun f => some f.flatten)

theorem finishActors_rec (hc : c ∈ s.recNames) {n : Nat} : ∀ (as : List Actor) {w : World} {qs : List (List (List Row))}
    (_ : ActorsOK E s n w as qs) (_ : ActorsRec E c w as qs) (_ : ∀ j, leftOver as j = 0),
    Post (finishActors E s as w) (fun ps w' => ∃ parts, RayRecPacked E c qs parts (addedRecs c w'.fs (mergePatches ps)))
      (fun _ => True)
  | [], w, qs, h, _, _ => by
    have : qs = [] := List.length_eq_zero_iff.mp h.length.symm
    subst this
    exact Post.pure ⟨[], by simp, rfl, rfl⟩
  | (op, q) :: as, w, qs, h, hfill, hl => by
    unfold finishActors
    obtain ⟨hop, haddr, hcar, done0, hq', hrows⟩ := h.ops 0 op q rfl
    obtain ⟨full, cols, done, hq, hf0, htab⟩ := hfill 0 op q rfl
    have hq0 : q = [] := List.length_eq_zero_iff.mp (hl 0)
    subst hq0
    obtain ⟨q1, qs', rfl⟩ : ∃ a b, qs = a :: b := by
      cases qs with
      | nil => cases hq
      | cons a b => exact ⟨a, b, rfl⟩
    simp only [List.getElem?_cons_zero, List.append_nil, Option.some.injEq] at hq hq'
    subst hq
    subst hq'
    refine Post.bind (((finish_post hop).and ((finish_sep (E := E) (s := s) (w := w) (op := op)).and
      (finish_rec hc hop hf0))).imp (fun _ _ h => h) (fun _ _ => trivial)) ?_
    rintro p w1 ⟨⟨-, g1, f1, hlook, mf, rmf, hfin⟩, ⟨⟨op', hsep⟩, hlater⟩, hfiles⟩
    rw [hcar] at hfin
    have hgath := hfin.gathered h.fresh hlater
    have h1 : ActorsOK E s n w1 as qs' := h.tail g1 f1 hsep
    have hf1 : ActorsRec E c w1 as qs' := by
      intro i opi qi hi
      obtain ⟨full, cols, d, a1, a2, a3⟩ := hfill (i + 1) opi qi (by simpa using hi)
      exact ⟨full, cols, d, by simpa using a1, a2.mono g1.le, a3⟩
    refine Post.bind (((finishActors_post as h1 (fun j => hl (j + 1))).and
      (finishActors_rec hc as h1 hf1 (fun j => hl (j + 1)))).imp (fun _ _ h => h) (fun _ _ => trivial)) ?_
    rintro ps w2 ⟨⟨g2, -⟩, parts, r1, r2, r3⟩
    refine Post.pure ?_
    rw [mergePatches_cons, addedRecs_join]
    cases p with
    | none =>
      have h0 : op.rows w.fs = [] := hgath.none_iff.mp rfl
      have hd : givenCols c q1 = [] := by
        rw [h0] at hrows
        have hz : q1.flatten = [] := by
          cases hz : q1.flatten with
          | nil => rfl
          | cons a b => rw [hz] at hrows; simp at hrows
        unfold givenCols
        rw [List.map_eq_nil_iff, List.filter_eq_nil_iff]
        intro t ht
        have : t = [] := List.flatten_eq_nil_iff.mp hz t ht
        simp [this]
      refine ⟨[] :: parts, ?_, ?_, ?_⟩
      · intro d hd
        rcases List.mem_cons.mp hd with rfl | hd
        · exact ⟨[], [], rfl, by simp, Or.inl rfl⟩
        · exact r1 d hd
      · rw [List.map_cons, List.map_cons, r2, hd]
        rfl
      · rw [r3]
        rfl
    | some q =>
      obtain ⟨files, p1, p2, p3⟩ := hfiles q rfl
      have p3 : addedRecs c w1.fs (some q) = files.map (fun f => some f.flatten) := p3
      refine ⟨files :: parts, ?_, ?_, ?_⟩
      · intro d hd
        rcases List.mem_cons.mp hd with rfl | hd
        · exact p1
        · exact r1 d hd
      · rw [List.map_cons, List.map_cons, r2, p2, htab]
      · rw [addedRecs_mono hgath.ok g2.le p3, r3, List.flatten_cons, List.map_append, ← p3]

/-- The record files of a write by actors. -/
theorem rayWrite_recs (hn : s.names.Nodup) (hc : c ∈ s.recNames) (hf : w.Fresh) (sched : List Nat)
    (qs : List (List (List Row))) :
    Post (rayWrite E s sched qs w) (fun p w' => ∃ parts, RayRecPacked E c qs parts (addedRecs c w'.fs p))
      (fun _ => True) := by
  have hn' : (s.recFields.map (·.name)).Nodup := hn.sublist ((List.filter_sublist).map _)
  unfold rayWrite
  have h0 := ActorsOK.init (E := E) (s := s) hf qs
  refine Post.bind (((actorsRun_post sched h0).and (actorsRun_rec hn' hc sched h0 (ActorsRec.init qs))).imp
    (fun _ _ h => h) (fun _ _ => trivial)) ?_
  rintro as1 w1 ⟨⟨-, h1, -⟩, f1⟩
  refine Post.bind (((actorsRun_post (drain as1) h1).and (actorsRun_rec hn' hc (drain as1) h1 f1)).imp (fun _ _ h => h)
    (fun _ _ => trivial)) ?_
  rintro as2 w2 ⟨⟨-, h2, h3⟩, f2⟩
  refine Post.bind (finishActors_rec hc as2 h2 f2 (fun j => by rw [h3 j, drain_count]; omega)) ?_
  rintro ps w3 h
  exact Post.pure h

end

theorem shardQueues_cols {n : Nat} {rows : List Row} {qs : List (List (List Row))} (c : String)
    (h : shardQueues n rows = .ok qs) :
    qs.map (givenCols c) = (List.range n).map (fun i => givenCols c
      ((rows.drop (i * max 1 (rows.length / n))).take (max 1 (rows.length / n)) ::
        (if i = 0 then [rows.drop (n * max 1 (rows.length / n))] else []))) := by
  have := congrArg (List.map (List.map (List.map (fun r : Row => r.val c)))) (shardQueues_filtered h)
  simp only [List.map_map] at this
  exact this

end Space
