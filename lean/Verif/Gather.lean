import Verif.ActorLemmas
import Verif.Mutations

/-! # Patches gathered from several append operations -/

namespace Space

open List

theorem mergeLogs_assoc (a b c : Option ChangeLog) :
    mergeLogs (mergeLogs a b) c = mergeLogs a (mergeLogs b c) := by
  cases a <;> cases b <;> cases c <;> simp [mergeLogs]

/-- One step of `merge_patches`. -/
def joinPatch (a b : Patch) : Patch :=
  { addIdx := a.addIdx ++ b.addIdx, addRec := a.addRec ++ b.addRec, delIdx := a.delIdx ++ b.delIdx,
    log := mergeLogs a.log b.log, stats := (a.stats.addIndex b.stats).addRecord b.stats }

theorem joinPatch_assoc (a b c : Patch) : joinPatch (joinPatch a b) c = joinPatch a (joinPatch b c) := by
  simp [joinPatch, mergeLogs_assoc, SStats.addIndex, SStats.addRecord, Int.add_assoc]

theorem joinPatch_nil (a : Patch) : joinPatch {} a = a := by
  cases a
  simp [joinPatch, mergeLogs, SStats.addIndex, SStats.addRecord]

theorem mergeLoop_join : ∀ (ps : List (Option Patch)) (acc : Patch), mergeLoop ps acc false =
    ((match mergePatches ps with
      | none => acc
      | some q => joinPatch acc q), false)
  | [], acc => rfl
  | none :: ps, acc => by
    rw [mergeLoop, mergeLoop_join ps acc]
    rfl
  | some p :: ps, acc => by
    have h1 := mergeLoop_join ps (joinPatch acc p)
    have h2 := mergeLoop_join ps (joinPatch {} p)
    rw [mergeLoop]
    show mergeLoop ps (joinPatch acc p) false = _
    rw [h1]
    have h3 : mergePatches (some p :: ps) = some (match mergePatches ps with
      | none => joinPatch {} p
      | some q => joinPatch (joinPatch {} p) q) := by
      unfold mergePatches
      rw [mergeLoop]
      show (match mergeLoop ps (joinPatch {} p) false with
        | (_, true) => none
        | (p, false) => some p) = _
      rw [h2]
      rfl
    rw [h3]
    cases mergePatches ps with
    | none => simp [joinPatch_nil]
    | some q => simp [joinPatch_nil, joinPatch_assoc]

/-- One step of `merge_patches` on patches that may be missing. -/
def joinOpt : Option Patch → Option Patch → Option Patch
  | none, q => q
  | some a, none => some a
  | some a, some b => some (joinPatch a b)

/-- `merge_patches` patch by patch. -/
theorem mergePatches_cons (p : Option Patch) (ps : List (Option Patch)) :
    mergePatches (p :: ps) = joinOpt p (mergePatches ps) := by
  cases p with
  | none => rfl
  | some a =>
    have h2 := mergeLoop_join ps (joinPatch {} a)
    show (match mergeLoop ps (joinPatch {} a) false with
        | (_, true) => none
        | (p, false) => some p) = _
    rw [h2]
    cases mergePatches ps <;> simp [joinPatch_nil, joinOpt]

theorem mergePatches_pair (a b : Option Patch) : mergePatches [a, b] = joinOpt a b := by
  rw [mergePatches_cons, mergePatches_cons]
  cases a <;> cases b <;> rfl

/-- Entries of a record manifest. -/
def recRowsOf (fs : FS) (p : Path) : List RecManifestRow := (fs.rmanifest p).getD []

/-- What append operations leave behind: a patch for rows stored between `w0` and `w'`. -/
structure Gathered (E : Env) (s : Schema) (w0 w' : World) (rows : List Row) (p : Option Patch) : Prop where
  none_iff : p = none ↔ rows = []
  ok : ∀ q, p = some q → PatchOK w'.fs s q
  new : ∀ q, p = some q → ∀ index, PatchNew w0 index q
  del : ∀ q, p = some q → q.delIdx = []
  phys : ∀ q, p = some q → physRows w'.fs q.addIdx = rows
  stats : ∀ q, p = some q → q.stats = {
    rows := sumRows (q.addIdx.flatMap (entriesOf w'.fs)), icb := sumIcb (q.addIdx.flatMap (entriesOf w'.fs)),
    iub := sumIub (q.addIdx.flatMap (entriesOf w'.fs)), rub := sumRub (q.addRec.flatMap (recRowsOf w'.fs)) }
  log : ∀ q, p = some q → q.log = some { added := (q.addIdx.flatMap (entriesOf w'.fs)).map wholeFile }
  sizes : ∀ q, p = some q → ∀ m ∈ q.addIdx.flatMap (entriesOf w'.fs), SizeOK E s w'.fs m

theorem sumRub_nil : sumRub [] = 0 := rfl

/-- One operation. -/
theorem Finished.gathered {E : Env} {s : Schema} {b w w' : World} {rows : List Row} {mf : List ManifestRow}
    {rmf : List RecManifestRow} {p : Option Patch} (h : Finished E s b w' rows [] mf rmf p) (hf : w.Fresh)
    (hl : ∀ q, p = some q → ∀ x ∈ q.addIdx ++ q.addRec, Later w.next w'.next x) : Gathered E s w w' rows p where
  none_iff := by
    rcases h.addRows with ⟨h1, h2⟩ | ⟨q, h1, -, h2⟩
    · simp [h1, h2]
    · simp [h1, h2]
  ok q hq := by subst hq; exact h.patchOK (by simp)
  new q hq index := by
    subst hq
    have hfresh : ∀ x ∈ q.addIdx ++ q.addRec, AMap.get? w.fs x = none := by
      intro x hx
      obtain ⟨u, h1, h2, -⟩ := hl q rfl x hx
      exact hf x u h1 h2
    obtain ⟨u, -, h1, -⟩ := h.idx q rfl
    refine ⟨?_, ?_, by rw [h1]; simp, ?_, by rw [h.del q rfl]; simp⟩
    · intro x hx
      simp [FS.imanifest, hfresh x (List.mem_append_left _ hx)]
    · intro x hx
      simp [FS.rmanifest, hfresh x (List.mem_append_right _ hx)]
    · rcases h.recs q rfl with ⟨-, h0⟩ | ⟨v, hv, h2, -⟩
      · rw [h0]; simp
      · rw [h2]; simp
  del := h.del
  phys q hq := by
    subst hq
    rcases h.addRows with ⟨h1, -⟩ | ⟨q', h1, h2, -⟩
    · cases h1
    · cases h1; exact h2
  stats q hq := by
    obtain ⟨u, -, h1, h2⟩ := h.idx q hq
    have he : q.addIdx.flatMap (entriesOf w'.fs) = mf := by simp [h1, entriesOf, h2]
    rw [h.stats q hq, he]
    rcases h.recs q hq with ⟨h0, h3⟩ | ⟨v, -, h3, h4⟩
    · simp [h0, h3]
    · simp [h3, recRowsOf, h4]
  log q hq := by
    obtain ⟨u, -, h1, h2⟩ := h.idx q hq
    have he : q.addIdx.flatMap (entriesOf w'.fs) = mf := by simp [h1, entriesOf, h2]
    rw [h.log q hq, he]
  sizes q hq := by
    obtain ⟨u, -, h1, h2⟩ := h.idx q hq
    have he : q.addIdx.flatMap (entriesOf w'.fs) = mf := by simp [h1, entriesOf, h2]
    rw [he]
    exact h.sizes

/-- No operation. -/
theorem Gathered.nothing (E : Env) (s : Schema) (w0 w' : World) : Gathered E s w0 w' [] none :=
  ⟨by simp, by simp, by simp, by simp, by simp, by simp, by simp, by simp⟩

/-- Manifests of a patch do not change as files are added. -/
theorem PatchOK.entries {fs fs' : FS} {s : Schema} {q : Patch} (h : PatchOK fs s q) (hle : FSLe fs fs') :
    q.addIdx.flatMap (entriesOf fs') = q.addIdx.flatMap (entriesOf fs) ∧
    q.addRec.flatMap (recRowsOf fs') = q.addRec.flatMap (recRowsOf fs) := by
  constructor
  · exact flatMap_congr' fun x hx => entriesOf_mono hle (h.idx x hx)
  · refine flatMap_congr' fun x hx => ?_
    obtain ⟨rows, h1, -⟩ := h.recs x hx
    simp [recRowsOf, h1, hle.rmanifest h1]

theorem Gathered.mono {E : Env} {s : Schema} {w0 w w' : World} {rows : List Row} {p : Option Patch}
    (h : Gathered E s w0 w rows p) (hle : FSLe w.fs w'.fs) : Gathered E s w0 w' rows p where
  none_iff := h.none_iff
  ok q hq := (h.ok q hq).mono hle
  new := h.new
  del := h.del
  phys q hq := by rw [physRows_mono hle (h.ok q hq).idx]; exact h.phys q hq
  stats q hq := by
    rw [((h.ok q hq).entries hle).1, ((h.ok q hq).entries hle).2]
    exact h.stats q hq
  log q hq := by rw [((h.ok q hq).entries hle).1]; exact h.log q hq
  sizes q hq := by
    rw [((h.ok q hq).entries hle).1]
    exact fun m hm => (h.sizes q hq m hm).mono hle

theorem PatchNew.earlier {w0 w : World} {index : List Path} {q : Patch} (h : PatchNew w index q)
    (hle : FSLe w0.fs w.fs) : PatchNew w0 index q where
  idx x hx := by
    cases hc : w0.fs.imanifest x with
    | none => rfl
    | some y => have := h.idx x hx; rw [hle.imanifest hc] at this; cases this
  recs x hx := by
    cases hc : w0.fs.rmanifest x with
    | none => rfl
    | some y => have := h.recs x hx; rw [hle.rmanifest hc] at this; cases this
  idxNodup := h.idxNodup
  recsNodup := h.recsNodup
  del := h.del

theorem Gathered.earlier {E : Env} {s : Schema} {w0 w w' : World} {rows : List Row} {p : Option Patch}
    (h : Gathered E s w w' rows p) (hle : FSLe w0.fs w.fs) : Gathered E s w0 w' rows p :=
  { h with new := fun q hq index => (h.new q hq index).earlier hle }

/-- One patch after the other. -/
theorem Gathered.join {E : Env} {s : Schema} {w0 w1 w2 : World} {P Q : List Row} {p q : Option Patch} {r : Option Patch}
    (h1 : Gathered E s w0 w1 P p) (h2 : Gathered E s w1 w2 Q q) (hle0 : FSLe w0.fs w1.fs) (hle : FSLe w1.fs w2.fs)
    (hr : r = joinOpt p q) : Gathered E s w0 w2 (P ++ Q) r := by
  cases p with
  | none =>
    rw [h1.none_iff.mp rfl, List.nil_append]
    dsimp only [joinOpt] at hr
    subst hr
    exact h2.earlier hle0
  | some a =>
    cases q with
    | none =>
      rw [h2.none_iff.mp rfl, List.append_nil]
      dsimp only [joinOpt] at hr
      subst hr
      exact h1.mono hle
    | some b =>
      dsimp only [joinOpt] at hr
      subst hr
      have h1' := h1.mono hle
      have h2' := h2.earlier hle0
      have a1 := h1'.ok a rfl
      have b1 := h2.ok b rfl
      have a0 := h1.ok a rfl
      refine ⟨?_, ?_, ?_, ?_, ?_, ?_, ?_, ?_⟩
      · have : P ≠ [] := fun h => by have := h1.none_iff.mpr h; cases this
        simp [this]
      · rintro _ ⟨⟩
        refine ⟨?_, ?_, mergeLogs_ok a1.log b1.log⟩
        · intro x hx
          rcases List.mem_append.mp hx with hx | hx
          · exact a1.idx x hx
          · exact b1.idx x hx
        · intro x hx
          rcases List.mem_append.mp hx with hx | hx
          · exact a1.recs x hx
          · exact b1.recs x hx
      · rintro _ ⟨⟩ index
        have a2 := h1.new a rfl index
        have b2 := h2'.new b rfl index
        have b3 := h2.new b rfl index
        refine ⟨?_, ?_, ?_, ?_, ?_⟩
        · intro x hx
          rcases List.mem_append.mp hx with hx | hx
          · exact a2.idx x hx
          · exact b2.idx x hx
        · intro x hx
          rcases List.mem_append.mp hx with hx | hx
          · exact a2.recs x hx
          · exact b2.recs x hx
        · refine List.nodup_append.mpr ⟨a2.idxNodup, b2.idxNodup, ?_⟩
          rintro x hx _ hy rfl
          obtain ⟨rows, hc, -⟩ := a0.idx x hx
          rw [b3.idx x hy] at hc
          cases hc
        · refine List.nodup_append.mpr ⟨a2.recsNodup, b2.recsNodup, ?_⟩
          rintro x hx _ hy rfl
          obtain ⟨rows, hc, -⟩ := a0.recs x hx
          rw [b3.recs x hy] at hc
          cases hc
        · intro x hx
          rcases List.mem_append.mp hx with hx | hx
          · exact a2.del x hx
          · exact b2.del x hx
      · rintro _ ⟨⟩
        simp [joinPatch, h1.del a rfl, h2.del b rfl]
      · rintro _ ⟨⟩
        have e1 := h1'.phys a rfl
        have e2 := h2.phys b rfl
        unfold physRows at e1 e2 ⊢
        simp only [joinPatch, List.flatMap_append, e1, e2]
      · rintro _ ⟨⟩
        have e1 := h1'.stats a rfl
        have e2 := h2.stats b rfl
        simp only [joinPatch, List.flatMap_append, sumRows_append, sumIcb_append, sumIub_append, sumRub_append,
          e1, e2, SStats.addIndex, SStats.addRecord]
      · rintro _ ⟨⟩
        simp only [joinPatch, h1'.log a rfl, h2.log b rfl, mergeLogs, List.flatMap_append, List.map_append,
          List.append_nil]
      · rintro _ ⟨⟩ m hm
        simp only [joinPatch, List.flatMap_append, List.mem_append] at hm
        exact hm.elim (h1'.sizes a rfl m) (h2.sizes b rfl m)

/-! ## Actors -/

section
variable {E : Env} {s : Schema}

/-- Another operation put its files in place meanwhile. -/
theorem OpOK.frame {n : Nat} {w w' : World} {op other other' : AppendOp}
    (h : OpOK E s { w with next := n } w op) (hg : Grows w w') (hs : Sep w w' other other')
    (hd : ∀ p, Own op p → ¬ Own other p) : OpOK E s { w' with next := n } w' op := by
  have hnone : ∀ p, Own op p → (∃ u, p.uuid = some u ∧ u < w.next) → AMap.get? w.fs p = none →
      AMap.get? w'.fs p = none := by
    intro p hp ⟨u, h1, h2⟩ hw
    cases hc : AMap.get? w'.fs p with
    | none => rfl
    | some c =>
      rcases hs.made p c hc hw with h3 | ⟨v, h3, h4, -⟩
      · exact absurd h3 (hd p hp)
      · rw [h1] at h3
        cases h3
        omega
  have hnext : n ≤ w.next := h.grows.next
  have hlook : LookLe (op.look w.fs) (op.look w'.fs) := overlay_mono hg.le
  refine ⟨⟨?_, hg.fresh h.fresh, ?_, ?_, ?_, ?_, ?_, ?_, ?_, ?_, ?_, ?_, ?_, ?_, h.stRows, h.stIcb, h.stIub, h.stRub, h.added⟩, h.full⟩
  · exact ⟨FSLe.refl _, Nat.le_trans hnext hg.next, rfl, fun _ => hg.fresh h.fresh, Traced.none rfl rfl⟩
  · intro iw hiw
    obtain ⟨u, h1, h2, h3, h4⟩ := h.iw iw hiw
    exact ⟨u, h1, h2, Nat.lt_of_lt_of_le h3 hg.next,
      hnone _ (Or.inl ⟨iw, hiw, rfl⟩) ⟨u, by rw [h1]; rfl, h3⟩ h4⟩
  · intro iw hiw r hr
    exact (h.iwRows iw hiw r hr).mono hlook
  · intro f rw hrw
    obtain ⟨u, h1, h2, h3, h4, h5⟩ := h.rws f rw hrw
    exact ⟨u, h1, h2, Nat.lt_of_lt_of_le h3 hg.next,
      hnone _ (Or.inr ⟨f, rw, hrw, rfl⟩) ⟨u, by rw [h1]; rfl, h3⟩ h4, h5⟩
  · intro r hr
    exact (h.cache r hr).mono hlook
  · intro m hm
    exact (h.mf m hm).mono hg.le hlook
  · exact h.mfNew
  · intro m hm
    exact (h.mfSize m hm).mono hg.le
  · exact h.mfNodup
  · intro m hm
    exact (h.rmf m hm).mono hg.le
  · exact h.rmfNew
  · intro p rs h1 h2
    rw [h1] at h2
    cases h2
  · exact h.rmfNodup

/-- After own steps the start can be forgotten. -/
theorem OpOK.rebase {w w' : World} {n : Nat} {op : AppendOp} (h : OpOK E s { w with next := n } w' op) :
    OpOK E s { w' with next := n } w' op :=
  { h with
    grows := ⟨FSLe.refl _, h.grows.next, rfl, fun _ => h.fresh, Traced.none rfl rfl⟩
    rmfAll := fun p rs h1 h2 => by rw [h1] at h2; cases h2 }

/-- Actors side by side, given the tables `qs`. -/
structure ActorsOK (E : Env) (s : Schema) (n : Nat) (w : World) (as : List Actor) (qs : List (List (List Row))) :
    Prop where
  fresh : w.Fresh
  length : as.length = qs.length
  ops : ∀ (i : Nat) (op : AppendOp) (q : List (List Row)), as[i]? = some (op, q) →
    OpOK E s { w with next := n } w op ∧ op.addrInput = false ∧ op.carried = [] ∧
    ∃ done, qs[i]? = some (done ++ q) ∧
      (op.rows w.fs).map (deref (op.look w.fs) s) = done.flatten.map (·.select s.writeNames)
  apart : ∀ (i j : Nat) (a b : Actor), i ≠ j → as[i]? = some a → as[j]? = some b → ∀ p, Own a.1 p → ¬ Own b.1 p

theorem OpOK.ownLt {w0 w : World} {op : AppendOp} (h : OpOK E s w0 w op) {p : Path} (hp : Own op p) :
    ∃ u, p.uuid = some u ∧ u < w.next := by
  rcases hp with ⟨iw, h1, rfl⟩ | ⟨f, rw, h1, rfl⟩
  · obtain ⟨u, h2, -, h3, -⟩ := h.iw iw h1
    exact ⟨u, by rw [h2]; rfl, h3⟩
  · obtain ⟨u, h2, -, h3, -⟩ := h.rws f rw h1
    exact ⟨u, by rw [h2]; rfl, h3⟩

theorem Later.notOwn {w0 w : World} {op : AppendOp} (h : OpOK E s w0 w op) {p : Path} {m : Nat} (hl : Later w.next m p) :
    ¬ Own op p := by
  intro hp
  obtain ⟨u, h1, h2⟩ := h.ownLt hp
  obtain ⟨v, h3, h4, -⟩ := hl
  rw [h1] at h3
  cases h3
  omega

theorem OpOK.rowsFrame {w0 w w' : World} {op : AppendOp} (h : OpOK E s w0 w op) (hle : FSLe w.fs w'.fs) :
    (op.rows w'.fs).map (deref (op.look w'.fs) s) = (op.rows w.fs).map (deref (op.look w.fs) s) := by
  have h1 : op.rows w'.fs = op.rows w.fs := by
    unfold AppendOp.rows
    rw [h.mfRows hle]
  rw [h1]
  exact map_deref_mono (overlay_mono hle) h.rowsAddr

/-- What an exception in the middle of a step leaves. -/
theorem OpOK.grown {n : Nat} {w w' : World} {op : AppendOp} (h : OpOK E s { w with next := n } w op)
    (hg : Grows { w with next := n } w') (hm : Drawn w w' op) : Grows w w' :=
  ⟨hg.le, hm.next, hg.entry, fun hf => hm.fresh hf (fun _ hp => h.ownLt hp), hg.trace⟩

/-- One table written. -/
theorem actorStep_post {n : Nat} {w : World} {as : List Actor} {qs : List (List (List Row))}
    (h : ActorsOK E s n w as qs) (i : Nat) :
    Post (actorStep E s i as w) (fun as' w' => Grows w w' ∧ ActorsOK E s n w' as' qs ∧
      (∀ j, (as'[j]?.map (·.2.length)).getD 0 = (as[j]?.map (·.2.length)).getD 0 - if j = i then 1 else 0))
      (fun w' => Grows w w') := by
  unfold actorStep
  have skip : (as[i]?.map (·.2.length)).getD 0 = 0 →
      Post ((pure as : WM (List Actor)) w) (fun as' w' => Grows w w' ∧ ActorsOK E s n w' as' qs ∧
      (∀ j, (as'[j]?.map (·.2.length)).getD 0 = (as[j]?.map (·.2.length)).getD 0 - if j = i then 1 else 0))
      (fun w' => Grows w w') := by
    intro h0
    refine Post.pure ⟨Grows.refl w, h, fun j => ?_⟩
    split
    · rename_i hj; subst hj; rw [h0]
    · rfl
  cases ha : as[i]? with
  | none => exact skip (by simp [ha])
  | some a =>
    obtain ⟨op, q⟩ := a
    cases q with
    | nil => exact skip (by simp [ha])
    | cons t ts =>
      obtain ⟨hop, haddr, hcar, done, hq, hrows⟩ := h.ops i op _ ha
      have hpost := (write_post (E := E) (s := s) hop (data := t) (fun hc => by rw [haddr] at hc; cases hc)).and
        (write_sep (E := E) (s := s) (w := w) (op := op) (data := t))
      refine Post.bind (hpost.imp (fun _ _ h => h) (fun w' hx => hop.grown hx.1 hx.2)) ?_
      rintro op' w' ⟨⟨h1, h2, P, h3, -, h5⟩, h6⟩
      have hg : Grows w w' := h2.grows
      refine Post.pure ⟨hg, ⟨h1.fresh, by simp [h.length], ?_, ?_⟩, ?_⟩
      · intro j opj qj hj
        by_cases hij : i = j
        · subst hij
          have hlt : i < as.length := by
            have := List.getElem?_eq_some_iff.mp ha
            exact this.1
          rw [List.getElem?_set_self hlt] at hj
          cases hj
          refine ⟨h1.rebase, h2.addr.trans haddr, h2.carried.trans hcar, done ++ [t], by simpa using hq, ?_⟩
          rw [h3, List.map_append, h5 haddr, map_deref_mono h2.look hop.rowsAddr, hrows]
          simp
        · rw [List.getElem?_set_ne hij] at hj
          obtain ⟨g1, g2, g3, d, g4, g5⟩ := h.ops j opj qj hj
          refine ⟨g1.frame hg h6 ?_, g2, g3, d, g4, by rw [g1.rowsFrame hg.le]; exact g5⟩
          exact h.apart j i _ _ (Ne.symm hij) hj ha
      · intro j k a b hjk hj hk p hp hp'
        have hlt : i < as.length := (List.getElem?_eq_some_iff.mp ha).1
        by_cases hij : i = j
        · subst hij
          rw [List.getElem?_set_self hlt] at hj
          rw [List.getElem?_set_ne hjk] at hk
          cases hj
          rcases h6.own p hp with hp | hp
          · exact h.apart i k _ _ hjk ha hk p hp hp'
          · exact hp.notOwn (h.ops k b.1 b.2 hk).1 hp'
        · by_cases hik : i = k
          · subst hik
            rw [List.getElem?_set_self hlt] at hk
            rw [List.getElem?_set_ne hij] at hj
            cases hk
            rcases h6.own p hp' with hp' | hp'
            · exact h.apart j i _ _ hjk hj ha p hp hp'
            · exact hp'.notOwn (h.ops j a.1 a.2 hj).1 hp
          · rw [List.getElem?_set_ne hij] at hj
            rw [List.getElem?_set_ne hik] at hk
            exact h.apart j k a b hjk hj hk p hp hp'
      · intro j
        have hlt : i < as.length := (List.getElem?_eq_some_iff.mp ha).1
        by_cases hij : i = j
        · subst hij
          simp [List.getElem?_set_self hlt, ha]
        · rw [List.getElem?_set_ne hij, if_neg (Ne.symm hij)]
          rfl

/-- The tables of actor `j` that a schedule leaves. -/
def leftOver (as : List Actor) (j : Nat) : Nat := (as[j]?.map (·.2.length)).getD 0

theorem actorsRun_post {n : Nat} : ∀ (sched : List Nat) {w : World} {as : List Actor} {qs : List (List (List Row))}
    (_ : ActorsOK E s n w as qs),
    Post (actorsRun E s sched as w) (fun as' w' => Grows w w' ∧ ActorsOK E s n w' as' qs ∧
      ∀ j, leftOver as' j = leftOver as j - sched.count j) (fun w' => Grows w w')
  | [], w, as, qs, h => Post.pure ⟨Grows.refl w, h, fun j => by simp⟩
  | i :: sched, w, as, qs, h => by
    unfold actorsRun
    refine Post.bind (actorStep_post h i) ?_
    rintro as1 w1 ⟨g1, h1, h2⟩
    refine (actorsRun_post sched h1).imp ?_ (fun _ g => g1.trans g)
    rintro as2 w2 ⟨g2, h3, h4⟩
    refine ⟨g1.trans g2, h3, fun j => ?_⟩
    have := h2 j
    rw [h4 j, List.count_cons]
    unfold leftOver
    rw [this]
    by_cases hj : j = i
    · subst hj; simp; omega
    · have : (i == j) = false := by simp [Ne.symm hj]
      simp [hj, this]

theorem drain_count (as : List Actor) (j : Nat) : (drain as).count j = leftOver as j := by
  unfold drain
  rw [List.count_flatMap]
  have h1 : ∀ m, ((List.range m).map (List.count j ∘ fun i => List.replicate ((as[i]?.map (·.2.length)).getD 0) i)).sum =
      if j < m then leftOver as j else 0 := by
    intro m
    induction m with
    | zero => simp
    | succ m ih =>
      rw [List.range_succ, List.map_append, List.sum_append, ih]
      simp only [List.map_cons, List.map_nil, List.sum_cons, List.sum_nil, Function.comp_apply, List.count_replicate, Nat.add_zero]
      by_cases hj : j = m
      · subst hj; simp [leftOver]
      · have : (m == j) = false := by simp [Ne.symm hj]
        rw [this]
        by_cases hlt : j < m
        · simp [hlt, Nat.lt_succ_of_lt hlt]
        · have : ¬ j < m + 1 := by omega
          simp [hlt, this]
  rw [h1]
  split
  · rfl
  · rename_i hj
    simp [leftOver, List.getElem?_eq_none (Nat.le_of_not_lt hj)]

theorem ActorsOK.init {w : World} (hf : w.Fresh) (qs : List (List (List Row))) :
    ActorsOK E s w.next w (qs.map (fun q => ({ addrInput := false }, q))) qs where
  fresh := hf
  length := by simp
  ops i op q h := by
    rw [List.getElem?_map] at h
    cases hq : qs[i]? with
    | none => rw [hq] at h; cases h
    | some q' =>
      rw [hq] at h
      cases h
      exact ⟨OpOK.init false hf, rfl, rfl, [], rfl, by simp [AppendOp.rows]⟩
  apart i j a b hij ha hb p hp := by
    rw [List.getElem?_map] at ha
    cases hq : qs[i]? with
    | none => rw [hq] at ha; cases ha
    | some q' =>
      rw [hq] at ha
      cases ha
      rcases hp with ⟨iw, h1, -⟩ | ⟨f, rw, h1, -⟩
      · cases h1
      · cases h1

/-- The other actors after the first has finished. -/
theorem ActorsOK.tail {n : Nat} {w w1 : World} {op op' : AppendOp} {q q1 : List (List Row)} {as : List Actor}
    {qs' : List (List (List Row))} (h : ActorsOK E s n w ((op, q) :: as) (q1 :: qs')) (g1 : Grows w w1)
    (f1 : w1.Fresh) (hsep : Sep w w1 op op') : ActorsOK E s n w1 as qs' := by
  refine ⟨f1, by simpa using h.length, ?_, ?_⟩
  · intro i opi qi hi
    obtain ⟨a1, a2, a3, d, a4, a5⟩ := h.ops (i + 1) opi qi (by simpa using hi)
    refine ⟨a1.frame g1 hsep ?_, a2, a3, d, by simpa using a4, by rw [a1.rowsFrame g1.le]; exact a5⟩
    exact h.apart (i + 1) 0 (opi, qi) (op, q) (by omega) (by simpa using hi) rfl
  · intro i j a b hij ha hb
    exact h.apart (i + 1) (j + 1) a b (by omega) (by simpa using ha) (by simpa using hb)

/-- All actors finish. -/
theorem finishActors_post {n : Nat} : ∀ (as : List Actor) {w : World} {qs : List (List (List Row))}
    (_ : ActorsOK E s n w as qs) (_ : ∀ j, leftOver as j = 0),
    Post (finishActors E s as w) (fun ps w' => Grows w w' ∧ w'.Fresh ∧ ∃ P, Gathered E s w w' P (mergePatches ps) ∧
      P.map (deref w'.fs.records s) = qs.flatten.flatten.map (·.select s.writeNames)) (fun w' => Grows w w')
  | [], w, qs, h, _ => by
    have : qs = [] := List.length_eq_zero_iff.mp h.length.symm
    subst this
    exact Post.pure ⟨Grows.refl w, h.fresh, [], Gathered.nothing _ _ _ _, rfl⟩
  | (op, q) :: as, w, qs, h, hl => by
    unfold finishActors
    obtain ⟨hop, haddr, hcar, done, hq, hrows⟩ := h.ops 0 op q rfl
    have hq0 : q = [] := List.length_eq_zero_iff.mp (hl 0)
    subst hq0
    obtain ⟨q1, qs', rfl⟩ : ∃ a b, qs = a :: b := by
      cases qs with
      | nil => cases hq
      | cons a b => exact ⟨a, b, rfl⟩
    simp only [List.getElem?_cons_zero, List.append_nil, Option.some.injEq] at hq
    subst hq
    refine Post.bind (((finish_post hop).and (finish_sep (E := E) (s := s) (w := w) (op := op))).imp (fun _ _ h => h)
      (fun w' hx => hop.grown hx.1 hx.2)) ?_
    rintro p w1 ⟨⟨-, g1, f1, hlook, mf, rmf, hfin⟩, ⟨op', hsep⟩, hlater⟩
    rw [hcar] at hfin
    have hgath := hfin.gathered h.fresh hlater
    have h1 : ActorsOK E s n w1 as qs' := h.tail g1 f1 hsep
    refine Post.bind ((finishActors_post as h1 (fun j => hl (j + 1))).imp (fun _ _ h => h) (fun _ g => g1.trans g)) ?_
    rintro ps w2 ⟨g2, f2, P, hP, hPr⟩
    refine Post.pure ⟨g1.trans g2, f2, op.rows w.fs ++ P, hgath.join hP g1.le g2.le (mergePatches_cons p ps), ?_⟩
    · have hl2 : LookLe (op.look w.fs) w2.fs.records := hlook.trans g2.le.lookLe
      rw [List.map_append, hPr, map_deref_mono hl2 hop.rowsAddr, hrows]
      simp

/-- Actors given tables, whatever the schedule: the rows stored are those of the tables, actor by
actor. -/
theorem rayWrite_post {w : World} (hf : w.Fresh) (sched : List Nat) (qs : List (List (List Row))) :
    Post (rayWrite E s sched qs w) (fun p w' => Grows w w' ∧ w'.Fresh ∧ ∃ P, Gathered E s w w' P p ∧
      P.map (deref w'.fs.records s) = qs.flatten.flatten.map (·.select s.writeNames)) (fun w' => Grows w w') := by
  unfold rayWrite
  refine Post.bind (actorsRun_post sched (ActorsOK.init (E := E) (s := s) hf qs)) ?_
  rintro as1 w1 ⟨g1, h1, -⟩
  refine Post.bind ((actorsRun_post (drain as1) h1).imp (fun _ _ h => h) (fun _ g => g1.trans g)) ?_
  rintro as2 w2 ⟨g2, h2, h3⟩
  refine Post.bind ((finishActors_post as2 h2 (fun j => by rw [h3 j, drain_count]; omega)).imp (fun _ _ h => h)
    (fun _ g => (g1.trans g2).trans g)) ?_
  rintro ps w3 ⟨g3, f3, P, hP, hr⟩
  exact Post.pure ⟨(g1.trans g2).trans g3, f3, P, hP.earlier (g1.trans g2).le, hr⟩

/-! ## The tables given to the actors -/

theorem shardLoop_sum (rows : List Row) (size : Nat) : ∀ (k off : Nat), off ≤ rows.length →
    (shardLoop rows size k off).1.flatten ++ rows.drop (shardLoop rows size k off).2 = rows.drop off ∧
      (shardLoop rows size k off).1.length ≤ k
  | 0, off, h => by simp [shardLoop]
  | k + 1, off, h => by
    unfold shardLoop
    dsimp only
    split
    · rename_i hle
      simp only [List.flatten_cons, List.flatten_nil, List.append_nil, List.length_cons, List.length_nil]
      refine ⟨?_, by omega⟩
      rw [List.drop_eq_nil_of_le hle, List.append_nil, List.take_of_length_le]
      rw [List.length_drop]; omega
    · rename_i hle
      obtain ⟨h1, h2⟩ := shardLoop_sum rows size k (off + size) (by omega)
      refine ⟨?_, by simpa using h2⟩
      simp only [List.flatten_cons, List.append_assoc, h1]
      rw [← List.drop_drop, List.take_append_drop]

theorem range_getElem_flatten {α : Type} (l : List (List α)) : ∀ n, l.length ≤ n →
    ((List.range n).map (fun i => l[i]?.toList)).flatten = l := by
  intro n h
  have : ∀ m, ((List.range m).map (fun i => l[i]?.toList)).flatten = l.take m := by
    intro m
    induction m with
    | zero => simp
    | succ m ih =>
      rw [List.range_succ, List.map_append, List.flatten_append, ih, List.take_succ]
      simp
  rw [this, List.take_of_length_le h]

/-- The shards of a table hold its rows, each once. -/
theorem shardQueues_perm {n : Nat} {rows : List Row} {qs : List (List (List Row))} (h : shardQueues n rows = .ok qs) :
    qs.flatten.flatten ~ rows := by
  unfold shardQueues at h
  split at h
  · cases h
  · rename_i hn
    cases h
    obtain ⟨h1, h2⟩ := shardLoop_sum rows (shardSize n rows.length) n 0 (by omega)
    revert h1 h2
    generalize shardLoop rows (shardSize n rows.length) n 0 = r
    intro h1 h2
    simp only [List.drop_zero] at h1
    obtain ⟨m, rfl⟩ : ∃ m, n = m + 1 := ⟨n - 1, by omega⟩
    have hr : r.1 = r.1.head?.toList ++ r.1.tail := by
      cases r.1 <;> rfl
    have htail := range_getElem_flatten r.1.tail m (by simp; omega)
    rw [List.range_succ_eq_map, List.map_cons, List.map_map]
    have h3 : (List.range m).map ((fun i => r.1[i]?.toList ++ (if i = 0 ∧ r.2 < rows.length then [rows.drop r.2] else [])) ∘ Nat.succ) =
        (List.range m).map (fun i => r.1.tail[i]?.toList) := by
      refine List.map_congr_left fun i _ => ?_
      simp [List.getElem?_tail]
    rw [h3, List.flatten_cons, htail]
    have h4 : (if True ∧ r.2 < rows.length then [rows.drop r.2] else []).flatten = rows.drop r.2 := by
      split
      · simp
      · rename_i hlt
        rw [List.drop_eq_nil_of_le (Nat.le_of_not_lt fun h => hlt ⟨trivial, h⟩)]; rfl
    have h5 : r.1[0]? = r.1.head? := by cases r.1 <;> rfl
    simp only [List.flatten_append, h4, h5]
    rw [List.append_assoc]
    refine (List.Perm.append_left _ List.perm_append_comm).trans ?_
    rw [← List.append_assoc, ← List.flatten_append, ← hr, h1]

theorem filter_range_perm {α : Type} (f : α → Nat) (n : Nat) : ∀ (l : List α), (∀ x ∈ l, f x < n) →
    (List.range n).flatMap (fun i => l.filter (fun x => f x = i)) ~ l := by
  intro l
  induction l with
  | nil => intro _; simp
  | cons a l ih =>
    intro h
    have ih := ih fun x hx => h x (List.mem_cons_of_mem _ hx)
    have ha := h a (List.mem_cons_self ..)
    refine List.Perm.trans ?_ (ih.cons a)
    have key : ∀ (is : List Nat), is.Nodup → (is.flatMap (fun i => (a :: l).filter (fun x => f x = i))) ~
        (if f a ∈ is then [a] else []) ++ is.flatMap (fun i => l.filter (fun x => f x = i)) := by
      intro is
      induction is with
      | nil => intro _; simp
      | cons i is ih2 =>
        intro hnd
        have ih2 := ih2 (List.nodup_cons.mp hnd).2
        simp only [List.flatMap_cons]
        by_cases hi : f a = i
        · subst hi
          have hno : f a ∉ is := (List.nodup_cons.mp hnd).1
          simp only [hno, if_false, List.nil_append] at ih2
          simp only [List.mem_cons, true_or, if_true]
          rw [List.filter_cons_of_pos (by simp)]
          exact (List.Perm.append_left _ ih2)
        · rw [List.filter_cons_of_neg (by simpa using hi)]
          have hm : (f a ∈ i :: is) ↔ f a ∈ is := by simp [hi]
          simp only [hm]
          refine (List.Perm.append_left _ ih2).trans ?_
          rw [← List.append_assoc, ← List.append_assoc]
          exact List.Perm.append_right _ List.perm_append_comm
    have := key (List.range n) List.nodup_range
    rw [if_pos (List.mem_range.mpr ha)] at this
    exact this

/-- The actors are given the tables of all sources, each once. -/
theorem sourceQueues_perm {n : Nat} {sources qs : List (List (List Row))} (h : sourceQueues n sources = .ok qs) :
    qs.flatten.flatten ~ sources.flatten.flatten := by
  unfold sourceQueues at h
  split at h
  · cases h
  · rename_i hn
    cases h
    rw [← List.flatMap_def]
    by_cases h0 : n = 0
    · subst h0
      have : sources = [] := by
        cases sources with
        | nil => rfl
        | cons a b => exact absurd ⟨rfl, by simp⟩ hn
      subst this
      simp
    · have hp := filter_range_perm (fun x : List (List Row) × Nat => x.2 % n) n sources.zipIdx
        (fun x _ => Nat.mod_lt _ (Nat.pos_of_ne_zero h0))
      have : (List.range n).flatMap (fun i => (sources.zipIdx.filter (fun x => x.2 % n = i)).flatMap (·.1)) =
          ((List.range n).flatMap (fun i => sources.zipIdx.filter (fun x => x.2 % n = i))).flatMap (·.1) := by
        rw [List.flatMap_assoc]
      rw [this]
      have h2 : sources.zipIdx.flatMap (·.1) = sources.flatten := by
        rw [List.flatMap_def, List.zipIdx_map_fst]
      have h3 := (hp.flatMap_right (·.1) : _)
      rw [h2] at h3
      exact h3.flatten

/-- `RayReadWriterRunner.append`. -/
theorem rayAppendBody_post {w : World} (hf : w.Fresh) (n : Nat) (sched : List Nat) (rows : List Row) :
    Post (rayAppendBody E s n sched rows w) (fun p w' => Grows w w' ∧ w'.Fresh ∧ ∃ P, Gathered E s w w' P p ∧
      P.map (deref w'.fs.records s) ~ rows.map (·.select s.writeNames)) (fun w' => Grows w w') := by
  unfold rayAppendBody
  refine Post.bind (Q := fun qs b => shardQueues n rows = .ok qs ∧ w = b)
    (Post.lift (fun a ha => ⟨ha, rfl⟩) (Grows.refl w)) ?_
  rintro qs b ⟨hq, rfl⟩
  refine (rayWrite_post hf sched qs).imp ?_ (fun _ h => h)
  rintro p w' ⟨h1, h2, P, h3, h4⟩
  exact ⟨h1, h2, P, h3, by rw [h4]; exact (shardQueues_perm hq).map _⟩

/-- `_append_from`. -/
theorem rayAppendFromAll_post {w : World} (hf : w.Fresh) (n : Nat) (sched : List Nat)
    (sources : List (List (List Row))) :
    Post (rayAppendFromAll E s n sched sources w) (fun p w' => Grows w w' ∧ w'.Fresh ∧ ∃ P, Gathered E s w w' P p ∧
      P.map (deref w'.fs.records s) ~ sources.flatten.flatten.map (·.select s.writeNames)) (fun w' => Grows w w') := by
  unfold rayAppendFromAll
  refine Post.bind (Q := fun qs b => sourceQueues n sources = .ok qs ∧ w = b)
    (Post.lift (fun a ha => ⟨ha, rfl⟩) (Grows.refl w)) ?_
  rintro qs b ⟨hq, rfl⟩
  refine (rayWrite_post hf sched qs).imp ?_ (fun _ h => h)
  rintro p w' ⟨h1, h2, P, h3, h4⟩
  exact ⟨h1, h2, P, h3, by rw [h4]; exact (sourceQueues_perm hq).map _⟩

/-! ## Inserts -/

/-- The patch of an insert or upsert that appends by `app`. -/
structure InsertG (E : Env) (s : Schema) (mode : InsertMode) (data : List Row) (app : WM (Option Patch))
    (w w' : World) (snap : Snapshot) (p : Option Patch) (e : Expr) (mf : Option MExpr) : Prop where
  key : primaryKeyFilter s.pks data = .ok (some e)
  filter : manifestFilter s (some e) = .ok mf
  out : ∃ w1 dp ap P, Grows w w1 ∧ w1.Fresh ∧ Grows w1 w' ∧
    p = mergePatches [dp, ap] ∧ Gathered E s w1 w' P ap ∧
    P.map (deref w'.fs.records s) ~ data.map (·.select s.writeNames) ∧
    (mode = .insert → dp = none ∧ w1 = w ∧
      (visited w.fs mf snap.index).files.flatMap
        (fun f => filterRows E.I (some e) (fileRows w.fs f.path)) = []) ∧
    (mode = .upsert → DeleteOut E s e w w1 snap.index mf dp) ∧
    app w1 = (.ok ap, w')

theorem Finished.gathered0 {w w' : World} {rows : List Row} {mf : List ManifestRow} {rmf : List RecManifestRow}
    {p : Option Patch} (h : Finished E s w w' rows [] mf rmf p) (hf : w.Fresh) (hf' : w'.Fresh) :
    Gathered E s w w' rows p := by
  refine h.gathered hf ?_
  rintro q rfl x hx
  rcases List.mem_append.mp hx with hx | hx
  · obtain ⟨u, h1, h2, h3⟩ := h.idx q rfl
    rw [h2, List.mem_singleton] at hx
    subst hx
    refine ⟨u, rfl, h1, Nat.lt_of_not_le fun hle => ?_⟩
    have := imanifest_fresh hf' hle
    rw [this] at h3
    cases h3
  · rcases h.recs q rfl with ⟨-, h0⟩ | ⟨v, h1, h2, h3⟩
    · rw [h0] at hx; cases hx
    · rw [h2, List.mem_singleton] at hx
      subst hx
      refine ⟨v, rfl, h1, Nat.lt_of_not_le fun hle => ?_⟩
      have := rmanifest_fresh hf' hle
      rw [this] at h3
      cases h3

theorem InsertOut.gen {mode : InsertMode} {data : List Row} {w w' : World} {snap : Snapshot} {p : Option Patch}
    {e : Expr} {mf : Option MExpr} (h : InsertOut E s mode data w w' snap p e mf) (hf : w'.Fresh) :
    InsertG E s mode data (appendBody E s [data]) w w' snap p e mf := by
  obtain ⟨w1, dp, ap, P, mf', rmf, g1, f1, g2, hp, hfin, hP, hi, hu, hr⟩ := h.out
  exact ⟨h.key, h.filter, w1, dp, ap, P, g1, f1, g2, hp, hfin.gathered0 f1 hf, by rw [hP], hi, hu, hr⟩

theorem rayMatched_false {fs : FS} {e : Expr} : ∀ {files : List DataFile}
    (_ : ∀ f ∈ files, ∃ m n, EntryOK fs fs.records s m ∧ f = toDataFile n m)
    (_ : rayMatched E fs s e files = .ok false),
    files.flatMap (fun f => filterRows E.I (some e) (fileRows fs f.path)) = []
  | [], _, _ => rfl
  | f :: files, hf, hm => by
    unfold rayMatched at hm
    split at hm
    · rename_i a b h1 h2
      simp only [Except.ok.injEq, Bool.or_eq_false_iff] at hm
      obtain ⟨rfl, rfl⟩ := hm
      have e1 := filterMatched_false (fun g hg => hf g (by rw [List.mem_singleton] at hg; subst hg; exact List.mem_cons_self ..)) h1
      have e2 := rayMatched_false (fun g hg => hf g (List.mem_cons_of_mem _ hg)) h2
      simp only [List.flatMap_cons, List.flatMap_nil, List.append_nil] at e1
      rw [List.flatMap_cons, e1, e2]
      rfl
    · cases hm
    · cases hm

theorem rayInsertBody_post {w : World} {h : Handle} (hf : w.Fresh)
    (hh : HandleOK s w h) (mode : InsertMode) (n : Nat) (sched : List Nat) (data : List Row) :
    Post (rayInsertBody E h mode n sched data w)
      (fun p w' => Grows w w' ∧ w'.Fresh ∧ ((data = [] ∧ p = none) ∨
        data ≠ [] ∧ ∃ snap e mf, h.snapshot none = .ok snap ∧
          InsertG E s mode data (rayAppendBody E s n sched data) w w' snap p e mf))
      (fun w' => Grows w w') := by
  unfold rayInsertBody
  split
  · rename_i hd
    exact Post.pure ⟨Grows.refl w, hf, Or.inl ⟨hd, rfl⟩⟩
  rename_i hd
  rw [hh.schema]
  refine Post.bind (Q := fun a b => primaryKeyFilter s.pks data = .ok a ∧ w = b)
    (Post.lift (fun a ha => ⟨ha, rfl⟩) (Grows.refl w)) ?_
  rintro fe b ⟨hk, hb⟩
  subst hb
  cases fe with
  | none => exact Post.raise (Grows.refl w)
  | some e =>
  refine Post.bind (Q := fun a b => w = a ∧ w = b) (Post.get ⟨rfl, rfl⟩) ?_
  rintro a b ⟨rfl, hb⟩
  subst hb
  refine Post.bind (Q := fun a b => dataFiles w.fs h (some e) none = .ok a ∧ w = b)
    (Post.lift (fun a ha => ⟨ha, rfl⟩) (Grows.refl w)) ?_
  rintro fset b ⟨hdf, hb⟩
  subst hb
  obtain ⟨snap, mf, h1, h2, rfl⟩ := dataFiles_ok hh hdf
  have hman := (snapshot_manifests hh h1).manifests
  have hfiles : ∀ f ∈ (visited w.fs mf snap.index).files,
      ∃ m n, EntryOK w.fs w.fs.records s m ∧ f = toDataFile n m := by
    intro f hfm
    obtain ⟨q, hq, m, hm, n, rfl, -, -⟩ := packFiles_mem hfm
    exact ⟨m, n, (hman q (List.mem_filter.mp hq).1).entry (List.mem_filter.mp hm).1, rfl⟩
  refine Post.bind (Q := fun dp w1 => Grows w w1 ∧ w1.Fresh ∧
    (mode = .insert → dp = none ∧ w1 = w ∧
      (visited w.fs mf snap.index).files.flatMap
        (fun f => filterRows E.I (some e) (fileRows w.fs f.path)) = []) ∧
    (mode = .upsert → DeleteOut E s e w w1 snap.index mf dp)) ?_ ?_
  · split
    · rename_i h0
      refine Post.pure ⟨Grows.refl w, hf, fun _ => ⟨rfl, rfl, by rw [h0]; rfl⟩, fun _ => ⟨Or.inl ⟨rfl, ?_⟩, Or.inl rfl⟩⟩
      intro q hq
      cases hm : hasMod E.I e w.fs mf q with
      | false => rfl
      | true =>
        simp only [hasMod, List.any_eq_true] at hm
        obtain ⟨m, hm, hmod⟩ := hm
        obtain ⟨n, h5, -⟩ := mods_visited hq hm hmod
        have := (List.mem_filter.mp h5).1
        rw [h0] at this
        simp at this
    · cases mode with
      | insert =>
        refine Post.bind (Q := fun a b => rayMatched E w.fs s e
          (visited w.fs mf snap.index).files = .ok a ∧ w = b)
          (Post.lift (fun a ha => ⟨ha, rfl⟩) (Grows.refl w)) ?_
        rintro m b ⟨hm, hb⟩
        subst hb
        cases m with
        | true => exact Post.raise (Grows.refl w)
        | false =>
          exact Post.pure ⟨Grows.refl w, hf, fun _ => ⟨rfl, rfl, rayMatched_false hfiles hm⟩,
            fun h => by cases h⟩
      | upsert =>
        refine (deleteSet_post hf hman).imp ?_ (fun _ h => h)
        rintro p w' ⟨a1, a2, a3⟩
        exact ⟨a1, a2, fun h => (by cases h), fun _ => a3⟩
  rintro dp w1 ⟨g1, f1, hi, hu⟩
  refine Post.bind ((rayAppendBody_post (E := E) (s := s) f1 n sched data).run.imp (fun _ _ h => h) (fun _ h => g1.trans h)) ?_
  rintro ap w2 ⟨⟨g2, f2, P, h3, h4⟩, h5⟩
  exact Post.pure ⟨g1.trans g2, f2, Or.inr ⟨hd, snap, e, mf, h1,
    ⟨hk, h2, w1, dp, ap, P, g1, f1, g2, rfl, h3, h4, hi, hu, h5⟩⟩⟩

end

/-- A delete and an append merged. -/
theorem merged_facts {E : Env} {s : Schema} {w w1 w' : World} (hf : w.Fresh) (hn : s.names.Nodup)
    {snap : Snapshot} {q : Patch} {dp ap : Option Patch} {P : List Row}
    (hman : ∀ q ∈ snap.index, ManifestOK w.fs s q) (g1 : Grows w w1) (g2 : Grows w1 w')
    (hp : some q = mergePatches [dp, ap]) (hfin : Gathered E s w1 w' P ap)
    (hdel : dp = none ∨ ∃ e mf, DeleteOut E s e w w1 snap.index mf dp) :
    PatchOK w'.fs s q ∧ PatchNew w snap.index q := by
  have hap : ∀ a, ap = some a → PatchOK w'.fs s a ∧ PatchNew w1 snap.index a := by
    rintro a rfl
    exact ⟨hfin.ok a rfl, hfin.new a rfl _⟩
  have hdp0 : ∀ d, dp = some d → PatchOK w1.fs s d ∧ PatchNew w snap.index d ∧ d.addRec = [] := by
    rintro d rfl
    rcases hdel with h0 | ⟨e, mf, hu⟩
    · cases h0
    · exact hu.facts hf hn hman g1
  have hdp : ∀ d, dp = some d → PatchOK w'.fs s d ∧ PatchNew w snap.index d ∧ d.addRec = [] := by
    intro d hd
    obtain ⟨a1, a2, a3⟩ := hdp0 d hd
    exact ⟨a1.mono g2.le, a2, a3⟩
  have himono : ∀ q, w1.fs.imanifest q = none → w.fs.imanifest q = none := by
    intro q hq
    cases hc : w.fs.imanifest q with
    | none => rfl
    | some x => rw [g1.le.imanifest hc] at hq; cases hq
  have hrmono : ∀ q, w1.fs.rmanifest q = none → w.fs.rmanifest q = none := by
    intro q hq
    cases hc : w.fs.rmanifest q with
    | none => rfl
    | some x => rw [g1.le.rmanifest hc] at hq; cases hq
  have hapw : ∀ a, ap = some a → PatchNew w snap.index a := by
    intro a ha
    obtain ⟨-, b⟩ := hap a ha
    exact ⟨fun q hq => himono q (b.idx q hq), fun q hq => hrmono q (b.recs q hq),
      b.idxNodup, b.recsNodup, b.del⟩
  rw [merge_two] at hp
  cases dp with
  | none =>
    cases ap with
    | none => cases hp
    | some a =>
      simp only [addStats_zero, Option.some.injEq] at hp
      subst hp
      exact ⟨(hap _ rfl).1, hapw _ rfl⟩
  | some d =>
    cases ap with
    | none =>
      simp only [addStats_zero, Option.some.injEq] at hp
      subst hp
      exact ⟨(hdp _ rfl).1, (hdp _ rfl).2.1⟩
    | some a =>
      simp only [Option.some.injEq] at hp
      subst hp
      obtain ⟨d1, d2, d3⟩ := hdp d rfl
      obtain ⟨a1, a2⟩ := hap a rfl
      have a3 := hapw a rfl
      refine ⟨⟨?_, ?_, mergeLogs_ok d1.log a1.log⟩, ⟨?_, ?_, ?_, ?_, ?_⟩⟩
      · intro q hq
        rcases List.mem_append.mp hq with hq | hq
        · exact d1.idx q hq
        · exact a1.idx q hq
      · intro q hq
        rcases List.mem_append.mp hq with hq | hq
        · exact d1.recs q hq
        · exact a1.recs q hq
      · intro q hq
        rcases List.mem_append.mp hq with hq | hq
        · exact d2.idx q hq
        · exact a3.idx q hq
      · intro q hq
        rcases List.mem_append.mp hq with hq | hq
        · exact d2.recs q hq
        · exact a3.recs q hq
      · refine List.nodup_append.mpr ⟨d2.idxNodup, a2.idxNodup, ?_⟩
        intro x hx y hy hxy
        subst hxy
        have h1 := a2.idx x hy
        obtain ⟨rows, hr, -⟩ := (hdp0 d rfl).1.idx x hx
        rw [hr] at h1
        cases h1
      · simp only [d3, List.nil_append]; exact a2.recsNodup
      · intro q hq
        rcases List.mem_append.mp hq with hq | hq
        · exact d2.del q hq
        · exact a3.del q hq

theorem InsertG.facts {E : Env} {s : Schema} {w w' : World} {h : Handle} (hf : w.Fresh)
    (hh : HandleOK s w h) (hn : s.names.Nodup) {mode : InsertMode} {rows : List Row} {app : WM (Option Patch)}
    {snap : Snapshot} {q : Patch} {e : Expr} {mf : Option MExpr} (hs : h.snapshot none = .ok snap)
    (ho : InsertG E s mode rows app w w' snap (some q) e mf) :
    PatchOK w'.fs s q ∧ ∀ snap, h.snapshot none = .ok snap → PatchNew w snap.index q := by
  obtain ⟨w1, dp, ap, P, g1, f1, g2, hp, hfin, -, hi, hu, -⟩ := ho.out
  have hman := (snapshot_manifests hh hs).manifests
  obtain ⟨a, b⟩ := merged_facts (E := E) hf hn hman g1 g2 hp hfin (by
    cases mode with
    | insert => exact Or.inl (hi rfl).1
    | upsert => exact Or.inr ⟨e, mf, hu rfl⟩)
  exact ⟨a, fun snap' hs' => by rw [hs] at hs'; cases hs'; exact b⟩

theorem insertBody_ok {E : Env} {s : Schema} {w : World} {h : Handle} (hf : w.Fresh)
    (hh : HandleOK s w h) (hn : s.names.Nodup) (mode : InsertMode) (rows : List Row) :
    Post (insertBody E h mode rows w)
      (fun p w' => Grows w w' ∧ w'.Fresh ∧ ∀ q, p = some q → PatchOK w'.fs s q ∧
        ∀ snap, h.snapshot none = .ok snap → PatchNew w snap.index q)
      (fun w' => Grows w w') := by
  refine (insertBody_post hf hh mode rows).imp ?_ (fun _ h => h)
  rintro p w' ⟨h1, h2, h3⟩
  refine ⟨h1, h2, ?_⟩
  rintro q rfl
  rcases h3 with ⟨-, h0⟩ | ⟨hd, snap, e, mf, hs, ho⟩
  · cases h0
  exact (ho.gen h2).facts hf hh hn hs

theorem rayInsertBody_ok {E : Env} {s : Schema} {w : World} {h : Handle} (hf : w.Fresh)
    (hh : HandleOK s w h) (hn : s.names.Nodup) (mode : InsertMode) (n : Nat) (sched : List Nat) (rows : List Row) :
    Post (rayInsertBody E h mode n sched rows w)
      (fun p w' => Grows w w' ∧ w'.Fresh ∧ ∀ q, p = some q → PatchOK w'.fs s q ∧
        ∀ snap, h.snapshot none = .ok snap → PatchNew w snap.index q)
      (fun w' => Grows w w') := by
  refine (rayInsertBody_post hf hh mode n sched rows).imp ?_ (fun _ h => h)
  rintro p w' ⟨h1, h2, h3⟩
  refine ⟨h1, h2, ?_⟩
  rintro q rfl
  rcases h3 with ⟨-, h0⟩ | ⟨hd, snap, e, mf, hs, ho⟩
  · cases h0
  exact ho.facts hf hh hn hs

/-! ## Refreshing a materialized view -/

/-- The delete of a refresh: none, or the one of a set of keys. -/
def DelPart (E : Env) (s : Schema) (gone : List Row) (w w1 : World) (index : List Path) (dp : Option Patch) : Prop :=
  (gone = [] ∧ dp = none ∧ w1 = w) ∨ ∃ e mf, primaryKeyFilter s.pks gone = .ok (some e) ∧
    manifestFilter s (some e) = .ok mf ∧ DeleteOut E s e w w1 index mf dp

/-- The patch of one transaction of a refresh. -/
structure SyncG (E : Env) (s : Schema) (gone : List Row) (added : List Row) (app : WM (Option Patch))
    (w w' : World) (snap : Snapshot) (p : Option Patch) : Prop where
  out : ∃ w1 dp ap P, Grows w w1 ∧ w1.Fresh ∧ Grows w1 w' ∧
    p = mergePatches [dp, ap] ∧ Gathered E s w1 w' P ap ∧
    P.map (deref w'.fs.records s) ~ added.map (·.select s.writeNames) ∧
    DelPart E s gone w w1 snap.index dp ∧ app w1 = (.ok ap, w')

/-- How a refresh appends. -/
def syncAppend (E : Env) (s : Schema) (n : Nat) (sched : List Nat) (added : Option (List (List (List Row)))) :
    WM (Option Patch) :=
  match added with
  | none => pure none
  | some sources => rayAppendFromAll E s n sched sources

/-- The rows a refresh appends. -/
def syncRows (added : Option (List (List (List Row)))) : List Row := (added.getD []).flatten.flatten

theorem Gathered.empty {E : Env} {s : Schema} (w : World) : Gathered E s w w [] none where
  none_iff := by simp
  ok := by simp
  new := by simp
  del := by simp
  phys := by simp
  stats := by simp
  log := by simp
  sizes := by simp

theorem syncAppend_post {E : Env} {s : Schema} {w : World} (hf : w.Fresh) (n : Nat) (sched : List Nat)
    (added : Option (List (List (List Row)))) :
    Post (syncAppend E s n sched added w) (fun p w' => Grows w w' ∧ w'.Fresh ∧ ∃ P, Gathered E s w w' P p ∧
      P.map (deref w'.fs.records s) ~ (syncRows added).map (·.select s.writeNames)) (fun w' => Grows w w') := by
  cases added with
  | none => exact Post.pure ⟨Grows.refl w, hf, [], Gathered.empty w, by simp [syncRows]⟩
  | some sources => exact rayAppendFromAll_post hf n sched sources

theorem syncBody_eq {E : Env} {s : Schema} {h : Handle} (hs : h.md.schema = s) (n : Nat) (sched : List Nat) (gone : List Row)
    (added : Option (List (List (List Row)))) : syncBody E h n sched gone added = (do
      let dp ← (if gone = [] then (pure none : WM (Option Patch)) else syncDelete E h gone)
      let ap ← syncAppend E s n sched added
      pure (mergePatches [dp, ap])) := by
  subst hs
  rfl

theorem primaryKeyFilter_none {pks : List String} {data : List Row} (h : primaryKeyFilter pks data = .ok none) :
    data = [] := by
  unfold primaryKeyFilter at h
  split at h
  · split at h
    · cases data with
      | nil => rfl
      | cons r rs =>
        simp only [rowFilters] at h
        split at h
        · cases h
        · rename_i he
          split at he
          · cases he
          · cases hr : rowFilters pks rs <;> rw [hr] at he <;> cases he
        · cases h
    · cases h
  · cases h

theorem syncDelete_post {E : Env} {s : Schema} {w : World} {h : Handle} (hf : w.Fresh) (hh : HandleOK s w h)
    {gone : List Row} (hg : gone ≠ []) :
    Post (syncDelete E h gone w) (fun dp w1 => Grows w w1 ∧ w1.Fresh ∧ ∃ snap, h.snapshot none = .ok snap ∧
      DelPart E s gone w w1 snap.index dp) (fun w' => Grows w w') := by
  unfold syncDelete
  rw [hh.schema]
  refine Post.bind (Q := fun a b => primaryKeyFilter s.pks gone = .ok a ∧ w = b)
    (Post.lift (fun a ha => ⟨ha, rfl⟩) (Grows.refl w)) ?_
  rintro fe b ⟨hk, hb⟩
  subst hb
  cases fe with
  | none => exact absurd (primaryKeyFilter_none hk) hg
  | some e =>
    refine (deleteBody_post hf hh).imp ?_ (fun _ h => h)
    rintro p w' ⟨h1, h2, snap, mf, hs, hm, ho⟩
    exact ⟨h1, h2, snap, hs, Or.inr ⟨e, mf, hk, hm, ho⟩⟩

theorem syncBody_post {E : Env} {s : Schema} {w : World} {h : Handle} (hf : w.Fresh) (hh : HandleOK s w h)
    (n : Nat) (sched : List Nat) (gone : List Row) (added : Option (List (List (List Row)))) :
    Post (syncBody E h n sched gone added w)
      (fun p w' => Grows w w' ∧ w'.Fresh ∧ (gone = [] ∨ ∃ snap, h.snapshot none = .ok snap) ∧
        ∀ snap, (gone = [] ∨ h.snapshot none = .ok snap) →
          SyncG E s gone (syncRows added) (syncAppend E s n sched added) w w' snap p)
      (fun w' => Grows w w') := by
  rw [syncBody_eq hh.schema]
  refine Post.bind (Q := fun dp w1 => Grows w w1 ∧ w1.Fresh ∧ (gone = [] ∨ ∃ snap, h.snapshot none = .ok snap) ∧
    ∀ snap, (gone = [] ∨ h.snapshot none = .ok snap) → DelPart E s gone w w1 snap.index dp) ?_ ?_
  · split
    · rename_i h0
      exact Post.pure ⟨Grows.refl w, hf, Or.inl h0, fun _ _ => Or.inl ⟨h0, rfl, rfl⟩⟩
    · rename_i h0
      refine (syncDelete_post hf hh h0).imp ?_ (fun _ h => h)
      rintro dp w1 ⟨h1, h2, snap', hs', h3⟩
      refine ⟨h1, h2, Or.inr ⟨snap', hs'⟩, fun snap hs => ?_⟩
      rcases hs with hs | hs
      · exact absurd hs h0
      · rw [hs'] at hs
        cases hs
        exact h3
  rintro dp w1 ⟨g1, f1, he, hd⟩
  refine Post.bind ((syncAppend_post (E := E) (s := s) f1 n sched added).run.imp (fun _ _ h => h) (fun _ h => g1.trans h)) ?_
  rintro ap w2 ⟨⟨g2, f2, P, h3, h4⟩, h5⟩
  exact Post.pure ⟨g1.trans g2, f2, he, fun snap hs => ⟨w1, dp, ap, P, g1, f1, g2, rfl, h3, h4, hd snap hs, h5⟩⟩

theorem DelPart.deletes {E : Env} {s : Schema} {gone : List Row} {w w1 : World} {index : List Path} {dp : Option Patch}
    (h : DelPart E s gone w w1 index dp) : dp = none ∨ ∃ e mf, DeleteOut E s e w w1 index mf dp := by
  rcases h with ⟨-, h, -⟩ | ⟨e, mf, -, -, h⟩
  · exact Or.inl h
  · exact Or.inr ⟨e, mf, h⟩

theorem syncBody_ok {E : Env} {s : Schema} {w : World} {h : Handle} (hf : w.Fresh)
    (hh : HandleOK s w h) (hn : s.names.Nodup) (n : Nat) (sched : List Nat) (gone : List Row)
    (added : Option (List (List (List Row)))) :
    Post (syncBody E h n sched gone added w)
      (fun p w' => Grows w w' ∧ w'.Fresh ∧ ∀ q, p = some q → PatchOK w'.fs s q ∧
        ∀ snap, h.snapshot none = .ok snap → PatchNew w snap.index q)
      (fun w' => Grows w w') := by
  refine (syncBody_post hf hh n sched gone added).imp ?_ (fun _ h => h)
  rintro p w' ⟨h1, h2, he, h3⟩
  refine ⟨h1, h2, ?_⟩
  rintro q rfl
  have key : ∀ snap : Snapshot, (∀ q ∈ snap.index, ManifestOK w.fs s q) → (gone = [] ∨ h.snapshot none = .ok snap) →
      PatchOK w'.fs s q ∧ PatchNew w snap.index q := by
    intro snap hman hs
    obtain ⟨w1, dp, ap, P, g1, f1, g2, hp, hfin, -, hd, -⟩ := (h3 snap hs).out
    exact merged_facts hf hn hman g1 g2 hp hfin hd.deletes
  refine ⟨?_, fun snap hs => (key snap (snapshot_manifests hh hs).manifests (Or.inr hs)).2⟩
  rcases he with h0 | ⟨snap, hs⟩
  · exact (key { id := 0 } (by simp) (Or.inl h0)).1
  · exact (key snap (snapshot_manifests hh hs).manifests (Or.inr hs)).1

end Space
