import Verif.RowEffects

/-!
# What holds of every row of every manifest, in all histories
-/

namespace Space

/-- The body of mutation `m` ran in world `w` on handle `h`, whose branch has head `cur`, and returned
the patch `p` in world `w1`. -/
structure Computed (E : Env) (s : Schema) (m : Mutation) (h : Handle) (w w1 : World) (p : Patch) (cur : Snapshot) :
    Prop where
  fresh : w.Fresh
  handle : HandleOK s w h
  base : h.snapshot none = .ok cur
  curOK : SnapOK w.fs s cur
  body : m.body E h w = (.ok (some p), w1)
  grows : Grows w w1
  patch : PatchOK w1.fs s p
  adm : m.Admissible s w.fs

theorem currentId_snapshot {s : Schema} {w : World} {h : Handle} (hh : HandleOK s w h) {n : Nat}
    (hc : h.md.currentId h.branch = .ok n) : ∃ cur, h.snapshot none = .ok cur ∧ h.md.snaps.get? n = some cur := by
  have hl : (h.md.snaps.get? n).isSome := by
    have hx := hc
    unfold Metadata.currentId at hx
    split at hx
    · cases hx; exact hh.ok.cur
    · unfold Metadata.lookupRef at hx
      cases hr : h.md.refs.get? h.branch with
      | none => rw [hr] at hx; cases hx
      | some r =>
        rw [hr] at hx
        cases hx
        exact hh.ok.refs _ _ hr
  obtain ⟨cur, hcur⟩ := Option.isSome_iff_exists.mp hl
  refine ⟨cur, ?_, hcur⟩
  simp only [Handle.snapshot, hc, Metadata.snapshot, hcur]

section
variable {Q : FS → ManifestRow → Prop}

/-- `Q` holds of all rows of the manifests. -/
def RowsHave (Q : FS → ManifestRow → Prop) (fs : FS) (index : List Path) : Prop :=
  ∀ q ∈ index, ∀ m ∈ entriesOf fs q, Q fs m

/-- `Q` holds of all rows of the manifests of all versions. -/
def Metadata.Have (Q : FS → ManifestRow → Prop) (fs : FS) (md : Metadata) : Prop :=
  ∀ n snap, md.snaps.get? n = some snap → RowsHave Q fs snap.index

/-- The patch that a handle is about to commit. -/
def Phase.patch : Phase → Option Patch
  | .ready _ _ p => p
  | .checked _ _ p => some p
  | _ => none

/-- `Q` holds of all that is stored, of all that handles know, and of all that is about to be committed. -/
structure SysHave (Q : FS → ManifestRow → Prop) (σ : Sys) (md : Metadata) : Prop where
  stored : md.Have Q σ.w.fs
  known : ∀ sl ∈ σ.slots, sl.h.md.Have Q σ.w.fs
  patch : ∀ sl ∈ σ.slots, ∀ p, sl.phase.patch = some p → RowsHave Q σ.w.fs p.addIdx

theorem RowsHave.mono {s : Schema} (hQ : ∀ fs fs' m, FSLe fs fs' → Q fs m → Q fs' m) {fs fs' : FS} (hle : FSLe fs fs')
    {index : List Path} (hok : ∀ q ∈ index, ManifestOK fs s q) (h : RowsHave Q fs index) : RowsHave Q fs' index := by
  intro q hq m hm
  rw [entriesOf_mono hle (hok q hq)] at hm
  exact hQ _ _ _ hle (h q hq m hm)

theorem Metadata.Have.mono (hQ : ∀ fs fs' m, FSLe fs fs' → Q fs m → Q fs' m) {fs fs' : FS} (hle : FSLe fs fs')
    {md : Metadata} (hok : MdOK fs md) (h : md.Have Q fs) : md.Have Q fs' :=
  fun n snap hs => (h n snap hs).mono hQ hle (hok.snaps n snap hs).manifests

theorem Committed.have {fs' : FS} {md md' : Metadata} {b : String} {p : Patch} {n : Nat} {cur snap : Snapshot}
    (com : Committed fs' md md' b p n cur snap) (h : md.Have Q fs') (hp : RowsHave Q fs' p.addIdx) : md'.Have Q fs' := by
  intro k sn hs
  rw [com.snaps] at hs
  by_cases hk : k = n
  · subst hk
    rw [AMap.get?_set_self] at hs
    cases hs
    intro q hq
    rw [com.index] at hq
    rcases List.mem_append.mp hq with hq | hq
    · exact h _ _ com.curGet q (List.mem_filter.mp hq).1
    · exact hp q hq
  · rw [AMap.get?_set_ne _ _ hk] at hs
    exact h k sn hs

/-- Steps keep it, if what mutations write has it whenever what they read has. -/
theorem step_have {E : Env} {s : Schema} (hn : s.names.Nodup) (hQ : ∀ fs fs' m, FSLe fs fs' → Q fs m → Q fs' m)
    (hbody : ∀ {m h w w1 p cur}, Computed E s m h w w1 p cur → RowsHave Q w.fs cur.index → RowsHave Q w1.fs p.addIdx)
    {σ σ' : Sys} {ev : Event} {md : Metadata} (hok : SysOK E s σ md) (hs : Step E s σ ev σ') (hv : SysHave Q σ md) :
    ∃ md', SysOK E s σ' md' ∧ SysHave Q σ' md' := by
  obtain ⟨md', hok', hle, -, hquiet, hviews⟩ := step_full hn hok hs
  have hold : md.Have Q σ'.w.fs := hv.stored.mono hQ hle hok.wok.ok
  have hknow : ∀ sl ∈ σ.slots, sl.h.md.Have Q σ'.w.fs := fun sl hsl =>
    (hv.known sl hsl).mono hQ hle (hok.slots sl hsl).1.ok
  have patchOK : ∀ sl ∈ σ.slots, ∀ p, sl.phase.patch = some p → PatchOK σ.w.fs s p := by
    intro sl hsl p hp
    have := (hok.slots sl hsl).2
    cases hph : sl.phase with
    | idle => rw [hph] at hp; cases hp
    | begun t m => rw [hph] at hp; cases hp
    | ready t m q => rw [hph] at hp this; exact this.2.2.1 p hp
    | checked t m q => rw [hph] at hp this; cases hp; exact this.2.2.2
  have hpatch : ∀ sl ∈ σ.slots, ∀ p, sl.phase.patch = some p → RowsHave Q σ'.w.fs p.addIdx := fun sl hsl p hp =>
    (hv.patch sl hsl p hp).mono hQ hle (patchOK sl hsl p hp).idx
  have fin : md'.Have Q σ'.w.fs →
      (∀ sl' ∈ σ'.slots, ∀ p, sl'.phase.patch = some p → RowsHave Q σ'.w.fs p.addIdx) → SysHave Q σ' md' := by
    intro h1 h2
    refine ⟨h1, fun sl' hsl' => ?_, h2⟩
    rcases hviews sl' hsl' with e | e | ⟨sl, hsl, e⟩
    · rw [e]; exact hold
    · rw [e]; exact h1
    · rw [e]; exact hknow sl hsl
  have setIdle : ∀ {slots : List Slot} {i : Nat} {sl : Slot}, (∀ x ∈ slots, ∀ p, x.phase.patch = some p →
      RowsHave Q σ'.w.fs p.addIdx) → (∀ p, sl.phase.patch = some p → RowsHave Q σ'.w.fs p.addIdx) →
      ∀ x ∈ slots.set i sl, ∀ p, x.phase.patch = some p → RowsHave Q σ'.w.fs p.addIdx := by
    intro slots i sl h1 h2 x hx
    rcases List.mem_or_eq_of_mem_set hx with hx | rfl
    · exact h1 x hx
    · exact h2
  refine ⟨md', hok', ?_⟩
  obtain ⟨hw, hsl⟩ := hok
  cases hs with
  | @load w slots h hl =>
    rw [hquiet .load] at *
    refine fin hold fun sl hm => ?_
    rcases List.mem_append.mp hm with hm | hm
    · exact hpatch sl hm
    · rw [List.mem_singleton.mp hm]; intro p hp; cases hp
  | @call w slots i h c r h' w' hi hadm hx =>
    have hh := (slot_get hsl hi).1
    refine fin ?_ (setIdle hpatch fun p hp => by cases hp)
    obtain ⟨-, b⟩ := exec_post hw hh hn c hadm hx
    cases b with
    | same g hf _ => rw [hok'.wok.unique (hw.grows g)]; exact hold
    | commit m h1 w1 p n cur snap hc hr mt =>
      subst hc
      have e := hok'.wok.unique mt.step.wok
      obtain ⟨hb, hh', -⟩ := mutate_post hw hh hn m hadm (exec_mutate (hr ▸ hx))
      have hsuc := mt.success hw hh hadm hb hh'
      have hp : RowsHave Q w1.fs p.addIdx := by
        refine hbody (cur := cur) ⟨hw.fresh, mt.handle, hsuc.base, hsuc.curOK, mt.body, mt.grows, mt.patch, hadm⟩ ?_
        exact hv.stored _ _ mt.step.com.curGet
      rw [e]
      refine mt.step.com.have hold (hp.mono hQ mt.step.le mt.patch.idx)
    | addRef name kind n hc hr hcan o =>
      rw [hok'.wok.unique o.wok, o.md]
      exact hknow _ (List.mem_of_getElem? hi)
    | removeRef name kind n hc hr hwas o =>
      rw [hok'.wok.unique o.wok, o.md]
      exact hknow _ (List.mem_of_getElem? hi)
  | @begin w slots i h m t h' w' hi hx =>
    rw [hquiet .begin] at *
    exact fin hold (setIdle hpatch fun p hp => by cases hp)
  | @beginFail w slots i h e h' w' hi hx =>
    rw [hquiet .begin] at *
    exact fin hold (setIdle hpatch fun p hp => by cases hp)
  | @compute w slots i h t m p w' hi hadm hx =>
    rw [hquiet .compute] at *
    refine fin hold (setIdle hpatch fun q hq => ?_)
    obtain ⟨hh, hb1, hb2⟩ := slot_get hsl hi
    have hp := body_post (E := E) hw.fresh hh hn m hadm
    simp only at hp hx
    rw [hx] at hp
    obtain ⟨g, -, hpq⟩ := hp
    have hq : p = some q := hq
    subst hq
    simp only at hb1 hb2
    obtain ⟨cur, hc1, hc2⟩ := currentId_snapshot hh (n := t.start) (by rw [hb1]; exact hb2)
    have hcur := hh.ok.snaps _ _ hc2
    rw [hh.schema] at hcur
    exact hbody ⟨hw.fresh, hh, hc1, hcur, hx, g, (hpq q rfl).1, hadm⟩ (hv.known _ (List.mem_of_getElem? hi) _ _ hc2)
  | @computeFail w slots i h t m e w' hi hadm hx =>
    rw [hquiet .compute] at *
    exact fin hold (setIdle hpatch fun p hp => by cases hp)
  | @commit w slots i h t m p r h' w' hi hx =>
    refine fin ?_ (setIdle hpatch fun p hp => by cases hp)
    obtain ⟨hh, hb1, hb2, hb3, hb4⟩ := slot_get hsl hi
    simp only at hb3
    have hp := txnCommit_post (t := t) (p := p) hw hh hb3
    simp only at hp hx
    rw [hx] at hp
    by_cases hr : r = .ok .succeeded
    · subst hr
      obtain ⟨-, ⟨h1, -⟩ | ⟨-, -, q, h1', cur, snap, h3, h4, h5, h6⟩⟩ := hp
      · exact absurd rfl h1
      · subst h3
        rw [hok'.wok.unique h6.wok]
        exact h6.com.have hold (hpatch _ (List.mem_of_getElem? hi) q rfl)
    · rw [hquiet (.commit hr)]; exact hold
  | @check w slots i h t m p h' w' hi hx =>
    rw [hquiet .check] at *
    exact fin hold (setIdle hpatch fun q hq => hpatch _ (List.mem_of_getElem? hi) q hq)
  | @write w slots i h t m p r h' w' hi hx =>
    refine fin ?_ (setIdle hpatch fun p hp => by cases hp)
    obtain ⟨hh, hb1, hb2, hb3, hb4⟩ := slot_get hsl hi
    simp only at hb3 hb4
    have hp := commit_post (branch := t.branch) hw hh hb3 hb4
    simp only at hp hx
    rw [hx] at hp
    cases r with
    | error e => rw [hquiet .write]; exact hold
    | ok j =>
      obtain ⟨cur, snap, a1, a2, a3, a4, a5, a6, a7, -⟩ := hp
      rw [hok'.wok.unique a3]
      exact a7.have (hknow _ (List.mem_of_getElem? hi)) (hpatch _ (List.mem_of_getElem? hi) p rfl)
  | @external w slots x c hx =>
    rw [hquiet .external] at *
    exact fin hold hpatch
  | @orphans w slots w' g =>
    rw [hquiet .orphans] at *
    exact fin hold hpatch

/-- In all histories `Q` holds of all rows of the manifests of all versions that are stored or that some
handle knows. -/
theorem reach_have {E : Env} {s : Schema} {P : Sys → Event → Prop} (hn : s.names.Nodup)
    (hQ : ∀ fs fs' m, FSLe fs fs' → Q fs m → Q fs' m)
    (hbody : ∀ {m h w w1 p cur}, Computed E s m h w w1 p cur → RowsHave Q w.fs cur.index → RowsHave Q w1.fs p.addIdx)
    {σ : Sys} (h : Reach E s P σ) : ∃ md, SysOK E s σ md ∧ SysHave Q σ md := by
  obtain ⟨σ0, h0, hr⟩ := h
  induction hr with
  | refl =>
    obtain ⟨w0, hd, h1, h2, h3⟩ := h0
    obtain ⟨a, b, -, -, e⟩ := create_ok h1 h2
    have hall : ∀ fs, hd.md.Have Q fs := by
      intro fs n snap hs
      rw [e] at hs
      simp only [AMap.get?] at hs
      split at hs
      · cases hs
        intro q hq
        simp at hq
      · cases hs
    refine ⟨hd.md, ⟨a, ?_⟩, hall _, ?_, ?_⟩
    all_goals
      rw [h3]
      intro sl hm
      rw [List.mem_singleton.mp hm]
    · exact ⟨b, trivial⟩
    · exact hall _
    · intro p hp; cases hp
  | step _ _ hst ih =>
    obtain ⟨md, h1, h2⟩ := ih
    exact step_have hn hQ hbody h1 hst h2

end

end Space
