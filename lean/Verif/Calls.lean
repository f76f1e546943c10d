import Verif.TxnLemmas

/-! # The effect of every call -/

namespace Space

theorem addReference_run (name : String) (kind : RefKind) (id : Option Nat) (h : Handle) (w : World) :
    addReference name kind id (h, w) =
      if (h.md.snaps.get? (id.getD h.md.current)).isNone then (.error .versionNotFound, (h, w))
      else if name = "" then (.error .userInput, (h, w))
      else if name = mainBranch then (.error .userInput, (h, w))
      else if (h.md.refs.get? name).isSome then (.error .versionExists, (h, w))
      else install { h.md with
        refs := h.md.refs.set name { id := id.getD h.md.current, kind := kind } } (h, w) := by
  unfold addReference
  simp only [Bind.bind, M.andThen, self]
  split
  · rfl
  split
  · rfl
  split
  · rfl
  split <;> rfl

theorem removeReference_run (name : String) (kind : RefKind) (h : Handle) (w : World) :
    removeReference name kind (h, w) =
      match h.md.refs.get? name with
      | none => (.error .versionNotFound, (h, w))
      | some r => if r.kind ≠ kind then (.error .versionNotFound, (h, w))
        else install { h.md with refs := h.md.refs.erase name } (h, w) := by
  unfold removeReference
  simp only [Bind.bind, M.andThen, self]
  cases h.md.refs.get? name with
  | none => rfl
  | some r =>
    simp only
    split <;> rfl

theorem removeBranch_run (name : String) (h : Handle) (w : World) :
    removeBranch name (h, w) =
      if name = h.branch then (.error .userInput, (h, w)) else removeReference name .branch (h, w) := by
  unfold removeBranch
  simp only [Bind.bind, M.andThen, self]
  split <;> rfl

theorem setCurrentBranch_run (name : String) (h : Handle) (w : World) :
    setCurrentBranch name (h, w) =
      if name = mainBranch then (.ok (), ({ h with branch := name }, w))
      else match h.md.refs.get? name with
        | none => (.error .versionNotFound, (h, w))
        | some r => if r.kind = .branch then (.ok (), ({ h with branch := name }, w))
          else (.error .userInput, (h, w)) := by
  unfold setCurrentBranch
  by_cases hm : name = mainBranch
  · simp [hm, Bind.bind, M.andThen, self, setSelf]
  · simp only [hm, ne_eq, not_false_eq_true, ↓reduceIte, Bind.bind, M.andThen, self, M.lift,
      Metadata.lookupRef]
    cases h.md.refs.get? name with
    | none => rfl
    | some r =>
      simp only
      by_cases hk : r.kind = .branch <;> simp [hk, setSelf, M.raise]

/-- A call that changed the references of the metadata `h.md` to `refs` and wrote
the result. -/
structure RefsWritten (s : Schema) (h : Handle) (w : World) (refs : AMap String Ref)
    (h' : Handle) (w' : World) : Prop where
  le : FSLe w.fs w'.fs
  next : w.next ≤ w'.next
  md : h'.md = { h.md with refs := refs }
  branch : h'.branch = h.branch
  maxId : h'.maxId = h.maxId
  wok : WOK s w' h'.md
  handle : HandleOK s w' h'
  inst : Installs w w'
  full : h'.full = true

theorem install_written {s : Schema} {w : World} {md : Metadata} {h : Handle} (hw : WOK s w md)
    (hh : HandleOK s w h) {refs : AMap String Ref}
    (hr : ∀ name r, refs.get? name = some r → (h.md.snaps.get? r.id).isSome)
    (hm : refs.get? mainBranch = none) (hk : (AMap.keys refs).Nodup) :
    ∃ h' w', install { h.md with refs := refs } (h, w) = (.ok (), (h', w')) ∧
      RefsWritten s h w refs h' w' := by
  have hok : MdOK w.fs { h.md with refs := refs } := hh.ok.withRefs hr hm hk
  obtain ⟨a, b, c, d, -⟩ := written_wok (md' := { h.md with refs := refs }) hw hh.schema hok
  exact ⟨_, _, install_run _ _ _,
    ⟨a, d, rfl, rfl, rfl, b, ⟨c, hok.mono a, hh.schema, fun hf => by cases hf⟩,
      ⟨({ w with next := w.next + 1 } : World).put (.metadata w.next)
        (.mdata { h.md with refs := refs }), _,
        (Grows.fresh' w).trans (Grows.put (w := { w with next := w.next + 1 }) (u := w.next) rfl
          (Nat.lt_succ_self _) (hw.fresh _ w.next rfl (Nat.le_refl _))), rfl⟩, rfl⟩⟩

/-- What adding a reference requires. -/
structure CanAdd (md : Metadata) (name : String) (n : Nat) : Prop where
  snap : (md.snaps.get? n).isSome
  ne : name ≠ ""
  main : name ≠ mainBranch
  unused : md.refs.get? name = none

/-- `_add_reference` succeeds exactly when the name may be used and the snapshot
exists; otherwise nothing changes. -/
theorem addReference_cases {s : Schema} {w : World} {md : Metadata} {h : Handle} (hw : WOK s w md)
    (hh : HandleOK s w h) (name : String) (kind : RefKind) (id : Option Nat) :
    (∃ e, addReference name kind id (h, w) = (.error e, (h, w)) ∧
        ¬ CanAdd h.md name (id.getD h.md.current)) ∨
      ∃ h' w', addReference name kind id (h, w) = (.ok (), (h', w')) ∧
        CanAdd h.md name (id.getD h.md.current) ∧
        RefsWritten s h w (h.md.refs.set name { id := id.getD h.md.current, kind := kind }) h' w' := by
  rw [addReference_run]
  split
  · rename_i h1
    exact Or.inl ⟨_, rfl, fun c => by have := c.snap; simp_all⟩
  rename_i h1
  split
  · rename_i h2
    exact Or.inl ⟨_, rfl, fun c => c.ne h2⟩
  rename_i h2
  split
  · rename_i h3
    exact Or.inl ⟨_, rfl, fun c => c.main h3⟩
  rename_i h3
  split
  · rename_i h4
    exact Or.inl ⟨_, rfl, fun c => by have := c.unused; simp_all⟩
  rename_i h4
  right
  have hs : (h.md.snaps.get? (id.getD h.md.current)).isSome := by
    cases hx : h.md.snaps.get? (id.getD h.md.current) <;> simp_all
  have hu : h.md.refs.get? name = none := by
    cases hx : h.md.refs.get? name <;> simp_all
  obtain ⟨h', w', e1, e2⟩ := install_written hw hh
    (refs := h.md.refs.set name { id := id.getD h.md.current, kind := kind })
    (fun nm r hr => by
      rw [AMap.get?_set] at hr
      split at hr
      · cases hr; exact hs
      · exact hh.ok.refs nm r hr)
    (by rw [AMap.get?_set_ne _ _ (Ne.symm h3)]; exact hh.ok.noMain)
    (AMap.keys_set_nodup hh.ok.refKeys)
  exact ⟨h', w', e1, ⟨hs, h2, h3, hu⟩, e2⟩

/-- `_remove_reference` succeeds exactly on a reference of the right kind. -/
theorem removeReference_cases {s : Schema} {w : World} {md : Metadata} {h : Handle} (hw : WOK s w md)
    (hh : HandleOK s w h) (name : String) (kind : RefKind) :
    (∃ e, removeReference name kind (h, w) = (.error e, (h, w)) ∧
        ¬ ∃ n, h.md.refs.get? name = some { id := n, kind := kind }) ∨
      ∃ h' w', removeReference name kind (h, w) = (.ok (), (h', w')) ∧
        (∃ n, h.md.refs.get? name = some { id := n, kind := kind }) ∧
        RefsWritten s h w (h.md.refs.erase name) h' w' := by
  rw [removeReference_run]
  cases hr : h.md.refs.get? name with
  | none => exact Or.inl ⟨_, rfl, by simp⟩
  | some r =>
    obtain ⟨n, k⟩ := r
    simp only
    split
    · rename_i hk
      exact Or.inl ⟨_, rfl, by rintro ⟨m, hm⟩; cases hm; exact hk rfl⟩
    · rename_i hk
      right
      obtain ⟨h', w', e1, e2⟩ := install_written hw hh (refs := h.md.refs.erase name)
        (fun nm r hr => hh.ok.refs nm r (get?_of_erase hr))
        (by
          cases hx : (h.md.refs.erase name).get? mainBranch with
          | none => rfl
          | some v =>
            have := get?_of_erase hx
            rw [hh.ok.noMain] at this
            cases this)
        (AMap.keys_erase_nodup hh.ok.refKeys)
      refine ⟨h', w', e1, ⟨n, ?_⟩, e2⟩
      have : k = kind := by simpa using hk
      rw [this]

/-- What a call did to the files. -/
inductive Effect (E : Env) (s : Schema) (md : Metadata) (c : Call) (h : Handle) (w : World)
    (r : Result) (h' : Handle) (w' : World) : Prop where
  /-- nothing visible changed -/
  | same (grows : Grows w w') (fail : r ≠ .job .succeeded) (kept : h'.md = md ∨ h'.md = h.md)
  /-- a patch was committed -/
  | commit (m : Mutation) (h1 : Handle) (w1 : World) (p : Patch) (n : Nat) (cur snap : Snapshot)
      (call : c = .mutate m) (res : r = .job .succeeded)
      (made : Mutated E s m h w md h' w' h1 w1 p n cur snap)
  /-- a reference was added -/
  | addRef (name : String) (kind : RefKind) (n : Nat)
      (call : (kind = .tag ∧ (c = .addTag name (some n) ∨ (c = .addTag name none ∧ n = h.md.current))) ∨
        (kind = .branch ∧ c = .addBranch name ∧ n = h.md.current))
      (res : r = .returned) (can : CanAdd h.md name n)
      (out : RefsWritten s h w (h.md.refs.set name { id := n, kind := kind }) h' w')
  /-- a reference was removed -/
  | removeRef (name : String) (kind : RefKind) (n : Nat)
      (call : (kind = .tag ∧ c = .removeTag name) ∨
        (kind = .branch ∧ c = .removeBranch name ∧ name ≠ h.branch))
      (res : r = .returned) (was : h.md.refs.get? name = some { id := n, kind := kind })
      (out : RefsWritten s h w (h.md.refs.erase name) h' w')

theorem addReference_effect {E : Env} {s : Schema} {w : World} {md : Metadata} {h : Handle}
    (hw : WOK s w md) (hh : HandleOK s w h) {c : Call} {name : String} {kind : RefKind}
    {id : Option Nat}
    (hcall : (kind = .tag ∧ c = .addTag name id) ∨ (kind = .branch ∧ c = .addBranch name ∧ id = none))
    {r : Result} {h' : Handle} {w' : World}
    (hrun : runUnit (addReference name kind id) h w = (r, h', w')) :
    HandleOK s w' h' ∧ Effect E s md c h w r h' w' := by
  unfold runUnit at hrun
  rcases addReference_cases hw hh name kind id with ⟨e, h1, -⟩ | ⟨h2, w2, h1, hcan, hout⟩
  · rw [h1] at hrun
    simp only [Prod.mk.injEq] at hrun
    obtain ⟨rfl, rfl, rfl⟩ := hrun
    exact ⟨hh, .same (Grows.refl _) (by simp) (Or.inr rfl)⟩
  · rw [h1] at hrun
    simp only [Prod.mk.injEq] at hrun
    obtain ⟨rfl, rfl, rfl⟩ := hrun
    refine ⟨hout.handle, .addRef name kind (id.getD h.md.current) ?_ rfl hcan hout⟩
    rcases hcall with ⟨a, b⟩ | ⟨a, b, rfl⟩
    · cases id with
      | none => exact Or.inl ⟨a, Or.inr ⟨b, rfl⟩⟩
      | some n => exact Or.inl ⟨a, Or.inl b⟩
    · exact Or.inr ⟨a, b, rfl⟩

theorem removeReference_effect {E : Env} {s : Schema} {w : World} {md : Metadata} {h : Handle}
    (hw : WOK s w md) (hh : HandleOK s w h) {c : Call} {name : String} {kind : RefKind}
    (hcall : (kind = .tag ∧ c = .removeTag name) ∨
      (kind = .branch ∧ c = .removeBranch name ∧ name ≠ h.branch))
    {r : Result} {h' : Handle} {w' : World}
    (hrun : runUnit (removeReference name kind) h w = (r, h', w')) :
    HandleOK s w' h' ∧ Effect E s md c h w r h' w' := by
  unfold runUnit at hrun
  rcases removeReference_cases hw hh name kind with ⟨e, h1, -⟩ | ⟨h2, w2, h1, ⟨n, hn⟩, hout⟩
  · rw [h1] at hrun
    simp only [Prod.mk.injEq] at hrun
    obtain ⟨rfl, rfl, rfl⟩ := hrun
    exact ⟨hh, .same (Grows.refl _) (by simp) (Or.inr rfl)⟩
  · rw [h1] at hrun
    simp only [Prod.mk.injEq] at hrun
    obtain ⟨rfl, rfl, rfl⟩ := hrun
    exact ⟨hout.handle, .removeRef name kind n hcall rfl hn hout⟩

/-- The mutations of a call are admissible. -/
def Call.Admissible (s : Schema) (fs : FS) : Call → Prop
  | .mutate m => m.Admissible s fs
  | _ => True

/-- Every call keeps the handle well-formed and has one of four effects. -/
theorem exec_post {E : Env} {s : Schema} {w : World} {md : Metadata} {h : Handle}
    (hw : WOK s w md) (hh : HandleOK s w h) (hn : s.names.Nodup) (c : Call)
    (hadm : c.Admissible s w.fs) {r : Result} {h' : Handle} {w' : World}
    (hrun : exec E c h w = (r, h', w')) :
    HandleOK s w' h' ∧ Effect E s md c h w r h' w' := by
  cases c with
  | mutate m =>
    simp only [exec] at hrun
    cases hm : mutate E m h w with
    | mk o st =>
      obtain ⟨h2, w2⟩ := st
      obtain ⟨-, a, b⟩ := mutate_post hw hh hn m hadm hm
      rw [hm] at hrun
      cases o with
      | job j =>
        simp only [Prod.mk.injEq] at hrun
        obtain ⟨rfl, rfl, rfl⟩ := hrun
        refine ⟨a, ?_⟩
        rcases b with ⟨b1, b2, b3⟩ | ⟨b1, h1, w1, p, n, cur, snap, b2⟩
        · exact .same b2 (by simpa using b1) (Or.inl b3)
        · simp only [Outcome.job.injEq] at b1
          subst b1
          exact .commit m h1 w1 p n cur snap rfl rfl b2
      | raised e =>
        simp only [Prod.mk.injEq] at hrun
        obtain ⟨rfl, rfl, rfl⟩ := hrun
        refine ⟨a, ?_⟩
        rcases b with ⟨b1, b2, b3⟩ | ⟨b1, -⟩
        · exact .same b2 (by simp) (Or.inl b3)
        · simp at b1
  | addTag name id => exact addReference_effect hw hh (Or.inl ⟨rfl, rfl⟩) hrun
  | addBranch name => exact addReference_effect hw hh (Or.inr ⟨rfl, rfl, rfl⟩) hrun
  | removeTag name => exact removeReference_effect hw hh (Or.inl ⟨rfl, rfl⟩) hrun
  | removeBranch name =>
    simp only [exec] at hrun
    by_cases hb : name = h.branch
    · unfold runUnit at hrun
      rw [removeBranch_run, if_pos hb] at hrun
      simp only [Prod.mk.injEq] at hrun
      obtain ⟨rfl, rfl, rfl⟩ := hrun
      exact ⟨hh, .same (Grows.refl _) (by simp) (Or.inr rfl)⟩
    · refine removeReference_effect hw hh (name := name) (kind := .branch) (Or.inr ⟨rfl, rfl, hb⟩) ?_
      unfold runUnit at hrun ⊢
      rw [removeBranch_run, if_neg hb] at hrun
      exact hrun
  | setBranch name =>
    simp only [exec, runUnit, setCurrentBranch_run] at hrun
    have key : ∀ hx : Handle, hx.md = h.md ∧ hx.mdFile = h.mdFile ∧ hx.full = h.full ∧
        hx.maxId = h.maxId → HandleOK s w hx := by
      rintro hx ⟨e1, e2, e3, e4⟩
      exact ⟨by rw [e1, e2]; exact hh.file, by rw [e1]; exact hh.ok, by rw [e1]; exact hh.schema,
        fun hf => by rw [e1, e4]; exact hh.max (e3 ▸ hf)⟩
    split at hrun
    all_goals
      rename_i heq
      simp only [Prod.mk.injEq] at hrun
      obtain ⟨rfl, rfl, rfl⟩ := hrun
    · split at heq
      · simp only [Prod.mk.injEq] at heq
        obtain ⟨-, rfl, rfl⟩ := heq
        exact ⟨key _ ⟨rfl, rfl, rfl, rfl⟩, .same (Grows.refl _) (by simp) (Or.inr rfl)⟩
      · split at heq
        · simp at heq
        · split at heq
          · simp only [Prod.mk.injEq] at heq
            obtain ⟨-, rfl, rfl⟩ := heq
            exact ⟨key _ ⟨rfl, rfl, rfl, rfl⟩, .same (Grows.refl _) (by simp) (Or.inr rfl)⟩
          · simp at heq
    · split at heq
      · simp at heq
      · split at heq
        · simp only [Prod.mk.injEq] at heq
          obtain ⟨-, rfl, rfl⟩ := heq
          exact ⟨hh, .same (Grows.refl _) (by simp) (Or.inr rfl)⟩
        · split at heq
          · simp at heq
          · simp only [Prod.mk.injEq] at heq
            obtain ⟨-, rfl, rfl⟩ := heq
            exact ⟨hh, .same (Grows.refl _) (by simp) (Or.inr rfl)⟩
  | reload =>
    simp only [exec, runUnit] at hrun
    obtain ⟨b, h2, e1, e3, -, e2, -⟩ := reload_eq hw hh
    rw [e1] at hrun
    simp only [Prod.mk.injEq] at hrun
    obtain ⟨rfl, rfl, rfl⟩ := hrun
    exact ⟨e2, .same (Grows.refl _) (by simp) (Or.inl e3)⟩

/-- After a call the table is well-formed again. -/
theorem Effect.wok {E : Env} {s : Schema} {md : Metadata} {c : Call} {h : Handle} {w : World}
    {r : Result} {h' : Handle} {w' : World} (hw : WOK s w md) (he : Effect E s md c h w r h' w') :
    FSLe w.fs w'.fs ∧ w.next ≤ w'.next ∧ ∃ md', WOK s w' md' ∧
      (md' = md ∧ Grows w w' ∨ md' = h'.md) := by
  cases he with
  | same g _ _ => exact ⟨g.le, g.next, md, hw.grows g, Or.inl ⟨rfl, g⟩⟩
  | commit m h1 w1 p n cur snap _ _ mt =>
    exact ⟨mt.grows.le.trans mt.step.le, Nat.le_trans mt.grows.next mt.step.next, h'.md,
      mt.step.wok, Or.inr rfl⟩
  | addRef name kind n _ _ _ o => exact ⟨o.le, o.next, h'.md, o.wok, Or.inr rfl⟩
  | removeRef name kind n _ _ _ o => exact ⟨o.le, o.next, h'.md, o.wok, Or.inr rfl⟩

end Space
