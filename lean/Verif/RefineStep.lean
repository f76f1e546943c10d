import Verif.Refine

/-!
# One handle and a table in memory: tags, branches, reads, and all calls
-/

namespace Space

open List (Perm)
open scoped List

section
variable {E : Env} {s : Schema} {m : Mem} {σ σ' : Sys} {h h' : Handle}

/-- A call on the only handle, computed. -/
theorem Sim.run (hn : s.names.Nodup) (hs : Sim E s m σ h) {c : Call} {r : Result}
    (hst : Step E s σ (.call 0 c r) σ') :
    ∃ h', exec E c h σ.w = (r, h', σ'.w) ∧ σ'.slots = [⟨h', .idle⟩] ∧ SysOK E s σ' h'.md := by
  obtain ⟨-, h', hsl', hok'⟩ := solo_step hn ⟨h, hs.slots, hs.ok⟩
    ⟨by rw [hs.slots]; rfl, Or.inl ⟨_, _, rfl⟩⟩ hst
  obtain ⟨-, hadm, h2, w2, hrun, rfl⟩ := call_run hs.slot hst
  simp only at hrun
  have hsl2 := hsl'
  rw [hs.slots] at hsl2
  have : h2 = h' := by simpa using hsl2
  subst this
  exact ⟨h2, hrun, hsl', hok'⟩

/-- A call that changes nothing. -/
theorem Sim.still (hs : Sim E s m σ h) (hsl : σ'.slots = [⟨h, .idle⟩]) (hok : SysOK E s σ' h.md)
    (hw : σ'.w = σ.w) : Sim E s m σ' h :=
  hs.same hsl hok (by rw [hw]; exact FSLe.refl _) rfl rfl hs.counted

theorem Sim.canAdd (hs : Sim E s m σ h) (name : String) (n : Nat) :
    CanAdd h.md name n ↔ name ≠ "" ∧ name ≠ "main" ∧ m.refs.get? name = none ∧ (m.versions n).isSome := by
  have := (hs.rows n).isSome
  constructor
  · rintro ⟨h1, h2, h3, h4⟩
    exact ⟨h2, h3, by rw [hs.refs]; exact h4, by rw [← this]; exact h1⟩
  · rintro ⟨h1, h2, h3, h4⟩
    exact ⟨by rw [this]; exact h4, h1, h2, by rw [← hs.refs]; exact h3⟩

theorem Sim.addRef (hn : s.names.Nodup) (hs : Sim E s m σ h) {c : Call} {r : Result} {name : String} {kind : RefKind}
    {id : Option Nat} (hc : exec E c h σ.w = runUnit (addReference name kind id) h σ.w)
    (hst : Step E s σ (.call 0 c r) σ') :
    ∃ h', (¬ CanAdd h.md name (id.getD m.main) ∧ (∃ e, r = .raised e) ∧ Sim E s m σ' h') ∨
      (CanAdd h.md name (id.getD m.main) ∧ r = .returned ∧
        Sim E s { m with refs := m.refs.set name { id := id.getD m.main, kind := kind } } σ' h') := by
  obtain ⟨h', hrun, hsl, hok⟩ := hs.run hn hst
  rw [hc] at hrun
  unfold runUnit at hrun
  refine ⟨h', ?_⟩
  have hmain := hs.main
  rcases addReference_cases hs.ok.wok hs.handle name kind id with ⟨e, h1, h2⟩ | ⟨h1, w1, h2, h3, h4⟩
  · rw [h1] at hrun
    simp only [Prod.mk.injEq] at hrun
    obtain ⟨rfl, rfl, hw⟩ := hrun
    exact Or.inl ⟨by rw [hmain]; exact h2, ⟨e, rfl⟩, hs.still hsl hok hw.symm⟩
  · rw [h2] at hrun
    simp only [Prod.mk.injEq] at hrun
    obtain ⟨rfl, rfl, rfl⟩ := hrun
    have hsets : m.refs.set name { id := id.getD m.main, kind := kind } =
        h.md.refs.set name { id := id.getD h.md.current, kind := kind } := by rw [hs.refs, hmain]
    refine Or.inr ⟨by rw [hmain]; exact h3, rfl, ?_⟩
    rw [hsets]
    refine hs.refsWritten hsl hok h4 ?_
    rcases hs.branch with hb | ⟨x, hx, hk⟩
    · exact Or.inl hb
    · refine Or.inr ⟨x, ?_, hk⟩
      have hne : h.branch ≠ name := by
        rintro rfl
        rw [h3.unused] at hx
        cases hx
      exact (AMap.get?_set_ne _ _ hne).trans hx

theorem Sim.removeRef (hn : s.names.Nodup) (hs : Sim E s m σ h) {c : Call} {r : Result} {name : String}
    {kind : RefKind} (hc : exec E c h σ.w = runUnit (removeReference name kind) h σ.w)
    (hk : kind = .branch → name ≠ h.branch) (hst : Step E s σ (.call 0 c r) σ') :
    ∃ h', ((m.refs.get? name).map (·.kind) ≠ some kind ∧ (∃ e, r = .raised e) ∧ Sim E s m σ' h') ∨
      ((m.refs.get? name).map (·.kind) = some kind ∧ r = .returned ∧
        Sim E s { m with refs := m.refs.erase name } σ' h') := by
  obtain ⟨h', hrun, hsl, hok⟩ := hs.run hn hst
  rw [hc] at hrun
  unfold runUnit at hrun
  refine ⟨h', ?_⟩
  rw [hs.refs]
  rcases removeReference_cases hs.ok.wok hs.handle name kind with ⟨e, h1, h2⟩ | ⟨h1, w1, h2, ⟨n, h3⟩, h4⟩
  · rw [h1] at hrun
    simp only [Prod.mk.injEq] at hrun
    obtain ⟨rfl, rfl, hw⟩ := hrun
    refine Or.inl ⟨fun hx => h2 ?_, ⟨e, rfl⟩, hs.still hsl hok hw.symm⟩
    obtain ⟨⟨n, k⟩, ha, hb⟩ := Option.map_eq_some_iff.mp hx
    cases hb
    exact ⟨n, ha⟩
  · rw [h2] at hrun
    simp only [Prod.mk.injEq] at hrun
    obtain ⟨rfl, rfl, rfl⟩ := hrun
    refine Or.inr ⟨by rw [h3]; rfl, rfl, ?_⟩
    refine hs.refsWritten hsl hok h4 ?_
    rcases hs.branch with hb | ⟨x, hx, hxk⟩
    · exact Or.inl hb
    · refine Or.inr ⟨x, ?_, hxk⟩
      have hne : h.branch ≠ name := by
        intro he
        rw [he, h3] at hx
        cases hx
        exact hk hxk he.symm
      exact (AMap.get?_erase_ne _ hne).trans hx

/-- One call. -/
theorem Sim.step (hk : KeySchema s) (hlast : s.writeNames = s.names) (hs : Sim E s m σ h)
    (hr : Reach E s anyStep σ) (hfill : Filled σ.w) {c : Call} {r : Result} (hf : Fine E s h σ.w c)
    (hst : Step E s σ (.call 0 c r) σ') :
    ∃ h', Sim E s (m.call E.I s c).2 σ' h' ∧ (m.call E.I s c).1.means r := by
  cases c with
  | mutate mu =>
    cases mu with
    | append tables => exact hs.append hk hlast hr hfill hf hst
    | insert rows => exact hs.insert hk hlast hr hfill hf hst
    | upsert rows => exact hs.upsert hk hlast hr hfill hf hst
    | delete e => exact hs.delete hk hlast hr hfill hf hst
    | _ => exact hf.elim
  | addTag name id =>
    obtain ⟨h', hx⟩ := hs.addRef hk.names (name := name) (kind := .tag) (id := id) rfl hst
    refine ⟨h', ?_⟩
    simp only [Mem.call]
    rw [hs.canAdd] at hx
    rcases hx with ⟨h1, h2, h3⟩ | ⟨h1, h2, h3⟩
    · rw [if_neg h1]
      exact ⟨h3, Or.inr h2⟩
    · rw [if_pos h1]
      exact ⟨h3, Or.inr h2⟩
  | addBranch name =>
    obtain ⟨h', hx⟩ := hs.addRef hk.names (name := name) (kind := .branch) (id := none) rfl hst
    refine ⟨h', ?_⟩
    have hsome : (m.versions m.main).isSome := by
      rw [← (hs.rows _).isSome, hs.main]
      exact hs.ok.wok.ok.cur
    simp only [Mem.call]
    rw [hs.canAdd] at hx
    simp only [Option.getD_none, hsome, and_true] at hx
    rcases hx with ⟨h1, h2, h3⟩ | ⟨h1, h2, h3⟩
    · rw [if_neg h1]
      exact ⟨h3, Or.inr h2⟩
    · rw [if_pos h1]
      exact ⟨h3, Or.inr h2⟩
  | removeTag name =>
    obtain ⟨h', hx⟩ := hs.removeRef hk.names (name := name) (kind := .tag) rfl (by intro h; cases h) hst
    refine ⟨h', ?_⟩
    simp only [Mem.call]
    rcases hx with ⟨h1, h2, h3⟩ | ⟨h1, h2, h3⟩
    · rw [if_neg h1]
      exact ⟨h3, Or.inr h2⟩
    · rw [if_pos h1]
      exact ⟨h3, Or.inr h2⟩
  | removeBranch name =>
    simp only [Mem.call]
    have hon := hs.on
    by_cases hb : name = h.branch
    · obtain ⟨h', hrun, hsl, hok⟩ := hs.run hk.names hst
      simp only [exec, runUnit, removeBranch_run, if_pos hb, Prod.mk.injEq] at hrun
      obtain ⟨rfl, rfl, hw⟩ := hrun
      rw [if_neg (fun hx => hx.2 (hb.trans hon.symm))]
      exact ⟨h, hs.still hsl hok hw.symm, Or.inr ⟨_, rfl⟩⟩
    · obtain ⟨h', hx⟩ := hs.removeRef hk.names (name := name) (kind := .branch)
        (by simp only [exec, runUnit, removeBranch_run, if_neg hb]) (fun _ => hb) hst
      refine ⟨h', ?_⟩
      rcases hx with ⟨h1, h2, h3⟩ | ⟨h1, h2, h3⟩
      · rw [if_neg (fun hx => h1 hx.1)]
        exact ⟨h3, Or.inr h2⟩
      · rw [if_pos ⟨h1, fun hx => hb (hx.trans hon)⟩]
        exact ⟨h3, Or.inr h2⟩
  | setBranch name =>
    obtain ⟨h', hrun, hsl, hok⟩ := hs.run hk.names hst
    simp only [exec, runUnit, setCurrentBranch_run] at hrun
    simp only [Mem.call]
    have hrefs := hs.refs
    have move : h' = { h with branch := name } → σ'.w = σ.w → OnBranch h.md name →
        Sim E s { m with on := name } σ' h' := by
      rintro rfl hw hb
      refine ⟨hsl, hok, hs.main, hs.refs, rfl, hb, hs.counted, fun n => ?_, hs.keys⟩
      rw [hw]
      exact hs.rows n
    by_cases hm : name = mainBranch
    · rw [if_pos (Or.inl (show name = "main" from hm))]
      rw [if_pos hm] at hrun
      simp only [Prod.mk.injEq] at hrun
      exact ⟨h', move hrun.2.1.symm hrun.2.2.symm (Or.inl hm), Or.inr hrun.1.symm⟩
    · rw [if_neg hm] at hrun
      cases hg : h.md.refs.get? name with
      | none =>
        rw [hg] at hrun
        simp only [Prod.mk.injEq] at hrun
        obtain ⟨rfl, rfl, hw⟩ := hrun
        rw [if_neg (by rintro (hx | hx); exact hm hx; rw [hrefs, hg] at hx; cases hx)]
        exact ⟨h, hs.still hsl hok hw.symm, Or.inr ⟨_, rfl⟩⟩
      | some x =>
        rw [hg] at hrun
        simp only at hrun
        by_cases hx : x.kind = .branch
        · rw [if_pos hx] at hrun
          simp only [Prod.mk.injEq] at hrun
          rw [if_pos (Or.inr (by rw [hrefs, hg]; simp [hx]))]
          exact ⟨h', move hrun.2.1.symm hrun.2.2.symm (Or.inr ⟨x, hg, hx⟩), Or.inr hrun.1.symm⟩
        · rw [if_neg hx] at hrun
          simp only [Prod.mk.injEq] at hrun
          obtain ⟨rfl, rfl, hw⟩ := hrun
          rw [if_neg (by rintro (hy | hy); exact hm hy; exact hx (by rw [hrefs, hg] at hy; simpa using hy))]
          exact ⟨h, hs.still hsl hok hw.symm, Or.inr ⟨_, rfl⟩⟩
  | reload =>
    obtain ⟨h', hrun, hsl, hok⟩ := hs.run hk.names hst
    have hc := reload_counted (F := fun _ => False) hs.ok.wok hs.handle hs.counted
    simp only [exec, runUnit] at hrun
    simp only [Mem.call]
    obtain ⟨b, h2, e1, e2, e3, -⟩ := reload_eq hs.ok.wok hs.handle
    rw [e1] at hrun hc
    simp only [Prod.mk.injEq] at hrun
    obtain ⟨rfl, rfl, hw⟩ := hrun
    exact ⟨h2, hs.same hsl hok (by rw [← hw]; exact FSLe.refl _) e2 e3 hc.2.2.2.2, Or.inr rfl⟩

/-- A new table. -/
theorem Sim.new (h0 : Started s σ) : ∃ h, Sim E s Mem.new σ h := by
  obtain ⟨md, h1⟩ := started_ok (E := E) h0
  obtain ⟨w0, hd, h2, h3, h4⟩ := h0
  obtain ⟨a, -, hb, -, e⟩ := create_ok h2 h3
  have := h1.wok.unique a
  subst this
  refine ⟨hd, h4, h1, by rw [e]; rfl, by rw [e]; rfl, hb.symm, Or.inl hb, fun _ => ?_, fun n => ?_, ?_⟩
  · have hne : AMap.get? (AMap.set w0.fs (.metadata w0.next)
        (.mdata { schema := s, current := 0, snaps := [(0, { id := 0 })], refs := [] })) .entryPoint
        = none := by
      rw [AMap.get?_set_ne _ _ (by simp)]; exact h2.noEntry
    simp only [create, createHead, createTail, Bind.bind, M.andThen, fresh, putFile, M.modify, M.get,
      World.put, hne, Pure.pure, M.ret, Prod.mk.injEq, Except.ok.injEq] at h3
    rw [← h3.1]
    rfl
  · rw [e]
    simp only [Mem.new, AMap.get?]
    by_cases hx : 0 = n
    · subst hx
      simp [Held, snapRows, physRows]
    · simp only [if_neg hx, if_neg (Ne.symm hx), Held]
  · intro n rows hn
    simp only [Mem.new] at hn
    split at hn
    · cases hn
      intro r hr
      cases hr
    · cases hn

/-- Reads that are compared: by filters that fit, of columns of the schema with record
columns last, and not of addresses. -/
structure ReadFits (s : Schema) (o : ReadOpts) : Prop where
  filter : ∀ e, o.filter = some e → FilterFits s e
  cols : ∀ cs, o.fields = some cs → (∀ c ∈ cs, c ∈ s.names) ∧
    cs.filter (fun c => !s.recs.contains c) ++ cs.filter (fun c => s.recs.contains c) = cs
  plain : o.refRead = false

theorem ReadFits.out {o : ReadOpts} (ho : ReadFits s o) (hlast : s.writeNames = s.names) :
    (∀ c ∈ o.cols s, c ∈ s.names) ∧ outCols s (o.cols s) = o.fields.getD s.names := by
  unfold ReadOpts.cols
  cases hf : o.fields with
  | none => exact ⟨fun c hc => hc, (outCols_names s).trans hlast⟩
  | some cs => exact ho.cols cs hf

theorem Holds.snapOK {md : Metadata} (hs : Holds E s m σ md) {n : Nat} {snap : Snapshot} (hg : md.snaps.get? n = some snap) :
    SnapOK σ.w.fs s snap := by
  rw [← hs.ok.wok.schema]
  exact hs.ok.wok.ok.snaps _ _ hg

/-- A read by any handle. -/
theorem Holds.read {md : Metadata} (hlast : s.writeNames = s.names) (hs : Holds E s m σ md) (hho : HandleOK s σ.w h)
    (hon : m.on = h.branch) {o : ReadOpts} (ho : ReadFits s o) (v : Option Version) :
    (∃ rows rows', tableRead E h σ.w o v = .ok rows ∧ m.read E.I s o v = some rows' ∧ rows ~ rows') ∨
      ((∃ e, tableRead E h σ.w o v = .error e) ∧ m.read E.I s o v = none) := by
  obtain ⟨hc, hout⟩ := ho.out hlast
  have key : ∀ n, m.version v = some n → md.target h.branch v = md.snapshot n →
      (∃ rows rows', tableRead E h σ.w o v = .ok rows ∧ m.read E.I s o v = some rows' ∧ rows ~ rows') ∨
      ((∃ e, tableRead E h σ.w o v = .error e) ∧ m.read E.I s o v = none) := by
    intro n hv ht
    have hh := hs.rows n
    have hmr : m.read E.I s o v = (m.versions n).map fun rows =>
        (rows.filter (fun r => o.filter.all (fun e => e.truth E.I r == some true))).map
          (·.select (o.fields.getD s.names)) := by simp [Mem.read, Mem.rows, hv]
    unfold Metadata.snapshot at ht
    cases hg : md.snaps.get? n with
    | none =>
      rw [hg] at hh ht
      cases hx : m.versions n with
      | some rows => rw [hx] at hh; exact hh.elim
      | none =>
        rw [tableRead_target hs.ok.wok hho, ht, hmr, hx]
        exact Or.inr ⟨⟨_, rfl⟩, rfl⟩
    | some snap =>
      rw [hg] at hh ht
      cases hx : m.versions n with
      | none => rw [hx] at hh; exact hh.elim
      | some rows =>
        rw [hx] at hh hmr
        simp only [Held] at hh
        refine Or.inl ⟨((snapRows σ.w.fs s snap).filter
            (fun r => o.filter.all (fun e => e.truth E.I r == some true))).map (·.select (o.fields.getD s.names)),
          _, ?_, hmr, ?_⟩
        · have hsub : ∀ (e : Expr), e.holds E.I = fun r => e.truth E.I r == some true := by
            intro e; rfl
          cases hf : o.filter with
          | some e =>
            rw [tableRead_filter hs.ok.wok hho (ho.filter e hf) hf hc ho.plain, ht, hout]
            rfl
          | none =>
            obtain ⟨bs, h1, h2, -⟩ := readSnap_rows (E := E) (o := o) (hs.snapOK hg) (mf := none) (by rw [hf]; rfl)
              hc ho.plain
            rw [tableRead_target hs.ok.wok hho, ht]
            simp only [h1, Except.map, rowsOf_flatten, h2, Except.ok.injEq]
            rw [hf, keptRowsOf_safe (hs.snapOK hg).manifests (by trivial) rfl, select_map_deref, hout]
            simp only [filterRows, Option.all_none, List.filter_eq_self.mpr (fun _ _ => rfl)]
            rfl
        · have hsel : ((snapRows σ.w.fs s snap).filter
                (fun r => o.filter.all (fun e => e.truth E.I r == some true))).map (·.select (o.fields.getD s.names)) =
              ((((snapRows σ.w.fs s snap).map (·.select s.writeNames)).filter
                (fun r => o.filter.all (fun e => e.truth E.I r == some true))).map
                  (·.select (o.fields.getD s.names))) := by
            rw [List.filter_map, List.map_map]
            have h1 : ((·.select (o.fields.getD s.names)) ∘ (·.select s.writeNames) : Row → Row) =
                (·.select (o.fields.getD s.names)) := by
              funext r
              refine select_select fun c hcc => ?_
              rw [hlast]
              refine hc c ?_
              unfold ReadOpts.cols
              exact hcc
            have h2 : ((fun r => o.filter.all (fun e => e.truth E.I r == some true)) ∘ (·.select s.writeNames) : Row → Bool) =
                (fun r => o.filter.all (fun e => e.truth E.I r == some true)) := by
              funext r
              cases hf : o.filter with
              | none => rfl
              | some e => simp [truth_select (ho.filter e hf)]
            rw [h1, h2]
          rw [hsel]
          exact (hh.filter _).map _
  have no : m.version v = none → (∃ e, md.target h.branch v = .error e) →
      (∃ rows rows', tableRead E h σ.w o v = .ok rows ∧ m.read E.I s o v = some rows' ∧ rows ~ rows') ∨
      ((∃ e, tableRead E h σ.w o v = .error e) ∧ m.read E.I s o v = none) := by
    rintro hv ⟨e, he⟩
    refine Or.inr ⟨⟨e, by rw [tableRead_target hs.ok.wok hho, he]⟩, by simp [Mem.read, Mem.rows, hv]⟩
  cases v with
  | none =>
    have hx : m.version none = (match md.currentId h.branch with | .ok n => some n | .error _ => none) := by
      unfold Mem.version Metadata.currentId Metadata.lookupRef
      simp only [hon, hs.main, hs.refs]
      by_cases hm : h.branch = mainBranch
      · rw [if_pos hm, if_pos (show h.branch = "main" from hm)]
      · rw [if_neg hm, if_neg (show h.branch ≠ "main" from hm)]
        cases md.refs.get? h.branch <;> rfl
    cases hid : md.currentId h.branch with
    | error e =>
      rw [hid] at hx
      exact no hx ⟨e, by simp only [Metadata.target, hid]⟩
    | ok n =>
      rw [hid] at hx
      exact key n hx (by simp only [Metadata.target, hid])
  | some v =>
    cases v with
    | id n => exact key n rfl rfl
    | name t =>
      cases hg : md.refs.get? t with
      | none =>
        refine no (by simp [Mem.version, hs.refs, hg]) ⟨.versionNotFound, ?_⟩
        simp [Metadata.target, Metadata.versionId, Metadata.lookupRef, hg, Except.map]
      | some r =>
        refine key r.id (by simp [Mem.version, hs.refs, hg]) ?_
        simp [Metadata.target, Metadata.versionId, Metadata.lookupRef, hg, Except.map]

/-- A read. -/
theorem Sim.read (hlast : s.writeNames = s.names) (hs : Sim E s m σ h) {o : ReadOpts} (ho : ReadFits s o)
    (v : Option Version) :
    (∃ rows rows', tableRead E h σ.w o v = .ok rows ∧ m.read E.I s o v = some rows' ∧ rows ~ rows') ∨
      ((∃ e, tableRead E h σ.w o v = .error e) ∧ m.read E.I s o v = none) :=
  hs.holds.read hlast hs.handle hs.on ho v

end

/-- What is read after a version has been put. -/
theorem Mem.put_read (I : Interp) (s : Schema) (m : Mem) (rows : List Row) :
    (m.put rows).read I s {} none = some (rows.map (·.select s.names)) := by
  have h : (m.put rows).rows none = some rows := by
    unfold Mem.rows Mem.version Mem.put
    by_cases hm : m.on = "main" <;> simp [hm]
  have hf : rows.filter (fun _ => true) = rows := List.filter_eq_self.mpr (fun _ _ => rfl)
  simp [Mem.read, h, hf]

theorem leftBy_sub {truth : Row → Option Bool} {lay : List (List (List Row))} {r : Row} (h : r ∈ leftBy truth lay) :
    r ∈ lay.flatten.flatten := by
  unfold leftBy at h
  split at h
  · exact (List.mem_filter.mp h).1
  · obtain ⟨file, hf, hr⟩ := List.mem_flatten.mp h
    obtain ⟨man, hm, hf⟩ := List.mem_flatten.mp hf
    exact List.mem_flatten.mpr ⟨file, List.mem_flatten.mpr ⟨man, (List.mem_filter.mp hm).1, hf⟩, hr⟩

/-- Two memories the same table agrees with. -/
theorem agree_length {E : Env} {s : Schema} {m m' : Mem} {σ : Sys} {h : Handle} {rows rows' : List Row}
    (hlast : s.writeNames = s.names) (hs : Sim E s (m.put rows) σ h)
    (hr : (∃ x x', tableRead E h σ.w {} none = .ok x ∧ (m'.put rows').read E.I s {} none = some x' ∧ x ~ x') ∨
      ((∃ e, tableRead E h σ.w {} none = .error e) ∧ (m'.put rows').read E.I s {} none = none)) :
    rows.length = rows'.length := by
  rw [Mem.put_read] at hr
  have h1 := hs.read hlast (o := {}) ⟨by simp, by simp, rfl⟩ none
  rw [Mem.put_read] at h1
  rcases hr with ⟨x, x', e1, e2, hp⟩ | ⟨-, e⟩
  · rcases h1 with ⟨y, y', f1, f2, hq⟩ | ⟨-, f⟩
    · rw [e1] at f1
      cases f1
      cases e2
      cases f2
      have := hp.length_eq.symm.trans hq.length_eq
      simpa using this.symm
    · cases f
  · cases e

/-- A delete after which the table agrees with the memory loses no row. -/
theorem Sim.delete_spared (hk : KeySchema s) (hlast : s.writeNames = s.names) (hs : Sim E s m σ h)
    (hr : Reach E s anyStep σ) (hfill : Filled σ.w) {e : Expr} {r : Result} (he : FilterFits s e)
    (hnn : ∀ r ∈ (headLayout s h σ.w).flatten.flatten, e.truth E.I r ≠ none)
    (hst : Step E s σ (.call 0 (.mutate (.delete e)) r) σ')
    (hread : ∀ sl ∈ σ'.slots, (∃ x x', tableRead E sl.h σ'.w {} none = .ok x ∧
        (m.call E.I s (.mutate (.delete e))).2.read E.I s {} none = some x' ∧ x ~ x') ∨
      ((∃ e, tableRead E sl.h σ'.w {} none = .error e) ∧
        (m.call E.I s (.mutate (.delete e))).2.read E.I s {} none = none)) :
    Spared (e.truth E.I) (headLayout s h σ.w) := by
  obtain ⟨h', hx⟩ := hs.mutate hk.names hst
  obtain ⟨cur, htar, hcok, -, -, hlay, hrows, hkeys⟩ := hs.head
  have hfull := hfill.layout hcok
  rw [← hlay] at hfull
  have hset : KeysSet s (snapRows σ.w.fs s cur) := (keysSet_written hk).mp (hkeys.perm hrows.symm)
  obtain ⟨j1, j2, σ1, σ2, hst1, -, hj, hj2, htrue⟩ := C23_status hk hlast hr hs.slot rfl hs.branchIn he
    (by rw [hlay, layout_flatten]; exact hset) hfull
  have hres := call_unique hs.slot hst hst1
  by_cases hany : ∃ r ∈ (headLayout s h σ.w).flatten.flatten, e.truth E.I r = some true
  · rw [htrue hany] at hres
    rcases hx with ⟨hx, -⟩ | ⟨-, h1, w1, p, cur', snap, hsucc, hrows', hlay', hput⟩
    · exact absurd hres hx
    have hcc : cur' = cur := by
      have := hsucc.head
      have h2 : headOf h σ.w = some cur := by simp [headOf, hs.ok.wok.storedEq, htar, Except.toOption]
      rw [h2] at this
      exact (Option.some.inj this).symm
    subst hcc
    rw [hlay] at hnn hany ⊢
    have k2 := hsucc.delete_effect hk.names he (by rw [← layout_flatten]; exact hnn)
    have hkeys' : KeysSet s ((snapRows σ'.w.fs s snap).map (·.select s.writeNames)) := by
      refine (keysSet_written hk).mpr fun r hr => ?_
      have := leftBy_sub (k2.mem_iff.mp hr)
      rw [layout_flatten] at this
      exact hset r this
    have hsim := hput _ (Perm.refl _) hkeys'
    have hmem : (m.call E.I s (.mutate (.delete e))).2 = m.put (m.head.filter (fun r => e.truth E.I r != some true)) := by
      simp only [Mem.call]
      rw [if_pos]
      obtain ⟨r, hr, ht⟩ := hany
      rw [layout_flatten] at hr
      refine List.any_eq_true.mpr ⟨_, hrows'.mem_iff.mp (List.mem_map_of_mem hr), ?_⟩
      rw [truth_select he, ht]
      rfl
    rw [hmem] at hread
    have hlen := agree_length hlast hsim (hread ⟨h', .idle⟩ (by rw [hsim.slots]; simp))
    refine (leftBy_iff hnn).1 ?_
    rw [layout_flatten, ← k2.length_eq]
    have h1 : (snapRows σ'.w.fs s snap).length = (m.head.filter (fun r => e.truth E.I r != some true)).length := by
      simpa using hlen
    rw [h1, ← (hrows'.filter _).length_eq, List.filter_map, List.length_map]
    congr 1
    refine List.filter_congr fun x _ => ?_
    simp only [Function.comp_apply, truth_select he]
  · refine Or.inr fun man hm ⟨file, hf, r, hr, ht⟩ => absurd ⟨r, ?_, ht⟩ hany
    exact List.mem_flatten.mpr ⟨file, List.mem_flatten.mpr ⟨man, hm, hf⟩, hr⟩

/-- An upsert after which the table agrees with the memory loses no row. -/
theorem Sim.upsert_spared (hk : KeySchema s) (hlast : s.writeNames = s.names) (hs : Sim E s m σ h)
    (hr : Reach E s anyStep σ) (hfill : Filled σ.w) {rows : List Row} {r : Result} (hfit : ∀ r ∈ rows, Takes s r)
    (hnil : rows ≠ []) (hd : (rows.map (rowKey s)).Nodup)
    (hst : Step E s σ (.call 0 (.mutate (.upsert rows)) r) σ')
    (hread : ∀ sl ∈ σ'.slots, (∃ x x', tableRead E sl.h σ'.w {} none = .ok x ∧
        (m.call E.I s (.mutate (.upsert rows))).2.read E.I s {} none = some x' ∧ x ~ x') ∨
      ((∃ e, tableRead E sl.h σ'.w {} none = .error e) ∧
        (m.call E.I s (.mutate (.upsert rows))).2.read E.I s {} none = none)) :
    Spared (fun r => some (decide (s.pks.map r.val ∈ rows.map (fun r => s.pks.map r.val)))) (headLayout s h σ.w) := by
  obtain ⟨h', hx⟩ := hs.mutate hk.names hst
  obtain ⟨cur, htar, hcok, -, -, hlay, hrows, hkeys⟩ := hs.head
  have hfull := hfill.layout hcok
  rw [← hlay] at hfull
  have hset : KeysSet s (snapRows σ.w.fs s cur) := (keysSet_written hk).mp (hkeys.perm hrows.symm)
  obtain ⟨σ'', hst'⟩ := C08_succeeds hk hlast hr hs.slot rfl hs.branchIn hnil hfit hd
      (by rw [hlay, layout_flatten]; exact hset) hfull
  have hres := call_unique hs.slot hst hst'
  rcases hx with ⟨hx, -⟩ | ⟨-, h1, w1, p, cur', snap, hsucc, hrows', hlay', hput⟩
  · exact absurd hres hx
  have hset' : KeysSet s (snapRows σ.w.fs s cur') := (keysSet_written hk).mp (hkeys.perm hrows'.symm)
  have k2 := hsucc.upsert_effect hk (data := rows) rfl hset'
  have hkeys' : KeysSet s ((snapRows σ'.w.fs s snap).map (·.select s.writeNames)) := by
    refine (keysSet_written hk).mpr fun r hr => ?_
    rcases List.mem_append.mp (k2.mem_iff.mp hr) with h | h
    · have := leftBy_sub h
      rw [layout_flatten] at this
      exact hset' r this
    · rw [hlast] at h
      exact keysSet_takes hk hfit r h
  have hsim := hput _ (Perm.refl _) hkeys'
  have hmem : (m.call E.I s (.mutate (.upsert rows))).2 =
      m.put (m.head.filter (fun r => !(rows.map (rowKey s)).contains (rowKey s r)) ++ rows.map (·.select s.names)) := by
    simp only [Mem.call]
    rw [if_neg hnil, if_pos hd]
  rw [hmem] at hread
  have hlen := agree_length hlast hsim (hread ⟨h', .idle⟩ (by rw [hsim.slots]; simp))
  rw [hlay']
  refine (leftBy_iff (fun r _ => by simp)).1 ?_
  have h1 := k2.length_eq
  rw [List.length_append, List.length_map] at h1
  rw [List.length_append, List.length_map, List.length_map, ← (hrows'.filter _).length_eq, List.filter_map,
    List.length_map] at hlen
  have h2 : ∀ a b c : Nat, a + c = b + c → a = b := fun a b c h => by omega
  refine (h2 _ _ _ (h1.symm.trans hlen)).trans ?_
  rw [layout_flatten]
  congr 1
  refine List.filter_congr fun x _ => ?_
  have hx : rowKey s (x.select s.writeNames) = rowKey s x := keyOf_select hk x
  simp only [Function.comp_apply, hx]
  rw [Bool.eq_iff_iff]
  simp only [Bool.not_eq_true', List.contains_eq_mem, decide_eq_false_iff_not, bne_iff_ne, ne_eq,
    Option.some.injEq, decide_eq_true_eq]
  exact Iff.rfl

end Space
