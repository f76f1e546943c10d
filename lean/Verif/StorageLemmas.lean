import Verif.WorldLemmas

/-! # Metadata invariants; reload, references and commit -/

namespace Space

/-! ## Well-formed metadata -/

/-- Snapshots are well-formed, parents are older and exist, heads exist. -/
structure MdOK (fs : FS) (md : Metadata) : Prop where
  ids : ∀ n snap, md.snaps.get? n = some snap → snap.id = n
  snaps : ∀ n snap, md.snaps.get? n = some snap → SnapOK fs md.schema snap
  parents : ∀ n snap p, md.snaps.get? n = some snap → snap.parent = some p →
    p < n ∧ (md.snaps.get? p).isSome
  roots : ∀ n snap, md.snaps.get? n = some snap → snap.parent = none → n = 0
  zero : md.snaps.get? 0 = some { id := 0 }
  cur : (md.snaps.get? md.current).isSome
  refs : ∀ name r, md.refs.get? name = some r → (md.snaps.get? r.id).isSome
  noMain : md.refs.get? mainBranch = none
  snapKeys : (AMap.keys md.snaps).Nodup
  refKeys : (AMap.keys md.refs).Nodup

theorem MdOK.mono {fs fs' : FS} {md : Metadata} (hf : FSLe fs fs') (h : MdOK fs md) : MdOK fs' md :=
  { h with snaps := fun n s hs => (h.snaps n s hs).mono hf }

/-- The metadata found through the entry point is `md`, and it is well-formed. -/
structure WOK (s : Schema) (w : World) (md : Metadata) : Prop where
  fresh : w.Fresh
  stored : ∃ p, w.fs.entry = some p ∧ w.fs.mdata p = some md
  ok : MdOK w.fs md
  schema : md.schema = s

/-- A handle holds some metadata that was stored at its metadata file.  Its largest
id is at least all heads, unless it has written references since it last loaded
(`add_tag` of an old snapshot); it then loads again before any commit. -/
structure HandleOK (s : Schema) (w : World) (h : Handle) : Prop where
  file : w.fs.mdata h.mdFile = some h.md
  ok : MdOK w.fs h.md
  schema : h.md.schema = s
  max : h.full = false → h.md.maxRefId ≤ h.maxId

theorem HandleOK.mono {s : Schema} {w w' : World} {h : Handle} (hf : FSLe w.fs w'.fs)
    (hh : HandleOK s w h) : HandleOK s w' h :=
  ⟨hf.mdata hh.file, hh.ok.mono hf, hh.schema, hh.max⟩

theorem entry_of_grows {w w' : World} (h : Grows w w') : w'.fs.entry = w.fs.entry := by
  unfold FS.entry; rw [h.entry]

theorem WOK.adds {s : Schema} {w w' : World} {md : Metadata} (h : WOK s w md) (g : Adds w w') :
    WOK s w' md := by
  obtain ⟨p, h1, h2⟩ := h.stored
  refine ⟨g.fresh h.fresh, ⟨p, ?_, g.le.mdata h2⟩, h.ok.mono g.le, h.schema⟩
  rw [← h1]
  unfold FS.entry
  rw [g.entry]

theorem WOK.grows {s : Schema} {w w' : World} {md : Metadata} (h : WOK s w md) (g : Grows w w') :
    WOK s w' md := h.adds g.adds

theorem WOK.unique {s s' : Schema} {w : World} {md md' : Metadata} (h : WOK s w md)
    (h' : WOK s' w md') : md = md' := by
  obtain ⟨p, h1, h2⟩ := h.stored
  obtain ⟨p', h1', h2'⟩ := h'.stored
  rw [h1] at h1'; cases h1'
  rw [h2] at h2'; cases h2'; rfl

/-! ## Largest id -/

theorem current_le_max (md : Metadata) : md.current ≤ md.maxRefId := by
  unfold Metadata.maxRefId
  induction md.refs with
  | nil => simp
  | cons x l ih => simp only [List.map_cons, List.foldr_cons]; omega

theorem ref_le_max {md : Metadata} {name : String} {r : Ref} (h : md.refs.get? name = some r) :
    r.id ≤ md.maxRefId := by
  have hm := AMap.mem_of_get? h
  unfold Metadata.maxRefId
  revert hm
  generalize md.refs = l
  induction l with
  | nil => intro hm; simp at hm
  | cons x l ih =>
    intro hm
    simp only [List.map_cons, List.foldr_cons]
    rcases List.mem_cons.mp hm with rfl | hm
    · simp only; omega
    · have := ih hm; omega

theorem max_le {md : Metadata} {n : Nat} (hc : md.current ≤ n)
    (hr : ∀ x ∈ md.refs, x.2.id ≤ n) : md.maxRefId ≤ n := by
  unfold Metadata.maxRefId
  revert hr
  generalize md.refs = l
  induction l with
  | nil => intro _; simpa using hc
  | cons x l ih =>
    intro hr
    simp only [List.map_cons, List.foldr_cons]
    have h1 := hr x (List.mem_cons_self ..)
    have h2 := ih fun y hy => hr y (List.mem_cons_of_mem _ hy)
    omega

/-! ## Loading and reloading -/

theorem load_eq {s : Schema} {w : World} {md : Metadata} (hw : WOK s w md) :
    ∃ h, load w = .ok h ∧ h.md = md ∧ h.branch = mainBranch ∧ HandleOK s w h := by
  obtain ⟨p, h1, h2⟩ := hw.stored
  refine ⟨Handle.init md p false mainBranch, by simp [load, readStored, h1, h2], rfl, rfl, ?_⟩
  exact ⟨h2, hw.ok, hw.schema, fun _ => Nat.le_refl _⟩

/-- `reload` always succeeds and gives the stored metadata. -/
theorem reload_eq {s : Schema} {w : World} {md : Metadata} {h : Handle} (hw : WOK s w md)
    (hh : HandleOK s w h) : ∃ b h', reload (h, w) = (.ok b, (h', w)) ∧ h'.md = md ∧
      h'.branch = h.branch ∧ HandleOK s w h' ∧ w.fs.entry = some h'.mdFile ∧ h'.full = false ∧
      (b = false → h' = h) ∧ (b = true → h' = Handle.init md h'.mdFile false h.branch) := by
  obtain ⟨p, h1, h2⟩ := hw.stored
  unfold reload
  simp only [h1]
  split
  · rename_i hc
    have : h.md = md := by
      have := hh.file
      rw [← hc.2, h2] at this
      exact (Option.some.inj this).symm
    exact ⟨false, h, rfl, this, rfl, hh, by rw [hc.2], hc.1, fun _ => rfl, fun h => by cases h⟩
  · simp only [h2]
    exact ⟨true, _, rfl, rfl, rfl, ⟨h2, hw.ok, hw.schema, fun _ => Nat.le_refl _⟩, rfl, rfl,
      fun h => by simp at h, fun _ => rfl⟩

/-! ## Writing metadata -/

theorem FSLe.entryWrite {fs : FS} {p q : Path} (h : fs.entry = some p) :
    FSLe fs (AMap.set fs .entryPoint (.entry q)) := by
  intro x c hc hx
  by_cases he : x = .entryPoint
  · subst he
    unfold FS.entry at h
    rw [hx] at h
    cases c <;> simp [Content.isData] at h hc
  · rw [AMap.get?_set_ne _ _ he]; exact hx

/-- The world after `_write_metadata` of a new metadata file. -/
def World.written (w : World) (u : Nat) (md : Metadata) : World :=
  (w.put (.metadata u) (.mdata md)).put .entryPoint (.entry (.metadata u))

theorem writeMetadata_run (u : Nat) (md : Metadata) (w : World) :
    writeMetadata (.metadata u) md w = (.ok (), w.written u md) := rfl

theorem written_facts {w : World} {u : Nat} {md : Metadata} {p : Path} (hf : w.Fresh)
    (hu : u < w.next) (hn : AMap.get? w.fs (.metadata u) = none) (he : w.fs.entry = some p) :
    FSLe w.fs (w.written u md).fs ∧ (w.written u md).Fresh ∧
      (w.written u md).fs.entry = some (.metadata u) ∧
      (w.written u md).fs.mdata (.metadata u) = some md ∧ (w.written u md).next = w.next := by
  have g : Grows w (w.put (.metadata u) (.mdata md)) :=
    Grows.put (u := u) rfl hu hn
  have he' : FS.entry (AMap.set w.fs (.metadata u) (.mdata md)) = some p := by
    have := entry_of_grows g
    simpa [he, World.put] using this
  refine ⟨g.le.trans (FSLe.entryWrite he'), ?_, ?_, ?_, rfl⟩
  · intro q v hq hv
    have hne : q ≠ .entryPoint := by rintro rfl; simp [Path.uuid] at hq
    simp only [World.written, World.put]
    rw [AMap.get?_set_ne _ _ hne]
    exact g.fresh hf q v hq hv
  · simp [World.written, World.put, FS.entry]
  · exact (FSLe.entryWrite he').mdata (mdata_set _)

/-! ## References -/

theorem install_run (md : Metadata) (h : Handle) (w : World) :
    install md (h, w) = (.ok (), ({ h with md := md, mdFile := .metadata w.next, full := true },
      ({ w with next := w.next + 1 } : World).written w.next md)) := rfl

/-- Writing new metadata through the entry point. -/
theorem written_wok {s : Schema} {w : World} {md md' : Metadata} (hw : WOK s w md)
    (hs : md'.schema = s) (hok : MdOK w.fs md') :
    let w' := ({ w with next := w.next + 1 } : World).written w.next md'
    FSLe w.fs w'.fs ∧ WOK s w' md' ∧ w'.fs.mdata (.metadata w.next) = some md' ∧
      w.next ≤ w'.next ∧ w'.fs.entry = some (.metadata w.next) := by
  obtain ⟨p, h1, h2⟩ := hw.stored
  obtain ⟨a, b, c, d, e⟩ := written_facts (w := { w with next := w.next + 1 }) (u := w.next)
    (md := md') (p := p) ((Grows.fresh' w).fresh hw.fresh) (Nat.lt_succ_self _)
    (hw.fresh _ w.next rfl (Nat.le_refl _)) h1
  refine ⟨a, ⟨b, ⟨_, c, d⟩, hok.mono a, hs⟩, d, ?_, c⟩
  rw [e]
  exact Nat.le_succ _

/-- Changing references only. -/
theorem MdOK.withRefs {fs : FS} {md : Metadata} (h : MdOK fs md) {refs : AMap String Ref}
    (hr : ∀ name r, refs.get? name = some r → (md.snaps.get? r.id).isSome)
    (hm : refs.get? mainBranch = none) (hk : (AMap.keys refs).Nodup) :
    MdOK fs { md with refs := refs } :=
  { h with refs := hr, noMain := hm, refKeys := hk }

/-! ## Patching manifests -/

theorem dropManifests_spec (del : List Path) : ∀ (ms : List Path), ms.Nodup →
    (dropManifests ms del).1 = ms.filter (fun m => !del.contains m) ∧
      (dropManifests ms del).2 = del.filter (fun d => !ms.contains d)
  | [], _ => by simp [dropManifests]; exact (List.filter_eq_self.mpr (by simp)).symm
  | m :: ms, hn => by
    have hn' := List.nodup_cons.mp hn
    obtain ⟨h1, h2⟩ := dropManifests_spec del ms hn'.2
    have hd : dropManifests (m :: ms) del =
        if m ∈ (dropManifests ms del).2 then
          ((dropManifests ms del).1, (dropManifests ms del).2.filter (· ≠ m))
        else (m :: (dropManifests ms del).1, (dropManifests ms del).2) := rfl
    rw [hd]
    have hmem : m ∈ (dropManifests ms del).2 ↔ m ∈ del := by
      rw [h2, List.mem_filter]
      simp [hn'.1]
    by_cases hm : m ∈ del
    · rw [if_pos (hmem.mpr hm)]
      refine ⟨?_, ?_⟩
      · simp only [h1, List.filter_cons, List.contains_eq_mem, hm, decide_true, Bool.not_true,
          Bool.false_eq_true, ite_false]
      · simp only [h2, List.filter_filter]
        refine List.filter_congr fun d _ => ?_
        by_cases hdm : d = m
        · simp [hdm]
        · simp [hdm]
    · rw [if_neg (fun h => hm (hmem.mp h))]
      refine ⟨?_, ?_⟩
      · simp only [h1, List.filter_cons, List.contains_eq_mem, hm, decide_false, Bool.not_false,
          ite_true]
      · simp only [h2]
        refine List.filter_congr fun d hdd => ?_
        have : d ≠ m := by rintro rfl; exact hm hdd
        simp [this]

theorem patchManifests_ok {index recs : List Path} {p : Patch} {out : List Path × List Path}
    (hn : index.Nodup) (h : patchManifests index recs p = .ok out) :
    out.1 = index.filter (fun m => !p.delIdx.contains m) ++ p.addIdx ∧ out.2 = recs ++ p.addRec ∧
      (∀ d ∈ p.delIdx, d ∈ index) ∧ out.1.Nodup ∧ out.2.Nodup := by
  obtain ⟨h1, h2⟩ := dropManifests_spec p.delIdx index hn
  unfold patchManifests at h
  simp only at h
  split at h
  · cases h
  · rename_i hl
    split at h
    · rename_i hnd
      simp only [Except.ok.injEq] at h
      subst h
      simp only [h1] at hnd ⊢
      refine ⟨trivial, trivial, ?_, hnd.1, hnd.2⟩
      intro d hd
      have : p.delIdx.filter (fun d => !index.contains d) = [] := by
        rw [← h2]; simpa using hl
      have := List.filter_eq_nil_iff.mp this d hd
      simpa using this
    · cases h

theorem patchManifests_complete {index recs : List Path} {p : Patch} (hn : index.Nodup)
    (hd : ∀ d ∈ p.delIdx, d ∈ index)
    (h1 : (index.filter (fun m => !p.delIdx.contains m) ++ p.addIdx).Nodup)
    (h2 : (recs ++ p.addRec).Nodup) :
    patchManifests index recs p =
      .ok (index.filter (fun m => !p.delIdx.contains m) ++ p.addIdx, recs ++ p.addRec) := by
  obtain ⟨e1, e2⟩ := dropManifests_spec p.delIdx index hn
  unfold patchManifests
  have : (dropManifests index p.delIdx).2 = [] := by
    rw [e2, List.filter_eq_nil_iff]
    intro d hdd
    simpa using hd d hdd
  simp only [this, e1, ne_eq, not_true_eq_false, ite_false]
  rw [if_pos ⟨h1, h2⟩]

/-! ## Commit -/

/-- A patch refers to existing, well-formed manifests. -/
structure PatchOK (fs : FS) (s : Schema) (p : Patch) : Prop where
  idx : ∀ q ∈ p.addIdx, ManifestOK fs s q
  recs : ∀ q ∈ p.addRec, RecManifestOK fs q
  log : ∀ cl, p.log = some cl → LogOK fs s cl

theorem PatchOK.mono {fs fs' : FS} {s : Schema} {p : Patch} (hf : FSLe fs fs')
    (h : PatchOK fs s p) : PatchOK fs' s p where
  idx := fun q hq => (h.idx q hq).mono hf
  recs := fun q hq => (h.recs q hq).mono hf
  log := fun cl hc => (h.log cl hc).mono hf

/-- `md'` is `md` with a new snapshot `snap` at the head of `branch`, the result of
applying `p` to the former head `cur`. -/
structure Committed (fs' : FS) (md md' : Metadata) (branch : String) (p : Patch) (n : Nat)
    (cur snap : Snapshot) : Prop where
  head : md.currentId branch = .ok cur.id
  curGet : md.snaps.get? cur.id = some cur
  schema : md'.schema = md.schema
  snaps : md'.snaps = md.snaps.set n snap
  move : (branch = mainBranch ∧ md'.current = n ∧ md'.refs = md.refs) ∨
    (branch ≠ mainBranch ∧ md'.current = md.current ∧ ∃ r, md.refs.get? branch = some r ∧
      r.kind = .branch ∧ md'.refs = md.refs.set branch { r with id := n })
  id : snap.id = n
  parent : snap.parent = some cur.id
  index : snap.index = cur.index.filter (fun m => !p.delIdx.contains m) ++ p.addIdx
  recs : snap.recs = cur.recs ++ p.addRec
  del : ∀ d ∈ p.delIdx, d ∈ cur.index
  nodup : snap.index.Nodup
  nodupRecs : snap.recs.Nodup
  stats : snap.stats = (cur.stats.addIndex p.stats).addRecord p.stats
  log : (p.log = none ∧ snap.log = none) ∨
    ∃ cl q, p.log = some cl ∧ snap.log = some q ∧ fs'.log q = some cl

theorem advance_ok {fs : FS} {md md1 : Metadata} {branch : String} {n : Nat} {cur : Snapshot}
    (hok : MdOK fs md) (h : md.advance branch n = .ok (md1, cur)) :
    md.currentId branch = .ok cur.id ∧ md.snaps.get? cur.id = some cur ∧ md1.schema = md.schema ∧
      md1.snaps = md.snaps ∧
      ((branch = mainBranch ∧ md1.current = n ∧ md1.refs = md.refs) ∨
        (branch ≠ mainBranch ∧ md1.current = md.current ∧ ∃ r, md.refs.get? branch = some r ∧
          r.kind = .branch ∧ md1.refs = md.refs.set branch { r with id := n })) := by
  have snapshot_ok : ∀ {k sn}, md.snapshot k = .ok sn → md.snaps.get? k = some sn := by
    intro k sn h
    unfold Metadata.snapshot at h
    split at h <;> simp_all
  unfold Metadata.advance at h
  split at h
  · rename_i hb
    split at h
    · cases h
    · rename_i r hr
      split at h
      · cases h
      · rename_i hk
        split at h
        · cases h
        · rename_i sn hsn
          simp only [Except.ok.injEq, Prod.mk.injEq] at h
          obtain ⟨rfl, rfl⟩ := h
          have hsn := snapshot_ok hsn
          have hid := hok.ids _ _ hsn
          have hget : md.refs.get? branch = some r := by
            unfold Metadata.lookupRef at hr
            split at hr <;> simp_all
          refine ⟨?_, by rw [hid]; exact hsn, rfl, rfl, Or.inr ⟨hb, rfl, r, hget, by simpa using hk, rfl⟩⟩
          unfold Metadata.currentId
          rw [if_neg hb, hr, hid]
          rfl
  · rename_i hb
    have hb : branch = mainBranch := by simpa using hb
    split at h
    · cases h
    · rename_i sn hsn
      simp only [Except.ok.injEq, Prod.mk.injEq] at h
      obtain ⟨rfl, rfl⟩ := h
      have hsn := snapshot_ok hsn
      have hid := hok.ids _ _ hsn
      refine ⟨?_, by rw [hid]; exact hsn, rfl, rfl, Or.inl ⟨hb, rfl, rfl⟩⟩
      unfold Metadata.currentId
      rw [if_pos hb, hid]

/-- The new metadata is well-formed. -/
theorem Committed.mdOK {fs fs' : FS} {md md' : Metadata} {branch : String} {p : Patch} {n : Nat}
    {cur snap : Snapshot} (hf : FSLe fs fs') (hok : MdOK fs md) (hp : PatchOK fs' md.schema p)
    (h : Committed fs' md md' branch p n cur snap) (hn : md.maxRefId < n) : MdOK fs' md' := by
  have hcur : cur.id ≤ md.maxRefId := by
    rcases h.move with ⟨hb, _, _⟩ | ⟨hb, _, r, hr, _, _⟩
    · have := h.head
      simp only [Metadata.currentId, hb, ite_true, Except.ok.injEq] at this
      rw [← this]; exact current_le_max md
    · have := h.head
      simp only [Metadata.currentId, hb, ite_false, Metadata.lookupRef, hr, Except.map,
        Except.ok.injEq] at this
      rw [← this]; exact ref_le_max hr
  have hsome : ∀ k, (md.snaps.get? k).isSome → (md'.snaps.get? k).isSome := by
    intro k hk
    rw [h.snaps, AMap.get?_set]
    split
    · rfl
    · exact hk
  have hnew : (md'.snaps.get? n).isSome := by rw [h.snaps]; simp
  refine ⟨?_, ?_, ?_, ?_, ?_, ?_, ?_, ?_, ?_, ?_⟩
  · intro k sn hk
    rw [h.snaps, AMap.get?_set] at hk
    split at hk
    · rename_i he; cases hk; rw [he]; exact h.id
    · exact hok.ids k sn hk
  · intro k sn hk
    rw [h.schema]
    rw [h.snaps, AMap.get?_set] at hk
    split at hk
    · cases hk
      have hc := (hok.snaps _ _ h.curGet).mono hf
      refine ⟨?_, ?_, h.nodup, h.nodupRecs, ?_⟩
      · intro q hq
        rw [h.index] at hq
        rcases List.mem_append.mp hq with hq | hq
        · exact hc.manifests q (List.mem_filter.mp hq).1
        · exact hp.idx q hq
      · intro q hq
        rw [h.recs] at hq
        rcases List.mem_append.mp hq with hq | hq
        · exact hc.records q hq
        · exact hp.recs q hq
      · intro q hq
        rcases h.log with ⟨_, h0⟩ | ⟨cl, q', h0, h1, h2⟩
        · rw [h0] at hq; cases hq
        · rw [h1] at hq; cases hq; exact ⟨cl, h2, hp.log cl h0⟩
    · exact (hok.snaps k sn hk).mono hf
  · intro k sn q hk hq
    rw [h.snaps, AMap.get?_set] at hk
    split at hk
    · rename_i he
      cases hk
      rw [h.parent] at hq
      cases hq
      exact ⟨by omega, hsome _ (by simp [h.curGet])⟩
    · obtain ⟨a, b⟩ := hok.parents k sn q hk hq
      exact ⟨a, hsome _ b⟩
  · intro k sn hk hq
    rw [h.snaps, AMap.get?_set] at hk
    split at hk
    · cases hk; rw [h.parent] at hq; cases hq
    · exact hok.roots k sn hk hq
  · rw [h.snaps, AMap.get?_set_ne _ _ (by omega)]
    exact hok.zero
  · rcases h.move with ⟨_, hc, _⟩ | ⟨_, hc, _⟩
    · rw [hc]; exact hnew
    · rw [hc]; exact hsome _ hok.cur
  · intro name r hr
    rcases h.move with ⟨_, _, hrf⟩ | ⟨_, _, r0, hr0, _, hrf⟩
    · rw [hrf] at hr; exact hsome _ (hok.refs name r hr)
    · rw [hrf, AMap.get?_set] at hr
      split at hr
      · cases hr; exact hnew
      · exact hsome _ (hok.refs name r hr)
  · rcases h.move with ⟨_, _, hrf⟩ | ⟨hb, _, r0, hr0, _, hrf⟩
    · rw [hrf]; exact hok.noMain
    · rw [hrf, AMap.get?_set_ne _ _ (Ne.symm hb)]; exact hok.noMain
  · rw [h.snaps]; exact AMap.keys_set_nodup hok.snapKeys
  · rcases h.move with ⟨_, _, hrf⟩ | ⟨_, _, _, _, _, hrf⟩
    · rw [hrf]; exact hok.refKeys
    · rw [hrf]; exact AMap.keys_set_nodup hok.refKeys

theorem Committed.maxRefId {fs' : FS} {md md' : Metadata} {branch : String} {p : Patch} {n : Nat}
    {cur snap : Snapshot} (h : Committed fs' md md' branch p n cur snap) (hn : md.maxRefId < n) :
    md'.maxRefId ≤ n := by
  refine max_le ?_ ?_
  · rcases h.move with ⟨_, hc, _⟩ | ⟨_, hc, _⟩
    · omega
    · have := current_le_max md; omega
  · intro x hx
    have hall : ∀ y ∈ md.refs, y.2.id ≤ n := by
      intro y hy
      have : ∀ l : List (String × Ref), y ∈ l → y.2.id ≤ (l.map (·.2.id)).foldr max md.current := by
        intro l
        induction l with
        | nil => intro h; simp at h
        | cons a l ih =>
          intro hm
          simp only [List.map_cons, List.foldr_cons]
          rcases List.mem_cons.mp hm with rfl | hm
          · omega
          · have := ih hm; omega
      have := this md.refs hy
      unfold Metadata.maxRefId at hn
      omega
    rcases h.move with ⟨_, _, hrf⟩ | ⟨_, _, r0, hr0, _, hrf⟩
    · rw [hrf] at hx; exact hall x hx
    · rw [hrf] at hx
      revert hx
      generalize hl : md.refs = l
      rw [hl] at hall
      clear hl hrf hr0
      induction l with
      | nil => intro hx; simp only [AMap.set, List.mem_singleton] at hx; subst hx; simp
      | cons a l ih =>
        intro hx
        obtain ⟨k, v⟩ := a
        simp only [AMap.set] at hx
        split at hx
        · rcases List.mem_cons.mp hx with rfl | hx
          · simp
          · exact hall x (List.mem_cons_of_mem _ hx)
        · rcases List.mem_cons.mp hx with rfl | hx
          · exact hall _ (List.mem_cons_self ..)
          · exact ih (fun y hy => hall y (List.mem_cons_of_mem _ hy)) hx

/-- `Storage.commit`; the metadata of the handle need not be the stored one. -/
theorem commit_post {s : Schema} {w : World} {md : Metadata} {h : Handle} {p : Patch}
    {branch : String} (hw : WOK s w md) (hh : HandleOK s w h) (hfull : h.full = false)
    (hp : PatchOK w.fs s p) :
    Post (commit p branch (h, w))
      (fun _ st => ∃ cur snap, FSLe w.fs st.2.fs ∧ w.next ≤ st.2.next ∧
        WOK s st.2 st.1.md ∧ HandleOK s st.2 st.1 ∧ st.1.branch = h.branch ∧
        st.1.maxId = h.maxId + 1 ∧
        Committed st.2.fs h.md st.1.md branch p (h.maxId + 1) cur snap ∧ Installs w st.2)
      (fun st => Grows w st.2 ∧ st.1 = { h with maxId := h.maxId + 1 }) := by
  unfold commit
  refine Post.bind (Q := fun a st => h = a ∧ st = (h, w)) ⟨rfl, rfl⟩ ?_
  rintro a _ ⟨ha, rfl⟩
  subst ha
  refine Post.bind (Q := fun _ st => st = (({ h with maxId := h.maxId + 1 } : Handle), w)) (by exact rfl) ?_
  rintro _ _ rfl
  refine Post.bind (Q := fun a st => h.md.advance branch (h.maxId + 1) = .ok a ∧
    st = (({ h with maxId := h.maxId + 1 } : Handle), w))
    (Post.lift (fun a ha => ⟨ha, rfl⟩) ⟨Grows.refl w, rfl⟩) ?_
  rintro ⟨md1, cur⟩ _ ⟨hadv, rfl⟩
  obtain ⟨a1, a2, a3, a4, a5⟩ := advance_ok hh.ok hadv
  refine Post.bind (Q := fun a st => a = w.next ∧
    st = (({ h with maxId := h.maxId + 1 } : Handle), { w with next := w.next + 1 })) ⟨rfl, rfl⟩ ?_
  rintro _ _ ⟨rfl, rfl⟩
  have g1 := Grows.fresh' w
  refine Post.bind (Q := fun a st => patchManifests cur.index cur.recs p = .ok a ∧
    st = (({ h with maxId := h.maxId + 1 } : Handle), { w with next := w.next + 1 }))
    (Post.lift (fun a ha => ⟨ha, rfl⟩) ⟨g1, rfl⟩) ?_
  rintro ⟨idx, rc⟩ _ ⟨hpm, rfl⟩
  obtain ⟨b1, b2, b3, b4, b5⟩ := patchManifests_ok (hh.ok.snaps _ _ a2).nodup hpm
  simp only at b1 b2 b4 b5
  -- the change log
  refine Post.bind (Q := fun log st => st.1 = { h with maxId := h.maxId + 1 } ∧
      Grows { w with next := w.next + 1 } st.2 ∧
      AMap.get? st.2.fs (.metadata w.next) = none ∧
      ((p.log = none ∧ log = none) ∨ ∃ cl q, p.log = some cl ∧ log = some q ∧
        st.2.fs.log q = some cl)) ?_ ?_
  · cases hl : p.log with
    | none =>
      refine Post.pure ⟨rfl, Grows.refl _, hw.fresh _ w.next rfl (Nat.le_refl _), Or.inl ⟨rfl, rfl⟩⟩
    | some cl =>
      have hnone : AMap.get? w.fs (.changeLog (w.next + 1)) = none :=
        hw.fresh _ (w.next + 1) rfl (Nat.le_succ _)
      have hg : Grows { w with next := w.next + 1 }
          (({ w with next := w.next + 1 + 1 } : World).put (.changeLog (w.next + 1)) (.log cl)) :=
        (Grows.fresh' { w with next := w.next + 1 }).trans
          (Grows.put (w := { w with next := w.next + 1 + 1 }) (u := w.next + 1) rfl
            (Nat.lt_succ_self _) hnone)
      refine ⟨rfl, hg, ?_, Or.inr ⟨cl, .changeLog (w.next + 1), rfl, rfl, log_set _⟩⟩
      show AMap.get? (AMap.set w.fs (.changeLog (w.next + 1)) (.log cl)) (.metadata w.next) = none
      rw [AMap.get?_set_ne _ _ (by simp)]
      exact hw.fresh _ w.next rfl (Nat.le_refl _)
  rintro log ⟨h1, w1⟩ ⟨rfl, g2, hmn, hlog⟩
  simp only at g2 hmn hlog
  have g12 := g1.trans g2
  obtain ⟨pe, he, _⟩ := hw.stored
  have hlt : w.next < w1.next := by have := g2.next; simp only at this; omega
  have hstep : ∀ (md' : Metadata) (st : Handle × World), liftW (writeMetadata (.metadata w.next) md')
      (({ h with maxId := h.maxId + 1 } : Handle), w1) =
      (.ok (), ({ h with maxId := h.maxId + 1 }, w1.written w.next md')) := fun _ _ => rfl
  refine Post.bind (Q := fun _ st => st = (({ h with maxId := h.maxId + 1 } : Handle), w1.written w.next
    { md1 with
      snaps := md1.snaps.set (h.maxId + 1)
        { id := h.maxId + 1, index := idx, recs := rc,
          stats := (cur.stats.addIndex p.stats).addRecord p.stats,
          log := log, parent := some cur.id } })) (by exact rfl) ?_
  rintro _ _ rfl
  obtain ⟨c1, c2, c3, c4, c5⟩ := written_facts (w := w1) (u := w.next)
    (md := { md1 with
      snaps := md1.snaps.set (h.maxId + 1)
        { id := h.maxId + 1, index := idx, recs := rc,
          stats := (cur.stats.addIndex p.stats).addRecord p.stats,
          log := log, parent := some cur.id } })
    (g12.fresh hw.fresh) hlt hmn (by rw [entry_of_grows g12]; exact he)
  generalize hmd : ({ md1 with
      snaps := md1.snaps.set (h.maxId + 1)
        { id := h.maxId + 1, index := idx, recs := rc,
          stats := (cur.stats.addIndex p.stats).addRecord p.stats,
          log := log, parent := some cur.id } } : Metadata) = md' at c1 c2 c3 c4 c5 ⊢
  have hcom : Committed (w1.written w.next md').fs h.md md' branch p (h.maxId + 1) cur
      { id := h.maxId + 1, index := idx, recs := rc,
          stats := (cur.stats.addIndex p.stats).addRecord p.stats,
          log := log, parent := some cur.id } := by
    subst hmd
    refine ⟨a1, a2, a3, by rw [a4], a5, rfl, rfl, b1, b2, b3, b4, b5, rfl, ?_⟩
    rcases hlog with h0 | ⟨cl, q, h0, h1, h2⟩
    · exact Or.inl h0
    · exact Or.inr ⟨cl, q, h0, h1, c1.log h2⟩
  have hle : FSLe w.fs (w1.written w.next md').fs := g12.le.trans c1
  have hlt' : h.md.maxRefId < h.maxId + 1 := Nat.lt_succ_of_le (hh.max hfull)
  have hmd' := hcom.mdOK hle hh.ok (by rw [hh.schema]; exact hp.mono hle) hlt'
  refine Post.bind (Q := fun a st => a = { h with maxId := h.maxId + 1 } ∧
    st = (({ h with maxId := h.maxId + 1 } : Handle), w1.written w.next md')) ⟨rfl, rfl⟩ ?_
  rintro _ _ ⟨rfl, rfl⟩
  refine ⟨cur, _, hle, ?_, ⟨c2, ⟨_, c3, c4⟩, hmd', by rw [hcom.schema]; exact hh.schema⟩,
    ⟨c4, hmd', by rw [hcom.schema]; exact hh.schema, fun _ => hcom.maxRefId hlt'⟩, rfl, rfl, hcom,
    ⟨w1.put (.metadata w.next) (.mdata md'), _, g12.trans (Grows.put (u := w.next) rfl hlt hmn), rfl⟩⟩
  show w.next ≤ (w1.written w.next md').next
  rw [c5]; omega

end Space
