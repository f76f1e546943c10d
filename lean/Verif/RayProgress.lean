import Verif.Progress

/-! # Distributed writes of rows that fit end normally -/

namespace Space

section
variable {E : Env} {s : Schema} {w : World}

/-- Actors that hold and are given rows that fit. -/
def ActorsFit (s : Schema) (as : List Actor) : Prop :=
  ∀ a ∈ as, (OpFit s a.1 ∧ a.1.addrInput = false) ∧ ∀ t ∈ a.2, ∀ r ∈ t, Takes s r

theorem actorStep_total (hk : KeySchema s) (hlast : s.writeNames = s.names) {as : List Actor}
    (h : ActorsFit s as) (i : Nat) : Total (actorStep E s i as w) (fun as' _ => ActorsFit s as') := by
  unfold actorStep
  cases ha : as[i]? with
  | none => exact Post.pure h
  | some a =>
    obtain ⟨op, q⟩ := a
    cases q with
    | nil => exact Post.pure h
    | cons t ts =>
      obtain ⟨⟨h1, h2⟩, h3⟩ := h _ (List.mem_of_getElem? ha)
      refine Post.bind (write_total hk hlast h1 h2 (h3 t (List.mem_cons_self ..))) ?_
      intro op' w' h4
      refine Post.pure fun a hmem => ?_
      rcases List.mem_or_eq_of_mem_set hmem with hmem | rfl
      · exact h a hmem
      · exact ⟨h4, fun t' ht' => h3 t' (List.mem_cons_of_mem _ ht')⟩

theorem actorsRun_total (hk : KeySchema s) (hlast : s.writeNames = s.names) : ∀ (sched : List Nat) {w : World}
    {as : List Actor} (_ : ActorsFit s as), Total (actorsRun E s sched as w) (fun as' _ => ActorsFit s as')
  | [], _, _, h => Post.pure h
  | i :: sched, _, _, h => by
    unfold actorsRun
    exact Post.bind (actorStep_total hk hlast h i) fun as1 w1 h1 => actorsRun_total hk hlast sched h1

theorem finishActors_total (hk : KeySchema s) : ∀ (as : List Actor) {w : World} (_ : ActorsFit s as),
    Total (finishActors E s as w) (fun _ _ => True)
  | [], _, _ => Post.pure trivial
  | (op, q) :: as, _, h => by
    unfold finishActors
    refine Post.bind (finish_total (Schema.keysLeaf_of_keysFirst hk.first) hk.fids (h _ (List.mem_cons_self ..)).1.1) ?_
    intro p w1 _
    refine Post.bind (finishActors_total hk as (fun a ha => h a (List.mem_cons_of_mem _ ha))) ?_
    intro ps w2 _
    exact Post.pure trivial

theorem rayWrite_total (hk : KeySchema s) (hlast : s.writeNames = s.names) (sched : List Nat)
    {qs : List (List (List Row))} (hq : ∀ q ∈ qs, ∀ t ∈ q, ∀ r ∈ t, Takes s r) :
    Total (rayWrite E s sched qs w) (fun _ _ => True) := by
  unfold rayWrite
  refine Post.bind (actorsRun_total hk hlast sched ?_) ?_
  · intro a ha
    obtain ⟨q, hqm, rfl⟩ := List.mem_map.mp ha
    exact ⟨⟨⟨by simp, by simp⟩, rfl⟩, hq q hqm⟩
  intro as1 w1 h1
  refine Post.bind (actorsRun_total hk hlast (drain as1) h1) ?_
  intro as2 w2 h2
  refine Post.bind (finishActors_total hk as2 h2) ?_
  intro ps w3 _
  exact Post.pure trivial

theorem Takes.of_perm {qs : List (List (List Row))} {rows : List Row} (hp : qs.flatten.flatten.Perm rows)
    (hr : ∀ r ∈ rows, Takes s r) : ∀ q ∈ qs, ∀ t ∈ q, ∀ r ∈ t, Takes s r := by
  intro q hq t ht r hrt
  exact hr r (hp.subset (List.mem_flatten.mpr ⟨t, List.mem_flatten.mpr ⟨q, hq, ht⟩, hrt⟩))

theorem Gathered.isSome_eq {w w' : World} {P rows : List Row} {p : Option Patch} (h : Gathered E s w w' P p)
    (hp : (P.map (deref w'.fs.records s)).Perm (rows.map (·.select s.writeNames))) : p.isSome = decide (rows ≠ []) := by
  have hlen := hp.length_eq
  simp only [List.length_map] at hlen
  cases p with
  | none =>
    rw [h.none_iff.mp rfl] at hlen
    simp [List.length_eq_zero_iff.mp hlen.symm]
  | some q =>
    have : rows ≠ [] := by
      rintro rfl
      exact absurd (h.none_iff.mpr (List.length_eq_zero_iff.mp hlen)) (by simp)
    simp [this]

/-- A Ray append of rows that fit ends normally. -/
theorem rayAppendBody_total (hk : KeySchema s) (hlast : s.writeNames = s.names) (hf : w.Fresh) {n : Nat}
    (hn : n ≠ 0) (sched : List Nat) {rows : List Row} (hr : ∀ r ∈ rows, Takes s r) :
    Total (rayAppendBody E s n sched rows w) (fun p _ => p.isSome = decide (rows ≠ [])) := by
  have htot : Total (rayAppendBody E s n sched rows w) (fun _ _ => True) := by
    unfold rayAppendBody
    cases hq : shardQueues n rows with
    | error e => simp [shardQueues, hn] at hq
    | ok qs =>
      refine Post.bind (Q := fun a b => a = qs ∧ w = b) ⟨rfl, rfl⟩ ?_
      rintro _ _ ⟨rfl, rfl⟩
      exact rayWrite_total hk hlast sched (Takes.of_perm (shardQueues_perm hq) hr)
  refine (htot.and (rayAppendBody_post (E := E) (s := s) hf n sched rows)).imp ?_ (fun _ h => h)
  rintro p w' ⟨-, -, -, P, h1, h2⟩
  exact h1.isSome_eq h2

/-- A Ray append of sources of rows that fit ends normally. -/
theorem rayAppendFromAll_total (hk : KeySchema s) (hlast : s.writeNames = s.names) (hf : w.Fresh) {n : Nat}
    {sources : List (List (List Row))} (hn : n = 0 → sources = []) (sched : List Nat)
    (hr : ∀ r ∈ sources.flatten.flatten, Takes s r) :
    Total (rayAppendFromAll E s n sched sources w) (fun p _ => p.isSome = decide (sources.flatten.flatten ≠ [])) := by
  have htot : Total (rayAppendFromAll E s n sched sources w) (fun _ _ => True) := by
    unfold rayAppendFromAll
    cases hq : sourceQueues n sources with
    | error e =>
      unfold sourceQueues at hq
      split at hq
      · rename_i h0
        exact absurd (hn h0.1) h0.2
      · cases hq
    | ok qs =>
      refine Post.bind (Q := fun a b => a = qs ∧ w = b) ⟨rfl, rfl⟩ ?_
      rintro _ _ ⟨rfl, rfl⟩
      exact rayWrite_total hk hlast sched (Takes.of_perm (sourceQueues_perm hq) hr)
  refine (htot.and (rayAppendFromAll_post (E := E) (s := s) hf n sched sources)).imp ?_ (fun _ h => h)
  rintro p w' ⟨-, -, -, P, h1, h2⟩
  exact h1.isSome_eq h2

/-- The check for existing keys file by file. -/
theorem rayMatched_ok {fs : FS} {e : Expr} : ∀ {files : List DataFile}
    (_ : ∀ f ∈ files, ∃ m n, EntryOK fs fs.records s m ∧ f = toDataFile n m) (_ : ∀ k ∈ s.pks, k ∈ s.names)
    (_ : ∀ f ∈ files, filterRows E.I (some e) (fileRows fs f.path) = []),
    rayMatched E fs s e files = .ok false
  | [], _, _, _ => rfl
  | f :: files, hf, hk, hno => by
    unfold rayMatched
    rw [rayMatched_ok (fun g hg => hf g (List.mem_cons_of_mem _ hg)) hk (fun g hg => hno g (List.mem_cons_of_mem _ hg))]
    obtain ⟨bs, h1, h2, -⟩ := readFiles_eq (E := E) (fs := fs) (s := s)
        (o := { filter := some e, fields := some s.pks }) (by simpa [ReadOpts.cols] using hk) rfl
        [f] (fun f => filterRows E.I (some e) (fileRows fs f.path))
        (fun g hg => by
          rw [List.mem_singleton] at hg
          subst hg
          obtain ⟨m, n, ⟨g, hg, _⟩, rfl⟩ := hf g (List.mem_cons_self ..)
          simp [toDataFile, hg])
        (fun g hg => by
          rw [List.mem_singleton] at hg
          subst hg
          obtain ⟨m, n, -, rfl⟩ := hf g (List.mem_cons_self ..)
          rfl)
        (fun g hg r hr => by
          rw [List.mem_singleton] at hg
          subst hg
          obtain ⟨m, n, hm', rfl⟩ := hf g (List.mem_cons_self ..)
          exact fileRows_mem hm' r (filterRows_subset r hr))
    have hz := hno f (List.mem_cons_self ..)
    simp only [List.flatMap_cons, List.flatMap_nil, List.append_nil, hz, List.map_nil] at h2
    rw [List.flatten_eq_nil_iff] at h2
    have hfm : filterMatched E fs s [f] e = .ok false := by
      unfold filterMatched
      rw [h1]
      simp only [Except.ok.injEq, List.any_eq_false]
      intro b hb
      simp [h2 b hb]
    rw [hfm]
    rfl

/-- A Ray insert of rows that fit, with new keys, succeeds; so does an upsert. -/
theorem rayInsertBody_total (hk : KeySchema s) (hlast : s.writeNames = s.names) {h : Handle} {cur : Snapshot}
    (hf : w.Fresh) (hh : HandleOK s w h) (hs : h.snapshot none = .ok cur) {mode : InsertMode} {n : Nat}
    (hn0 : n ≠ 0) (sched : List Nat) {data : List Row}
    (hd : data ≠ []) (ht : ∀ r ∈ data, Takes s r) (hnd : (data.map (keyOf s.pks)).Nodup)
    (hnew : mode = .insert → ∀ r ∈ physRows w.fs cur.index, keyOf s.pks r ∉ data.map (keyOf s.pks))
    (hup : mode = .upsert → KeysSet s (physRows w.fs cur.index) ∧
      ∀ q ∈ cur.index, ∀ m ∈ entriesOf w.fs q, fileRows w.fs m.file ≠ []) :
    Total (rayInsertBody E h mode n sched data w) (fun p _ => p.isSome = true) := by
  unfold rayInsertBody
  rw [if_neg hd, hh.schema]
  obtain ⟨e, he⟩ := primaryKeyFilter_total hk.some hd
    (fun r hr k hkm => (ht r hr).cols k (hk.keys k hkm)) (fun r hr k hkm => ((ht r hr).keys k hkm).imp fun _ h => h.1) hnd
  rw [he]
  refine Post.bind (Q := fun a b => a = some e ∧ w = b) ⟨rfl, rfl⟩ ?_
  rintro _ b ⟨rfl, hb⟩
  subst hb
  refine Post.bind (Q := fun a b => w = a ∧ w = b) (Post.get ⟨rfl, rfl⟩) ?_
  rintro a b ⟨ha, hb⟩
  subst ha
  subst hb
  obtain ⟨hke, hsem, -, -, -⟩ := primaryKeyFilter_sem he E.I
  obtain ⟨mf, hmf⟩ := (hk.fits hke).filter
  have hman := (snapshot_manifests hh hs).manifests
  have hdf : dataFiles w.fs h (some e) none = .ok (visited w.fs mf cur.index) :=
    dataFiles_eq (fs := w.fs) (filter := some e) hs (by rw [hh.schema]; exact hmf)
      (by rw [hh.schema]; exact hman)
  rw [hdf]
  refine Post.bind (Q := fun a b => a = visited w.fs mf cur.index ∧ w = b) ⟨rfl, rfl⟩ ?_
  rintro _ b ⟨rfl, hb⟩
  subst hb
  refine Post.bind (Q := fun _ w1 => w1.Fresh) ?_ ?_
  · split
    · exact Post.pure hf
    rename_i hne
    cases mode with
    | upsert =>
      refine ((deleteSet_total hk hlast hf hman (hup rfl).1 hne (hup rfl).2).and
        (deleteSet_post hf hman)).imp ?_ (fun _ h => h)
      rintro p w' ⟨-, -, h2, -⟩
      exact h2
    | insert =>
      have hfiles : ∀ f ∈ (visited w.fs mf cur.index).files,
          ∃ q ∈ cur.index, ∃ m ∈ entriesOf w.fs q, ∃ n, EntryOK w.fs w.fs.records s m ∧ f = toDataFile n m := by
        intro f hfm
        obtain ⟨q, hq, m, hm, n, rfl, -, -⟩ := packFiles_mem hfm
        have hq' := (List.mem_filter.mp hq).1
        have hm' := (List.mem_filter.mp hm).1
        exact ⟨q, hq', m, hm', n, (hman q hq').entry hm', rfl⟩
      have hmat : rayMatched E w.fs s e (visited w.fs mf cur.index).files = .ok false := by
        refine rayMatched_ok (fun f hfm => ?_) hk.keys (fun f hfm => ?_)
        · obtain ⟨q, hq, m, hm, n, h1, h2⟩ := hfiles f hfm
          exact ⟨m, n, h1, h2⟩
        · obtain ⟨q, hq, m, hm, n, -, rfl⟩ := hfiles f hfm
          simp only [filterRows, List.filter_eq_nil_iff]
          intro r hr hh
          have htr : e.truth E.I r = some true := by simpa [Expr.holds] using hh
          obtain ⟨d, hdm, hde, -⟩ := (hsem r).mp htr
          exact hnew rfl r (List.mem_flatMap.mpr ⟨q, hq, List.mem_flatMap.mpr ⟨m, hm, hr⟩⟩)
            (List.mem_map.mpr ⟨d, hdm, hde⟩)
      simp only [hmat]
      exact hf
  intro dp w1 f1
  refine Post.bind (rayAppendBody_total hk hlast f1 hn0 sched ht) ?_
  intro ap w2 hap
  refine Post.pure ?_
  rw [merge_two]
  cases ap with
  | none => simp [hd] at hap
  | some a => cases dp <;> rfl

theorem visited_nil {fs : FS} {mf : Option MExpr} {index : List Path} (h : (visited fs mf index).files = []) :
    (visited fs mf index).manifests = [] := by
  unfold visited at h ⊢
  cases hl : index.filter (fun p => decide (keptEntries fs mf p ≠ [])) with
  | nil => rfl
  | cons q l =>
    have hq : q ∈ index.filter (fun p => decide (keptEntries fs mf p ≠ [])) := by rw [hl]; simp
    have := (List.mem_filter.mp hq).2
    rw [hl] at h
    simp only [packFiles, List.append_eq_nil_iff, List.map_eq_nil_iff] at h
    simp [h.1] at this

/-- A delete that visits a file ends normally. -/
theorem deleteBody_total (hk : KeySchema s) (hlast : s.writeNames = s.names) {h : Handle} {cur : Snapshot}
    (hf : w.Fresh) (hh : HandleOK s w h) (hs : h.snapshot none = .ok cur) {e : Expr} {mf : Option MExpr}
    (hm : manifestFilter s (some e) = .ok mf) (hset : KeysSet s (physRows w.fs cur.index))
    (hrows : ∀ q ∈ cur.index, ∀ m ∈ entriesOf w.fs q, fileRows w.fs m.file ≠ []) :
    ((visited w.fs mf cur.index).files = [] ∧ deleteBody E h e w = (.error .runtime, w)) ∨
    ((visited w.fs mf cur.index).files ≠ [] ∧ Total (deleteBody E h e w)
      (fun p _ => p.isSome = true ↔ ∃ q ∈ cur.index, hasMod E.I e w.fs mf q = true)) := by
  have hman := (snapshot_manifests hh hs).manifests
  have hdf : dataFiles w.fs h (some e) none = .ok (visited w.fs mf cur.index) :=
    dataFiles_eq (fs := w.fs) (filter := some e) hs (by rw [hh.schema]; exact hm)
      (by rw [hh.schema]; exact hman)
  by_cases hne : (visited w.fs mf cur.index).files = []
  · refine Or.inl ⟨hne, ?_⟩
    have hman0 : (visited w.fs mf cur.index).manifests = [] := visited_nil hne
    have hz : visited w.fs mf cur.index = {} := by
      cases hv : visited w.fs mf cur.index
      rw [hv] at hne hman0
      cases hne
      cases hman0
      rfl
    rw [hz] at hdf
    simp [deleteBody, deleteFiles, hdf, validateFiles, bind, M.andThen, M.get, M.lift, M.raise]
  · refine Or.inr ⟨hne, ?_⟩
    suffices hs' : Total (deleteBody E h e w) (fun _ _ => True) by
      refine (hs'.and (deleteBody_post hf hh)).imp ?_ (fun _ h => h)
      rintro p w' ⟨-, -, -, snap, mf', h1, h2, hout⟩
      rw [hs] at h1
      cases h1
      rw [hm] at h2
      cases h2
      rcases hout.out with ⟨rfl, hno⟩ | ⟨q, dms, carried, mf', rmf, rp, rfl, hd⟩
      · simp only [Option.isSome_none, Bool.false_eq_true, false_iff]
        rintro ⟨q, hq, hq'⟩
        rw [hno q hq] at hq'
        cases hq'
      · simp only [Option.isSome_some, true_iff]
        obtain ⟨f, hfm⟩ := List.exists_mem_of_ne_nil _ hd.nonempty
        obtain ⟨q, hq, m, hmm, hmod, -⟩ := visited_mods f hfm
        exact ⟨q, hq, List.any_eq_true.mpr ⟨m, hmm, hmod⟩⟩
    unfold deleteBody
    refine Post.bind (Q := fun a b => w = a ∧ w = b) (Post.get ⟨rfl, rfl⟩) ?_
    rintro a b ⟨rfl, hb⟩
    subst hb
    rw [hdf]
    refine Post.bind (Q := fun a b => a = visited w.fs mf cur.index ∧ w = b) ⟨rfl, rfl⟩ ?_
    rintro _ b ⟨rfl, hb⟩
    subst hb
    rw [hh.schema]
    exact deleteSet_total hk hlast hf hman hset hne hrows

/-- The deletes of single files end normally. -/
theorem rayDeleteLoop_total (hk : KeySchema s) (hlast : s.writeNames = s.names) {e : Expr} {index : List Path}
    {man : AMap Nat Path} {w0 : World} (hok : ∀ q ∈ index, ManifestOK w0.fs s q)
    (hset : KeysSet s (physRows w0.fs index))
    (hrows : ∀ q ∈ index, ∀ m ∈ entriesOf w0.fs q, fileRows w0.fs m.file ≠ [])
    (hman : ∀ n q, man.get? n = some q → q ∈ index) :
    ∀ (files : List DataFile) {w : World}, w.Fresh → Grows w0 w →
    (∀ f ∈ files, ∃ q ∈ index, ∃ m ∈ entriesOf w0.fs q, ∃ n,
      f = toDataFile n m ∧ 1 ≤ n ∧ man.get? n = some q) →
    Total (rayDeleteLoop E s man e files w) (fun _ _ => True)
  | [], w, hf, hg, hfs => Post.pure trivial
  | f :: files, w, hf, hg, hfs => by
    unfold rayDeleteLoop
    have hok' : ∀ q ∈ index, ManifestOK w.fs s q := fun q hq => (hok q hq).mono hg.le
    have hent : ∀ q ∈ index, entriesOf w.fs q = entriesOf w0.fs q := fun q hq => entriesOf_mono hg.le (hok q hq)
    have hfile : ∀ g ∈ [f], ∃ q ∈ index, ∃ m ∈ entriesOf w.fs q, ∃ n,
        g = toDataFile n m ∧ 1 ≤ n ∧ man.get? n = some q := by
      intro g hgm
      rw [List.mem_singleton] at hgm
      subst hgm
      obtain ⟨q, hq, m, hm, hx⟩ := hfs g (by simp)
      exact ⟨q, hq, m, by rw [hent q hq]; exact hm, hx⟩
    refine Post.bind (Q := fun _ w' => Grows w w' ∧ w'.Fresh) ((Total.and (deleteFiles_total (E := E) (e := e) hk hlast
      (index := index) (fset := { files := [f], manifests := man }) hf hok' ?_ (by simp) ?_ hfile)
      (deleteFiles_post (E := E) (e := e) hf (fset := { files := [f], manifests := man }) ?_ ?_)).imp
        (fun _ _ h => ⟨h.2.1, h.2.2.1⟩) (fun _ h => h)) ?_
    · rw [physRows_mono hg.le hok]
      exact hset
    · intro q hq m hm
      rw [hent q hq] at hm
      rw [fileRows_mono hg.le ((hok q hq).entry hm)]
      exact hrows q hq m hm
    · intro g hgm
      obtain ⟨q, hq, m, hm, n, rfl, -, -⟩ := hfile g hgm
      exact ((hok' q hq).entry hm).fileOK n
    · exact fun n q hq => hok' q (hman n q hq)
    · rintro p w1 ⟨g1, f1⟩
      refine Post.bind (rayDeleteLoop_total hk hlast hok hset hrows hman files f1 (hg.trans g1)
        (fun g hgm => hfs g (List.mem_cons_of_mem _ hgm))) ?_
      intro ps w2 _
      exact Post.pure trivial

/-- A delete by Ray ends normally. -/
theorem rayDeleteBody_total (hk : KeySchema s) (hlast : s.writeNames = s.names) {h : Handle} {cur : Snapshot}
    (hf : w.Fresh) (hh : HandleOK s w h) (hs : h.snapshot none = .ok cur) {e : Expr} {mf : Option MExpr}
    (hm : manifestFilter s (some e) = .ok mf) (hset : KeysSet s (physRows w.fs cur.index))
    (hrows : ∀ q ∈ cur.index, ∀ m ∈ entriesOf w.fs q, fileRows w.fs m.file ≠ []) :
    Total (rayDeleteBody E h e w)
      (fun p _ => p.isSome = true ↔ ∃ q ∈ cur.index, hasMod E.I e w.fs mf q = true) := by
  have hman := (snapshot_manifests hh hs).manifests
  have hdf : dataFiles w.fs h (some e) none = .ok (visited w.fs mf cur.index) :=
    dataFiles_eq (fs := w.fs) (filter := some e) hs (by rw [hh.schema]; exact hm)
      (by rw [hh.schema]; exact hman)
  suffices hs' : Total (rayDeleteBody E h e w) (fun _ _ => True) by
    refine (hs'.and (rayDeleteBody_post hf hk.names hh)).imp ?_ (fun _ h => h)
    rintro p w' ⟨-, -, -, snap, mf', h1, h2, hout⟩
    rw [hs] at h1
    cases h1
    rw [hm] at h2
    cases h2
    rcases hout.out with ⟨rfl, hno⟩ | ⟨q, rfl, -, -, hne, -⟩
    · simp only [Option.isSome_none, Bool.false_eq_true, false_iff]
      rintro ⟨q, hq, hq'⟩
      rw [hno q hq] at hq'
      cases hq'
    · simp only [Option.isSome_some, true_iff]
      obtain ⟨f, hfm⟩ := List.exists_mem_of_ne_nil _ hne
      obtain ⟨q, hq, m, hmm, hmod, -⟩ := visited_mods f hfm
      exact ⟨q, hq, List.any_eq_true.mpr ⟨m, hmm, hmod⟩⟩
  unfold rayDeleteBody
  refine Post.bind (Q := fun a b => w = a ∧ w = b) (Post.get ⟨rfl, rfl⟩) ?_
  rintro a b ⟨rfl, hb⟩
  subst hb
  rw [hdf]
  refine Post.bind (Q := fun a b => a = visited w.fs mf cur.index ∧ w = b) ⟨rfl, rfl⟩ ?_
  rintro _ b ⟨rfl, hb⟩
  subst hb
  rw [hh.schema]
  refine Post.bind (rayDeleteLoop_total hk hlast hman hset hrows ?_ _ hf (Grows.refl w) visited_file) ?_
  · intro n q hq
    exact (List.mem_filter.mp (packFiles_manifest_mem hq)).1
  · intro ps w' _
    exact Post.pure trivial

end

end Space
