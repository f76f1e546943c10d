import Verif.Packing
import Verif.Touched

/-!
# How a delete divides what it writes back into files
-/

set_option autoImplicit false

namespace Space

theorem flatten_single {α : Type} {x : α} : ∀ {L : List (List α)}, (∀ l ∈ L, l ≠ []) → L.flatten = [x] → L = [[x]]
  | [], _, h => by cases h
  | l :: L, hne, h => by
    cases l with
    | nil => exact absurd rfl (hne [] (List.mem_cons_self ..))
    | cons a l =>
      simp only [List.flatten_cons, List.cons_append, List.cons.injEq, List.append_eq_nil_iff] at h
      obtain ⟨rfl, rfl, h⟩ := h
      cases L with
      | nil => rfl
      | cons b L =>
        simp only [List.flatten_cons, List.append_eq_nil_iff] at h
        exact absurd h.1 (hne b (by simp))

/-- One table makes one file of one row group. -/
theorem Packed.single {E : Env} {files : List (List (List (List Row)))} {t : List Row} (h : Packed E files)
    (ht : files.flatten.flatten = [t]) : files = [[[t]]] := by
  have hcut : ∀ {α : Type} {size : List α → Nat} {limit : Nat} {xs : List α}, CutAt size limit xs → xs ≠ [] := by
    rintro α size limit xs ⟨init, last, rfl, -⟩
    simp
  have hne : (∀ f ∈ files, f ≠ []) ∧ ∀ f ∈ files, ∀ g ∈ f, g ≠ [] := by
    obtain ⟨full, rest, rfl, h1, h2⟩ := h
    have h3 : ∀ f ∈ rest, f ≠ [] ∧ ∀ g ∈ f, g ≠ [] := by
      intro f hf
      rcases h2 with rfl | ⟨gs, tail, rfl, a1, -, a3, a4⟩
      · cases hf
      · rw [List.mem_singleton] at hf
        subst hf
        refine ⟨a1, fun g hg => ?_⟩
        rcases List.mem_append.mp hg with hg | hg
        · exact hcut (a3 g hg)
        · rcases a4 with rfl | ⟨g', hg', rfl, -⟩
          · cases hg
          · rw [List.mem_singleton] at hg
            rwa [hg]
    constructor
    · intro f hf
      rcases List.mem_append.mp hf with hf | hf
      · exact hcut (h1 f hf).1
      · exact (h3 f hf).1
    · intro f hf g hg
      rcases List.mem_append.mp hf with hf | hf
      · exact hcut ((h1 f hf).2 g hg)
      · exact (h3 f hf).2 g hg
  refine flatten_single hne.1 (flatten_single ?_ ht)
  intro g hg
  obtain ⟨f, hf, hg⟩ := List.mem_flatten.mp hg
  exact hne.2 f hf g hg

section
variable {E : Env} {s : Schema} {e : Expr} {w0 w w1 : World}

/-- What is left of each modified file, but for those of which nothing is left. -/
def leftTables (I : Interp) (e : Expr) (fs : FS) (v : List DataFile) : List (List Row) :=
  ((v.filter (modFile I e fs)).map (fun f => survRows I e fs f.path)).filter (fun t => decide (t ≠ []))

/-- The tables that a delete has written after the files `v`. -/
def DelFill (E : Env) (s : Schema) (e : Expr) (w0 w : World) (v : List DataFile) (d : DelState) : Prop :=
  ∃ full gs wait, Filling E w.fs d.op full gs wait ∧
    tablesOf full gs wait = (leftTables E.I e w0.fs v).map (·.map (·.select s.writeNames))

theorem DelFill.init : DelFill E s e w w [] { op := { addrInput := true } } :=
  ⟨[], [], [], ⟨rfl, rfl, fun _ => ⟨rfl, rfl⟩, rfl, rfl, by simp, by simp, .nil, .nil⟩, rfl⟩

theorem deleteFile_fill {v : List DataFile} {d : DelState} {f : DataFile} (h : DelInv E s e w0 w v d)
    (hk : DelFill E s e w0 w v d) (hf : FileOK w0.fs s f) :
    Post (deleteFile E s e d f w) (fun d' w' => DelFill E s e w0 w' (v ++ [f]) d') (fun _ => True) := by
  obtain ⟨g, hg, hn, hr⟩ := hf
  obtain ⟨full, gs, wait, k1, k2⟩ := hk
  unfold deleteFile
  refine Post.bind (Post.get (Q := fun a b => w = a ∧ w = b) ⟨rfl, rfl⟩) ?_
  rintro a b ⟨ha, hb⟩
  subst ha
  subst hb
  have hg' := h.op.grows.le.parquet hg
  simp only [hg']
  have hrows : fileRows w0.fs f.path = g.flatten := by simp [fileRows, hg]
  have hlen : (survivors E.I e g.flatten).length = (survRows E.I e w0.fs f.path).length := by
    rw [survivors_length, survRows, hrows]
  split
  · rename_i hm
    have hmod : modFile E.I e w0.fs f = false := by
      simp only [modFile, ne_eq, decide_eq_false_iff_not, Decidable.not_not]
      rw [← hlen]; exact hm
    exact Post.pure ⟨full, gs, wait, k1, by rw [k2]; simp [leftTables, List.filter_append, hmod]⟩
  · rename_i hm
    have hmod : modFile E.I e w0.fs f = true := by
      simp only [modFile, ne_eq, decide_eq_true_eq]
      rw [← hlen]; exact hm
    have hsnoc : leftTables E.I e w0.fs (v ++ [f]) = leftTables E.I e w0.fs v ++
        (if survRows E.I e w0.fs f.path = [] then [] else [survRows E.I e w0.fs f.path]) := by
      unfold leftTables
      rw [List.filter_append, List.map_append, List.filter_append]
      by_cases h0 : survRows E.I e w0.fs f.path = [] <;> simp [hmod, h0]
    split
    · rename_i hall
      have h0 : survRows E.I e w0.fs f.path = [] := by
        rw [← List.length_eq_zero_iff, ← hlen, List.length_eq_zero_iff]
        simpa using hall
      exact Post.pure ⟨full, gs, wait, k1, by rw [k2, hsnoc, if_pos h0, List.append_nil]⟩
    · have hsurv : (survivors E.I e g.flatten).map (·.1) = survRows E.I e w0.fs f.path := by
        rw [survivors_map, survRows, hrows]
      rw [hsurv]
      refine Post.bind (((write_post h.op (data := survRows E.I e w0.fs f.path) ?_).and
        (write_fill_addr h.op h.addr k1 (survRows E.I e w0.fs f.path))).imp (fun _ _ h => h) (fun _ _ => trivial)) ?_
      · intro _ r hr'
        refine (RowOK.selectAddr (hr r ?_)).mono h.op.lookBase
        rw [← hrows]
        exact (List.mem_filter.mp hr').1
      · rintro op' w' ⟨⟨a1, a2, P, a3, a4, -⟩, full', gs', wait', new, f1, f2, f3⟩
        refine Post.pure ⟨full', gs', wait', f1, ?_⟩
        have hP : new.flatten = (survRows E.I e w0.fs f.path).map (·.select s.writeNames) := by
          rw [← a4 h.addr]
          rw [f1.rows, k1.rows] at a3
          have e := congrArg List.flatten f2
          unfold tablesOf at e
          rw [e, List.flatten_append] at a3
          exact List.append_cancel_left a3
        rw [f2, k2, hsnoc, List.map_append]
        by_cases h0 : survRows E.I e w0.fs f.path = []
        · rw [if_pos h0] at f3
          rw [f3, if_pos h0]
          rfl
        · rw [if_neg h0] at f3
          obtain ⟨t, rfl⟩ := f3
          simp only [List.flatten_cons, List.flatten_nil, List.append_nil] at hP
          rw [if_neg h0, hP]
          rfl

theorem deleteLoop_fill : ∀ (files : List DataFile) {w : World} {v : List DataFile} {d : DelState},
    DelInv E s e w0 w v d → DelFill E s e w0 w v d → (∀ f ∈ files, FileOK w0.fs s f) →
    Post (deleteLoop E s e d files w) (fun d' w' => DelFill E s e w0 w' (v ++ files) d') (fun _ => True)
  | [], w, v, d, _, hk, _ => by
    unfold deleteLoop
    exact Post.pure (by simpa using hk)
  | f :: files, w, v, d, h, hk, hf => by
    unfold deleteLoop
    refine Post.bind (((deleteFile_post h (hf f (List.mem_cons_self ..))).and
      (deleteFile_fill h hk (hf f (List.mem_cons_self ..)))).imp (fun _ _ h => h) (fun _ _ => trivial)) ?_
    rintro d' w' ⟨h', hk'⟩
    refine (deleteLoop_fill files h' hk' fun g hg => hf g (List.mem_cons_of_mem _ hg)).imp ?_ (fun _ h => h)
    intro d2 w2 h2
    simpa using h2

/-- The files that a delete writes. -/
theorem deleteFiles_fill {fset : FileSet} (hf : w.Fresh) (hfiles : ∀ f ∈ fset.files, FileOK w.fs s f)
    (hman : ∀ n q, fset.manifests.get? n = some q → ManifestOK w.fs s q) :
    Post (deleteFiles E s fset e w)
      (fun p w' => ∀ q, p = some q → q.addIdx ≠ [] → ∃ files, Packed E files ∧
        files.flatten.flatten = (leftTables E.I e w.fs fset.files).map (·.map (·.select s.writeNames)) ∧
        ((q.addIdx.flatMap (entriesOf w'.fs)).drop ((q.delIdx.flatMap (entriesOf w.fs)).filter (fun m =>
            !((fset.files.filter (modFile E.I e w.fs)).map (·.path)).contains m.file)).length).map
          (fun m => w'.fs.parquet m.file) = files.map (fun f => some (stored E f))) (fun _ => True) := by
  unfold deleteFiles
  split
  · exact Post.raise trivial
  refine Post.bind (((deleteLoop_post fset.files (DelInv.init hf) hfiles).and
    (deleteLoop_fill fset.files (DelInv.init hf) DelFill.init hfiles)).imp (fun _ _ h => h) (fun _ _ => trivial)) ?_
  rintro d w1 ⟨hd, hk⟩
  rw [List.nil_append] at hd hk
  obtain ⟨full, gs, wait, k1, k2⟩ := hk
  split
  · exact Post.pure (by simp)
  refine Post.bind (Q := fun a w' => deletedManifests fset.manifests (E.setOrder d.mids) = .ok a ∧ w1 = w')
    (Post.lift (fun a ha => ⟨ha, rfl⟩) trivial) ?_
  rintro dms w' ⟨hdms, hw'⟩
  subst hw'
  have hdm := deletedManifests_ok hdms
  refine Post.bind (Post.get (Q := fun a b => w1 = a ∧ w1 = b) ⟨rfl, rfl⟩) ?_
  rintro a b ⟨ha, hb⟩
  subst ha
  subst hb
  have hmOK : ∀ q ∈ dms, ManifestOK w.fs s q := by
    intro q hq
    have : some q ∈ dms.map some := List.mem_map_of_mem hq
    rw [hdm, List.mem_map] at this
    obtain ⟨n, -, hq⟩ := this
    exact hman _ _ hq
  have hmr : manifestRows w1.fs dms = .ok (dms.flatMap (entriesOf w.fs)) := by
    rw [manifestRows_eq]
    · congr 1
      exact flatMap_congr' fun q hq => entriesOf_mono hd.op.grows.le (hmOK q hq)
    · intro q hq
      obtain ⟨rows, h1, _⟩ := (hmOK q hq).mono hd.op.grows.le
      simp [h1]
  refine Post.bind (Q := fun a w' => a = dms.flatMap (entriesOf w.fs) ∧ w1 = w') ?_ ?_
  · rw [hmr]; exact ⟨rfl, rfl⟩
  rintro _ w' ⟨rfl, hw'⟩
  subst hw'
  simp only
  rw [hd.carried, List.nil_append, hd.files]
  generalize hcar : (dms.flatMap (entriesOf w.fs)).filter
    (fun m => !((fset.files.filter (modFile E.I e w.fs)).map (·.path)).contains m.file) = carried
  have hop : OpOK E s w w1 { d.op with carried := carried } :=
    { grows := hd.op.grows, fresh := hd.op.fresh, iw := hd.op.iw, iwRows := hd.op.iwRows
      rws := hd.op.rws, cache := hd.op.cache, mf := hd.op.mf, mfNew := hd.op.mfNew, mfSize := hd.op.mfSize
      mfNodup := hd.op.mfNodup
      rmf := hd.op.rmf, rmfNew := hd.op.rmfNew, rmfAll := hd.op.rmfAll, rmfNodup := hd.op.rmfNodup
      stRows := hd.op.stRows, stIcb := hd.op.stIcb, stIub := hd.op.stIub
      stRub := hd.op.stRub, added := hd.op.added, full := hd.op.full }
  have k1' : Filling E w1.fs { d.op with carried := carried } full gs wait := k1.same ⟨rfl, rfl, rfl, rfl⟩
  refine Post.bind (finish_fill_carried hop k1') ?_
  intro rp w2 hfin
  refine Post.pure ?_
  intro q hq hne
  cases hq
  cases rp with
  | none => exact absurd rfl hne
  | some r =>
    obtain ⟨files, p1, p2, p3⟩ := hfin r rfl
    refine ⟨files, p1, by rw [p2, k2], ?_⟩
    simp only [hcar]
    exact p3

/-- The files of a delete hold what is left of the modified files, in their order. -/
theorem Deleted.packed {index : List Path} {mf : Option MExpr} {dms : List Path} {carried mf' : List ManifestRow}
    {rmf : List RecManifestRow} {rp : Option Patch} {q : Patch} (hn : s.names.Nodup) (hf : w.Fresh)
    (hok : ∀ q ∈ index, ManifestOK w.fs s q)
    (hd : Deleted E s e w w1 (visited w.fs mf index) dms carried mf' rmf rp q)
    (hfill : q.addIdx ≠ [] → ∃ files, Packed E files ∧
        files.flatten.flatten = (leftTables E.I e w.fs (visited w.fs mf index).files).map (·.map (·.select s.writeNames)) ∧
        ((q.addIdx.flatMap (entriesOf w1.fs)).drop ((q.delIdx.flatMap (entriesOf w.fs)).filter (fun m =>
            !(((visited w.fs mf index).files.filter (modFile E.I e w.fs)).map (·.path)).contains m.file)).length).map
          (fun m => w1.fs.parquet m.file) = files.map (fun f => some (stored E f))) :
    ∃ files, Packed E files ∧
      files.flatten.flatten = (((index.flatMap (entriesOf w.fs)).filter (modEntry E.I e w.fs mf)).map
        (fun m => survRows E.I e w.fs m.file)).filter (fun t => decide (t ≠ [])) ∧
      (newEntries w w1 (some q)).map (fun m => w1.fs.parquet m.file) = files.map (fun f => some (stored E f)) := by
  have horder : (((visited w.fs mf index).files.filter (modFile E.I e w.fs)).map (fun f => survRows E.I e w.fs f.path)) =
      ((index.flatMap (entriesOf w.fs)).filter (modEntry E.I e w.fs mf)).map (fun m => survRows E.I e w.fs m.file) := by
    have := mods_rows (E := E) (e := e) (w := w) (mf := mf) (index := index) (fun p => [survRows E.I e w.fs p])
    rw [← List.flatMap_assoc, ← filter_flatMap'] at this
    have single : ∀ {α β : Type} (g : α → β) (l : List α), l.flatMap (fun a => [g a]) = l.map g := by
      intro α β g l
      induction l with
      | nil => rfl
      | cons a l ih => simp [ih]
    rwa [single, single] at this
  have hwritten := hd.written hn hok
  have hflat : index.flatMap (fun q => ((entriesOf w.fs q).filter (modEntry E.I e w.fs mf)).flatMap
        (fun m => survRows E.I e w.fs m.file)) =
      (((index.flatMap (entriesOf w.fs)).filter (modEntry E.I e w.fs mf)).map
        (fun m => survRows E.I e w.fs m.file)).flatten := by
    rw [← List.flatMap_def, filter_flatMap', List.flatMap_assoc]
  rw [hflat] at hwritten
  cases rp with
  | none =>
    have h0 := hd.fin.none_iff.mp rfl
    rw [sumRows_zero hd.fin.ents, hwritten] at h0
    have h0 := List.length_eq_zero_iff.mp (Int.ofNat_eq_zero.mp h0)
    refine ⟨[], ⟨[], [], rfl, by simp, Or.inl rfl⟩, ?_, by simp [newEntries, hd.addIdx]⟩
    symm
    refine List.filter_eq_nil_iff.mpr ?_
    intro t ht
    simpa using List.flatten_eq_nil_iff.mp h0 t ht
  | some r =>
    have hne : q.addIdx ≠ [] := by
      intro h0
      have h1 := hd.fin.entries
      have h2 := hd.addIdx
      simp only [Option.map_some, Option.getD_some] at h1 h2
      rw [← h2, h0] at h1
      have h3 := (List.append_eq_nil_iff.mp h1.symm).2
      have := hd.fin.none_iff.mpr (by rw [h3]; rfl)
      cases this
    obtain ⟨files, p1, p2, p3⟩ := hfill hne
    refine ⟨files, p1, ?_, ?_⟩
    · rw [p2]
      unfold leftTables
      rw [horder]
      refine (List.map_congr_left fun t ht => ?_).trans (List.map_id _)
      obtain ⟨m, hm, rfl⟩ := List.mem_map.mp (List.mem_filter.mp ht).1
      obtain ⟨x, hx, hme⟩ := List.mem_flatMap.mp (List.mem_filter.mp hm).1
      refine written_self hn (fun r hr => ?_) ?_
      · exact (fileRows_mem ((hok x hx).entry hme) r (List.mem_filter.mp hr).1).1
      · intro r hr
        have hr' : r ∈ mf'.flatMap (fun m => fileRows w1.fs m.file) := by
          rw [hd.fin.rowsEq, List.flatMap_def, horder]
          obtain ⟨y, hy, rfl⟩ := List.mem_map.mp hr
          exact List.mem_map_of_mem (List.mem_flatten.mpr ⟨_, List.mem_map_of_mem hm, hy⟩)
        obtain ⟨m', hm', hr'⟩ := List.mem_flatMap.mp hr'
        exact (fileRows_mem (hd.fin.ents m' hm') r hr').1
    · rw [hd.new_eq hf hok, ← p3, hd.delIdx, ← hd.carriedEq]
      have h1 := hd.fin.entries
      have h2 := hd.addIdx
      simp only [Option.map_some, Option.getD_some] at h1 h2
      rw [h2, h1, List.drop_left]

/-- The files of a delete on a snapshot. -/
def DelPacked (E : Env) (e : Expr) (w w1 : World) (index : List Path) (mf : Option MExpr) (p : Option Patch) : Prop :=
  p ≠ none → ∃ files, Packed E files ∧
    files.flatten.flatten = (((index.flatMap (entriesOf w.fs)).filter (modEntry E.I e w.fs mf)).map
      (fun m => survRows E.I e w.fs m.file)).filter (fun t => decide (t ≠ [])) ∧
    (newEntries w w1 p).map (fun m => w1.fs.parquet m.file) = files.map (fun f => some (stored E f))

theorem deleteSet_packed {index : List Path} {mf : Option MExpr} (hn : s.names.Nodup) (hf : w.Fresh)
    (hok : ∀ q ∈ index, ManifestOK w.fs s q) :
    Post (deleteFiles E s (visited w.fs mf index) e w)
      (fun p w' => Grows w w' ∧ w'.Fresh ∧ DeleteOut E s e w w' index mf p ∧ DelPacked E e w w' index mf p)
      (fun _ => True) := by
  refine ((deleteSet_post hf hok).and (deleteFiles_fill (E := E) (e := e) hf ?_ ?_)).imp ?_ (fun _ _ => trivial)
  · intro f hfm
    obtain ⟨q, hq, m, hm, n, rfl, -, -⟩ := packFiles_mem hfm
    exact ((hok q (List.mem_filter.mp hq).1).entry (List.mem_filter.mp hm).1).fileOK n
  · intro n q hq
    exact hok q (List.mem_filter.mp (packFiles_manifest_mem hq)).1
  · rintro p w' ⟨⟨h1, h2, h3⟩, h4⟩
    refine ⟨h1, h2, h3, fun hne => ?_⟩
    rcases h3.out with ⟨rfl, -⟩ | ⟨q, dms, carried, mf', rmf, rp, rfl, hd⟩
    · exact absurd rfl hne
    · exact hd.packed hn hf hok (h4 q rfl)

theorem deleteBody_packed {h : Handle} (hn : s.names.Nodup) (hf : w.Fresh) (hh : HandleOK s w h) :
    Post (deleteBody E h e w)
      (fun p w' => ∃ snap mf, h.snapshot none = .ok snap ∧ manifestFilter s (some e) = .ok mf ∧
        DeleteOut E s e w w' snap.index mf p ∧ DelPacked E e w w' snap.index mf p) (fun _ => True) := by
  unfold deleteBody
  refine Post.bind (Q := fun a b => w = a ∧ w = b) (Post.get ⟨rfl, rfl⟩) ?_
  rintro a b ⟨rfl, hb⟩
  subst hb
  refine Post.bind (Q := fun a b => dataFiles w.fs h (some e) none = .ok a ∧ w = b)
    (Post.lift (fun a ha => ⟨ha, rfl⟩) trivial) ?_
  rintro fset b ⟨hd, hb⟩
  subst hb
  obtain ⟨snap, mf, h1, h2, rfl⟩ := dataFiles_ok hh hd
  rw [hh.schema]
  refine (deleteSet_packed hn hf (snapshot_manifests hh h1).manifests).imp ?_ (fun _ h => h)
  rintro p w' ⟨-, -, a3, a4⟩
  exact ⟨snap, mf, h1, h2, a3, a4⟩

end

end Space
