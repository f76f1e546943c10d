import Verif.StatsLemmas
import Verif.StorageLemmas

/-! # The delete operation -/

namespace Space

/-- The filter is false on the row: its negation is true. -/
def Expr.fails (e : Expr) (I : Interp) (r : Row) : Bool := kNot (e.truth I r) == some true

/-- Rows of a file that a delete writes back. -/
def survRows (I : Interp) (e : Expr) (fs : FS) (p : Path) : List Row :=
  (fileRows fs p).filter (fun r => e.fails I r)

theorem filter_zipIdx_map {α : Type} (q : α → Bool) : ∀ (l : List α) (n : Nat),
    ((l.zipIdx n).filter (fun x => q x.1)).map (·.1) = l.filter q
  | [], _ => rfl
  | a :: l, n => by
    simp only [List.zipIdx_cons, List.filter_cons]
    split <;> simp [filter_zipIdx_map q l]

theorem survivors_map (I : Interp) (e : Expr) (rows : List Row) :
    (survivors I e rows).map (·.1) = rows.filter (fun r => e.fails I r) :=
  filter_zipIdx_map (fun r => e.fails I r) rows 0

theorem survivors_length (I : Interp) (e : Expr) (rows : List Row) :
    (survivors I e rows).length = (rows.filter (fun r => e.fails I r)).length := by
  rw [← survivors_map, List.length_map]

/-- The delete changes a file: some row does not survive. -/
def modFile (I : Interp) (e : Expr) (fs : FS) (f : DataFile) : Bool :=
  decide (((survRows I e fs f.path).length : Int) ≠ f.stats.rows)

/-- A file of a file set: it exists, has the stated number of rows, and fits. -/
def FileOK (fs : FS) (s : Schema) (f : DataFile) : Prop :=
  ∃ g, fs.parquet f.path = some g ∧ f.stats.rows = g.flatten.length ∧
    ∀ r ∈ g.flatten, RowOK fs.records s r

theorem recNames_recs {s : Schema} {c : String} (h : c ∈ s.writeNames) : c ∈ s.names := by
  simp only [Schema.writeNames, Schema.idxNames, Schema.recNames, Schema.idxFields,
    Schema.recFields, List.mem_append, List.mem_map, List.mem_filter] at h
  simp only [Schema.names, List.mem_map]
  rcases h with ⟨f, ⟨h, -⟩, rfl⟩ | ⟨f, ⟨h, -⟩, rfl⟩ <;> exact ⟨f, h, rfl⟩

theorem RowOK.selectAddr {L : Look} {s : Schema} {r : Row} (h : RowOK L s r) :
    AddrOK L s (r.select s.writeNames) := by
  intro c hc v hv
  simp only [Row.select, List.mem_map] at hv
  obtain ⟨c', hc', he⟩ := hv
  simp only [Prod.mk.injEq] at he
  obtain ⟨rfl, rfl⟩ := he
  exact h.addrVal hc (recNames_recs hc')

theorem OpOK.lookBase {E : Env} {s : Schema} {w0 w : World} {op : AppendOp}
    (h : OpOK E s w0 w op) : LookLe w0.fs.records (op.look w.fs) := by
  intro p rs hp
  refine ⟨[], ?_⟩
  rw [List.append_nil]
  refine overlay_of_records (h.grows.le.records hp) ?_
  intro f rw hr
  obtain ⟨_, _, _, _, h', _⟩ := h.rws f rw hr
  exact h'

/-- Change log entry of a modified file. -/
def delBitmap (I : Interp) (e : Expr) (fs : FS) (f : DataFile) : RowBitmap :=
  buildBitmap f ((survivors I e (fileRows fs f.path)).map (·.2))
    (survivors I e (fileRows fs f.path)).isEmpty

/-- State of the delete loop after the files `v`. -/
structure DelInv (E : Env) (s : Schema) (e : Expr) (w0 w : World) (v : List DataFile)
    (d : DelState) : Prop where
  op : OpOK E s w0 w d.op
  addr : d.op.addrInput = true
  carried : d.op.carried = []
  rows : d.op.rows w.fs = ((v.filter (modFile E.I e w0.fs)).flatMap
    (fun f => survRows E.I e w0.fs f.path)).map (·.select s.writeNames)
  log : d.log = (v.filter (modFile E.I e w0.fs)).map (delBitmap E.I e w0.fs)
  files : d.files = (v.filter (modFile E.I e w0.fs)).map (·.path)
  mids : ∀ n, n ∈ d.mids ↔ ∃ f ∈ v.filter (modFile E.I e w0.fs), f.mid = n
  midsNodup : d.mids.Nodup
  deleted : d.deleted = ((v.filter (modFile E.I e w0.fs)).map
    (fun f => f.stats.rows - ((survRows E.I e w0.fs f.path).length : Int))).sum
  before : d.before = v.foldl (fun a f => a.addIndex f.stats) {}

theorem mem_addId {l : List Nat} {n m : Nat} : m ∈ addId l n ↔ m ∈ l ∨ m = n := by
  unfold addId
  split
  · rename_i h
    constructor
    · exact Or.inl
    · rintro (h' | rfl)
      · exact h'
      · simpa using h
  · simp

theorem nodup_addId {l : List Nat} {n : Nat} (h : l.Nodup) : (addId l n).Nodup := by
  unfold addId
  split
  · exact h
  · rename_i hc
    rw [List.nodup_append]
    refine ⟨h, by simp, ?_⟩
    intro a ha b hb
    simp only [List.mem_singleton] at hb
    subst hb
    rintro rfl
    simp only [List.contains_eq_mem, decide_eq_true_eq] at hc
    exact hc ha

theorem deleteFile_post {E : Env} {s : Schema} {e : Expr} {w0 w : World} {v : List DataFile}
    {d : DelState} {f : DataFile} (h : DelInv E s e w0 w v d) (hf : FileOK w0.fs s f) :
    Post (deleteFile E s e d f w) (fun d' w' => DelInv E s e w0 w' (v ++ [f]) d')
      (fun w' => Grows w0 w') := by
  obtain ⟨g, hg, hn, hr⟩ := hf
  unfold deleteFile
  refine Post.bind (Post.get (Q := fun a b => w = a ∧ w = b) ⟨rfl, rfl⟩) ?_
  rintro a b ⟨ha, hb⟩
  subst ha
  subst hb
  have hg' := h.op.grows.le.parquet hg
  simp only [hg']
  have hrows : fileRows w0.fs f.path = g.flatten := by simp [fileRows, hg]
  have hbef : d.before.addIndex f.stats =
      (v ++ [f]).foldl (fun a f => a.addIndex f.stats) {} := by
    rw [List.foldl_append, h.before]; rfl
  have hlen : (survivors E.I e g.flatten).length = (survRows E.I e w0.fs f.path).length := by
    rw [survivors_length, survRows, hrows]
  split
  · rename_i hm
    have hmod : modFile E.I e w0.fs f = false := by
      simp only [modFile, ne_eq, decide_eq_false_iff_not, Decidable.not_not]
      rw [← hlen]; exact hm
    have hfil : (v ++ [f]).filter (modFile E.I e w0.fs) = v.filter (modFile E.I e w0.fs) := by
      simp [List.filter_append, hmod]
    refine Post.pure ?_
    constructor <;> try rw [hfil]
    · exact h.op
    · exact h.addr
    · exact h.carried
    · exact h.rows
    · exact h.log
    · exact h.files
    · exact h.mids
    · exact h.midsNodup
    · exact h.deleted
    · exact hbef
  · rename_i hm
    have hmod : modFile E.I e w0.fs f = true := by
      simp only [modFile, ne_eq, decide_eq_true_eq]
      rw [← hlen]; exact hm
    have hfil : (v ++ [f]).filter (modFile E.I e w0.fs) = v.filter (modFile E.I e w0.fs) ++ [f] := by
      simp [List.filter_append, hmod]
    have key : ∀ op' w', OpOK E s w0 w' op' → op'.addrInput = true → op'.carried = [] →
        op'.rows w'.fs = d.op.rows w.fs ++
          (survRows E.I e w0.fs f.path).map (·.select s.writeNames) →
        DelInv E s e w0 w' (v ++ [f]) { d with
          op := op'
          before := d.before.addIndex f.stats
          deleted := d.deleted + (f.stats.rows - (survivors E.I e g.flatten).length)
          log := d.log ++ [buildBitmap f ((survivors E.I e g.flatten).map (·.2))
            (survivors E.I e g.flatten).isEmpty]
          files := d.files ++ [f.path]
          mids := addId d.mids f.mid } := by
      intro op' w' h1 h2 h3 h4
      constructor <;> try rw [hfil]
      · exact h1
      · exact h2
      · exact h3
      · simp only [h4, h.rows, List.flatMap_append, List.map_append]
        simp
      · simp only [h.log, List.map_append, List.map_cons, List.map_nil, delBitmap, hrows]
      · simp [h.files]
      · intro n
        simp only [mem_addId, h.mids, List.mem_append, List.mem_singleton]
        constructor
        · rintro (⟨f', h5, h6⟩ | rfl)
          · exact ⟨f', Or.inl h5, h6⟩
          · exact ⟨f, Or.inr rfl, rfl⟩
        · rintro ⟨f', h5 | rfl, h6⟩
          · exact Or.inl ⟨f', h5, h6⟩
          · exact Or.inr h6.symm
      · exact nodup_addId h.midsNodup
      · simp only [h.deleted, List.map_append, List.sum_append, List.map_cons, List.map_nil,
          List.sum_cons, List.sum_nil, hlen]
        omega
      · exact hbef
    split
    · rename_i hall
      refine Post.pure (key d.op w h.op h.addr h.carried ?_)
      have : survRows E.I e w0.fs f.path = [] := by
        rw [← List.length_eq_zero_iff, ← hlen, List.length_eq_zero_iff]
        simpa using hall
      simp [this]
    · have hsurv : (survivors E.I e g.flatten).map (·.1) = survRows E.I e w0.fs f.path := by
        rw [survivors_map, survRows, hrows]
      rw [hsurv]
      refine Post.bind (write_post h.op (data := survRows E.I e w0.fs f.path) ?_) ?_
      · intro _ r hr'
        refine (RowOK.selectAddr (hr r ?_)).mono h.op.lookBase
        rw [← hrows]
        exact (List.mem_filter.mp hr').1
      · rintro op' w' ⟨a1, a2, P, a3, a4, -⟩
        refine Post.pure (key op' w' a1 (a2.addr.trans h.addr) (a2.carried.trans h.carried) ?_)
        rw [a3, a4 h.addr]

theorem deleteLoop_post {E : Env} {s : Schema} {e : Expr} {w0 : World} : ∀ (files : List DataFile)
    {w : World} {v : List DataFile} {d : DelState}, DelInv E s e w0 w v d →
    (∀ f ∈ files, FileOK w0.fs s f) →
    Post (deleteLoop E s e d files w) (fun d' w' => DelInv E s e w0 w' (v ++ files) d')
      (fun w' => Grows w0 w')
  | [], w, v, d, h, _ => by
    unfold deleteLoop
    exact Post.pure (by simpa using h)
  | f :: files, w, v, d, h, hf => by
    unfold deleteLoop
    refine Post.bind (deleteFile_post h (hf f (List.mem_cons_self ..))) ?_
    intro d' w' h'
    refine (deleteLoop_post files h' fun g hg => hf g (List.mem_cons_of_mem _ hg)).imp ?_
      (fun _ h => h)
    intro d2 w2 h2
    simpa using h2

theorem DelInv.init {E : Env} {s : Schema} {e : Expr} {w : World} (hf : w.Fresh) :
    DelInv E s e w w [] { op := { addrInput := true } } where
  op := OpOK.init true hf
  addr := rfl
  carried := rfl
  rows := rfl
  log := rfl
  files := rfl
  mids := by simp
  midsNodup := List.nodup_nil
  deleted := rfl
  before := rfl

theorem deletedManifests_ok {m : AMap Nat Path} : ∀ {ns : List Nat} {ps : List Path},
    deletedManifests m ns = .ok ps → ps.map some = ns.map m.get?
  | [], ps, h => by simp only [deletedManifests, Except.ok.injEq] at h; subst h; rfl
  | n :: ns, ps, h => by
    simp only [deletedManifests] at h
    split at h
    · cases h
    · rename_i p hp
      split at h
      · cases h
      · rename_i ps' hps
        cases h
        simp [hp, deletedManifests_ok hps]

theorem manifestRows_eq {fs : FS} : ∀ {ps : List Path}, (∀ p ∈ ps, (fs.imanifest p).isSome) →
    manifestRows fs ps = .ok (ps.flatMap (entriesOf fs))
  | [], _ => rfl
  | p :: ps, h => by
    obtain ⟨rows, hr⟩ := Option.isSome_iff_exists.mp (h p (List.mem_cons_self ..))
    simp only [manifestRows, hr,
      manifestRows_eq (ps := ps) fun q hq => h q (List.mem_cons_of_mem _ hq)]
    simp [List.flatMap_cons, entriesOf, hr]

theorem before_sum : ∀ (l : List DataFile) (a : SStats),
    (l.foldl (fun a f => a.addIndex f.stats) a).icb = a.icb + (l.map (·.stats.icb)).sum ∧
    (l.foldl (fun a f => a.addIndex f.stats) a).iub = a.iub + (l.map (·.stats.iub)).sum
  | [], a => by simp
  | f :: l, a => by
    have := before_sum l (a.addIndex f.stats)
    simp only [List.foldl_cons, List.map_cons, List.sum_cons, this]
    simp only [SStats.addIndex]
    omega

/-- Outcome of a delete over a file set: `mods` are the modified files, `dms` the
manifests dropped, `carried` the entries moved to the new manifest. -/
structure Deleted (E : Env) (s : Schema) (e : Expr) (w0 w' : World) (fset : FileSet)
    (dms : List Path) (carried mf : List ManifestRow) (rmf : List RecManifestRow)
    (rp : Option Patch) (p : Patch) : Prop where
  nonempty : fset.files.filter (modFile E.I e w0.fs) ≠ []
  dmsMem : ∀ q, q ∈ dms ↔ ∃ f ∈ fset.files.filter (modFile E.I e w0.fs),
    fset.manifests.get? f.mid = some q
  dmsEq : ∃ ns : List Nat, ns.Nodup ∧ dms.map some = ns.map fset.manifests.get?
  carriedEq : carried = (dms.flatMap (entriesOf w0.fs)).filter
    (fun m => !((fset.files.filter (modFile E.I e w0.fs)).map (·.path)).contains m.file)
  fin : Finished E s w0 w' (((fset.files.filter (modFile E.I e w0.fs)).flatMap
    (fun f => survRows E.I e w0.fs f.path)).map (·.select s.writeNames)) carried mf rmf rp
  addIdx : p.addIdx = (rp.map (·.addIdx)).getD []
  addRec : p.addRec = []
  delIdx : p.delIdx = dms
  rows : p.stats.rows = - ((fset.files.filter (modFile E.I e w0.fs)).map
    (fun f => f.stats.rows - ((survRows E.I e w0.fs f.path).length : Int))).sum
  rub : p.stats.rub = 0
  icb : p.stats.icb = (rp.map (·.stats.icb)).getD 0 + sumIcb carried -
    (fset.files.map (·.stats.icb)).sum
  iub : p.stats.iub = (rp.map (·.stats.iub)).getD 0 + sumIub carried -
    (fset.files.map (·.stats.iub)).sum
  log : p.log = some (ChangeLog.mk ((fset.files.filter (modFile E.I e w0.fs)).map
    (delBitmap E.I e w0.fs)) [])

theorem deleteFiles_post {E : Env} {s : Schema} {e : Expr} {w : World} {fset : FileSet}
    (hf : w.Fresh) (hfiles : ∀ f ∈ fset.files, FileOK w.fs s f)
    (hman : ∀ n q, fset.manifests.get? n = some q → ManifestOK w.fs s q) :
    Post (deleteFiles E s fset e w)
      (fun p w' => Grows w w' ∧ w'.Fresh ∧
        ((p = none ∧ ∀ f ∈ fset.files, modFile E.I e w.fs f = false) ∨
          ∃ q dms carried mf rmf rp, p = some q ∧
            Deleted E s e w w' fset dms carried mf rmf rp q))
      (fun w' => Grows w w') := by
  unfold deleteFiles
  split
  · exact Post.raise (Grows.refl w)
  refine Post.bind (deleteLoop_post fset.files (DelInv.init hf) hfiles) ?_
  intro d w1 hd
  rw [List.nil_append] at hd
  have hpos : ∀ f ∈ fset.files.filter (modFile E.I e w.fs),
      0 < f.stats.rows - ((survRows E.I e w.fs f.path).length : Int) := by
    intro f hfm
    obtain ⟨hfm, hmod⟩ := List.mem_filter.mp hfm
    obtain ⟨g, hg, hn, -⟩ := hfiles f hfm
    have h1 : fileRows w.fs f.path = g.flatten := by simp [fileRows, hg]
    have h2 : (survRows E.I e w.fs f.path).length ≤ g.flatten.length := by
      rw [survRows, h1]; exact List.length_filter_le _ _
    simp only [modFile, ne_eq, decide_eq_true_eq] at hmod
    omega
  have hsum : ∀ l : List DataFile, (∀ f ∈ l, 0 < f.stats.rows -
      ((survRows E.I e w.fs f.path).length : Int)) → l ≠ [] →
      0 < (l.map (fun f => f.stats.rows - ((survRows E.I e w.fs f.path).length : Int))).sum := by
    intro l
    induction l with
    | nil => intro _ h; exact absurd rfl h
    | cons a l ih =>
      intro h _
      simp only [List.map_cons, List.sum_cons]
      have h1 := h a (List.mem_cons_self ..)
      by_cases hl : l = []
      · subst hl; simpa using h1
      · have := ih (fun f hf => h f (List.mem_cons_of_mem _ hf)) hl
        omega
  split
  · rename_i h0
    refine Post.pure ⟨hd.op.grows, hd.op.fresh, Or.inl ⟨rfl, ?_⟩⟩
    have : fset.files.filter (modFile E.I e w.fs) = [] := by
      refine Classical.byContradiction fun hne => ?_
      have := hsum _ hpos hne
      rw [← hd.deleted, h0] at this
      omega
    intro f hfm
    have := List.filter_eq_nil_iff.mp this f hfm
    simpa using this
  rename_i h0
  have hne : fset.files.filter (modFile E.I e w.fs) ≠ [] := by
    intro hc
    have := hd.deleted
    rw [hc] at this
    exact h0 this
  refine Post.bind (Q := fun a w' => deletedManifests fset.manifests (E.setOrder d.mids) = .ok a ∧ w1 = w')
    (Post.lift (fun a ha => ⟨ha, rfl⟩) hd.op.grows) ?_
  rintro dms w' ⟨hdms, hw'⟩
  subst hw'
  have hdm := deletedManifests_ok hdms
  refine Post.bind (Post.get (Q := fun a b => w1 = a ∧ w1 = b) ⟨rfl, rfl⟩) ?_
  rintro a b ⟨ha, hb⟩
  subst ha
  subst hb
  have hdmsMem : ∀ q, q ∈ dms ↔ ∃ f ∈ fset.files.filter (modFile E.I e w.fs),
      fset.manifests.get? f.mid = some q := by
    intro q
    have : q ∈ dms ↔ some q ∈ dms.map some := by simp
    rw [this, hdm, List.mem_map]
    constructor
    · rintro ⟨n, hn, hq⟩
      obtain ⟨f, hfm, rfl⟩ := (hd.mids n).mp ((E.setOrder_perm _).mem_iff.mp hn)
      exact ⟨f, hfm, hq⟩
    · rintro ⟨f, hfm, hq⟩
      exact ⟨f.mid, (E.setOrder_perm _).mem_iff.mpr ((hd.mids _).mpr ⟨f, hfm, rfl⟩), hq⟩
  have hmOK : ∀ q ∈ dms, ManifestOK w.fs s q := by
    intro q hq
    obtain ⟨f, _, h2⟩ := (hdmsMem q).mp hq
    exact hman _ _ h2
  have hmr : manifestRows w1.fs dms = .ok (dms.flatMap (entriesOf w.fs)) := by
    rw [manifestRows_eq]
    · congr 1
      rw [List.flatMap_def, List.flatMap_def]
      congr 1
      exact List.map_congr_left fun q hq => entriesOf_mono hd.op.grows.le (hmOK q hq)
    · intro q hq
      obtain ⟨rows, h1, _⟩ := (hmOK q hq).mono hd.op.grows.le
      simp [h1]
  refine Post.bind (Q := fun a w' => a = dms.flatMap (entriesOf w.fs) ∧ w1 = w') ?_ ?_
  · rw [hmr]; exact ⟨rfl, rfl⟩
  rintro _ w' ⟨rfl, hw'⟩
  subst hw'
  simp only
  rw [hd.carried, List.nil_append, hd.files]
  generalize hcar : (dms.flatMap (entriesOf w.fs)).filter
    (fun m => !((fset.files.filter (modFile E.I e w.fs)).map (·.path)).contains m.file) = carried
  have hop : OpOK E s w w1 { d.op with carried := carried } :=
    { grows := hd.op.grows, fresh := hd.op.fresh, iw := hd.op.iw, iwRows := hd.op.iwRows
      rws := hd.op.rws, cache := hd.op.cache, mf := hd.op.mf, mfNew := hd.op.mfNew, mfSize := hd.op.mfSize
      mfNodup := hd.op.mfNodup
      rmf := hd.op.rmf, rmfNew := hd.op.rmfNew, rmfAll := hd.op.rmfAll, rmfNodup := hd.op.rmfNodup
      stRows := hd.op.stRows, stIcb := hd.op.stIcb, stIub := hd.op.stIub
      stRub := hd.op.stRub, added := hd.op.added, full := hd.op.full }
  refine Post.bind (finish_post hop) ?_
  rintro rp w2 ⟨b1, b2, b3, b4, mf, rmf, b5⟩
  refine Post.pure ⟨b1, b3, Or.inr ⟨_, dms, carried, mf, rmf, rp, rfl, ?_⟩⟩
  have hrows : ({ d.op with carried := carried } : AppendOp).rows w1.fs = _ := hd.rows
  rw [hrows] at b5
  exact
  { nonempty := hne
    dmsMem := hdmsMem
    dmsEq := ⟨E.setOrder d.mids, (E.setOrder_perm _).nodup_iff.mpr hd.midsNodup, hdm⟩
    carriedEq := hcar.symm
    fin := b5
    addIdx := by cases rp <;> rfl
    addRec := rfl
    delIdx := rfl
    rows := by simp only [hd.deleted]
    rub := rfl
    icb := by simp only [hd.before, (before_sum fset.files {}).1]; cases rp <;> simp [sumIcb]
    iub := by simp only [hd.before, (before_sum fset.files {}).2]; cases rp <;> simp [sumIub]
    log := by simp only [hd.log] }

end Space
