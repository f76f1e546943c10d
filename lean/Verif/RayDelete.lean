import Verif.Gather

/-! # The delete operation of the Ray runner: one delete per file -/

namespace Space

open List

/-- The two sizes of index files in manifests and statistics (`storage.py` proto
`StorageStatistics`: `index_compressed_bytes`, `index_uncompressed_bytes`). -/
inductive Size where
  | compressed
  | uncompressed
deriving DecidableEq, Repr

/-- The size of a listed file. -/
def Size.entry : Size → ManifestRow → Int
  | .compressed, m => m.icb
  | .uncompressed, m => m.iub

/-- The size counted in statistics. -/
def Size.stat : Size → SStats → Int
  | .compressed, x => x.icb
  | .uncompressed, x => x.iub

/-- The size of several listed files. -/
def Size.sum (k : Size) (ms : List ManifestRow) : Int := (ms.map k.entry).sum

theorem Size.sum_append (k : Size) (a b : List ManifestRow) : k.sum (a ++ b) = k.sum a + k.sum b := by
  simp [Size.sum]

theorem Size.sum_nil (k : Size) : k.sum [] = 0 := rfl

section
variable {E : Env} {s : Schema} {e : Expr} {w w' w0 : World}

/-- The entries of a manifest for other files than `file`. -/
def siblings (fs : FS) (q file : Path) : List ManifestRow :=
  (entriesOf fs q).filter (fun x => !decide (x.file = file))

/-- What a delete of one file leaves in place of its manifest: nothing, if no row of the
file survives; otherwise the other files and the surviving rows. -/
def fileAfter (I : Interp) (e : Expr) (fs : FS) (q file : Path) : List Row :=
  if survRows I e fs file = [] then []
  else (siblings fs q file).flatMap (fun x => fileRows fs x.file) ++ survRows I e fs file

/-- The entries that a delete of one file loses: if no row of the file survives, the other
files of the manifest. -/
def fileLost (I : Interp) (e : Expr) (fs : FS) (q file : Path) : List ManifestRow :=
  if survRows I e fs file = [] then siblings fs q file else []

/-- The entries that a delete of one file keeps: if a row of the file survives, the other files
of the manifest. -/
def fileKept (I : Interp) (e : Expr) (fs : FS) (q file : Path) : List ManifestRow :=
  if survRows I e fs file = [] then [] else siblings fs q file

/-- The file is there. -/
def hasFile (fs : FS) (x : ManifestRow) : Bool := (fs.parquet x.file).isSome

theorem hasFile_mono {fs fs' : FS} (hle : FSLe fs fs') {x : ManifestRow} (h : hasFile fs x = true) :
    hasFile fs' x = true := by
  unfold hasFile at h ⊢
  obtain ⟨g, hg⟩ := Option.isSome_iff_exists.mp h
  rw [hle.parquet hg]
  rfl

theorem EntryOK.hasFile {fs : FS} {L : Look} {x : ManifestRow} (h : EntryOK fs L s x) : hasFile fs x = true := by
  obtain ⟨g, hg, -⟩ := h
  simp [Space.hasFile, hg]

/-- The entries that a patch adds for files that were not there in `w0` are for files that were not
there in `w` either, each once. -/
structure NewOnce (w0 w w' : World) (p : Patch) : Prop where
  once : (((p.addIdx.flatMap (entriesOf w'.fs)).filter (fun x => !hasFile w0.fs x)).map (·.file)).Nodup
  new : ∀ x ∈ p.addIdx.flatMap (entriesOf w'.fs), hasFile w0.fs x = true ∨ hasFile w.fs x = false

/-- The outcome of the delete of one file, that of entry `m` of manifest `q`. -/
structure OneDeleted (E : Env) (s : Schema) (e : Expr) (w w' : World) (q : Path) (n : Nat) (m : ManifestRow)
    (p : Patch) : Prop where
  delIdx : p.delIdx = [q]
  phys : physRows w'.fs p.addIdx = fileAfter E.I e w.fs q m.file
  rows : p.stats.rows = ((survRows E.I e w.fs m.file).length : Int) - m.numRows
  log : p.log = some ⟨[delBitmap E.I e w.fs (toDataFile n m)], []⟩
  size : ∀ k : Size, k.sum (p.addIdx.flatMap (entriesOf w'.fs)) + k.sum (fileLost E.I e w.fs q m.file) =
    k.stat p.stats + k.entry m
  recs : p.addRec = []
  rub : p.stats.rub = 0
  sizes : ∀ x ∈ p.addIdx.flatMap (entriesOf w'.fs), x ∈ entriesOf w.fs q ∨ SizeOK E s w'.fs x
  olds : (p.addIdx.flatMap (entriesOf w'.fs)).filter (hasFile w.fs) = fileKept E.I e w.fs q m.file

theorem sumIcb_nil : sumIcb [] = 0 := rfl
theorem sumIub_nil : sumIub [] = 0 := rfl

theorem sum_zero_of_rows {fs : FS} {L : Look} {mf : List ManifestRow} (h : ∀ m ∈ mf, EntryOK fs L s m)
    (hr : mf.flatMap (fun m => fileRows fs m.file) = []) : ∀ m ∈ mf, m.numRows = 0 := by
  intro m hm
  have h1 := (h m hm).length
  rw [List.flatMap_eq_nil_iff.mp hr m hm] at h1
  simpa using h1.symm

theorem Deleted.dmsOne {man : AMap Nat Path} {n : Nat} {q : Path} {m : ManifestRow} {dms : List Path}
    {carried mf : List ManifestRow} {rmf : List RecManifestRow} {rp : Option Patch} {p : Patch}
    (hman : man.get? n = some q) (hinj : ∀ n', man.get? n' = some q → n' = n)
    (h : Deleted E s e w w' { files := [toDataFile n m], manifests := man } dms carried mf rmf rp p) :
    [toDataFile n m].filter (modFile E.I e w.fs) = [toDataFile n m] ∧ dms = [q] := by
  have hmods : [toDataFile n m].filter (modFile E.I e w.fs) = [toDataFile n m] := by
    have := h.nonempty
    cases hc : modFile E.I e w.fs (toDataFile n m) with
    | true => simp [hc]
    | false => simp [hc] at this
  refine ⟨hmods, ?_⟩
  have hmem : ∀ q', q' ∈ dms ↔ q' = q := by
    intro q'
    rw [h.dmsMem]
    show (∃ f ∈ [toDataFile n m].filter (modFile E.I e w.fs), man.get? f.mid = some q') ↔ _
    rw [hmods]
    constructor
    · rintro ⟨f, hf, hg⟩
      rw [List.mem_singleton] at hf
      subst hf
      have hg : man.get? n = some q' := hg
      rw [hman] at hg
      exact (Option.some.inj hg).symm
    · rintro rfl
      exact ⟨toDataFile n m, by simp, hman⟩
  obtain ⟨ns, hns, heq⟩ := h.dmsEq
  have heq : dms.map some = ns.map man.get? := heq
  have hall : ∀ x ∈ ns, x = n := by
    intro x hx
    have : man.get? x ∈ ns.map man.get? := List.mem_map.mpr ⟨x, hx, rfl⟩
    rw [← heq] at this
    obtain ⟨d, hd, he⟩ := List.mem_map.mp this
    rw [(hmem d).mp hd] at he
    exact hinj x he.symm
  cases ns with
  | nil =>
    have : dms = [] := by simpa using heq
    have := (hmem q).mpr rfl
    rw [‹dms = []›] at this
    cases this
  | cons a ns =>
    have ha : a = n := hall a (by simp)
    subst ha
    cases ns with
    | cons b ns =>
      have hb : b = a := hall b (by simp)
      subst hb
      simp at hns
    | nil =>
      cases dms with
      | nil => simp at heq
      | cons d ds =>
        simp only [List.map_cons, List.map_nil, List.cons.injEq, List.map_eq_nil_iff] at heq
        rw [heq.2, (hmem d).mp (by simp)]

theorem Deleted.one {man : AMap Nat Path} {n : Nat} {q : Path} {m : ManifestRow} {dms : List Path}
    {carried mf : List ManifestRow} {rmf : List RecManifestRow} {rp : Option Patch} {p : Patch}
    (hn : s.names.Nodup) (hf : w.Fresh) (hg : Grows w w')
    (hq : ManifestOK w.fs s q) (hm : m ∈ entriesOf w.fs q)
    (hman : man.get? n = some q) (hinj : ∀ n', man.get? n' = some q → n' = n)
    (h : Deleted E s e w w' { files := [toDataFile n m], manifests := man } dms carried mf rmf rp p) :
    OneDeleted E s e w w' q n m p ∧ PatchOK w'.fs s p ∧ PatchNew w [q] p ∧ NewOnce w w w' p := by
  obtain ⟨hmods, rfl⟩ := h.dmsOne hman hinj
  have hcar : carried = siblings w.fs q m.file := by
    rw [h.carriedEq]
    show ([q].flatMap (entriesOf w.fs)).filter
      (fun x => !(([toDataFile n m].filter (modFile E.I e w.fs)).map (·.path)).contains x.file) = _
    rw [hmods]
    simp only [List.flatMap_cons, List.flatMap_nil, List.append_nil, siblings]
    refine List.filter_congr fun x _ => ?_
    simp [toDataFile]
  have hme := hq.entry hm
  have hsurv : ∀ r ∈ survRows E.I e w.fs m.file, s.conforms r = true := fun r hr =>
    (fileRows_mem hme r (List.mem_filter.mp hr).1).1
  have hrows : mf.flatMap (fun m => fileRows w'.fs m.file) = survRows E.I e w.fs m.file := by
    have hr := h.fin.rowsEq
    have hr : mf.flatMap (fun m => fileRows w'.fs m.file) =
      (([toDataFile n m].filter (modFile E.I e w.fs)).flatMap
        (fun f => survRows E.I e w.fs f.path)).map (·.select s.writeNames) := hr
    rw [hmods] at hr
    simp only [List.flatMap_cons, List.flatMap_nil, List.append_nil] at hr
    rw [hr]
    refine written_self hn hsurv ?_
    intro r hrm
    have hrm : r ∈ (survRows E.I e w.fs (toDataFile n m).path).map (·.select s.writeNames) := hrm
    rw [← hr] at hrm
    obtain ⟨x, hx, hrx⟩ := List.mem_flatMap.mp hrm
    exact (fileRows_mem (h.fin.ents x hx) r hrx).1
  have hsib : ∀ x ∈ siblings w.fs q m.file, EntryOK w.fs w.fs.records s x := fun x hx =>
    hq.entry (List.mem_filter.mp hx).1
  have hnone : rp = none ↔ survRows E.I e w.fs m.file = [] := by
    rw [h.fin.none_iff, sumRows_zero h.fin.ents, hrows]
    simp only [Int.natCast_eq_zero, List.length_eq_zero_iff]
  have hadd : (survRows E.I e w.fs m.file = [] ∧ p.addIdx = []) ∨
      (survRows E.I e w.fs m.file ≠ [] ∧ ∃ u r, w.next ≤ u ∧ rp = some r ∧ p.addIdx = [.indexManifest u] ∧
        w'.fs.imanifest (.indexManifest u) = some (siblings w.fs q m.file ++ mf)) := by
    cases hrp : rp with
    | none => exact Or.inl ⟨hnone.mp hrp, by rw [h.addIdx, hrp]; rfl⟩
    | some r =>
      refine Or.inr ⟨fun hc => (by rw [hnone.mpr hc] at hrp; cases hrp), ?_⟩
      obtain ⟨u, hu, h1, h2⟩ := h.fin.idx r hrp
      refine ⟨u, r, hu, rfl, by rw [h.addIdx, hrp]; exact h1, by rw [← hcar]; exact h2⟩
  have hent : ∀ u, w'.fs.imanifest (.indexManifest u) = some (siblings w.fs q m.file ++ mf) →
      ∀ x ∈ siblings w.fs q m.file ++ mf, EntryOK w'.fs w'.fs.records s x := by
    intro u hu x hx
    rcases List.mem_append.mp hx with hx | hx
    · exact (hsib x hx).mono hg.le hg.le.lookLe
    · exact h.fin.ents x hx
  have size : ∀ k : Size, k.sum (p.addIdx.flatMap (entriesOf w'.fs)) + k.sum (fileLost E.I e w.fs q m.file) =
      k.stat p.stats + k.entry m := by
    intro k
    have h1 : k.stat p.stats = (rp.map (fun r => k.stat r.stats)).getD 0 + k.sum carried - k.entry m := by
      cases k with
      | compressed =>
        show p.stats.icb = _
        rw [h.icb]
        simp [toDataFile, ManifestRow.sstats, Size.stat, Size.entry, Size.sum, sumIcb]
        rfl
      | uncompressed =>
        show p.stats.iub = _
        rw [h.iub]
        simp [toDataFile, ManifestRow.sstats, Size.stat, Size.entry, Size.sum, sumIub]
        rfl
    rw [h1, hcar]
    rcases hadd with ⟨h0, ha⟩ | ⟨h0, u, r, hu, hr, ha, hi⟩
    · rw [ha, hnone.mpr h0]
      simp only [fileLost, h0, if_true, List.flatMap_nil, Size.sum_nil, Option.map_none, Option.getD_none]
      omega
    · have hst := h.fin.stats r hr
      have hk : k.stat r.stats = k.sum mf := by
        rw [hst]
        cases k <;> rfl
      rw [ha, hr]
      simp only [List.flatMap_cons, List.flatMap_nil, List.append_nil, entriesOf, hi, Option.getD_some,
        Option.map_some, hk, fileLost, if_neg h0, Size.sum_nil, Size.sum_append]
      omega
  have sizes : ∀ x ∈ p.addIdx.flatMap (entriesOf w'.fs), x ∈ entriesOf w.fs q ∨ SizeOK E s w'.fs x := by
    intro x hx
    rcases hadd with ⟨h0, ha⟩ | ⟨h0, u, r, hu, -, ha, hi⟩
    · rw [ha] at hx; cases hx
    · rw [ha] at hx
      simp only [List.flatMap_cons, List.flatMap_nil, List.append_nil, entriesOf, hi, Option.getD_some,
        List.mem_append] at hx
      exact hx.imp (fun hx => (List.mem_filter.mp hx).1) (h.fin.sizes x)
  have hmfNew : ∀ x ∈ mf, hasFile w.fs x = false := by
    intro x hx
    obtain ⟨u, hu, hle⟩ := h.fin.entsNew x hx
    simp [hasFile, FS.parquet, hf x.file u (by rw [hu]; rfl) hle]
  have olds : (p.addIdx.flatMap (entriesOf w'.fs)).filter (hasFile w.fs) = fileKept E.I e w.fs q m.file := by
    unfold fileKept
    rcases hadd with ⟨h0, ha⟩ | ⟨h0, u, r, hu, -, ha, hi⟩
    · rw [ha, if_pos h0]; rfl
    · rw [ha, if_neg h0]
      simp only [List.flatMap_cons, List.flatMap_nil, List.append_nil, entriesOf, hi, Option.getD_some,
        List.filter_append]
      rw [List.filter_eq_self.mpr fun x hx => (hsib x hx).hasFile,
        List.filter_eq_nil_iff.mpr fun x hx => by simp [hmfNew x hx], List.append_nil]
  have once : NewOnce w w w' p := by
    refine ⟨?_, fun x _ => by cases hasFile w.fs x <;> simp⟩
    rcases hadd with ⟨h0, ha⟩ | ⟨h0, u, r, hu, -, ha, hi⟩
    · rw [ha]; simp
    · rw [ha]
      simp only [List.flatMap_cons, List.flatMap_nil, List.append_nil, entriesOf, hi, Option.getD_some,
        List.filter_append]
      rw [List.filter_eq_nil_iff.mpr fun x hx => by simp [(hsib x hx).hasFile], List.nil_append]
      exact (List.filter_sublist.map _).nodup h.fin.entsNodup
  refine ⟨⟨h.delIdx, ?_, ?_, ?_, size, h.addRec, h.rub, sizes, olds⟩, ⟨?_, by rw [h.addRec]; simp, ?_⟩,
    ⟨?_, by rw [h.addRec]; simp, ?_, by rw [h.addRec]; simp, by rw [h.delIdx]; simp⟩, once⟩
  · rcases hadd with ⟨h0, ha⟩ | ⟨h0, u, r, hu, -, ha, hi⟩
    · rw [ha]; simp [fileAfter, h0, physRows]
    · rw [ha]
      simp only [fileAfter, h0, if_false, physRows, List.flatMap_cons, List.flatMap_nil, List.append_nil, entriesOf, hi,
        Option.getD_some, List.flatMap_append, hrows]
      congr 1
      exact flatMap_congr' fun x hx => fileRows_mono hg.le (hsib x hx)
  · rw [h.rows]
    show -((([toDataFile n m].filter (modFile E.I e w.fs)).map _).sum) = _
    rw [hmods]
    simp [toDataFile, ManifestRow.sstats]
    omega
  · rw [h.log]
    show some (ChangeLog.mk (([toDataFile n m].filter (modFile E.I e w.fs)).map _) []) = _
    rw [hmods]
    rfl
  · intro x hx
    rcases hadd with ⟨h0, ha⟩ | ⟨h0, u, r, hu, -, ha, hi⟩
    · rw [ha] at hx; cases hx
    · rw [ha, List.mem_singleton] at hx
      subst hx
      refine ⟨_, hi, ?_, hent u hi⟩
      intro hc
      rw [(List.append_eq_nil_iff.mp hc).2] at hrows
      exact h0 hrows.symm
  · intro cl hcl
    rw [h.log] at hcl
    have hcl : some (ChangeLog.mk (([toDataFile n m].filter (modFile E.I e w.fs)).map (delBitmap E.I e w.fs)) []) =
      some cl := hcl
    rw [hmods] at hcl
    cases hcl
    rintro b (hb | hb)
    · rw [List.map_cons, List.map_nil, List.mem_singleton] at hb
      subst hb
      obtain ⟨g, h1, h2, -, h4⟩ := hme
      obtain ⟨e1, e2, e3⟩ := delBitmap_lt E.I e w.fs (toDataFile n m)
      have hr : (toDataFile n m).stats.rows.toNat = m.numRows := by simp [toDataFile, ManifestRow.sstats]
      refine BitmapOK.mono hg.le ⟨g, ?_, ?_, ?_, h4⟩
      · rw [e1]; exact h1
      · rw [e2, hr, h2]
      · intro i hi
        rw [e2]
        exact e3 i hi
    · cases hb
  · intro x hx
    rcases hadd with ⟨h0, ha⟩ | ⟨h0, u, r, hu, -, ha, hi⟩
    · rw [ha] at hx; cases hx
    · rw [ha, List.mem_singleton] at hx
      subst hx
      exact imanifest_fresh hf hu
  · rcases hadd with ⟨h0, ha⟩ | ⟨h0, u, r, hu, -, ha, hi⟩ <;> rw [ha] <;> simp

/-- The outcomes of the deletes of several files. -/
inductive RayDels (E : Env) (s : Schema) (e : Expr) (w w' : World) (man : AMap Nat Path) :
    List DataFile → List (Option Patch) → Prop
  | nil : RayDels E s e w w' man [] []
  | keep {f : DataFile} {v : List DataFile} {ps : List (Option Patch)} :
    modFile E.I e w.fs f = false → RayDels E s e w w' man v ps → RayDels E s e w w' man (f :: v) (none :: ps)
  | change {n : Nat} {m : ManifestRow} {v : List DataFile} {ps : List (Option Patch)} {p : Patch} {q : Path} :
    modFile E.I e w.fs (toDataFile n m) = true → man.get? n = some q → m ∈ entriesOf w.fs q →
    OneDeleted E s e w w' q n m p → RayDels E s e w w' man v ps →
    RayDels E s e w w' man (toDataFile n m :: v) (some p :: ps)

theorem survRows_mono {I : Interp} {fs fs' : FS} {L : Look} (hle : FSLe fs fs') {m : ManifestRow}
    (h : EntryOK fs L s m) : survRows I e fs' m.file = survRows I e fs m.file := by
  unfold survRows
  rw [fileRows_mono hle h]

/-- The outcome seen from an earlier and a later state. -/
theorem OneDeleted.widen {q : Path} {n : Nat} {m : ManifestRow} {p : Patch} {w2 : World}
    (h : OneDeleted E s e w w' q n m p) (hq : ManifestOK w0.fs s q) (hm : m ∈ entriesOf w0.fs q)
    (hle : FSLe w0.fs w.fs) (hok : PatchOK w'.fs s p) (hle' : FSLe w'.fs w2.fs) :
    OneDeleted E s e w0 w2 q n m p := by
  have hme := hq.entry hm
  have hent : entriesOf w.fs q = entriesOf w0.fs q := entriesOf_mono hle hq
  have hs : survRows E.I e w.fs m.file = survRows E.I e w0.fs m.file := survRows_mono hle hme
  have hsib : siblings w.fs q m.file = siblings w0.fs q m.file := by unfold siblings; rw [hent]
  have hadd : p.addIdx.flatMap (entriesOf w2.fs) = p.addIdx.flatMap (entriesOf w'.fs) :=
    flatMap_congr' fun x hx => entriesOf_mono hle' (hok.idx x hx)
  refine ⟨h.delIdx, ?_, by rw [h.rows, hs], ?_, ?_, h.recs, h.rub, by
    rw [hadd, ← hent]
    exact fun x hx => (h.sizes x hx).imp_right (·.mono hle'), ?_⟩
  · rw [physRows_mono hle' hok.idx, h.phys]
    unfold fileAfter
    rw [hs, hsib, flatMap_congr' (f := fun x : ManifestRow => fileRows w.fs x.file) (g := fun x => fileRows w0.fs x.file)]
    intro x hx
    exact fileRows_mono hle (hq.entry (List.mem_filter.mp hx).1)
  · rw [h.log]
    unfold delBitmap
    rw [show (toDataFile n m).path = m.file from rfl, fileRows_mono hle hme]
  · intro k
    have := h.size k
    unfold fileLost at this ⊢
    rw [hadd, ← hs, ← hsib]
    exact this
  · have := h.olds
    unfold fileKept at this ⊢
    rw [← hs, ← hsib, ← this, hadd]
    refine List.filter_congr fun x hx => ?_
    rw [Bool.eq_iff_iff]
    refine ⟨hasFile_mono hle, fun hf => ?_⟩
    have hx' := List.mem_filter.mpr ⟨hx, hf⟩
    rw [this] at hx'
    split at hx'
    · cases hx'
    · rw [hsib] at hx'
      exact (hq.entry (List.mem_filter.mp hx').1).hasFile

theorem NewOnce.mono {w1 w2 : World} {p : Patch} (h : NewOnce w0 w w1 p) (hok : PatchOK w1.fs s p)
    (hle : FSLe w1.fs w2.fs) : NewOnce w0 w w2 p := by
  have hadd : p.addIdx.flatMap (entriesOf w2.fs) = p.addIdx.flatMap (entriesOf w1.fs) :=
    flatMap_congr' fun x hx => entriesOf_mono hle (hok.idx x hx)
  exact ⟨by rw [hadd]; exact h.once, by rw [hadd]; exact h.new⟩

theorem NewOnce.earlier {w1 : World} {p : Patch} (h : NewOnce w0 w1 w' p) (hle : FSLe w.fs w1.fs) : NewOnce w0 w w' p :=
  ⟨h.once, fun x hx => (h.new x hx).imp_right fun hn => by
    cases hc : hasFile w.fs x with
    | false => rfl
    | true => rw [hasFile_mono hle hc] at hn; cases hn⟩

theorem NewOnce.rebase {q : Path} {n : Nat} {m : ManifestRow} {p : Patch} (h : NewOnce w w w' p)
    (ho : OneDeleted E s e w w' q n m p) (hq : ManifestOK w0.fs s q) (hle : FSLe w0.fs w.fs) : NewOnce w0 w w' p := by
  have same : ∀ x ∈ p.addIdx.flatMap (entriesOf w'.fs), hasFile w.fs x = true → hasFile w0.fs x = true := by
    intro x hx hf
    have hx' := List.mem_filter.mpr ⟨hx, hf⟩
    rw [ho.olds] at hx'
    unfold fileKept at hx'
    split at hx'
    · cases hx'
    · unfold siblings at hx'
      rw [entriesOf_mono hle hq] at hx'
      exact (hq.entry (List.mem_filter.mp hx').1).hasFile
  refine ⟨?_, fun x hx => ?_⟩
  · rw [List.filter_congr (q := fun x => !hasFile w.fs x)]
    · exact h.once
    · intro x hx
      congr 1
      rw [Bool.eq_iff_iff]
      exact ⟨hasFile_mono hle, same x hx⟩
  · cases hc : hasFile w.fs x with
    | false => exact Or.inr rfl
    | true => exact Or.inl (same x hx hc)

theorem NewOnce.join {a b : Patch} {w1 w2 : World} (ha : NewOnce w0 w w1 a) (hok : PatchOK w1.fs s a)
    (hb : NewOnce w0 w1 w2 b) (hle : FSLe w.fs w1.fs) (hle' : FSLe w1.fs w2.fs) : NewOnce w0 w w2 (joinPatch a b) := by
  have ha' := ha.mono hok hle'
  have hb' := hb.earlier hle
  refine ⟨?_, fun x hx => ?_⟩
  · simp only [joinPatch, List.flatMap_append, List.filter_append, List.map_append]
    refine List.nodup_append.mpr ⟨ha'.once, hb.once, ?_⟩
    rintro _ hx _ hy rfl
    obtain ⟨x, hx, hxe⟩ := List.mem_map.mp hx
    obtain ⟨y, hy, hye⟩ := List.mem_map.mp hy
    obtain ⟨hx1, -⟩ := List.mem_filter.mp hx
    obtain ⟨hy1, hy2⟩ := List.mem_filter.mp hy
    rw [show a.addIdx.flatMap (entriesOf w2.fs) = a.addIdx.flatMap (entriesOf w1.fs) from
      flatMap_congr' fun x hx => entriesOf_mono hle' (hok.idx x hx)] at hx1
    obtain ⟨q, hq, hxq⟩ := List.mem_flatMap.mp hx1
    have h1 := ((hok.idx q hq).entry hxq).hasFile
    rcases hb.new y hy1 with h2 | h2
    · rw [h2] at hy2; cases hy2
    · unfold hasFile at h1 h2
      rw [hxe, ← hye, h2] at h1
      cases h1
  · simp only [joinPatch, List.flatMap_append, List.mem_append] at hx
    exact hx.elim (ha'.new x) (hb'.new x)

theorem PatchOK.join {a b : Patch} {fs : FS} (ha : PatchOK fs s a) (hb : PatchOK fs s b) :
    PatchOK fs s (joinPatch a b) where
  idx := fun x hx => (List.mem_append.mp hx).elim (ha.idx x) (hb.idx x)
  recs := fun x hx => (List.mem_append.mp hx).elim (ha.recs x) (hb.recs x)
  log := mergeLogs_ok ha.log hb.log

theorem PatchNew.join {a b : Patch} {index : List Path} {w1 : World} (ha : PatchNew w index a)
    (hok : PatchOK w1.fs s a) (hb : PatchNew w1 index b) (hle : FSLe w.fs w1.fs) :
    PatchNew w index (joinPatch a b) := by
  have hb' := hb.earlier hle
  refine ⟨fun x hx => (List.mem_append.mp hx).elim (ha.idx x) (hb'.idx x),
    fun x hx => (List.mem_append.mp hx).elim (ha.recs x) (hb'.recs x),
    List.nodup_append.mpr ⟨ha.idxNodup, hb.idxNodup, ?_⟩, List.nodup_append.mpr ⟨ha.recsNodup, hb.recsNodup, ?_⟩,
    fun x hx => (List.mem_append.mp hx).elim (ha.del x) (hb.del x)⟩
  · rintro x hx _ hy rfl
    obtain ⟨rows, hc, -⟩ := hok.idx x hx
    rw [hb.idx x hy] at hc
    cases hc
  · rintro x hx _ hy rfl
    obtain ⟨rows, hc, -⟩ := hok.recs x hx
    rw [hb.recs x hy] at hc
    cases hc

/-- The deletes, one file after the other. -/
theorem rayDeleteLoop_post {index : List Path} {man : AMap Nat Path} (hn : s.names.Nodup)
    (hok : ∀ q ∈ index, ManifestOK w0.fs s q) (hman : ∀ n q, man.get? n = some q → q ∈ index)
    (hinj : ∀ n n' q, man.get? n = some q → man.get? n' = some q → n' = n) :
    ∀ (files : List DataFile) {w : World}, w.Fresh → Grows w0 w →
    (∀ f ∈ files, ∃ q, ∃ m ∈ entriesOf w0.fs q, f = toDataFile f.mid m ∧ man.get? f.mid = some q) →
    Post (rayDeleteLoop E s man e files w)
      (fun ps w' => Grows w w' ∧ w'.Fresh ∧ RayDels E s e w0 w' man files ps ∧
        ∀ p, mergePatches ps = some p → PatchOK w'.fs s p ∧ PatchNew w index p ∧ NewOnce w0 w w' p)
      (fun w' => Grows w w')
  | [], w, hf, hg, hfs => by
    unfold rayDeleteLoop
    exact Post.pure ⟨Grows.refl w, hf, .nil, fun p hp => by cases hp⟩
  | f :: files, w, hf, hg, hfs => by
    unfold rayDeleteLoop
    obtain ⟨q, m, hm, hfe, hq⟩ := hfs f (by simp)
    have hqi := hman _ _ hq
    have hq0 := hok q hqi
    have hm' : m ∈ entriesOf w.fs q := by rw [entriesOf_mono hg.le hq0]; exact hm
    have hme := hq0.entry hm
    have hmod : modFile E.I e w.fs f = modFile E.I e w0.fs f := by
      unfold modFile
      rw [hfe, show (toDataFile f.mid m).path = m.file from rfl, survRows_mono hg.le hme]
    refine Post.bind (deleteFiles_post (E := E) (e := e) hf (fset := { files := [f], manifests := man }) ?_ ?_) ?_
    · intro g hgm
      rw [List.mem_singleton] at hgm
      subst hgm
      rw [hfe]
      exact ((hq0.mono hg.le).entry hm').fileOK _
    · exact fun n q' hq' => (hok q' (hman _ _ hq')).mono hg.le
    · rintro p w1 ⟨g1, f1, hp⟩
      refine Post.bind (Post.imp (rayDeleteLoop_post hn hok hman hinj files f1 (hg.trans g1)
        (fun g hgm => hfs g (List.mem_cons_of_mem _ hgm))) (fun _ _ h => h) (fun _ h => g1.trans h)) ?_
      rintro ps w2 ⟨g2, f2, hd, hnew⟩
      refine Post.pure ⟨g1.trans g2, f2, ?_⟩
      rcases hp with ⟨rfl, hno⟩ | ⟨p', dms, carried, mf, rmf, rp, rfl, hdel⟩
      · refine ⟨.keep (by rw [← hmod]; exact hno f (by simp)) hd, ?_⟩
        intro p hp
        rw [mergePatches_cons] at hp
        obtain ⟨a, b, c⟩ := hnew p hp
        exact ⟨a, b.earlier g1.le, c.earlier g1.le⟩
      · have hdel' := hdel
        rw [hfe] at hdel
        have hmodt : modFile E.I e w.fs f = true := by
          have := hdel'.nonempty
          cases hc : modFile E.I e w.fs f with
          | true => rfl
          | false => simp [hc] at this
        obtain ⟨a, b, c, d⟩ := Deleted.one hn hf g1 (hq0.mono hg.le) hm' hq (fun n' h' => hinj _ _ q hq h') hdel
        have c : PatchNew w index p' := ⟨c.idx, c.recs, c.idxNodup, c.recsNodup, fun x hx => by
          have := c.del x hx
          rw [List.mem_singleton] at this
          subst this
          exact hqi⟩
        have d := d.rebase a hq0 hg.le
        constructor
        · rw [hfe]
          refine .change (by rw [← hfe, ← hmod]; exact hmodt) hq hm ?_ hd
          exact a.widen hq0 hm hg.le b g2.le
        · intro p hp
          rw [mergePatches_cons] at hp
          cases hps : mergePatches ps with
          | none =>
            rw [hps] at hp
            cases hp
            exact ⟨b.mono g2.le, c, d.mono b g2.le⟩
          | some pr =>
            rw [hps] at hp
            cases hp
            obtain ⟨b2, c2, d2⟩ := hnew pr hps
            exact ⟨PatchOK.join (b.mono g2.le) b2, c.join b c2 g1.le, d.join b d2 g1.le g2.le⟩

/-- The merged patch of several deletes. -/
structure RayMerged (E : Env) (s : Schema) (e : Expr) (w w' : World) (man : AMap Nat Path) (mods : List DataFile) (p : Patch) :
    Prop where
  delIdx : p.delIdx = mods.flatMap (fun f => (man.get? f.mid).toList)
  phys : physRows w'.fs p.addIdx =
    mods.flatMap (fun f => (man.get? f.mid).toList.flatMap (fun q => fileAfter E.I e w.fs q f.path))
  rows : p.stats.rows = (mods.map (fun f => ((survRows E.I e w.fs f.path).length : Int) - f.stats.rows)).sum
  log : p.log = some ⟨mods.map (delBitmap E.I e w.fs), []⟩
  size : ∀ k : Size, k.sum (p.addIdx.flatMap (entriesOf w'.fs)) +
      k.sum (mods.flatMap (fun f => (man.get? f.mid).toList.flatMap (fun q => fileLost E.I e w.fs q f.path))) =
    k.stat p.stats + (mods.map (fun f => k.stat f.stats)).sum
  recs : p.addRec = []
  rub : p.stats.rub = 0
  sizes : ∀ x ∈ p.addIdx.flatMap (entriesOf w'.fs), (∃ q ∈ p.delIdx, x ∈ entriesOf w.fs q) ∨ SizeOK E s w'.fs x
  olds : (p.addIdx.flatMap (entriesOf w'.fs)).filter (hasFile w.fs) =
    mods.flatMap (fun f => (man.get? f.mid).toList.flatMap (fun q => fileKept E.I e w.fs q f.path))

theorem OneDeleted.merged {man : AMap Nat Path} {n : Nat} {q : Path} {m : ManifestRow} {p : Patch}
    (h : OneDeleted E s e w w' q n m p) (hq : man.get? n = some q) :
    RayMerged E s e w w' man [toDataFile n m] p := by
  have hq' : man.get? (toDataFile n m).mid = some q := hq
  refine ⟨by simp [h.delIdx, hq'], ?_, ?_, h.log, ?_, h.recs, h.rub,
    fun x hx => (h.sizes x hx).imp_left fun hx => ⟨q, by simp [h.delIdx], hx⟩, by
    rw [h.olds]
    simp [hq']
    rfl⟩
  · rw [h.phys]
    simp [hq']
    rfl
  · rw [h.rows]
    simp [toDataFile, ManifestRow.sstats]
  · intro k
    have := h.size k
    simp only [List.flatMap_cons, List.flatMap_nil, List.append_nil, hq', Option.toList_some, List.map_cons,
      List.map_nil, List.sum_cons, List.sum_nil]
    have he : k.stat (toDataFile n m).stats = k.entry m := by cases k <;> rfl
    rw [he, Int.add_zero]
    exact this

theorem RayMerged.join {man : AMap Nat Path} {m1 m2 : List DataFile} {p1 p2 : Patch}
    (h1 : RayMerged E s e w w' man m1 p1) (h2 : RayMerged E s e w w' man m2 p2) :
    RayMerged E s e w w' man (m1 ++ m2) (joinPatch p1 p2) := by
  refine ⟨?_, ?_, ?_, ?_, ?_, by simp [joinPatch, h1.recs, h2.recs],
    by simp [joinPatch, SStats.addIndex, SStats.addRecord, h1.rub, h2.rub], ?_, by
    rw [List.flatMap_append, ← h1.olds, ← h2.olds]
    simp [joinPatch]⟩
  · simp [joinPatch, h1.delIdx, h2.delIdx]
  · rw [List.flatMap_append, ← h1.phys, ← h2.phys]
    simp [joinPatch, physRows]
  · rw [List.map_append, List.sum_append, ← h1.rows, ← h2.rows]
    simp [joinPatch, SStats.addIndex, SStats.addRecord]
  · simp [joinPatch, h1.log, h2.log, mergeLogs]
  · intro k
    have a := h1.size k
    have b := h2.size k
    have c : k.stat (joinPatch p1 p2).stats = k.stat p1.stats + k.stat p2.stats := by cases k <;> rfl
    rw [c]
    simp only [joinPatch, List.flatMap_append, Size.sum_append, List.map_append, List.sum_append]
    omega
  · intro x hx
    simp only [joinPatch, List.flatMap_append, List.mem_append] at hx ⊢
    rcases hx with hx | hx
    · exact (h1.sizes x hx).imp_left fun ⟨q, h3, h4⟩ => ⟨q, Or.inl h3, h4⟩
    · exact (h2.sizes x hx).imp_left fun ⟨q, h3, h4⟩ => ⟨q, Or.inr h3, h4⟩

/-- The bytes of files that are alone in their manifests. -/
theorem RayMerged.bytes {man : AMap Nat Path} {mods : List DataFile} {p : Patch}
    (h : RayMerged E s e w w' man mods p)
    (hs : ∀ f ∈ mods, ∀ q, man.get? f.mid = some q → siblings w.fs q f.path = []) :
    sumIcb (p.addIdx.flatMap (entriesOf w'.fs)) = p.stats.icb + (mods.map (·.stats.icb)).sum ∧
    sumIub (p.addIdx.flatMap (entriesOf w'.fs)) = p.stats.iub + (mods.map (·.stats.iub)).sum := by
  have hz : mods.flatMap (fun f => (man.get? f.mid).toList.flatMap (fun q => fileLost E.I e w.fs q f.path)) = [] := by
    rw [List.flatMap_eq_nil_iff]
    intro f hf
    rw [List.flatMap_eq_nil_iff]
    intro q hq
    rw [Option.mem_toList] at hq
    simp [fileLost, hs f hf q hq]
  have a := h.size .compressed
  have b := h.size .uncompressed
  rw [hz, Size.sum_nil, Int.add_zero] at a b
  exact ⟨a, b⟩

/-- What the deletes of several files amount to. -/
theorem RayDels.merged {man : AMap Nat Path} : ∀ {v : List DataFile} {ps : List (Option Patch)},
    RayDels E s e w w' man v ps →
    (mergePatches ps = none ∧ v.filter (modFile E.I e w.fs) = []) ∨
      ∃ p, mergePatches ps = some p ∧ v.filter (modFile E.I e w.fs) ≠ [] ∧
        RayMerged E s e w w' man (v.filter (modFile E.I e w.fs)) p
  | _, _, .nil => Or.inl ⟨rfl, rfl⟩
  | _, _, .keep (f := f) (v := v) hf h => by
    rw [mergePatches_cons, List.filter_cons_of_neg (by simp [hf])]
    exact h.merged
  | _, _, .change (n := n) (m := m) (v := v) (ps := ps) (p := p) (q := q) hf hq hm hd h => by
    rw [mergePatches_cons, List.filter_cons_of_pos hf]
    refine Or.inr ?_
    have h0 := hd.merged hq
    rcases h.merged with ⟨h1, h2⟩ | ⟨p2, h1, h2, h3⟩
    · rw [h1, h2]
      exact ⟨p, rfl, by simp, h0⟩
    · rw [h1]
      exact ⟨_, rfl, by simp, h0.join h3⟩

/-- Modified files of a snapshot with their manifests. -/
theorem mods_pairs {β : Type} {index : List Path} {mf : Option MExpr}
    (g : Path → DataFile → List β) (g' : Path → ManifestRow → List β) (hg : ∀ n q m, g q (toDataFile n m) = g' q m) :
    ((visited w.fs mf index).files.filter (modFile E.I e w.fs)).flatMap
      (fun f => ((visited w.fs mf index).manifests.get? f.mid).toList.flatMap (fun q => g q f)) =
      index.flatMap (fun q => ((entriesOf w.fs q).filter (modEntry E.I e w.fs mf)).flatMap (fun m => g' q m)) := by
  have key : ∀ (ps : List Path) (mid : Nat) (man : AMap Nat Path),
      (∀ n, mid ≤ n → man.get? n = (packFiles w.fs mf ps mid).manifests.get? n) →
      ((packFiles w.fs mf ps mid).files.filter (modFile E.I e w.fs)).flatMap
        (fun f => (man.get? f.mid).toList.flatMap (fun q => g q f)) =
      ps.flatMap (fun q => ((keptEntries w.fs mf q).filter
        (fun m => decide ((survRows E.I e w.fs m.file).length ≠ m.numRows))).flatMap (fun m => g' q m)) := by
    intro ps
    induction ps with
    | nil => intro mid man h; rfl
    | cons q ps ih =>
      intro mid man h
      simp only [packFiles, List.filter_append, List.flatMap_append, List.flatMap_cons]
      congr 1
      · have hq : man.get? mid = some q := by
          rw [h mid (Nat.le_refl _)]
          simp [packFiles, AMap.get?]
        rw [List.filter_map, List.flatMap_map]
        refine (congrArg (fun l => List.flatMap _ l) (List.filter_congr (q := fun m =>
          decide ((survRows E.I e w.fs m.file).length ≠ m.numRows)) ?_)).trans ?_
        · intro m _
          exact modFile_toDataFile E.I e w.fs mid m
        · refine flatMap_congr' fun m _ => ?_
          have : (toDataFile mid m).mid = mid := rfl
          simp only [this, hq, Option.toList_some, List.flatMap_cons, List.flatMap_nil, List.append_nil, hg]
      · refine ih (mid + 1) man fun n hn => ?_
        rw [h n (by omega)]
        simp only [packFiles, AMap.get?]
        rw [if_neg (by omega)]
  rw [key _ 1 _ (fun _ _ => rfl), flatMap_filter_nil _ _ (by
    intro q hq
    have : keptEntries w.fs mf q = [] := by simpa using hq
    rw [this]; rfl)]
  refine flatMap_congr' fun q _ => ?_
  unfold keptEntries
  rw [List.filter_filter]
  refine congrArg (fun l => List.flatMap _ l) (List.filter_congr fun m _ => ?_)
  unfold modEntry
  rw [Bool.and_comm]

/-- Outcome of the body of the Ray delete. -/
structure RayDeleteOut (E : Env) (s : Schema) (e : Expr) (w w' : World) (index : List Path)
    (mf : Option MExpr) (p : Option Patch) : Prop where
  out : (p = none ∧ ∀ q ∈ index, hasMod E.I e w.fs mf q = false) ∨
    ∃ p', p = some p' ∧ PatchOK w'.fs s p' ∧ PatchNew w index p' ∧
      (visited w.fs mf index).files.filter (modFile E.I e w.fs) ≠ [] ∧
      RayMerged E s e w w' (visited w.fs mf index).manifests
        ((visited w.fs mf index).files.filter (modFile E.I e w.fs)) p'
  once : ∀ p', p = some p' → NewOnce w w w' p'

theorem rayDeleteBody_post {h : Handle} (hf : w.Fresh) (hn : s.names.Nodup) (hh : HandleOK s w h) :
    Post (rayDeleteBody E h e w)
      (fun p w' => Grows w w' ∧ w'.Fresh ∧ ∃ snap mf, h.snapshot none = .ok snap ∧
        manifestFilter s (some e) = .ok mf ∧ RayDeleteOut E s e w w' snap.index mf p)
      (fun w' => Grows w w') := by
  unfold rayDeleteBody
  refine Post.bind (Q := fun a b => w = a ∧ w = b) (Post.get ⟨rfl, rfl⟩) ?_
  rintro a b ⟨rfl, hb⟩
  subst hb
  refine Post.bind (Q := fun a b => dataFiles w.fs h (some e) none = .ok a ∧ w = b)
    (Post.lift (fun a ha => ⟨ha, rfl⟩) (Grows.refl w)) ?_
  rintro fset b ⟨hd, hb⟩
  subst hb
  obtain ⟨snap, mf, h1, h2, rfl⟩ := dataFiles_ok hh hd
  rw [hh.schema]
  have hok := snapshot_manifests hh h1
  refine Post.bind (rayDeleteLoop_post (w0 := w) (index := snap.index) hn hok.manifests ?_ ?_ _ hf (Grows.refl w) ?_) ?_
  · intro n q hq
    exact (List.mem_filter.mp (packFiles_manifest_mem hq)).1
  · intro n n' q hq hq'
    exact packFiles_inj (hok.nodup.filter _) hq' hq
  · intro f hfm
    obtain ⟨q, -, m, hm, n, rfl, -, hg⟩ := packFiles_mem hfm
    exact ⟨q, m, (List.mem_filter.mp hm).1, rfl, hg⟩
  · rintro ps w' ⟨g1, f1, hd, hp⟩
    refine Post.pure ⟨g1, f1, snap, mf, h1, h2, ⟨?_, fun p' hp' => (hp p' hp').2.2⟩⟩
    rcases hd.merged with ⟨h3, h4⟩ | ⟨p, h3, h4, h5⟩
    · refine Or.inl ⟨h3, ?_⟩
      intro q hq
      simp only [hasMod, List.any_eq_false]
      intro m hm hmod
      obtain ⟨n, hx, -⟩ := mods_visited hq hm hmod
      rw [h4] at hx
      cases hx
    · obtain ⟨a, b, -⟩ := hp p h3
      exact Or.inr ⟨p, h3, a, b, h4, h5⟩

theorem physRows_append (fs : FS) (a b : List Path) :
    physRows fs (a ++ b) = physRows fs a ++ physRows fs b := by
  simp [physRows]

/-- The per-file deletes leave what one delete leaves: every manifest with a modified file
has exactly one, which is alone in the manifest if none of its rows survive. -/
def RayNoLoss (I : Interp) (e : Expr) (fs : FS) (mf : Option MExpr) (index : List Path) : Prop :=
  ∀ q ∈ index, ∀ m ∈ entriesOf fs q, modEntry I e fs mf m = true →
    (entriesOf fs q).filter (modEntry I e fs mf) = [m] ∧ (survRows I e fs m.file = [] → entriesOf fs q = [m])

theorem RayNoLoss.noLoss {I : Interp} {fs : FS} {mf : Option MExpr} {index : List Path}
    (h : RayNoLoss I e fs mf index) : NoLoss I e fs mf index := by
  by_cases hc : ∃ q ∈ index, ∃ m ∈ entriesOf fs q, modEntry I e fs mf m = true ∧ survRows I e fs m.file ≠ []
  · exact Or.inl hc
  · refine Or.inr ?_
    intro q hq hmod m hm
    simp only [hasMod, List.any_eq_true] at hmod
    obtain ⟨m', hm', hmod'⟩ := hmod
    have h0 : survRows I e fs m'.file = [] :=
      Classical.byContradiction fun h0 => hc ⟨q, hq, m', hm', hmod', h0⟩
    rw [(h q hq m' hm' hmod').2 h0, List.mem_singleton] at hm
    subst hm
    exact hmod'

variable {index : List Path} {mf : Option MExpr} {p : Patch}

/-- The merged patch of the deletes of all modified files of a snapshot. -/
abbrev RayDeleted (E : Env) (s : Schema) (e : Expr) (w w' : World) (index : List Path) (mf : Option MExpr) (p : Patch) : Prop :=
  RayMerged E s e w w' (visited w.fs mf index).manifests ((visited w.fs mf index).files.filter (modFile E.I e w.fs)) p

theorem RayMerged.mem_del (h : RayDeleted E s e w w' index mf p) (q : Path) :
    q ∈ p.delIdx ↔ q ∈ index ∧ hasMod E.I e w.fs mf q = true := by
  rw [h.delIdx]
  simp only [List.mem_flatMap, Option.mem_toList, hasMod, List.any_eq_true]
  constructor
  · rintro ⟨f, hf, hg⟩
    obtain ⟨q', hq', m, hm, hmod, -, hg'⟩ := visited_mods f hf
    rw [hg] at hg'
    cases hg'
    exact ⟨hq', m, hm, hmod⟩
  · rintro ⟨hq, m, hm, hmod⟩
    obtain ⟨n, h1, h2⟩ := mods_visited hq hm hmod
    exact ⟨_, h1, h2⟩

theorem RayMerged.left (h : RayDeleted E s e w w' index mf p) : index.filter (fun q => !p.delIdx.contains q) =
    index.filter (fun q => !hasMod E.I e w.fs mf q) := by
  refine List.filter_congr fun q hq => ?_
  congr 1
  rw [Bool.eq_iff_iff]
  simp only [List.contains_eq_mem, decide_eq_true_eq, h.mem_del, hq, true_and]

/-- The rows stored by the per-file deletes, whatever the layout. -/
theorem RayMerged.added (h : RayDeleted E s e w w' index mf p) :
    physRows w'.fs p.addIdx = index.flatMap (fun q => ((entriesOf w.fs q).filter (modEntry E.I e w.fs mf)).flatMap
      (fun m => fileAfter E.I e w.fs q m.file)) := by
  rw [h.phys, mods_pairs (fun q f => fileAfter E.I e w.fs q f.path) (fun q m => fileAfter E.I e w.fs q m.file)
    (fun _ _ _ => rfl)]

/-- Every row left was there before. -/
theorem RayMerged.sub (hok : ∀ q ∈ index, ManifestOK w.fs s q) (hg : Grows w w')
    (h : RayDeleted E s e w w' index mf p) :
    ∀ r ∈ physRows w'.fs (index.filter (fun q => !p.delIdx.contains q) ++ p.addIdx), r ∈ physRows w.fs index := by
  intro r hr
  rw [physRows_append] at hr
  rcases List.mem_append.mp hr with hr | hr
  · rw [physRows_mono hg.le (fun q hq => hok q (List.mem_filter.mp hq).1)] at hr
    obtain ⟨q, hq, hr⟩ := List.mem_flatMap.mp hr
    exact List.mem_flatMap.mpr ⟨q, (List.mem_filter.mp hq).1, hr⟩
  · rw [h.added] at hr
    obtain ⟨q, hq, hr⟩ := List.mem_flatMap.mp hr
    obtain ⟨m, hm, hr⟩ := List.mem_flatMap.mp hr
    refine List.mem_flatMap.mpr ⟨q, hq, ?_⟩
    unfold fileAfter at hr
    split at hr
    · cases hr
    · rcases List.mem_append.mp hr with hr | hr
      · obtain ⟨x, hx, hr⟩ := List.mem_flatMap.mp hr
        exact List.mem_flatMap.mpr ⟨x, (List.mem_filter.mp hx).1, hr⟩
      · exact List.mem_flatMap.mpr ⟨m, (List.mem_filter.mp hm).1, (List.mem_filter.mp hr).1⟩

/-- Rows of the new snapshot. -/
theorem RayMerged.rowsPerm (hok : ∀ q ∈ index, ManifestOK w.fs s q) (hg : Grows w w')
    (h : RayDeleted E s e w w' index mf p) (hloss : RayNoLoss E.I e w.fs mf index) :
    physRows w'.fs (index.filter (fun q => !p.delIdx.contains q) ++ p.addIdx) ~
      (index.flatMap (entriesOf w.fs)).flatMap (afterRows E.I e w.fs mf) := by
  rw [physRows_append, h.added, h.left, physRows_mono hg.le (fun q hq => hok q (List.mem_filter.mp hq).1),
    List.flatMap_assoc]
  refine Perm.trans ?_ (split_perm (hasMod E.I e w.fs mf) _ index)
  refine Perm.append ?_ ?_
  · unfold physRows
    refine Perm.of_eq (flatMap_congr' fun q hq => flatMap_congr' fun m hm => ?_)
    have := (List.mem_filter.mp hq).2
    have hm0 : modEntry E.I e w.fs mf m = false := by
      simp only [hasMod, Bool.not_eq_true', List.any_eq_false] at this
      simpa using this m hm
    simp [afterRows, hm0]
  · rw [flatMap_filter_ite]
    refine flatMap_perm fun q hq => ?_
    split
    · rename_i hmod
      simp only [hasMod, List.any_eq_true] at hmod
      obtain ⟨m, hm, hmod⟩ := hmod
      obtain ⟨h1, h2⟩ := hloss q hq m hm hmod
      rw [h1]
      simp only [List.flatMap_cons, List.flatMap_nil, List.append_nil, fileAfter]
      split
      · rename_i h0
        rw [h2 h0]
        simp [afterRows, hmod, h0]
      · refine Perm.trans ?_ (split_perm (modEntry E.I e w.fs mf) _ _)
        have hsib : siblings w.fs q m.file = (entriesOf w.fs q).filter (fun x => !modEntry E.I e w.fs mf x) := by
          unfold siblings
          refine List.filter_congr fun x hx => ?_
          congr 1
          rw [Bool.eq_iff_iff, decide_eq_true_eq]
          constructor
          · intro hf
            rw [modEntry_file ((hok q hq).entry hx) ((hok q hq).entry hm) hf]
            exact hmod
          · intro hx'
            have : x ∈ (entriesOf w.fs q).filter (modEntry E.I e w.fs mf) := List.mem_filter.mpr ⟨hx, hx'⟩
            rw [h1, List.mem_singleton] at this
            rw [this]
        rw [hsib, h1]
        refine Perm.append ?_ ?_
        · refine Perm.of_eq (flatMap_congr' fun x hx => ?_)
          have := (List.mem_filter.mp hx).2
          simp only [Bool.not_eq_true'] at this
          simp [afterRows, this]
        · simp [afterRows, hmod]
    · rename_i hmod
      simp only [hasMod, Bool.not_eq_true, List.any_eq_false] at hmod
      rw [List.filter_eq_nil_iff.mpr fun m hm => by simp [hmod m hm]]
      exact Perm.refl _

/-- The row count of the patch. -/
theorem RayMerged.rowCount (hok : ∀ q ∈ index, ManifestOK w.fs s q) (h : RayDeleted E s e w w' index mf p) :
    p.stats.rows = (((index.flatMap (entriesOf w.fs)).flatMap (afterRows E.I e w.fs mf)).length : Int)
      - ((physRows w.fs index).length : Int) := by
  have h1 := mods_rowSum (E := E) (e := e) (mf := mf) hok
  have h2 := h.rows
  have h3 : ∀ l : List DataFile, (l.map (fun f => ((survRows E.I e w.fs f.path).length : Int) - f.stats.rows)).sum =
      - (l.map (fun f => f.stats.rows - ((survRows E.I e w.fs f.path).length : Int))).sum := by
    intro l
    induction l with
    | nil => rfl
    | cons a l ih => simp only [List.map_cons, List.sum_cons, ih]; omega
  rw [h3] at h2
  omega

end

end Space
