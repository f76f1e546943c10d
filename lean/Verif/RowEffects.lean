import Verif.KeyFilter

/-!
# Rows after delete, insert and upsert
-/

namespace Space

open List

/-- Manifests, files in them, rows in those. -/
def layout (fs : FS) (s : Schema) (snap : Snapshot) : List (List (List Row)) :=
  snap.index.map (fun p => (entriesOf fs p).map
    (fun m => (fileRows fs m.file).map (deref fs.records s)))

theorem layout_flatten (fs : FS) (s : Schema) (snap : Snapshot) :
    (layout fs s snap).flatten.flatten = snapRows fs s snap := by
  unfold layout snapRows physRows
  induction snap.index with
  | nil => rfl
  | cons p ps ih =>
    simp only [List.map_cons, List.flatten_cons, List.flatten_append, List.flatMap_cons, List.map_append, ih]
    congr 1
    induction entriesOf fs p with
    | nil => rfl
    | cons m ms ih2 => simp [ih2]

/-- Layouts on which a delete loses no file: some file has both rows to delete and
rows to keep; or every manifest with a file in which some row is not kept has rows to
delete in all of its files. -/
def DeleteSafe (truth : Row → Option Bool) (lay : List (List (List Row))) : Prop :=
  (∃ man ∈ lay, ∃ file ∈ man, (∃ r ∈ file, truth r = some true) ∧
    ∃ r ∈ file, truth r = some false) ∨
  ∀ man ∈ lay, (∃ file ∈ man, ∃ r ∈ file, truth r ≠ some false) →
    ∀ file ∈ man, ∃ r ∈ file, truth r = some true

theorem DeleteSafe.congr {f g : Row → Option Bool} {lay : List (List (List Row))}
    (h : ∀ r ∈ lay.flatten.flatten, f r = g r) (hs : DeleteSafe f lay) : DeleteSafe g lay := by
  have key : ∀ man ∈ lay, ∀ file ∈ man, ∀ r ∈ file, f r = g r := fun man hm file hf r hr =>
    h r (List.mem_flatten.mpr ⟨file, List.mem_flatten.mpr ⟨man, hm, hf⟩, hr⟩)
  rcases hs with ⟨man, hm, file, hf, ⟨r, hr, h1⟩, r', hr', h2⟩ | hs
  · exact Or.inl ⟨man, hm, file, hf, ⟨r, hr, key man hm file hf r hr ▸ h1⟩, r', hr',
      key man hm file hf r' hr' ▸ h2⟩
  · refine Or.inr fun man hm ⟨file, hf, r, hr, h1⟩ file' hf' => ?_
    obtain ⟨r', hr', h2⟩ := hs man hm ⟨file, hf, r, hr, by rw [key man hm file hf r hr]; exact h1⟩ file' hf'
    exact ⟨r', hr', by rw [← key man hm file' hf' r' hr']; exact h2⟩

/-- Layouts on which the per-file deletes of the Ray runner leave what one delete leaves:
in every manifest at most one file has rows on which the filter is not false, and this
file, unless alone in the manifest, has rows to keep. -/
def RaySafe (truth : Row → Option Bool) (lay : List (List (List Row))) : Prop :=
  ∀ man ∈ lay, ∀ pre file post, man = pre ++ file :: post → (∃ r ∈ file, truth r ≠ some false) →
    (∀ other ∈ pre ++ post, ∀ r ∈ other, truth r = some false) ∧
      ((∃ r ∈ file, truth r = some false) ∨ pre ++ post = [])

/-- What a delete by a filter that is null on no row leaves: if some file has both rows to
delete and rows to keep, all rows to keep; otherwise only the rows of the manifests that have
no row to delete. -/
def leftBy (truth : Row → Option Bool) (lay : List (List (List Row))) : List Row :=
  if lay.any (fun man => man.any fun file =>
      file.any (fun r => truth r == some true) && file.any (fun r => truth r == some false)) then
    lay.flatten.flatten.filter (fun r => truth r == some false)
  else (lay.filter (fun man => !man.any fun file => file.any fun r => truth r == some true)).flatten.flatten

/-- Rows to keep are lost by no delete on such a layout, and are on every other one: some
file has both rows to delete and rows to keep, or manifests with a row to delete have no
other rows. -/
def Spared (truth : Row → Option Bool) (lay : List (List (List Row))) : Prop :=
  (∃ man ∈ lay, ∃ file ∈ man, (∃ r ∈ file, truth r = some true) ∧ ∃ r ∈ file, truth r = some false) ∨
  ∀ man ∈ lay, (∃ file ∈ man, ∃ r ∈ file, truth r = some true) → ∀ file ∈ man, ∀ r ∈ file, truth r = some true

theorem fails_iff {I : Interp} {e : Expr} {r : Row} : e.fails I r = true ↔ e.truth I r = some false := by
  unfold Expr.fails
  cases h : e.truth I r with
  | none => simp [kNot]
  | some b => cases b <;> simp [kNot]

theorem truth_deref {I : Interp} {s : Schema} {e : Expr} (hp : ∀ c ∈ e.cols, c ∉ s.recs) (L : Look)
    (r : Row) : e.truth I (deref L s r) = e.truth I r := by
  unfold Expr.truth
  congr 1
  refine eval_congr e fun c hc => ?_
  rw [deref_val]
  simp [hp c hc]

section
variable {I : Interp} {s : Schema} {e : Expr} {fs : FS} {mf : Option MExpr} {L : Look}

/-- A file with a row on which the filter is true is modified. -/
theorem modEntry_of_true (hp : PruneOK s (some e)) (hm : manifestFilter s (some e) = .ok mf)
    {m : ManifestRow} (he : EntryOK fs L s m) {r : Row} (hr : r ∈ fileRows fs m.file)
    (ht : e.truth I r = some true) : modEntry I e fs mf m = true := by
  unfold modEntry
  have hk : MExpr.keeps mf m.stats = true := by
    refine hp.keeps (I := I) hm he r ?_
    simp [filterRows, Expr.holds, hr, ht]
  have hlt : (survRows I e fs m.file).length < m.numRows := by
    rw [← he.length]
    refine Nat.lt_of_le_of_ne (List.length_filter_le ..) fun h => ?_
    have := List.length_filter_eq_length_iff.mp h r hr
    rw [fails_iff, ht] at this
    cases this
  simp only [hk, Bool.true_and, decide_eq_true_eq]
  omega

/-- A modified file has a row on which the filter is not false. -/
theorem not_false_of_mod {m : ManifestRow} (he : EntryOK fs L s m) (h : modEntry I e fs mf m = true) :
    ∃ r ∈ fileRows fs m.file, e.truth I r ≠ some false := by
  unfold modEntry at h
  simp only [Bool.and_eq_true, decide_eq_true_eq] at h
  refine Classical.byContradiction fun hc => ?_
  apply h.2
  rw [← he.length]
  refine List.length_filter_eq_length_iff.mpr fun r hr => ?_
  rw [fails_iff]
  exact Classical.byContradiction fun hx => hc ⟨r, hr, hx⟩

/-- Rows left of one file: those on which the filter is false, and possibly some on
which it is null. -/
theorem afterRows_split (hp : PruneOK s (some e)) (hm : manifestFilter s (some e) = .ok mf)
    {m : ManifestRow} (he : EntryOK fs L s m) :
    ∃ nulls, nulls.Sublist ((fileRows fs m.file).filter (fun r => e.truth I r == none)) ∧
      afterRows I e fs mf m ~ (fileRows fs m.file).filter (fun r => e.truth I r == some false) ++ nulls := by
  have hff : ∀ l : List Row, l.filter (fun r => e.fails I r) = l.filter (fun r => e.truth I r == some false) := by
    intro l
    refine List.filter_congr fun r _ => ?_
    rw [Bool.eq_iff_iff, fails_iff]
    simp
  unfold afterRows
  split
  · exact ⟨[], List.nil_sublist _, by simp [survRows, hff]⟩
  · rename_i hmod
    refine ⟨_, List.Sublist.refl _, ?_⟩
    have hno : ∀ r ∈ fileRows fs m.file, e.truth I r ≠ some true :=
      fun r hr ht => hmod (modEntry_of_true hp hm he hr ht)
    have hsplit := (List.filter_append_perm (fun r => e.truth I r == some false) (fileRows fs m.file)).symm
    refine hsplit.trans (List.Perm.append_left _ ?_)
    rw [List.filter_congr (q := fun r => e.truth I r == none)]
    intro r hr
    cases h : e.truth I r with
    | none => rfl
    | some b => cases b with
      | true => exact absurd h (hno r hr)
      | false => rfl

theorem flatMap_split {α β : Type} {f : α → List β} {p q : β → Bool} {g : α → List β} : ∀ {l : List α},
    (∀ a ∈ l, ∃ n, n.Sublist ((f a).filter q) ∧ g a ~ (f a).filter p ++ n) →
    ∃ n, n.Sublist ((l.flatMap f).filter q) ∧ l.flatMap g ~ (l.flatMap f).filter p ++ n
  | [], _ => ⟨[], by simp, by simp⟩
  | a :: l, h => by
    obtain ⟨n1, a1, a2⟩ := h a (by simp)
    obtain ⟨n2, b1, b2⟩ := flatMap_split (l := l) (fun x hx => h x (by simp [hx]))
    refine ⟨n1 ++ n2, ?_, ?_⟩
    · simp only [List.flatMap_cons, List.filter_append]
      exact a1.append b1
    · simp only [List.flatMap_cons, List.filter_append]
      refine (a2.append b2).trans ?_
      simp only [List.append_assoc]
      refine List.Perm.append_left _ ?_
      simp only [← List.append_assoc]
      exact List.Perm.append_right _ List.perm_append_comm

theorem physRows_entries (fs : FS) (index : List Path) :
    physRows fs index = (index.flatMap (entriesOf fs)).flatMap (fun m => fileRows fs m.file) := by
  simp [physRows, List.flatMap_assoc]

/-- Rows left by a delete that loses no file. -/
theorem left_split {index : List Path} (hp : PruneOK s (some e)) (hm : manifestFilter s (some e) = .ok mf)
    (hok : ∀ q ∈ index, ManifestOK fs s q) :
    ∃ nulls, nulls.Sublist ((physRows fs index).filter (fun r => e.truth I r == none)) ∧
      (index.flatMap (entriesOf fs)).flatMap (afterRows I e fs mf) ~
        (physRows fs index).filter (fun r => e.truth I r == some false) ++ nulls := by
  rw [physRows_entries]
  refine flatMap_split fun m hmem => ?_
  obtain ⟨q, hq, hmq⟩ := List.mem_flatMap.mp hmem
  exact afterRows_split hp hm ((hok q hq).entry hmq)

theorem mem_layout {snap : Snapshot} {q : Path} (hq : q ∈ snap.index) :
    (entriesOf fs q).map (fun m => (fileRows fs m.file).map (deref fs.records s)) ∈ layout fs s snap :=
  List.mem_map.mpr ⟨q, hq, rfl⟩

/-- A safe layout loses no file. -/
theorem noLoss_of_safe {snap : Snapshot} (hp : PruneOK s (some e)) (hm : manifestFilter s (some e) = .ok mf)
    (hplain : ∀ c ∈ e.cols, c ∉ s.recs) (hok : ∀ q ∈ snap.index, ManifestOK fs s q)
    (h : DeleteSafe (e.truth I) (layout fs s snap)) : NoLoss I e fs mf snap.index := by
  rcases h with ⟨man, hman, file, hfile, ⟨r, hr, ht⟩, r', hr', ht'⟩ | h
  · obtain ⟨q, hq, rfl⟩ := List.mem_map.mp hman
    obtain ⟨m, hmq, rfl⟩ := List.mem_map.mp hfile
    obtain ⟨x, hx, rfl⟩ := List.mem_map.mp hr
    obtain ⟨y, hy, rfl⟩ := List.mem_map.mp hr'
    rw [truth_deref hplain] at ht ht'
    refine Or.inl ⟨q, hq, m, hmq, modEntry_of_true hp hm ((hok q hq).entry hmq) hx ht, ?_⟩
    intro hnil
    have : y ∈ survRows I e fs m.file := List.mem_filter.mpr ⟨hy, fails_iff.mpr ht'⟩
    rw [hnil] at this
    cases this
  · refine Or.inr fun q hq hmod m hmq => ?_
    simp only [hasMod, List.any_eq_true] at hmod
    obtain ⟨m', hm', hmod'⟩ := hmod
    obtain ⟨y, hy, hty⟩ := not_false_of_mod ((hok q hq).entry hm') hmod'
    obtain ⟨r, hr, ht⟩ := h _ (mem_layout hq)
      ⟨_, List.mem_map.mpr ⟨m', hm', rfl⟩, _, List.mem_map.mpr ⟨y, hy, rfl⟩, by rwa [truth_deref hplain]⟩
      _ (List.mem_map.mpr ⟨m, hmq, rfl⟩)
    obtain ⟨x, hx, rfl⟩ := List.mem_map.mp hr
    rw [truth_deref hplain] at ht
    exact modEntry_of_true hp hm ((hok q hq).entry hmq) hx ht

theorem map_filter_truth {I : Interp} {s : Schema} {e : Expr} (hplain : ∀ c ∈ e.cols, c ∉ s.recs)
    (L : Look) (x : Option Bool) (rows : List Row) :
    (rows.filter (fun r => e.truth I r == x)).map (deref L s) =
      (rows.map (deref L s)).filter (fun r => e.truth I r == x) := by
  rw [List.filter_map]
  congr 1
  refine List.filter_congr fun r _ => ?_
  simp [truth_deref hplain]

/-- The logical rows left. -/
theorem left_logical {s : Schema} {cur : Snapshot} {e : Expr} {fs fs1 : FS} {mf : Option MExpr} (hf : FSLe fs fs1) (he : FilterFits s e)
    (hm : manifestFilter s (some e) = .ok mf) (hcur : SnapOK fs s cur) (I : Interp) :
    ∃ nulls, nulls.Sublist ((snapRows fs s cur).filter (fun r => e.truth I r == none)) ∧
      ((cur.index.flatMap (entriesOf fs)).flatMap (afterRows I e fs mf)).map (deref fs1.records s) ~
        (snapRows fs s cur).filter (fun r => e.truth I r == some false) ++ nulls := by
  obtain ⟨nulls, h1, h2⟩ := left_split (I := I) he.prune hm hcur.manifests
  have hd : (physRows fs cur.index).map (deref fs1.records s) = snapRows fs s cur :=
    map_deref_mono hf.lookLe fun r hr => (physRows_ok hcur.manifests r hr).2
  refine ⟨nulls.map (deref fs1.records s), ?_, ?_⟩
  · have := h1.map (deref fs1.records s)
    rwa [map_filter_truth he.plain, hd] at this
  · have := h2.map (deref fs1.records s)
    rwa [List.map_append, map_filter_truth he.plain, hd] at this

/-- Modified manifests, for a filter that is null on no row. -/
theorem hasMod_iff (hp : PruneOK s (some e)) (hm : manifestFilter s (some e) = .ok mf)
    (hplain : ∀ c ∈ e.cols, c ∉ s.recs) {q : Path} (hok : ManifestOK fs s q)
    (hnull : ∀ m ∈ entriesOf fs q, ∀ r ∈ fileRows fs m.file, e.truth I r ≠ none) :
    hasMod I e fs mf q =
      ((entriesOf fs q).map (fun m => (fileRows fs m.file).map (deref fs.records s))).any
        (fun file => file.any (fun r => e.truth I r == some true)) := by
  rw [Bool.eq_iff_iff]
  simp only [hasMod, List.any_eq_true, List.mem_map, beq_iff_eq]
  constructor
  · rintro ⟨m, hmem, hmod⟩
    obtain ⟨y, hy, hty⟩ := not_false_of_mod (hok.entry hmem) hmod
    refine ⟨_, ⟨m, hmem, rfl⟩, _, List.mem_map.mpr ⟨y, hy, rfl⟩, ?_⟩
    rw [truth_deref hplain]
    have := hnull m hmem y hy
    rcases h : e.truth I y with _ | _ | _ <;> simp_all
  · rintro ⟨_, ⟨m, hmem, rfl⟩, r, hr, ht⟩
    obtain ⟨y, hy, rfl⟩ := List.mem_map.mp hr
    rw [truth_deref hplain] at ht
    exact ⟨m, hmem, modEntry_of_true hp hm (hok.entry hmem) hy ht⟩

theorem layout_null {snap : Snapshot} (hplain : ∀ c ∈ e.cols, c ∉ s.recs)
    (hnull : ∀ r ∈ snapRows fs s snap, e.truth I r ≠ none) {q : Path} (hq : q ∈ snap.index) :
    ∀ m ∈ entriesOf fs q, ∀ r ∈ fileRows fs m.file, e.truth I r ≠ none := by
  intro m hmem r hr
  have := hnull (deref fs.records s r) (List.mem_map_of_mem
    (List.mem_flatMap.mpr ⟨q, hq, List.mem_flatMap.mpr ⟨m, hmem, hr⟩⟩))
  rwa [truth_deref hplain] at this

/-- The rows a delete leaves, for a filter that is null on no row. -/
theorem Deleted.effect {E : Env} {w w' : World} {mf' : List ManifestRow} {dms : List Path}
    {carried : List ManifestRow} {rmf : List RecManifestRow} {rp : Option Patch} {p : Patch} {snap : Snapshot}
    (hn : s.names.Nodup) (hcur : SnapOK w.fs s snap) (hg : Grows w w') (he : FilterFits s e)
    (hm : manifestFilter s (some e) = .ok mf)
    (hd : Deleted E s e w w' (visited w.fs mf snap.index) dms carried mf' rmf rp p)
    (hnull : ∀ r ∈ snapRows w.fs s snap, e.truth E.I r ≠ none) :
    (physRows w'.fs (snap.index.filter (fun q => !p.delIdx.contains q) ++ p.addIdx)).map (deref w'.fs.records s) ~
      leftBy (e.truth E.I) (layout w.fs s snap) := by
  unfold leftBy
  split
  · rename_i h
    simp only [List.any_eq_true, Bool.and_eq_true, beq_iff_eq] at h
    obtain ⟨man, hman, file, hfile, h1, h2⟩ := h
    have hsafe : DeleteSafe (e.truth E.I) (layout w.fs s snap) := Or.inl ⟨man, hman, file, hfile, h1, h2⟩
    have hperm := hd.rowsPerm hn hcur.nodup hcur.manifests hg
      (noLoss_of_safe he.prune hm he.plain hcur.manifests hsafe)
    obtain ⟨nulls, a1, a2⟩ := left_logical (cur := snap) (I := E.I) hg.le he hm hcur
    have h0 : nulls = [] := by
      rw [List.filter_eq_nil_iff.mpr fun r hr => by simpa using hnull r hr] at a1
      exact List.sublist_nil.mp a1
    rw [h0, List.append_nil] at a2
    rw [layout_flatten]
    exact (hperm.map _).trans a2
  · rename_i h
    have hno : ∀ q ∈ snap.index, ∀ m ∈ entriesOf w.fs q, modEntry E.I e w.fs mf m = true →
        survRows E.I e w.fs m.file = [] := by
      intro q hq m hmem hmod
      obtain ⟨y, hy, hty⟩ := not_false_of_mod ((hcur.manifests q hq).entry hmem) hmod
      have hyt : e.truth E.I y = some true := by
        have := layout_null he.plain hnull hq m hmem y hy
        rcases h : e.truth E.I y with _ | _ | _ <;> simp_all
      refine List.filter_eq_nil_iff.mpr fun x hx hf => h ?_
      rw [fails_iff] at hf
      simp only [List.any_eq_true, Bool.and_eq_true, beq_iff_eq]
      exact ⟨_, mem_layout hq, _, List.mem_map.mpr ⟨m, hmem, rfl⟩,
        ⟨_, List.mem_map.mpr ⟨y, hy, rfl⟩, by rwa [truth_deref he.plain]⟩,
        ⟨_, List.mem_map.mpr ⟨x, hx, rfl⟩, by rwa [truth_deref he.plain]⟩⟩
    rw [hd.rowsGone hn hcur.manifests hg hno]
    refine List.Perm.of_eq ?_
    have hfil : (layout w.fs s snap).filter (fun man => !man.any fun file => file.any fun r => e.truth E.I r == some true) =
        layout w.fs s { snap with index := snap.index.filter (fun q => !hasMod E.I e w.fs mf q) } := by
      unfold layout
      rw [List.filter_map]
      congr 1
      refine List.filter_congr fun q hq => ?_
      simp only [Function.comp_apply]
      rw [hasMod_iff he.prune hm he.plain (hcur.manifests q hq) (layout_null he.plain hnull hq)]
    rw [hfil, layout_flatten]
    exact map_deref_mono hg.le.lookLe fun r hr =>
      (physRows_ok (fun q hq => hcur.manifests q (List.mem_filter.mp hq).1) r hr).2

theorem leftBy_all {truth : Row → Option Bool} {lay : List (List (List Row))}
    (h : ∀ man ∈ lay, ∀ file ∈ man, ∀ r ∈ file, truth r ≠ some true) : leftBy truth lay = lay.flatten.flatten := by
  unfold leftBy
  rw [if_neg]
  · congr 2
    refine List.filter_eq_self.mpr fun man hman => ?_
    simp only [Bool.not_eq_true', List.any_eq_false]
    intro file hf hc
    obtain ⟨r, hr, ht⟩ := List.any_eq_true.mp hc
    exact h man hman file hf r hr (by simpa using ht)
  · simp only [List.any_eq_true, Bool.and_eq_true, beq_iff_eq]
    rintro ⟨man, hman, file, hf, ⟨r, hr, ht⟩, -⟩
    exact h man hman file hf r hr ht

theorem leftBy_congr {f g : Row → Option Bool} {lay : List (List (List Row))}
    (h : ∀ r ∈ lay.flatten.flatten, f r = g r) : leftBy f lay = leftBy g lay := by
  have key : ∀ man ∈ lay, ∀ file ∈ man, ∀ r ∈ file, f r = g r := fun man hm file hf r hr =>
    h r (List.mem_flatten.mpr ⟨file, List.mem_flatten.mpr ⟨man, hm, hf⟩, hr⟩)
  have h1 : lay.any (fun man => man.any fun file =>
      file.any (fun r => f r == some true) && file.any (fun r => f r == some false)) =
      lay.any (fun man => man.any fun file =>
      file.any (fun r => g r == some true) && file.any (fun r => g r == some false)) := by
    rw [Bool.eq_iff_iff]
    simp only [List.any_eq_true, Bool.and_eq_true, beq_iff_eq]
    constructor
    · rintro ⟨man, hm, file, hf, ⟨r, hr, h1⟩, x, hx, h2⟩
      exact ⟨man, hm, file, hf, ⟨r, hr, by rw [← key man hm file hf r hr]; exact h1⟩, x, hx,
        by rw [← key man hm file hf x hx]; exact h2⟩
    · rintro ⟨man, hm, file, hf, ⟨r, hr, h1⟩, x, hx, h2⟩
      exact ⟨man, hm, file, hf, ⟨r, hr, by rw [key man hm file hf r hr]; exact h1⟩, x, hx,
        by rw [key man hm file hf x hx]; exact h2⟩
  unfold leftBy
  rw [h1]
  split
  · exact List.filter_congr fun r hr => by rw [h r hr]
  · congr 2
    refine List.filter_congr fun man hm => ?_
    congr 1
    rw [Bool.eq_iff_iff]
    simp only [List.any_eq_true, beq_iff_eq]
    constructor
    · rintro ⟨file, hf, r, hr, h1⟩
      exact ⟨file, hf, r, hr, by rw [← key man hm file hf r hr]; exact h1⟩
    · rintro ⟨file, hf, r, hr, h1⟩
      exact ⟨file, hf, r, hr, by rw [key man hm file hf r hr]; exact h1⟩

/-- The rows left are all rows to keep exactly on these layouts. -/
theorem leftBy_iff {truth : Row → Option Bool} {lay : List (List (List Row))}
    (hnull : ∀ r ∈ lay.flatten.flatten, truth r ≠ none) :
    ((leftBy truth lay).length = (lay.flatten.flatten.filter (fun r => truth r != some true)).length →
      Spared truth lay) ∧
    (Spared truth lay → leftBy truth lay = lay.flatten.flatten.filter (fun r => truth r != some true)) := by
  have hff : lay.flatten.flatten.filter (fun r => truth r != some true) =
      lay.flatten.flatten.filter (fun r => truth r == some false) := by
    refine List.filter_congr fun r hr => ?_
    have := hnull r hr
    rcases h : truth r with _ | _ | _ <;> simp_all
  have hin : ∀ man ∈ lay, ∀ file ∈ man, ∀ r ∈ file, r ∈ lay.flatten.flatten := fun man hm file hf r hr =>
    List.mem_flatten.mpr ⟨file, List.mem_flatten.mpr ⟨man, hm, hf⟩, hr⟩
  unfold leftBy
  split
  · rename_i h
    simp only [List.any_eq_true, Bool.and_eq_true, beq_iff_eq] at h
    obtain ⟨man, hman, file, hfile, h1, h2⟩ := h
    exact ⟨fun _ => Or.inl ⟨man, hman, file, hfile, h1, h2⟩, fun _ => hff.symm⟩
  · rename_i h
    constructor
    · intro hlen
      refine Or.inr fun man hman ⟨file, hfile, r, hr, ht⟩ file' hfile' x hx => ?_
      have hx0 := hnull x (hin man hman file' hfile' x hx)
      rcases hxt : truth x with _ | _ | _
      · exact absurd hxt hx0
      · exfalso
        have key : ∀ (l : List (List (List Row))), (∀ m ∈ l, m ∈ lay) →
            (l.filter (fun man => !man.any fun file => file.any fun r => truth r == some true)).flatten.flatten.length ≤
              (l.flatten.flatten.filter (fun r => truth r != some true)).length ∧
            (man ∈ l → (l.filter (fun man => !man.any fun file => file.any fun r => truth r == some true)).flatten.flatten.length <
              (l.flatten.flatten.filter (fun r => truth r != some true)).length) := by
          intro l
          induction l with
          | nil => intro _; simp
          | cons m l ih =>
            intro hsub
            obtain ⟨i1, i2⟩ := ih fun x hx => hsub x (List.mem_cons_of_mem _ hx)
            rw [List.filter_cons]
            simp only [List.flatten_cons, List.flatten_append, List.filter_append, List.length_append]
            by_cases hc : m.any (fun file => file.any fun r => truth r == some true) = true
            · rw [hc]
              simp only [Bool.not_true, Bool.false_eq_true, if_false]
              refine ⟨by omega, fun hmem => ?_⟩
              rcases List.mem_cons.mp hmem with rfl | hmem
              · have : 0 < (man.flatten.filter (fun r => truth r != some true)).length :=
                  List.length_pos_of_mem (a := x) (List.mem_filter.mpr
                    ⟨List.mem_flatten.mpr ⟨file', hfile', hx⟩, by simp [hxt]⟩)
                omega
              · have := i2 hmem
                omega
            · have hc' : m.any (fun file => file.any fun r => truth r == some true) = false := by simpa using hc
              rw [hc']
              simp only [Bool.not_false, if_true, List.flatten_cons, List.flatten_append, List.length_append]
              have hall : m.flatten.filter (fun r => truth r != some true) = m.flatten := by
                refine List.filter_eq_self.mpr fun r hr => ?_
                obtain ⟨f, hf, hr⟩ := List.mem_flatten.mp hr
                simp only [List.any_eq_false] at hc'
                have := hc' f hf
                simp only [List.any_eq_true, not_exists, not_and] at this
                have := this r hr
                simpa using this
              rw [hall]
              refine ⟨by omega, fun hmem => ?_⟩
              rcases List.mem_cons.mp hmem with rfl | hmem
              · exact absurd (List.any_eq_true.mpr ⟨file, hfile, List.any_eq_true.mpr ⟨r, hr, by simp [ht]⟩⟩) hc
              · have := i2 hmem
                omega
        have := (key lay fun _ h => h).2 hman
        omega
      · rfl
    · rintro (⟨man, hman, file, hfile, h1, h2⟩ | hs)
      · exact absurd (by
          simp only [List.any_eq_true, Bool.and_eq_true, beq_iff_eq]
          exact ⟨man, hman, file, hfile, h1, h2⟩) h
      · have key : ∀ (l : List (List (List Row))), (∀ m ∈ l, m ∈ lay) →
            (l.filter (fun man => !man.any fun file => file.any fun r => truth r == some true)).flatten.flatten =
              l.flatten.flatten.filter (fun r => truth r != some true) := by
          intro l
          induction l with
          | nil => intro _; rfl
          | cons m l ih =>
            intro hsub
            have i1 := ih fun x hx => hsub x (List.mem_cons_of_mem _ hx)
            rw [List.filter_cons]
            simp only [List.flatten_cons, List.flatten_append, List.filter_append]
            rw [← i1]
            by_cases hc : m.any (fun file => file.any fun r => truth r == some true) = true
            · rw [hc]
              simp only [Bool.not_true, Bool.false_eq_true, if_false]
              simp only [List.any_eq_true, beq_iff_eq] at hc
              have h0 : m.flatten.filter (fun r => truth r != some true) = [] := by
                refine List.filter_eq_nil_iff.mpr fun r hr => ?_
                obtain ⟨f, hf, hr⟩ := List.mem_flatten.mp hr
                simp [hs m (hsub m List.mem_cons_self) hc f hf r hr]
              rw [h0]
              rfl
            · have hc' : m.any (fun file => file.any fun r => truth r == some true) = false := by simpa using hc
              rw [hc']
              simp only [Bool.not_false, if_true, List.flatten_cons, List.flatten_append]
              congr 1
              refine (List.filter_eq_self.mpr fun r hr => ?_).symm
              obtain ⟨f, hf, hr⟩ := List.mem_flatten.mp hr
              simp only [List.any_eq_false] at hc'
              have := hc' f hf
              simp only [List.any_eq_true, not_exists, not_and] at this
              have := this r hr
              simpa using this
        exact key lay fun _ h => h

/-- On such a layout the per-file deletes leave what one delete leaves. -/
theorem rayNoLoss_of_safe {snap : Snapshot} (hplain : ∀ c ∈ e.cols, c ∉ s.recs)
    (hok : ∀ q ∈ snap.index, ManifestOK fs s q) (h : RaySafe (e.truth I) (layout fs s snap)) :
    RayNoLoss I e fs mf snap.index := by
  intro q hq m hm hmod
  obtain ⟨pre, post, hsplit⟩ := List.append_of_mem hm
  obtain ⟨y, hy, hty⟩ := not_false_of_mod ((hok q hq).entry hm) hmod
  obtain ⟨h1, h2⟩ := h _ (mem_layout hq) (pre.map (fun m => (fileRows fs m.file).map (deref fs.records s)))
    ((fileRows fs m.file).map (deref fs.records s)) (post.map (fun m => (fileRows fs m.file).map (deref fs.records s)))
    (by rw [hsplit]; simp) ⟨_, List.mem_map.mpr ⟨y, hy, rfl⟩, by rwa [truth_deref hplain]⟩
  have hno : ∀ x ∈ pre ++ post, modEntry I e fs mf x = false := by
    intro x hx
    cases hc : modEntry I e fs mf x with
    | false => rfl
    | true =>
      have hxe : x ∈ entriesOf fs q := by
        rw [hsplit]
        rcases List.mem_append.mp hx with hx | hx
        · exact List.mem_append_left _ hx
        · exact List.mem_append_right _ (List.mem_cons_of_mem _ hx)
      obtain ⟨z, hz, htz⟩ := not_false_of_mod ((hok q hq).entry hxe) hc
      have := h1 ((fileRows fs x.file).map (deref fs.records s)) (by
        rw [← List.map_append]
        exact List.mem_map.mpr ⟨x, hx, rfl⟩) _ (List.mem_map.mpr ⟨z, hz, rfl⟩)
      rw [truth_deref hplain] at this
      exact absurd this htz
  constructor
  · rw [hsplit, List.filter_append, List.filter_cons_of_pos hmod,
      List.filter_eq_nil_iff.mpr fun x hx => by simp [hno x (List.mem_append_left _ hx)],
      List.filter_eq_nil_iff.mpr fun x hx => by simp [hno x (List.mem_append_right _ hx)]]
    rfl
  · intro h0
    rcases h2 with ⟨r, hr, ht⟩ | h2
    · obtain ⟨x, hx, rfl⟩ := List.mem_map.mp hr
      rw [truth_deref hplain] at ht
      have : x ∈ survRows I e fs m.file := List.mem_filter.mpr ⟨hx, fails_iff.mpr ht⟩
      rw [h0] at this
      cases this
    · obtain ⟨a, b⟩ := List.append_eq_nil_iff.mp h2
      rw [hsplit, List.map_eq_nil_iff.mp a, List.map_eq_nil_iff.mp b]
      rfl

end

section
variable {E : Env} {s : Schema} {m : Mutation} {h h' h1 : Handle} {wb w w' w1 : World} {p : Patch}
  {cur snap : Snapshot} {e : Expr}

/-- What the body of the Ray delete did. -/
theorem Success.rayDeleted (hn : s.names.Nodup)
    (hs : Success E s (.rayDelete e) h wb w h' w' h1 w1 p cur snap) :
    ∃ mf, manifestFilter s (some e) = .ok mf ∧ RayDeleted E s e w w1 cur.index mf p := by
  have hb := hs.body
  simp only [Mutation.body] at hb
  obtain ⟨hg, -, snap', mf, hsn, hm, hout⟩ := Post.elim (rayDeleteBody_post hs.fresh hn hs.handle) hb
  rw [hs.base] at hsn
  cases hsn
  rcases hout.out with ⟨hx, -⟩ | ⟨q, hx, -, -, -, hd⟩
  · cases hx
  cases hx
  exact ⟨mf, hm, hd⟩

/-- `delete`, with the rows of files that got lost. -/
theorem Success.delete_lost (hn : s.names.Nodup)
    (hs : Success E s (.delete e) h wb w h' w' h1 w1 p cur snap) (he : FilterFits s e) :
    ∃ nulls lost, nulls.Sublist ((snapRows w.fs s cur).filter (fun r => e.truth E.I r == none)) ∧
      snapRows w'.fs s snap ++ lost ~
        (snapRows w.fs s cur).filter (fun r => e.truth E.I r == some false) ++ nulls ∧
      (DeleteSafe (e.truth E.I) (layout w.fs s cur) → lost = []) := by
  have hb := hs.body
  simp only [Mutation.body] at hb
  obtain ⟨hg, -, snap', mf, hsn, hm, hout⟩ := Post.elim (deleteBody_post hs.fresh hs.handle) hb
  rw [hs.base] at hsn
  cases hsn
  rcases hout.out with ⟨hx, -⟩ | ⟨q, dms, carried, mf', rmf, rp, hx, hd⟩
  · cases hx
  cases hx
  obtain ⟨lost, hperm, hno⟩ := hd.rowsLost hn hs.curOK.nodup hs.curOK.manifests hg
  obtain ⟨nulls, a1, a2⟩ := left_logical (cur := cur) (I := E.I) hg.le he hm hs.curOK
  refine ⟨nulls, lost.map (deref w1.fs.records s), a1, ?_, fun hsafe => ?_⟩
  · rw [hs.rows, ← List.map_append]
    exact (hperm.map _).trans a2
  · rw [hno (noLoss_of_safe he.prune hm he.plain hs.curOK.manifests hsafe)]
    rfl

/-- `delete` by a filter that is null on no row. -/
theorem Success.delete_effect (hn : s.names.Nodup)
    (hs : Success E s (.delete e) h wb w h' w' h1 w1 p cur snap) (he : FilterFits s e)
    (hnull : ∀ r ∈ snapRows w.fs s cur, e.truth E.I r ≠ none) :
    snapRows w'.fs s snap ~ leftBy (e.truth E.I) (layout w.fs s cur) := by
  have hb := hs.body
  simp only [Mutation.body] at hb
  obtain ⟨hg, -, snap', mf, hsn, hm, hout⟩ := Post.elim (deleteBody_post hs.fresh hs.handle) hb
  rw [hs.base] at hsn
  cases hsn
  rcases hout.out with ⟨hx, -⟩ | ⟨q, dms, carried, mf', rmf, rp, hx, hd⟩
  · cases hx
  cases hx
  rw [hs.rows]
  exact hd.effect hn hs.curOK hg he hm hnull

theorem afterRows_sub {I : Interp} {e : Expr} {fs : FS} {mf : Option MExpr} (m : ManifestRow) :
    (afterRows I e fs mf m).Sublist (fileRows fs m.file) := by
  unfold afterRows
  split
  · exact List.filter_sublist
  · exact List.Sublist.refl _

theorem flatMap_sublist {α β : Type} {f g : α → List β} (h : ∀ a, (f a).Sublist (g a)) :
    ∀ l : List α, (l.flatMap f).Sublist (l.flatMap g)
  | [] => List.Sublist.refl _
  | a :: l => by
    simp only [List.flatMap_cons]
    exact (h a).append (flatMap_sublist h l)

/-- `delete` by any filter leaves rows that were there, each at most as often. -/
theorem Success.delete_rest (hn : s.names.Nodup)
    (hs : Success E s (.delete e) h wb w h' w' h1 w1 p cur snap) :
    ∃ rest, snapRows w'.fs s snap ++ rest ~ snapRows w.fs s cur := by
  have hb := hs.body
  simp only [Mutation.body] at hb
  obtain ⟨hg, -, snap', mf, hsn, hm, hout⟩ := Post.elim (deleteBody_post hs.fresh hs.handle) hb
  rw [hs.base] at hsn
  cases hsn
  rcases hout.out with ⟨hx, -⟩ | ⟨q, dms, carried, mf', rmf, rp, hx, hd⟩
  · cases hx
  cases hx
  obtain ⟨lost, hperm, hno⟩ := hd.rowsLost hn hs.curOK.nodup hs.curOK.manifests hg
  have hsub : ((cur.index.flatMap (entriesOf w.fs)).flatMap (afterRows E.I e w.fs mf)).Sublist
      (physRows w.fs cur.index) := by
    rw [physRows_entries]
    exact flatMap_sublist (fun m => afterRows_sub m) _
  obtain ⟨rest, hrest⟩ := hsub.exists_perm_append
  refine ⟨(lost ++ rest).map (deref w1.fs.records s), ?_⟩
  rw [hs.rows, ← List.map_append]
  have : snapRows w.fs s cur = (physRows w.fs cur.index).map (deref w1.fs.records s) := by
    unfold snapRows
    exact (map_deref_mono hg.le.lookLe fun r hr => (physRows_ok hs.curOK.manifests r hr).2).symm
  rw [this]
  refine List.Perm.map _ ?_
  rw [← List.append_assoc]
  exact (hperm.append_right rest).trans hrest.symm

/-- `delete`. -/
theorem Success.delete (hn : s.names.Nodup) (hs : Success E s (.delete e) h wb w h' w' h1 w1 p cur snap)
    (he : FilterFits s e) (hsafe : DeleteSafe (e.truth E.I) (layout w.fs s cur)) :
    ∃ nulls, nulls.Sublist ((snapRows w.fs s cur).filter (fun r => e.truth E.I r == none)) ∧
      snapRows w'.fs s snap ~
        (snapRows w.fs s cur).filter (fun r => e.truth E.I r == some false) ++ nulls := by
  obtain ⟨nulls, lost, a1, a2, a3⟩ := hs.delete_lost hn he
  rw [a3 hsafe, List.append_nil] at a2
  exact ⟨nulls, a1, a2⟩

/-- The delete of the Ray runner. -/
theorem Success.rayDelete (hn : s.names.Nodup)
    (hs : Success E s (.rayDelete e) h wb w h' w' h1 w1 p cur snap) (he : FilterFits s e)
    (hsafe : RaySafe (e.truth E.I) (layout w.fs s cur)) :
    ∃ mf nulls, manifestFilter s (some e) = .ok mf ∧ snapRows w'.fs s snap ~
        ((cur.index.flatMap (entriesOf w.fs)).flatMap (afterRows E.I e w.fs mf)).map (deref w1.fs.records s) ∧
      nulls.Sublist ((snapRows w.fs s cur).filter (fun r => e.truth E.I r == none)) ∧
      snapRows w'.fs s snap ~
        (snapRows w.fs s cur).filter (fun r => e.truth E.I r == some false) ++ nulls := by
  obtain ⟨mf, hm, hd⟩ := hs.rayDeleted hn
  have hperm := hd.rowsPerm hs.curOK.manifests hs.grows
    (rayNoLoss_of_safe he.plain hs.curOK.manifests hsafe)
  obtain ⟨nulls, a1, a2⟩ := left_logical (cur := cur) (I := E.I) hs.grows.le he hm hs.curOK
  refine ⟨mf, nulls, hm, ?_, a1, ?_⟩
  · rw [hs.rows]
    exact hperm.map _
  · rw [hs.rows]
    exact (hperm.map _).trans a2

/-- Schemas with usable keys: distinct names and ids, keys that are columns but not
record fields, and no nested or record column before a key. -/
structure KeySchema (s : Schema) : Prop where
  names : s.names.Nodup
  fids : (s.fields.map (·.fid)).Nodup
  some : s.pks ≠ []
  keys : ∀ k ∈ s.pks, k ∈ s.names
  plain : ∀ k ∈ s.pks, k ∉ s.recs
  first : s.keysFirst = true

theorem KeySchema.fits (hk : KeySchema s) {e : Expr} (he : KeyExpr s.pks e) : FilterFits s e :=
  ⟨⟨Schema.keysLeaf_of_keysFirst hk.first, hk.fids, he.safe s, fun c hc =>
    resolve_key hk.first hk.names (he.cols c hc) (hk.keys c (he.cols c hc))⟩,
    fun c hc => hk.keys c (he.cols c hc), fun c hc => hk.plain c (he.cols c hc)⟩

/-- The key of a row is the key of its logical row. -/
theorem keyOf_deref (hk : KeySchema s) (L : Look) (r : Row) :
    keyOf s.pks (deref L s r) = keyOf s.pks r := by
  refine keyOf_eq.mpr fun k hkm => ?_
  rw [deref_val]
  simp [hk.plain k hkm]

/-- Keys without nulls and NaNs. -/
def KeysSet (s : Schema) (rows : List Row) : Prop :=
  ∀ r ∈ rows, ∀ k ∈ s.pks, ∃ v, r.val k = .sc v ∧ v ≠ .nan

/-- Keys without nulls. -/
def KeysGiven (s : Schema) (rows : List Row) : Prop := ∀ r ∈ rows, ∀ k ∈ s.pks, ∃ v, r.val k = .sc v

/-- Keys without NaNs. -/
def KeysNum (s : Schema) (rows : List Row) : Prop := ∀ r ∈ rows, KeyNum s.pks r

theorem keysSet_iff {rows : List Row} : KeysSet s rows ↔ KeysGiven s rows ∧ KeysNum s rows := by
  constructor
  · refine fun h => ⟨fun r hr k hk => ?_, fun r hr k hk => ?_⟩
    · obtain ⟨v, hv, -⟩ := h r hr k hk
      exact ⟨v, hv⟩
    · obtain ⟨v, hv, hn⟩ := h r hr k hk
      rw [hv]
      rintro ⟨⟩
      exact hn rfl
  · rintro ⟨h1, h2⟩ r hr k hk
    obtain ⟨v, hv⟩ := h1 r hr k hk
    exact ⟨v, hv, fun h => h2 r hr k hk (by rw [hv, h])⟩

theorem KeysSet.num {rows : List Row} (h : KeysSet s rows) : KeysNum s rows := (keysSet_iff.mp h).2

theorem KeysSet.given {rows : List Row} (h : KeysSet s rows) : KeysGiven s rows := (keysSet_iff.mp h).1

theorem keyNum_of_eq {pks : List String} {a b : Row} (h : keyOf pks a = keyOf pks b) :
    KeyNum pks a ↔ KeyNum pks b := by
  rw [keyOf_eq] at h
  exact ⟨fun ha k hk => by rw [← h k hk]; exact ha k hk, fun hb k hk => by rw [h k hk]; exact hb k hk⟩

/-- What the body of an insert or upsert did. -/
theorem Success.inserted {mode : InsertMode} {data : List Row}
    (hs : Success E s m h wb w h' w' h1 w1 p cur snap) (hmode : m.body E h1 = insertBody E h1 mode data) :
    ∃ e mf, InsertOut E s mode data w w1 cur (some p) e mf := by
  have hb := hs.body
  rw [hmode] at hb
  obtain ⟨-, -, hx⟩ := Post.elim (insertBody_post hs.fresh hs.handle mode data) hb
  rcases hx with ⟨-, hx⟩ | ⟨-, snap', e, mf, hsn, hout⟩
  · cases hx
  rw [hs.base] at hsn
  cases hsn
  exact ⟨e, mf, hout⟩

/-- Mode and rows of inserts and upserts, local or by Ray. -/
def Mutation.inserts : Mutation → Option (InsertMode × List Row)
  | .insert d => some (.insert, d)
  | .upsert d => some (.upsert, d)
  | .rayInsert mode _ _ d => some (mode, d)
  | _ => none

/-- How inserts and upserts append their rows. -/
def Mutation.writer (E : Env) (s : Schema) : Mutation → WM (Option Patch)
  | .insert d => appendBody E s [d]
  | .upsert d => appendBody E s [d]
  | .rayInsert _ n sched d => rayAppendBody E s n sched d
  | _ => pure none

/-- What the body of an insert or upsert did, local or by Ray. -/
theorem Success.insertedG {mode : InsertMode} {data : List Row}
    (hs : Success E s m h wb w h' w' h1 w1 p cur snap) (hm : m.inserts = some (mode, data)) :
    ∃ e mf, InsertG E s mode data (m.writer E s) w w1 cur (some p) e mf := by
  have hb := hs.body
  have hf : w1.Fresh := hs.grows.fresh hs.fresh
  cases m with
  | insert d =>
    cases hm
    obtain ⟨e, mf, ho⟩ := hs.inserted (mode := .insert) (data := data) rfl
    exact ⟨e, mf, ho.gen hf⟩
  | upsert d =>
    cases hm
    obtain ⟨e, mf, ho⟩ := hs.inserted (mode := .upsert) (data := data) rfl
    exact ⟨e, mf, ho.gen hf⟩
  | rayInsert mode' n sched d =>
    cases hm
    simp only [Mutation.body] at hb
    obtain ⟨-, -, hx⟩ := Post.elim (rayInsertBody_post hs.fresh hs.handle mode n sched data) hb
    rcases hx with ⟨-, hx⟩ | ⟨-, snap', e, mf, hsn, hout⟩
    · cases hx
    rw [hs.base] at hsn
    cases hsn
    exact ⟨e, mf, hout⟩
  | _ => cases hm

/-- The rows of the appends of tables, local or by Ray. -/
def Mutation.added : Mutation → Option (List Row)
  | .append ts => some ts.flatten
  | .rayAppend _ _ rows => some rows
  | .rayAppendFrom _ _ sources => some sources.flatten.flatten
  | _ => none

/-- What the body of an append did, local or by Ray. -/
theorem Success.addedG {rows : List Row}
    (hs : Success E s m h wb w h' w' h1 w1 p cur snap) (hm : m.added = some rows) :
    ∃ P, Gathered E s w w1 P (some p) ∧ P.map (deref w1.fs.records s) ~ rows.map (·.select s.writeNames) ∧
      snapRows w'.fs s snap ~ snapRows w.fs s cur ++ rows.map (·.select s.writeNames) := by
  have hb := hs.body
  have hf : w1.Fresh := hs.grows.fresh hs.fresh
  obtain ⟨P, h1, h2⟩ : ∃ P, Gathered E s w w1 P (some p) ∧
      P.map (deref w1.fs.records s) ~ rows.map (·.select s.writeNames) := by
    cases m with
    | append ts =>
      cases hm
      obtain ⟨-, -, P, mf, rmf, hfin, hP, -⟩ := hs.append
      exact ⟨P, hfin.gathered0 hs.fresh hf, by rw [hP]⟩
    | rayAppend n sched d =>
      cases hm
      simp only [Mutation.body, hs.schema] at hb
      obtain ⟨-, -, P, h3, h4⟩ := Post.elim (rayAppendBody_post hs.fresh n sched rows) hb
      exact ⟨P, h3, h4⟩
    | rayAppendFrom n sched d =>
      cases hm
      simp only [Mutation.body, hs.schema] at hb
      obtain ⟨-, -, P, h3, h4⟩ := Post.elim (rayAppendFromAll_post hs.fresh _ sched d) hb
      exact ⟨P, h3, h4⟩
    | _ => cases hm
  refine ⟨P, h1, h2, ?_⟩
  rw [hs.adds (h1.del p rfl), h1.phys p rfl]
  exact h2.append_left _

theorem merge_delIdx {a b : Option Patch} {p : Patch} (h : some p = mergePatches [a, b])
    (hb : ∀ q, b = some q → q.delIdx = []) : p.delIdx = (a.map (·.delIdx)).getD [] ∧
      p.addIdx = (a.map (·.addIdx)).getD [] ++ (b.map (·.addIdx)).getD [] ∧
      p.addRec = (a.map (·.addRec)).getD [] ++ (b.map (·.addRec)).getD [] := by
  rw [merge_two] at h
  cases a with
  | none => cases b with
    | none => cases h
    | some b => cases h; simp [hb b rfl]
  | some a => cases b with
    | none => cases h; simp
    | some b => cases h; simp [hb b rfl]

theorem Finished.isSome {w0 : World} {rows : List Row} {carried mf : List ManifestRow}
    {rmf : List RecManifestRow} {p : Option Patch} (h : Finished E s w0 w1 rows carried mf rmf p)
    (hr : rows ≠ []) : ∃ q, p = some q := by
  cases p with
  | some q => exact ⟨q, rfl⟩
  | none =>
    have := h.none_iff.mp rfl
    rw [sumRows_zero h.ents, h.rowsEq] at this
    exact absurd (List.eq_nil_of_length_eq_zero (by omega)) hr

/-- An insert whose body ended normally found no clash of keys. -/
theorem InsertG.keys (hk : KeySchema s) {data : List Row} {app : WM (Option Patch)} {w w' : World}
    {q : Option Patch} {e : Expr} {mf : Option MExpr} (hout : InsertG E s .insert data app w w' cur q e mf)
    (hcur : ∀ q ∈ cur.index, ManifestOK w.fs s q) :
    (data.map (keyOf s.pks)).Nodup ∧ KeysGiven s data ∧
      ∀ r ∈ snapRows w.fs s cur, KeyNum s.pks r → keyOf s.pks r ∉ data.map (keyOf s.pks) := by
  obtain ⟨hke, hsem, hnd, hset, hne⟩ := primaryKeyFilter_sem hout.key E.I
  have he := hk.fits hke
  obtain ⟨w0, dp, ap, P, g1, f1, g2, hp, hfin, hP, hins, -⟩ := hout.out
  obtain ⟨hdp, hw0, hno⟩ := hins rfl
  subst hw0
  refine ⟨hnd, hset, ?_⟩
  intro r hr hnum hmem
  obtain ⟨x, hx, rfl⟩ := List.mem_map.mp hr
  rw [keyNum_of_eq (keyOf_deref hk _ x)] at hnum
  rw [keyOf_deref hk] at hmem
  obtain ⟨d, hd, hde⟩ := List.mem_map.mp hmem
  have ht : e.truth E.I x = some true := (hsem x).mpr ⟨d, hd, hde, hnum⟩
  obtain ⟨q, hq, hx⟩ := List.mem_flatMap.mp hx
  obtain ⟨mr, hmr, hx⟩ := List.mem_flatMap.mp hx
  have hent := (hcur q hq).entry hmr
  have hfr : x ∈ filterRows E.I (some e) (fileRows w0.fs mr.file) := by
    simp [filterRows, hx, Expr.holds, ht]
  have hkeep := he.prune.keeps (I := E.I) hout.filter hent x hfr
  have hke' : mr ∈ keptEntries w0.fs mf q := by
    simp only [keptEntries, List.mem_filter]
    exact ⟨hmr, hkeep⟩
  obtain ⟨n, hn1, -⟩ := packFiles_of_mem (fs := w0.fs) (mf := mf) (mid := 1)
    (ps := cur.index.filter (fun p => decide (keptEntries w0.fs mf p ≠ []))) (p := q) (m := mr)
    (List.mem_filter.mpr ⟨hq, by simp only [decide_eq_true_eq]; intro h0; rw [h0] at hke'; cases hke'⟩) hke'
  have : x ∈ (visited w0.fs mf cur.index).files.flatMap
      (fun f => filterRows E.I (some e) (fileRows w0.fs f.path)) :=
    List.mem_flatMap.mpr ⟨_, hn1, hfr⟩
  rw [hno] at this
  cases this

theorem InsertOut.keys (hk : KeySchema s) {data : List Row} {w w' : World} {q : Option Patch} {e : Expr}
    {mf : Option MExpr} (hout : InsertOut E s .insert data w w' cur q e mf) (hf : w'.Fresh)
    (hcur : ∀ q ∈ cur.index, ManifestOK w.fs s q) :
    (data.map (keyOf s.pks)).Nodup ∧ KeysGiven s data ∧
      ∀ r ∈ snapRows w.fs s cur, KeyNum s.pks r → keyOf s.pks r ∉ data.map (keyOf s.pks) :=
  (hout.gen hf).keys hk hcur

/-- `insert`. -/
theorem Success.insert (hk : KeySchema s) {data : List Row}
    (hs : Success E s (.insert data) h wb w h' w' h1 w1 p cur snap) :
    (data.map (keyOf s.pks)).Nodup ∧ KeysGiven s data ∧
      (∀ r ∈ snapRows w.fs s cur, KeyNum s.pks r → keyOf s.pks r ∉ data.map (keyOf s.pks)) ∧
      snapRows w'.fs s snap = snapRows w.fs s cur ++ data.map (·.select s.writeNames) := by
  obtain ⟨e, mf, hout⟩ := hs.inserted (mode := .insert) (data := data) rfl
  obtain ⟨hnd, hset, hnew⟩ := hout.keys hk (hs.grows.fresh hs.fresh) hs.curOK.manifests
  obtain ⟨w0, dp, ap, P, mf', rmf, g1, f1, g2, hp, hfin, hP, hins, -⟩ := hout.out
  obtain ⟨hdp, hw0, -⟩ := hins rfl
  subst hw0
  subst hdp
  refine ⟨hnd, hset, hnew, ?_⟩
  · obtain ⟨hd, ha, -⟩ := merge_delIdx hp (fun q hq => hfin.del q hq)
    rw [hs.adds hd, ha]
    congr 1
    rcases hfin.addRows with ⟨hx, -⟩ | ⟨q, hq, hr, -⟩
    · subst hx
      cases hp
    · subst hq
      simp only [Option.map_none, Option.getD_none, Option.map_some, Option.getD_some, List.nil_append]
      rw [hr, hP]

/-- `insert`, local or by Ray. -/
theorem Success.insertG (hk : KeySchema s) {data : List Row}
    (hs : Success E s m h wb w h' w' h1 w1 p cur snap) (hmi : m.inserts = some (.insert, data)) :
    (data.map (keyOf s.pks)).Nodup ∧ KeysGiven s data ∧
      (∀ r ∈ snapRows w.fs s cur, KeyNum s.pks r → keyOf s.pks r ∉ data.map (keyOf s.pks)) ∧
      snapRows w'.fs s snap ~ snapRows w.fs s cur ++ data.map (·.select s.writeNames) := by
  obtain ⟨e, mf, hout⟩ := hs.insertedG hmi
  obtain ⟨hnd, hset, hnew⟩ := hout.keys hk hs.curOK.manifests
  obtain ⟨w0, dp, ap, P, g1, f1, g2, hp, hfin, hP, hins, -⟩ := hout.out
  obtain ⟨hdp, hw0, -⟩ := hins rfl
  subst hw0
  subst hdp
  refine ⟨hnd, hset, hnew, ?_⟩
  obtain ⟨hd, ha, -⟩ := merge_delIdx hp (fun q hq => hfin.del q hq)
  rw [hs.adds hd, ha]
  refine List.Perm.append_left _ ?_
  cases ap with
  | none => rw [merge_two] at hp; cases hp
  | some q =>
    simp only [Option.map_none, Option.getD_none, Option.map_some, Option.getD_some, List.nil_append]
    rw [hfin.phys q rfl]
    exact hP

/-- What one transaction of a refresh did. -/
theorem Success.syncedG {n : Nat} {sched : List Nat} {gone : List Row} {added : Option (List (List (List Row)))}
    (hs : Success E s (.sync n sched gone added) h wb w h' w' h1 w1 p cur snap) :
    SyncG E s gone (syncRows added) (syncAppend E s n sched added) w w1 cur (some p) := by
  have hb := hs.body
  simp only [Mutation.body] at hb
  obtain ⟨-, -, -, hx⟩ := Post.elim (syncBody_post hs.fresh hs.handle n sched gone added) hb
  exact hx cur (Or.inr hs.base)

/-- `upsert`, with the rows of files that got lost. -/
theorem Success.upsert_lost (hk : KeySchema s) {data : List Row}
    (hs : Success E s m h wb w h' w' h1 w1 p cur snap) (hmi : m.inserts = some (.upsert, data)) :
    (data.map (keyOf s.pks)).Nodup ∧ KeysGiven s data ∧ ∃ e kept nulls lost, KeyExpr s.pks e ∧
      (∀ r, e.truth E.I r = some true ↔ keyOf s.pks r ∈ data.map (keyOf s.pks) ∧ KeyNum s.pks r) ∧
      nulls.Sublist ((snapRows w.fs s cur).filter (fun r => e.truth E.I r == none)) ∧
      snapRows w'.fs s snap ~ kept ++ data.map (·.select s.writeNames) ∧
      kept ++ lost ~ (snapRows w.fs s cur).filter (fun r => e.truth E.I r == some false) ++ nulls ∧
      (DeleteSafe (e.truth E.I) (layout w.fs s cur) → lost = []) := by
  obtain ⟨e, mf, hout⟩ := hs.insertedG hmi
  obtain ⟨hke, hsem, hnd, hset, hne⟩ := primaryKeyFilter_sem hout.key E.I
  have he := hk.fits hke
  refine ⟨hnd, hset, e, ?_⟩
  obtain ⟨w0, dp, ap, P, g1, f1, g2, hp, hfin, hP, -, hups, -⟩ := hout.out
  have hdel := hups rfl
  obtain ⟨nulls, a1, a2⟩ := left_logical (cur := cur) (I := E.I) (g1.le.trans g2.le) he hout.filter hs.curOK
  obtain ⟨hd, ha, -⟩ := merge_delIdx hp (fun q hq => hfin.del q hq)
  have hap : ∃ q, ap = some q ∧ physRows w1.fs q.addIdx = P := by
    cases ap with
    | none =>
      rw [hfin.none_iff.mp rfl] at hP
      exact absurd (List.map_eq_nil_iff.mp (List.nil_perm.mp hP)) hne
    | some q => exact ⟨q, rfl, hfin.phys q rfl⟩
  obtain ⟨q, rfl, hq⟩ := hap
  have hrows := hs.rows
  rw [hd, ha, ← List.append_assoc, physRows_append, List.map_append] at hrows
  simp only [Option.map_some, Option.getD_some] at hrows
  rw [hq] at hrows
  replace hrows := hrows.symm ▸ hP.append_left _
  have hsem' : ∀ r, e.truth E.I r = some true ↔ keyOf s.pks r ∈ data.map (keyOf s.pks) ∧ KeyNum s.pks r := by
    intro r
    rw [hsem r, List.mem_map]
    exact ⟨fun ⟨d, h1, h2, h3⟩ => ⟨⟨d, h1, h2⟩, h3⟩, fun ⟨⟨d, h1, h2⟩, h3⟩ => ⟨d, h1, h2, h3⟩⟩
  rcases hdel.out with ⟨hx, hmod⟩ | ⟨dq, dms, carried, mf2, rmf2, rp, hx, hd2⟩
  · refine ⟨_, nulls, [], hke, hsem', a1, hrows, ?_, fun _ => rfl⟩
    rw [List.append_nil]
    refine List.Perm.trans (List.Perm.map _ ?_) a2
    subst hx
    simp only [Option.map_none, Option.getD_none, List.append_nil]
    rw [filter_none, physRows_mono (g1.le.trans g2.le) hs.curOK.manifests, physRows_entries]
    rw [flatMap_congr' (g := afterRows E.I e w.fs mf)]
    intro mr hmr
    obtain ⟨q', hq', hmq⟩ := List.mem_flatMap.mp hmr
    have := hmod q' hq'
    simp only [hasMod, List.any_eq_false] at this
    have := this mr hmq
    simp [afterRows, this]
  · subst hx
    obtain ⟨lost, hperm, hno⟩ := hd2.rowsLost hk.names hs.curOK.nodup hs.curOK.manifests g1
    refine ⟨_, nulls, lost.map (deref w1.fs.records s), hke, hsem', a1, hrows, ?_, fun hsafe => ?_⟩
    · rw [← List.map_append]
      refine List.Perm.trans (List.Perm.map _ ?_) a2
      simp only [Option.map_some, Option.getD_some]
      refine List.Perm.trans ?_ hperm
      rw [physRows_mono g2.le]
      intro q' hq'
      rcases List.mem_append.mp hq' with hq' | hq'
      · exact (hs.curOK.manifests q' (List.mem_filter.mp hq').1).mono g1.le
      · exact (hd2.patchOK hk.names hs.curOK.manifests g1).idx q' hq'
    · rw [hno (noLoss_of_safe he.prune hout.filter he.plain hs.curOK.manifests hsafe)]
      rfl

/-- `upsert` on stored rows without null keys. -/
theorem Success.upsert_effect (hk : KeySchema s) {data : List Row}
    (hs : Success E s m h wb w h' w' h1 w1 p cur snap) (hmi : m.inserts = some (.upsert, data))
    (hset : KeysSet s (snapRows w.fs s cur)) :
    snapRows w'.fs s snap ~
      leftBy (fun r => some (decide (keyOf s.pks r ∈ data.map (keyOf s.pks)))) (layout w.fs s cur) ++
        data.map (·.select s.writeNames) := by
  obtain ⟨e, mf, hout⟩ := hs.insertedG hmi
  obtain ⟨hke, hsem, hnd, -, hne⟩ := primaryKeyFilter_sem hout.key E.I
  have he := hk.fits hke
  obtain ⟨w0, dp, ap, P, g1, f1, g2, hp, hfin, hP, -, hups, -⟩ := hout.out
  have hdel := hups rfl
  obtain ⟨hd, ha, -⟩ := merge_delIdx hp (fun q hq => hfin.del q hq)
  have hap : ∃ q, ap = some q ∧ physRows w1.fs q.addIdx = P := by
    cases ap with
    | none =>
      rw [hfin.none_iff.mp rfl] at hP
      exact absurd (List.map_eq_nil_iff.mp (List.nil_perm.mp hP)) hne
    | some q => exact ⟨q, rfl, hfin.phys q rfl⟩
  obtain ⟨q, rfl, hq⟩ := hap
  have hrows := hs.rows
  rw [hd, ha, ← List.append_assoc, physRows_append, List.map_append] at hrows
  simp only [Option.map_some, Option.getD_some] at hrows
  rw [hq] at hrows
  replace hrows := hrows.symm ▸ hP.append_left _
  refine hrows.trans (List.Perm.append_right _ ?_)
  have hnull : ∀ r ∈ snapRows w.fs s cur, e.truth E.I r ≠ none :=
    fun r hr => hke.total E.I r (hset r hr)
  have hcongr : ∀ r ∈ snapRows w.fs s cur, e.truth E.I r = some (decide (keyOf s.pks r ∈ data.map (keyOf s.pks))) := by
    intro r hr
    have h0 := hnull r hr
    have h1 : e.truth E.I r = some true ↔ keyOf s.pks r ∈ data.map (keyOf s.pks) := by
      rw [hsem r, List.mem_map]
      exact ⟨fun ⟨d, a, b, _⟩ => ⟨d, a, b⟩, fun ⟨d, a, b⟩ => ⟨d, a, b, hset.num r hr⟩⟩
    rcases ht : e.truth E.I r with _ | _ | _
    · exact absurd ht h0
    · rw [ht] at h1
      have : ¬ keyOf s.pks r ∈ data.map (keyOf s.pks) := fun h => by simpa using h1.mpr h
      simp [this]
    · simp [h1.mp ht]
  rw [← leftBy_congr fun r hr => hcongr r (by rwa [layout_flatten] at hr)]
  rcases hdel.out with ⟨hx, hmod⟩ | ⟨dq, dms, carried, mf2, rmf2, rp, hx, hd2⟩
  · subst hx
    simp only [Option.map_none, Option.getD_none, List.append_nil]
    rw [filter_none, physRows_mono (g1.le.trans g2.le) hs.curOK.manifests]
    rw [leftBy_all, layout_flatten]
    · exact List.Perm.of_eq (map_deref_mono (g1.le.trans g2.le).lookLe fun r hr => (physRows_ok hs.curOK.manifests r hr).2)
    · intro man hman file hf r hr ht
      obtain ⟨q', hq', rfl⟩ := List.mem_map.mp hman
      obtain ⟨mr, hmr, rfl⟩ := List.mem_map.mp hf
      obtain ⟨y, hy, rfl⟩ := List.mem_map.mp hr
      rw [truth_deref he.plain] at ht
      have h1 := modEntry_of_true he.prune hout.filter ((hs.curOK.manifests q' hq').entry hmr) hy ht
      have := hmod q' hq'
      simp only [hasMod, List.any_eq_false] at this
      exact absurd h1 (this mr hmr)
  · subst hx
    have := hd2.effect hk.names hs.curOK g1 he hout.filter hnull
    simp only [Option.map_some, Option.getD_some]
    refine List.Perm.trans (List.Perm.of_eq ?_) this
    have hman : ∀ q' ∈ cur.index.filter (fun q => !dq.delIdx.contains q) ++ dq.addIdx, ManifestOK w0.fs s q' := by
      intro q' hq'
      rcases List.mem_append.mp hq' with hq' | hq'
      · exact (hs.curOK.manifests q' (List.mem_filter.mp hq').1).mono g1.le
      · exact (hd2.patchOK hk.names hs.curOK.manifests g1).idx q' hq'
    rw [physRows_mono g2.le hman]
    exact map_deref_mono g2.le.lookLe fun r hr => (physRows_ok hman r hr).2

/-- One transaction of a refresh, with the rows of files that got lost. -/
theorem Success.sync_lost (hk : KeySchema s) {n : Nat} {sched : List Nat} {gone : List Row}
    {added : Option (List (List (List Row)))} (hg : gone ≠ [])
    (hs : Success E s (.sync n sched gone added) h wb w h' w' h1 w1 p cur snap) :
    (gone.map (keyOf s.pks)).Nodup ∧ KeysGiven s gone ∧ ∃ e kept nulls lost, KeyExpr s.pks e ∧
      (∀ r, e.truth E.I r = some true ↔ keyOf s.pks r ∈ gone.map (keyOf s.pks) ∧ KeyNum s.pks r) ∧
      nulls.Sublist ((snapRows w.fs s cur).filter (fun r => e.truth E.I r == none)) ∧
      snapRows w'.fs s snap ~ kept ++ (syncRows added).map (·.select s.writeNames) ∧
      kept ++ lost ~ (snapRows w.fs s cur).filter (fun r => e.truth E.I r == some false) ++ nulls ∧
      (DeleteSafe (e.truth E.I) (layout w.fs s cur) → lost = []) := by
  obtain ⟨w0, dp, ap, P, g1, f1, g2, hp, hfin, hP, hdp, -⟩ := hs.syncedG.out
  rcases hdp with ⟨h0, -⟩ | ⟨e, mf, hkey, hmf, hdel⟩
  · exact absurd h0 hg
  obtain ⟨hke, hsem, hnd, hset, hne⟩ := primaryKeyFilter_sem hkey E.I
  have he := hk.fits hke
  refine ⟨hnd, hset, e, ?_⟩
  obtain ⟨nulls, a1, a2⟩ := left_logical (cur := cur) (I := E.I) (g1.le.trans g2.le) he hmf hs.curOK
  obtain ⟨hd, ha, -⟩ := merge_delIdx hp (fun q hq => hfin.del q hq)
  have hq : physRows w1.fs ((ap.map (·.addIdx)).getD []) = P := by
    cases ap with
    | none => rw [hfin.none_iff.mp rfl]; rfl
    | some q => exact hfin.phys q rfl
  have hrows := hs.rows
  rw [hd, ha, ← List.append_assoc, physRows_append, List.map_append] at hrows
  rw [hq] at hrows
  replace hrows := hrows.symm ▸ hP.append_left _
  have hsem' : ∀ r, e.truth E.I r = some true ↔ keyOf s.pks r ∈ gone.map (keyOf s.pks) ∧ KeyNum s.pks r := by
    intro r
    rw [hsem r, List.mem_map]
    exact ⟨fun ⟨d, h1, h2, h3⟩ => ⟨⟨d, h1, h2⟩, h3⟩, fun ⟨⟨d, h1, h2⟩, h3⟩ => ⟨d, h1, h2, h3⟩⟩
  rcases hdel.out with ⟨hx, hmod⟩ | ⟨dq, dms, carried, mf2, rmf2, rp, hx, hd2⟩
  · refine ⟨_, nulls, [], hke, hsem', a1, hrows, ?_, fun _ => rfl⟩
    rw [List.append_nil]
    refine List.Perm.trans (List.Perm.map _ ?_) a2
    subst hx
    simp only [Option.map_none, Option.getD_none, List.append_nil]
    rw [filter_none, physRows_mono (g1.le.trans g2.le) hs.curOK.manifests, physRows_entries]
    rw [flatMap_congr' (g := afterRows E.I e w.fs mf)]
    intro mr hmr
    obtain ⟨q', hq', hmq⟩ := List.mem_flatMap.mp hmr
    have := hmod q' hq'
    simp only [hasMod, List.any_eq_false] at this
    have := this mr hmq
    simp [afterRows, this]
  · subst hx
    obtain ⟨lost, hperm, hno⟩ := hd2.rowsLost hk.names hs.curOK.nodup hs.curOK.manifests g1
    refine ⟨_, nulls, lost.map (deref w1.fs.records s), hke, hsem', a1, hrows, ?_, fun hsafe => ?_⟩
    · rw [← List.map_append]
      refine List.Perm.trans (List.Perm.map _ ?_) a2
      simp only [Option.map_some, Option.getD_some]
      refine List.Perm.trans ?_ hperm
      rw [physRows_mono g2.le]
      intro q' hq'
      rcases List.mem_append.mp hq' with hq' | hq'
      · exact (hs.curOK.manifests q' (List.mem_filter.mp hq').1).mono g1.le
      · exact (hd2.patchOK hk.names hs.curOK.manifests g1).idx q' hq'
    · rw [hno (noLoss_of_safe he.prune hmf he.plain hs.curOK.manifests hsafe)]
      rfl

/-- `upsert`. -/
theorem Success.upsert (hk : KeySchema s) {data : List Row}
    (hs : Success E s m h wb w h' w' h1 w1 p cur snap) (hmi : m.inserts = some (.upsert, data))
    (hold : KeysSet s (snapRows w.fs s cur))
    (hsafe : DeleteSafe (fun r => some (decide (keyOf s.pks r ∈ data.map (keyOf s.pks)))) (layout w.fs s cur)) :
    (data.map (keyOf s.pks)).Nodup ∧ KeysGiven s data ∧
      snapRows w'.fs s snap ~
        (snapRows w.fs s cur).filter (fun r => decide (keyOf s.pks r ∉ data.map (keyOf s.pks))) ++
          data.map (·.select s.writeNames) := by
  obtain ⟨hnd, hset, e, kept, nulls, lost, hke, hsem, a1, a2, a3, a4⟩ := hs.upsert_lost hk hmi
  refine ⟨hnd, hset, ?_⟩
  have htr : ∀ r ∈ snapRows w.fs s cur,
      e.truth E.I r = some (decide (keyOf s.pks r ∈ data.map (keyOf s.pks))) := by
    intro r hr
    have h1 := hke.total E.I r (hold r hr)
    have h2 := hsem r
    cases ht : e.truth E.I r with
    | none => exact absurd ht h1
    | some b =>
      congr 1
      rw [Bool.eq_iff_iff, decide_eq_true_eq]
      constructor
      · rintro rfl
        exact (h2.mp ht).1
      · intro hx
        have := h2.mpr ⟨hx, hold.num r hr⟩
        rw [ht] at this
        exact Option.some.inj this
  have hsafe' : DeleteSafe (e.truth E.I) (layout w.fs s cur) :=
    hsafe.congr fun r hr => by rw [layout_flatten] at hr; exact (htr r hr).symm
  have hnull : nulls = [] := by
    have : (snapRows w.fs s cur).filter (fun r => e.truth E.I r == none) = [] := by
      refine List.filter_eq_nil_iff.mpr fun r hr => ?_
      rw [htr r hr]
      simp
    rw [this] at a1
    exact List.sublist_nil.mp a1
  have hfil : (snapRows w.fs s cur).filter (fun r => e.truth E.I r == some false) =
      (snapRows w.fs s cur).filter (fun r => decide (keyOf s.pks r ∉ data.map (keyOf s.pks))) := by
    refine List.filter_congr fun r hr => ?_
    rw [htr r hr]
    by_cases hx : keyOf s.pks r ∈ data.map (keyOf s.pks) <;> simp [hx]
  rw [a4 hsafe', hnull, List.append_nil, List.append_nil, hfil] at a3
  exact a2.trans (a3.append_right _)

/-- One transaction of a refresh. -/
theorem Success.sync (hk : KeySchema s) {n : Nat} {sched : List Nat} {data : List Row}
    {added : Option (List (List (List Row)))}
    (hs : Success E s (.sync n sched data added) h wb w h' w' h1 w1 p cur snap)
    (hold : KeysSet s (snapRows w.fs s cur))
    (hsafe : data ≠ [] → DeleteSafe (fun r => some (decide (keyOf s.pks r ∈ data.map (keyOf s.pks)))) (layout w.fs s cur)) :
    (data.map (keyOf s.pks)).Nodup ∧
      snapRows w'.fs s snap ~
        (snapRows w.fs s cur).filter (fun r => decide (keyOf s.pks r ∉ data.map (keyOf s.pks))) ++
          (syncRows added).map (·.select s.writeNames) := by
  by_cases hg : data = []
  · subst hg
    refine ⟨by simp, ?_⟩
    obtain ⟨w0, dp, ap, P, g1, f1, g2, hp, hfin, hP, hdp, -⟩ := hs.syncedG.out
    obtain ⟨rfl, rfl⟩ : dp = none ∧ w0 = w := by
      rcases hdp with ⟨-, h1, h2⟩ | ⟨e, mf, hkey, -⟩
      · exact ⟨h1, h2⟩
      · exact absurd rfl (primaryKeyFilter_sem hkey E.I).2.2.2.2
    obtain ⟨hd, ha, -⟩ := merge_delIdx hp (fun q hq => hfin.del q hq)
    have hall : (snapRows w0.fs s cur).filter (fun r => decide (keyOf s.pks r ∉ ([] : List Row).map (keyOf s.pks))) =
        snapRows w0.fs s cur := by
      rw [List.filter_eq_self]
      simp
    rw [hs.adds hd, ha, hall]
    refine List.Perm.append_left _ ?_
    cases ap with
    | none => rw [merge_two] at hp; cases hp
    | some q =>
      simp only [Option.map_none, Option.getD_none, Option.map_some, Option.getD_some, List.nil_append]
      rw [hfin.phys q rfl]
      exact hP
  replace hsafe := hsafe hg
  obtain ⟨hnd, hset, e, kept, nulls, lost, hke, hsem, a1, a2, a3, a4⟩ := hs.sync_lost hk hg
  refine ⟨hnd, ?_⟩
  have htr : ∀ r ∈ snapRows w.fs s cur,
      e.truth E.I r = some (decide (keyOf s.pks r ∈ data.map (keyOf s.pks))) := by
    intro r hr
    have h1 := hke.total E.I r (hold r hr)
    have h2 := hsem r
    cases ht : e.truth E.I r with
    | none => exact absurd ht h1
    | some b =>
      congr 1
      rw [Bool.eq_iff_iff, decide_eq_true_eq]
      constructor
      · rintro rfl
        exact (h2.mp ht).1
      · intro hx
        have := h2.mpr ⟨hx, hold.num r hr⟩
        rw [ht] at this
        exact Option.some.inj this
  have hsafe' : DeleteSafe (e.truth E.I) (layout w.fs s cur) :=
    hsafe.congr fun r hr => by rw [layout_flatten] at hr; exact (htr r hr).symm
  have hnull : nulls = [] := by
    have : (snapRows w.fs s cur).filter (fun r => e.truth E.I r == none) = [] := by
      refine List.filter_eq_nil_iff.mpr fun r hr => ?_
      rw [htr r hr]
      simp
    rw [this] at a1
    exact List.sublist_nil.mp a1
  have hfil : (snapRows w.fs s cur).filter (fun r => e.truth E.I r == some false) =
      (snapRows w.fs s cur).filter (fun r => decide (keyOf s.pks r ∉ data.map (keyOf s.pks))) := by
    refine List.filter_congr fun r hr => ?_
    rw [htr r hr]
    by_cases hx : keyOf s.pks r ∈ data.map (keyOf s.pks) <;> simp [hx]
  rw [a4 hsafe', hnull, List.append_nil, List.append_nil, hfil] at a3
  exact a2.trans (a3.append_right _)

end

end Space
