import Verif.StatsInv

/-!
# By how much deletes get the index bytes in the statistics wrong
-/

namespace Space

open List

/-- What a delete makes of a listed file: its name and size, whether its statistics let the
delete look into it, whether it does and finds a row to remove, and whether no row stays. -/
structure Fate where
  file : Path
  size : Int
  looked : Bool
  cut : Bool
  emptied : Bool
deriving DecidableEq, Repr

/-- The size of several files. -/
def Fate.total (fs : List Fate) : Int := (fs.map (·.size)).sum

/-- The error of a local delete, for files listed by manifest.  It counts the files of the
manifests it rewrites that it did not look into as if they were new, takes off the files it
looked into in manifests it does not rewrite, and does not take off the files it loses. -/
def localDrift (mans : List (List Fate)) : Int :=
  if mans.any (fun man => man.any (·.cut)) then
    (mans.map (fun man =>
      if man.any (·.cut) then
        Fate.total (man.filter (fun f => !f.looked)) +
          (if mans.all (fun man => man.all (fun f => !f.cut || f.emptied)) then
            Fate.total (man.filter (fun f => !f.cut)) else 0)
      else -Fate.total (man.filter (·.looked)))).sum
  else 0

/-- The error of a delete of the Ray runner.  The files left alone in a rewritten manifest are
counted once too often, and for each file of which no row stays the other files are lost, but
not taken off. -/
def rayDrift (mans : List (List Fate)) : Int :=
  (mans.map (fun man =>
    if man.any (·.cut) then
      Fate.total (man.filter (fun f => !f.cut)) +
        ((man.filter (fun f => f.cut && f.emptied)).map
          (fun f => Fate.total (man.filter (fun g => !decide (g.file = f.file))))).sum
    else 0)).sum

/-- The fate of a listed file under a delete with filter `e`, translated to `mf` for manifests. -/
def fateOf (I : Interp) (fs : FS) (e : Expr) (mf : Option MExpr) (k : Size) (m : ManifestRow) : Fate :=
  { file := m.file, size := k.entry m, looked := MExpr.keeps mf m.stats,
    cut := MExpr.keeps mf m.stats && (fileRows fs m.file).any (fun r => e.truth I r != some false),
    emptied := (fileRows fs m.file).all (fun r => e.truth I r != some false) }

/-- The fates of the files listed by manifests. -/
def fates (I : Interp) (fs : FS) (e : Expr) (mf : Option MExpr) (k : Size) (index : List Path) : List (List Fate) :=
  index.map (fun q => (entriesOf fs q).map (fateOf I fs e mf k))

/-- The error a mutation adds to the byte counts of a snapshot with the given manifests. -/
def Mutation.DriftsBy (I : Interp) (s : Schema) (fs : FS) (index : List Path) (k : Size) (d : Int) : Mutation → Prop
  | .delete e => ∃ mf, manifestFilter s (some e) = .ok mf ∧ d = localDrift (fates I fs e mf k index)
  | .rayDelete e => ∃ mf, manifestFilter s (some e) = .ok mf ∧ d = rayDrift (fates I fs e mf k index)
  | .upsert data => ∃ e mf, primaryKeyFilter s.pks data = .ok (some e) ∧ manifestFilter s (some e) = .ok mf ∧
      d = localDrift (fates I fs e mf k index)
  | .rayInsert .upsert _ _ data => ∃ e mf, primaryKeyFilter s.pks data = .ok (some e) ∧
      manifestFilter s (some e) = .ok mf ∧ d = localDrift (fates I fs e mf k index)
  | .sync _ _ gone _ => (gone = [] ∧ d = 0) ∨ ∃ e mf, primaryKeyFilter s.pks gone = .ok (some e) ∧
      manifestFilter s (some e) = .ok mf ∧ d = localDrift (fates I fs e mf k index)
  | _ => d = 0

section
variable {E : Env} {s : Schema} {m : Mutation} {h h' h1 : Handle} {wb w w' w1 : World} {p : Patch}
  {cur snap : Snapshot}

theorem sum_map_eq {α : Type} {a b c d : α → Int} : ∀ {l : List α}, (∀ x ∈ l, a x + b x = c x + d x) →
    (l.map a).sum + (l.map b).sum = (l.map c).sum + (l.map d).sum
  | [], _ => rfl
  | x :: l, hx => by
    have h1 := hx x (by simp)
    have h2 := sum_map_eq (l := l) (fun y hy => hx y (by simp [hy]))
    simp only [List.map_cons, List.sum_cons]
    omega

theorem sum_map_zero {α : Type} : ∀ l : List α, (l.map (fun _ => (0 : Int))).sum = 0
  | [] => rfl
  | _ :: l => by simp only [List.map_cons, List.sum_cons, sum_map_zero l]; rfl

theorem Size.sum_flatMap {α : Type} (k : Size) (f : α → List ManifestRow) : ∀ l : List α,
    k.sum (l.flatMap f) = (l.map (fun a => k.sum (f a))).sum
  | [] => rfl
  | a :: l => by
    simp only [List.flatMap_cons, Size.sum_append, List.map_cons, List.sum_cons, Size.sum_flatMap k f l]

theorem Size.sum_perm (k : Size) {a b : List ManifestRow} (h : a ~ b) : k.sum a = k.sum b :=
  perm_sum (h.map _)

theorem Size.sum_split (k : Size) (p : ManifestRow → Bool) (l : List ManifestRow) :
    k.sum (l.filter p) + k.sum (l.filter (fun m => !p m)) = k.sum l := by
  rw [← Size.sum_append]
  exact k.sum_perm (List.filter_append_perm p l)

theorem Size.sum_ite (k : Size) (c : Bool) (a : List ManifestRow) :
    k.sum (if c then a else []) = if c then k.sum a else 0 := by
  cases c <;> rfl

theorem cut_eq {I : Interp} {fs : FS} {L : Look} {e : Expr} {mf : Option MExpr} {k : Size} {m : ManifestRow}
    (he : EntryOK fs L s m) : (fateOf I fs e mf k m).cut = modEntry I e fs mf m := by
  unfold fateOf modEntry
  simp only
  congr 1
  rw [Bool.eq_iff_iff, List.any_eq_true, decide_eq_true_eq, ← he.length]
  unfold survRows
  rw [Ne, List.length_filter_eq_length_iff]
  constructor
  · rintro ⟨r, hr, hc⟩ hall
    rw [fails_iff.mp (hall r hr)] at hc
    simp at hc
  · intro hc
    refine Classical.byContradiction fun hno => hc fun r hr => fails_iff.mpr ?_
    refine Classical.byContradiction fun hne => hno ⟨r, hr, by simpa using hne⟩

theorem emptied_iff {I : Interp} {fs : FS} {e : Expr} {mf : Option MExpr} {k : Size} {m : ManifestRow} :
    (fateOf I fs e mf k m).emptied = true ↔ survRows I e fs m.file = [] := by
  unfold fateOf survRows
  rw [List.filter_eq_nil_iff]
  simp only [List.all_eq_true, bne_iff_ne, ne_eq]
  exact ⟨fun h r hr hf => h r hr (fails_iff.mp hf), fun h r hr hf => h r hr (fails_iff.mpr hf)⟩

theorem total_filter {I : Interp} {fs : FS} {e : Expr} {mf : Option MExpr} {k : Size} {l : List ManifestRow}
    {p : Fate → Bool} {g : ManifestRow → Bool} (hp : ∀ m ∈ l, p (fateOf I fs e mf k m) = g m) :
    Fate.total ((l.map (fateOf I fs e mf k)).filter p) = k.sum (l.filter g) := by
  unfold Fate.total Size.sum
  rw [List.filter_map, List.map_map]
  have : l.filter (p ∘ fateOf I fs e mf k) = l.filter g := List.filter_congr hp
  rw [this]
  rfl

theorem any_cut {I : Interp} {fs : FS} {e : Expr} {mf : Option MExpr} {k : Size} {q : Path}
    (hok : ManifestOK fs s q) : ((entriesOf fs q).map (fateOf I fs e mf k)).any (·.cut) = hasMod I e fs mf q := by
  unfold hasMod
  rw [List.any_map, Bool.eq_iff_iff, List.any_eq_true, List.any_eq_true]
  constructor <;> rintro ⟨m, hm, hc⟩ <;> refine ⟨m, hm, ?_⟩
  · rw [Function.comp_apply, cut_eq (hok.entry hm)] at hc
    exact hc
  · rw [Function.comp_apply, cut_eq (hok.entry hm)]
    exact hc

theorem fates_mono {I : Interp} {fs fs' : FS} {e : Expr} {mf : Option MExpr} {k : Size} {index : List Path}
    (hle : FSLe fs fs') (hok : ∀ q ∈ index, ManifestOK fs s q) :
    fates I fs' e mf k index = fates I fs e mf k index := by
  unfold fates
  refine List.map_congr_left fun q hq => ?_
  rw [entriesOf_mono hle (hok q hq)]
  refine List.map_congr_left fun m hm => ?_
  unfold fateOf
  rw [fileRows_mono hle ((hok q hq).entry hm)]

theorem Mutation.DriftsBy.mono {I : Interp} {fs fs' : FS} {k : Size} {d : Int} (hle : FSLe fs fs')
    (hok : SnapOK fs s cur) (h : m.DriftsBy I s fs cur.index k d) : m.DriftsBy I s fs' cur.index k d := by
  have key : ∀ e mf, fates I fs' e mf k cur.index = fates I fs e mf k cur.index := fun e mf =>
    fates_mono hle hok.manifests
  cases m with
  | rayInsert mode n sched data =>
    cases mode with
    | insert => exact h
    | upsert => simpa only [Mutation.DriftsBy, key] using h
  | _ => simpa only [Mutation.DriftsBy, key] using h

/-- The error of the delete part of a mutation. -/
theorem DeleteOut.drift {e : Expr} {index : List Path} {mf : Option MExpr} {dp : Option Patch}
    (hn : s.names.Nodup) (hi : index.Nodup) (hok : ∀ q ∈ index, ManifestOK w.fs s q) (hg : Grows w w1)
    (h : DeleteOut E s e w w1 index mf dp) (k : Size) :
    k.sum ((index.filter (fun q => !((dp.map (·.delIdx)).getD []).contains q) ++
        (dp.map (·.addIdx)).getD []).flatMap (entriesOf w1.fs)) + localDrift (fates E.I w.fs e mf k index) =
      k.sum (index.flatMap (entriesOf w.fs)) + (dp.map (fun p => k.stat p.stats)).getD 0 := by
  have hany : (fates E.I w.fs e mf k index).any (fun man => man.any (·.cut)) = index.any (hasMod E.I e w.fs mf) := by
    unfold fates
    rw [List.any_map, Bool.eq_iff_iff, List.any_eq_true, List.any_eq_true]
    constructor <;> rintro ⟨q, hq, hc⟩ <;> refine ⟨q, hq, ?_⟩
    · rw [Function.comp_apply, any_cut (hok q hq)] at hc
      exact hc
    · rw [Function.comp_apply, any_cut (hok q hq)]
      exact hc
  rcases h.out with ⟨rfl, hno⟩ | ⟨q, dms, carried, mf', rmf, rp, rfl, hd⟩
  · have : index.any (hasMod E.I e w.fs mf) = false := by
      rw [List.any_eq_false]
      intro q hq
      rw [hno q hq]
      simp
    unfold localDrift
    rw [hany, this]
    simp only [Option.map_none, Option.getD_none, List.append_nil, filter_none, Bool.false_eq_true, if_false]
    rw [entries_mono hg.le hok]
  · have hyes : index.any (hasMod E.I e w.fs mf) = true := by
      obtain ⟨f, hf⟩ := List.exists_mem_of_ne_nil _ hd.nonempty
      obtain ⟨q', hq', m, hm, hmod, -⟩ := visited_mods f hf
      exact List.any_eq_true.mpr ⟨q', hq', List.any_eq_true.mpr ⟨m, hm, hmod⟩⟩
    have hlost : (fates E.I w.fs e mf k index).all (fun man => man.all (fun f => !f.cut || f.emptied)) = rp.isNone := by
      rw [Bool.eq_iff_iff, Option.isNone_iff_eq_none, hd.fin.none_iff, sumRows_zero hd.fin.ents, hd.written hn hok]
      simp only [Int.natCast_eq_zero, List.length_eq_zero_iff, List.flatMap_eq_nil_iff, fates, List.all_map,
        List.all_eq_true, Function.comp_apply, List.mem_filter, and_imp]
      constructor
      · intro hall q hq m hm hmod
        have := hall q hq m hm
        rw [cut_eq ((hok q hq).entry hm), hmod] at this
        exact emptied_iff.mp (by simpa using this)
      · intro hall q hq m hm
        rw [cut_eq ((hok q hq).entry hm)]
        cases hmod : modEntry E.I e w.fs mf m with
        | false => rfl
        | true => exact emptied_iff.mpr (hall q hq m hm hmod)
    have hdel : index.filter (fun x => !dms.contains x) = index.filter (fun x => !hasMod E.I e w.fs mf x) := by
      refine List.filter_congr fun x hx => ?_
      congr 1
      rw [Bool.eq_iff_iff, List.contains_iff_mem, hd.mem_dms]
      simp [hx]
    have hcar : k.sum carried = (index.map (fun q => if hasMod E.I e w.fs mf q then
        k.sum ((entriesOf w.fs q).filter (fun m => !modEntry E.I e w.fs mf m)) else 0)).sum := by
      rw [hd.carried_eq hok, k.sum_perm ((hd.dms_perm hi).flatMap_right _), flatMap_filter_ite, Size.sum_flatMap]
      congr 1
      exact List.map_congr_left fun q _ => k.sum_ite _ _
    have hleft : k.sum ((index.filter (fun x => !hasMod E.I e w.fs mf x)).flatMap (entriesOf w.fs)) =
        (index.map (fun q => if !hasMod E.I e w.fs mf q then k.sum (entriesOf w.fs q) else 0)).sum := by
      rw [flatMap_filter_ite, Size.sum_flatMap]
      congr 1
      exact List.map_congr_left fun q _ => k.sum_ite _ _
    have hvis : ((visited w.fs mf index).files.map (fun f => k.stat f.stats)).sum =
        (index.map (fun q => k.sum (keptEntries w.fs mf q))).sum := by
      rw [← Size.sum_flatMap]
      cases k with
      | compressed => exact (visited_sums index).1
      | uncompressed => exact (visited_sums index).2
    have hstat : k.stat q.stats = (rp.map (fun r => k.stat r.stats)).getD 0 + k.sum carried -
        ((visited w.fs mf index).files.map (fun f => k.stat f.stats)).sum := by
      cases k with
      | compressed => exact hd.icb
      | uncompressed => exact hd.iub
    have hadd : k.sum (((rp.map (·.addIdx)).getD []).flatMap (entriesOf w1.fs)) =
        (rp.map (fun r => k.stat r.stats)).getD 0 + (if rp.isNone then 0 else k.sum carried) := by
      cases hrp : rp with
      | none => rfl
      | some r =>
        obtain ⟨u, -, h1, h2⟩ := hd.fin.idx r hrp
        have hst := hd.fin.stats r hrp
        have hk : k.stat r.stats = k.sum mf' := by
          rw [hst]
          cases k <;> rfl
        simp only [Option.map_some, Option.getD_some, h1, List.flatMap_cons, List.flatMap_nil, List.append_nil, entriesOf,
          h2, Size.sum_append, hk, Option.isNone_some, Bool.false_eq_true, if_false]
        omega
    have hdrift : localDrift (fates E.I w.fs e mf k index) = (index.map (fun q =>
        if hasMod E.I e w.fs mf q then
          k.sum ((entriesOf w.fs q).filter (fun m => !MExpr.keeps mf m.stats)) +
            (if rp.isNone then k.sum ((entriesOf w.fs q).filter (fun m => !modEntry E.I e w.fs mf m)) else 0)
        else -k.sum (keptEntries w.fs mf q))).sum := by
      unfold localDrift
      rw [hany, hyes, if_pos rfl, hlost]
      unfold fates
      rw [List.map_map]
      congr 1
      refine List.map_congr_left fun q hq => ?_
      simp only [Function.comp_apply]
      rw [any_cut (hok q hq), total_filter (g := fun m => !MExpr.keeps mf m.stats) (fun m _ => rfl),
        total_filter (g := fun m => !modEntry E.I e w.fs mf m) (fun m hm => by rw [cut_eq ((hok q hq).entry hm)]),
        total_filter (g := fun m => MExpr.keeps mf m.stats) (fun m _ => rfl)]
      rfl
    have hall : k.sum (index.flatMap (entriesOf w.fs)) = (index.map (fun q => k.sum (entriesOf w.fs q))).sum :=
      Size.sum_flatMap _ _ _
    simp only [Option.map_some, Option.getD_some, hd.delIdx, hd.addIdx, hdel, List.flatMap_append, Size.sum_append]
    rw [entries_mono hg.le fun q hq => hok q (List.mem_filter.mp hq).1, hadd, hstat, hvis, hleft, hdrift, hall]
    have hsplit : ∀ q, k.sum (keptEntries w.fs mf q) +
        k.sum ((entriesOf w.fs q).filter (fun m => !MExpr.keeps mf m.stats)) = k.sum (entriesOf w.fs q) :=
      fun q => k.sum_split _ _
    cases rp with
    | none =>
      simp only [Option.isNone_none, if_true, Option.map_none, Option.getD_none]
      rw [hcar]
      have h1 := sum_map_eq (l := index)
        (a := fun q => if !hasMod E.I e w.fs mf q then k.sum (entriesOf w.fs q) else 0)
        (b := fun q => if hasMod E.I e w.fs mf q then
          k.sum ((entriesOf w.fs q).filter (fun m => !MExpr.keeps mf m.stats)) +
            k.sum ((entriesOf w.fs q).filter (fun m => !modEntry E.I e w.fs mf m))
          else -k.sum (keptEntries w.fs mf q))
        (c := fun q => k.sum (entriesOf w.fs q) - k.sum (keptEntries w.fs mf q))
        (d := fun q => if hasMod E.I e w.fs mf q then
          k.sum ((entriesOf w.fs q).filter (fun m => !modEntry E.I e w.fs mf m)) else 0) (by
          intro q hq
          have := hsplit q
          cases hasMod E.I e w.fs mf q <;>
            simp only [Bool.not_false, Bool.not_true, Bool.false_eq_true, if_true, if_false] <;> omega)
      have h2 := sum_map_eq (l := index)
        (a := fun q => k.sum (entriesOf w.fs q) - k.sum (keptEntries w.fs mf q))
        (b := fun q => k.sum (keptEntries w.fs mf q))
        (c := fun q => k.sum (entriesOf w.fs q)) (d := fun _ => 0) (by intro q hq; omega)
      have h3 := sum_map_zero index
      omega
    | some r =>
      simp only [Option.isNone_some, Bool.false_eq_true, if_false, Option.map_some, Option.getD_some, Int.add_zero]
      have h1 := sum_map_eq (l := index)
        (a := fun q => if !hasMod E.I e w.fs mf q then k.sum (entriesOf w.fs q) else 0)
        (b := fun q => if hasMod E.I e w.fs mf q then
          k.sum ((entriesOf w.fs q).filter (fun m => !MExpr.keeps mf m.stats))
          else -k.sum (keptEntries w.fs mf q))
        (c := fun q => k.sum (entriesOf w.fs q) - k.sum (keptEntries w.fs mf q))
        (d := fun _ => 0) (by
          intro q hq
          have := hsplit q
          cases hasMod E.I e w.fs mf q <;>
            simp only [Bool.not_false, Bool.not_true, Bool.false_eq_true, if_true, if_false] <;> omega)
      have h2 := sum_map_eq (l := index)
        (a := fun q => k.sum (entriesOf w.fs q) - k.sum (keptEntries w.fs mf q))
        (b := fun q => k.sum (keptEntries w.fs mf q))
        (c := fun q => k.sum (entriesOf w.fs q)) (d := fun _ => 0) (by intro q hq; omega)
      have h3 := sum_map_zero index
      omega

/-- The error of a delete by Ray. -/
theorem RayMerged.drift {e : Expr} {index : List Path} {mf : Option MExpr}
    (hok : ∀ q ∈ index, ManifestOK w.fs s q) (hg : Grows w w1) (h : RayDeleted E s e w w1 index mf p) (k : Size) :
    k.sum ((index.filter (fun q => !p.delIdx.contains q) ++ p.addIdx).flatMap (entriesOf w1.fs)) +
        rayDrift (fates E.I w.fs e mf k index) =
      k.sum (index.flatMap (entriesOf w.fs)) + k.stat p.stats := by
  have hsize := h.size k
  rw [mods_pairs (fun q f => fileLost E.I e w.fs q f.path) (fun q m => fileLost E.I e w.fs q m.file)
    (fun n q m => rfl)] at hsize
  have hmods : (((visited w.fs mf index).files.filter (modFile E.I e w.fs)).map (fun f => k.stat f.stats)).sum =
      (index.map (fun q => k.sum ((entriesOf w.fs q).filter (modEntry E.I e w.fs mf)))).sum := by
    have hmap : ∀ {α : Type} (f : α → Int) (l : List α), l.map f = l.flatMap (fun a => [f a]) := by
      intro α f l
      induction l with
      | nil => rfl
      | cons a l ih => simp [ih]
    have hfl : ((visited w.fs mf index).files.filter (modFile E.I e w.fs)).flatMap (fun f => [k.stat f.stats]) =
        ((visited w.fs mf index).files.filter (modFile E.I e w.fs)).flatMap
          (fun f => ((visited w.fs mf index).manifests.get? f.mid).toList.flatMap (fun _ => [k.stat f.stats])) := by
      refine flatMap_congr' fun f hf => ?_
      obtain ⟨q', hq', m, hmq, hmod, hfe, hg⟩ := visited_mods f hf
      simp [hg]
    rw [hmap, hfl, mods_pairs (fun _ f => [k.stat f.stats]) (fun _ m => [k.entry m]) (fun n q m => by cases k <;> rfl),
      ← Size.sum_flatMap]
    unfold Size.sum
    rw [hmap k.entry, List.flatMap_assoc]
  have hdrift : rayDrift (fates E.I w.fs e mf k index) = (index.map (fun q =>
      if hasMod E.I e w.fs mf q then
        k.sum ((entriesOf w.fs q).filter (fun m => !modEntry E.I e w.fs mf m)) +
          k.sum (((entriesOf w.fs q).filter (modEntry E.I e w.fs mf)).flatMap (fun m => fileLost E.I e w.fs q m.file))
      else 0)).sum := by
    unfold rayDrift fates
    rw [List.map_map]
    congr 1
    refine List.map_congr_left fun q hq => ?_
    simp only [Function.comp_apply]
    rw [any_cut (hok q hq),
      total_filter (g := fun m => !modEntry E.I e w.fs mf m) (fun m hm => by rw [cut_eq ((hok q hq).entry hm)]),
      Size.sum_flatMap]
    have hf : ∀ m, Fate.total (((entriesOf w.fs q).map (fateOf E.I w.fs e mf k)).filter
        (fun g => !decide (g.file = (fateOf E.I w.fs e mf k m).file))) = k.sum (siblings w.fs q m.file) :=
      fun m => total_filter (fun x _ => rfl)
    have hl : ∀ l : List ManifestRow, (∀ m ∈ l, m ∈ entriesOf w.fs q) →
        (((l.map (fateOf E.I w.fs e mf k)).filter (fun f => f.cut && f.emptied)).map
          (fun f => Fate.total (((entriesOf w.fs q).map (fateOf E.I w.fs e mf k)).filter
            (fun g => !decide (g.file = f.file))))).sum =
        ((l.filter (modEntry E.I e w.fs mf)).map (fun m => k.sum (fileLost E.I e w.fs q m.file))).sum := by
      intro l
      induction l with
      | nil => intro _; rfl
      | cons m l ih =>
        intro hm
        have ih := ih (fun x hx => hm x (by simp [hx]))
        have hc := cut_eq (I := E.I) (e := e) (mf := mf) (k := k) ((hok q hq).entry (hm m (by simp)))
        have hem := emptied_iff (I := E.I) (fs := w.fs) (e := e) (mf := mf) (k := k) (m := m)
        simp only [List.map_cons, List.filter_cons, hc]
        cases hmod : modEntry E.I e w.fs mf m with
        | false => simpa using ih
        | true =>
          cases hx : (fateOf E.I w.fs e mf k m).emptied with
          | true =>
            simp only [Bool.and_self, if_true, List.map_cons, List.sum_cons, hf, ih, fileLost, if_pos (hem.mp hx)]
          | false =>
            have : ¬ survRows E.I e w.fs m.file = [] := fun hc => by rw [hem.mpr hc] at hx; cases hx
            simp only [Bool.and_false, Bool.false_eq_true, if_false, if_true, List.map_cons, List.sum_cons, ih, fileLost,
              if_neg this, Size.sum_nil, Int.zero_add]
    rw [hl _ (fun m hm => hm)]
  have hleft : k.sum ((index.filter (fun x => !hasMod E.I e w.fs mf x)).flatMap (entriesOf w.fs)) =
      (index.map (fun q => if !hasMod E.I e w.fs mf q then k.sum (entriesOf w.fs q) else 0)).sum := by
    rw [flatMap_filter_ite, Size.sum_flatMap]
    congr 1
    exact List.map_congr_left fun q _ => k.sum_ite _ _
  rw [Size.sum_flatMap k (fun q => ((entriesOf w.fs q).filter (modEntry E.I e w.fs mf)).flatMap
    (fun m => fileLost E.I e w.fs q m.file)) index] at hsize
  rw [h.left, List.flatMap_append, Size.sum_append, entries_mono hg.le fun q hq => hok q (List.mem_filter.mp hq).1, hleft,
    hdrift, Size.sum_flatMap k (entriesOf w.fs) index]
  rw [hmods] at hsize
  have hz : ∀ q, hasMod E.I e w.fs mf q = false → (entriesOf w.fs q).filter (modEntry E.I e w.fs mf) = [] := by
    intro q hq
    simp only [hasMod, List.any_eq_false] at hq
    exact List.filter_eq_nil_iff.mpr hq
  have h1 := sum_map_eq (l := index)
    (a := fun q => if !hasMod E.I e w.fs mf q then k.sum (entriesOf w.fs q) else 0)
    (b := fun q => if hasMod E.I e w.fs mf q then
        k.sum ((entriesOf w.fs q).filter (fun m => !modEntry E.I e w.fs mf m)) +
          k.sum (((entriesOf w.fs q).filter (modEntry E.I e w.fs mf)).flatMap (fun m => fileLost E.I e w.fs q m.file))
      else 0)
    (c := fun q => k.sum (entriesOf w.fs q) - k.sum ((entriesOf w.fs q).filter (modEntry E.I e w.fs mf)))
    (d := fun q => k.sum (((entriesOf w.fs q).filter (modEntry E.I e w.fs mf)).flatMap
      (fun m => fileLost E.I e w.fs q m.file))) (by
      intro q hq
      have := k.sum_split (modEntry E.I e w.fs mf) (entriesOf w.fs q)
      cases hm : hasMod E.I e w.fs mf q with
      | true =>
        simp only [Bool.not_true, Bool.false_eq_true, if_true, if_false]
        omega
      | false =>
        simp only [Bool.not_false, Bool.false_eq_true, if_true, if_false, hz q hm, List.flatMap_nil, Size.sum_nil]
        omega)
  have h2 := sum_map_eq (l := index)
    (a := fun q => k.sum (entriesOf w.fs q) - k.sum ((entriesOf w.fs q).filter (modEntry E.I e w.fs mf)))
    (b := fun q => k.sum ((entriesOf w.fs q).filter (modEntry E.I e w.fs mf)))
    (c := fun q => k.sum (entriesOf w.fs q)) (d := fun _ => 0) (by intro q hq; omega)
  have h3 := sum_map_zero index
  omega

/-- The difference between the bytes counted and the bytes listed grows by `d`. -/
def Drifted (w w' : World) (cur snap : Snapshot) (k : Size) (d : Int) : Prop :=
  k.stat snap.stats - k.sum (snapEntries w'.fs snap) = k.stat cur.stats - k.sum (snapEntries w.fs cur) + d

theorem Success.drifted (hs : Success E s m h wb w h' w' h1 w1 p cur snap) {k : Size} {d : Int}
    (h1 : k.sum ((cur.index.filter (fun m => !p.delIdx.contains m) ++ p.addIdx).flatMap (entriesOf w1.fs)) + d =
      k.sum (cur.index.flatMap (entriesOf w.fs)) + k.stat p.stats) : Drifted w w' cur snap k d := by
  have hm : ∀ q ∈ snap.index, ManifestOK w1.fs s q := by
    intro q hq
    rw [hs.index] at hq
    rcases List.mem_append.mp hq with hq | hq
    · exact (hs.curOK.manifests q (List.mem_filter.mp hq).1).mono hs.grows.le
    · exact hs.patch.idx q hq
  unfold Drifted snapEntries
  have hst : k.stat snap.stats = k.stat cur.stats + k.stat p.stats := by
    rw [hs.stats]
    cases k <;> simp [Size.stat, SStats.addIndex, SStats.addRecord]
  rw [entries_mono hs.le hm, hs.index, hst]
  omega

theorem ByteExact.drifted (h : ByteExact w w' cur snap) (k : Size) : Drifted w w' cur snap k 0 := by
  unfold ByteExact at h
  unfold Drifted
  cases k with
  | compressed =>
    show snap.stats.icb - sumIcb _ = cur.stats.icb - sumIcb _ + 0
    omega
  | uncompressed =>
    show snap.stats.iub - sumIub _ = cur.stats.iub - sumIub _ + 0
    omega

theorem merge_size {a b : Option Patch} {p : Patch} (h : some p = mergePatches [a, b]) (k : Size) :
    k.stat p.stats = (a.map (fun p => k.stat p.stats)).getD 0 + (b.map (fun p => k.stat p.stats)).getD 0 := by
  obtain ⟨-, h1, h2⟩ := merge_rows h
  cases k with
  | compressed => exact h1
  | uncompressed => exact h2

theorem gathered_size {w0 : World} {rows : List Row} {q : Option Patch} (h : Gathered E s w0 w1 rows q) (k : Size) :
    k.sum (((q.map (·.addIdx)).getD []).flatMap (entriesOf w1.fs)) = (q.map (fun p => k.stat p.stats)).getD 0 := by
  obtain ⟨-, h1, h2⟩ := h.counts
  cases k with
  | compressed => exact h1
  | uncompressed => exact h2

/-- A delete and an append merged into one patch. -/
theorem Success.driftMerged (hn : s.names.Nodup) (hs : Success E s m h wb w h' w' h1 w1 p cur snap) {e : Expr}
    {mf : Option MExpr} {w0 : World} {dp ap : Option Patch} {P : List Row} (g1 : Grows w w0) (g2 : Grows w0 w1)
    (hp : some p = mergePatches [dp, ap]) (hfin : Gathered E s w0 w1 P ap)
    (hdel : DeleteOut E s e w w0 cur.index mf dp) (k : Size) :
    Drifted w w' cur snap k (localDrift (fates E.I w.fs e mf k cur.index)) := by
  obtain ⟨hd, ha, -⟩ := merge_delIdx hp (fun q hq => hfin.del q hq)
  have h1 := hdel.drift hn hs.curOK.nodup hs.curOK.manifests g1 k
  have h2 := gathered_size hfin k
  refine hs.drifted ?_
  rw [hd, ha, merge_size hp, ← List.append_assoc, List.flatMap_append, Size.sum_append,
    entries_mono g2.le (hdel.manifests hn hs.curOK.manifests g1), h2]
  omega

/-- The error of every mutation. -/
theorem Success.drift (hn : s.names.Nodup) (hs : Success E s m h wb w h' w' h1 w1 p cur snap) (k : Size) :
    ∃ d, Drifted w w' cur snap k d ∧ m.DriftsBy E.I s w.fs cur.index k d := by
  have ins : ∀ {mode : InsertMode} {data : List Row}, m.inserts = some (mode, data) →
      (mode = .insert → Drifted w w' cur snap k 0) ∧
      (mode = .upsert → ∃ e mf, primaryKeyFilter s.pks data = .ok (some e) ∧ manifestFilter s (some e) = .ok mf ∧
        Drifted w w' cur snap k (localDrift (fates E.I w.fs e mf k cur.index))) := by
    intro mode data hm
    obtain ⟨e, mf, hout⟩ := hs.insertedG hm
    obtain ⟨w0, dp, ap, P, g1, f1, g2, hp, hfin, hP, hins, hups, -⟩ := hout.out
    constructor
    · rintro rfl
      obtain ⟨rfl, rfl, -⟩ := hins rfl
      obtain ⟨hd, ha, -⟩ := merge_delIdx hp (fun q hq => hfin.del q hq)
      obtain ⟨-, r1, r2⟩ := merge_rows hp
      refine (hs.bytesAdds (by simpa using hd) ?_).drifted k
      rw [ha, r1, r2]
      simpa using hfin.counts.2
    · rintro rfl
      exact ⟨e, mf, hout.key, hout.filter, hs.driftMerged hn g1 g2 hp hfin (hups rfl) k⟩
  cases m with
  | append tables => exact ⟨0, (hs.bytesAdded rfl).drifted k, rfl⟩
  | rayAppend n sched rows => exact ⟨0, (hs.bytesAdded rfl).drifted k, rfl⟩
  | rayAppendFrom n sched sources => exact ⟨0, (hs.bytesAdded rfl).drifted k, rfl⟩
  | appendParquet files => exact ⟨0, (hs.bytes hn trivial).drifted k, rfl⟩
  | appendArrayRecord fn files => exact ⟨0, (hs.bytes hn trivial).drifted k, rfl⟩
  | insert data => exact ⟨0, (ins rfl).1 rfl, rfl⟩
  | upsert data =>
    obtain ⟨e, mf, h1, h2, h3⟩ := (ins rfl).2 rfl
    exact ⟨_, h3, e, mf, h1, h2, rfl⟩
  | rayInsert mode n sched data =>
    cases mode with
    | insert => exact ⟨0, (ins rfl).1 rfl, rfl⟩
    | upsert =>
      obtain ⟨e, mf, h1, h2, h3⟩ := (ins rfl).2 rfl
      exact ⟨_, h3, e, mf, h1, h2, rfl⟩
  | sync n sched gone added =>
    obtain ⟨w0, dp, ap, P, g1, f1, g2, hp, hfin, hP, hdp, -⟩ := hs.syncedG.out
    rcases hdp with ⟨hg, rfl, rfl⟩ | ⟨e, mf, hkey, hmf, hdel⟩
    · obtain ⟨hd, ha, -⟩ := merge_delIdx hp (fun q hq => hfin.del q hq)
      obtain ⟨-, r1, r2⟩ := merge_rows hp
      refine ⟨0, (hs.bytesAdds (by simpa using hd) ?_).drifted k, Or.inl ⟨hg, rfl⟩⟩
      rw [ha, r1, r2]
      simpa using hfin.counts.2
    · exact ⟨_, hs.driftMerged hn g1 g2 hp hfin hdel k, Or.inr ⟨e, mf, hkey, hmf, rfl⟩⟩
  | rayDelete e =>
    obtain ⟨mf, hm, hd⟩ := hs.rayDeleted hn
    exact ⟨_, hs.drifted (hd.drift hs.curOK.manifests hs.grows k), mf, hm, rfl⟩
  | delete e =>
    have hb := hs.body
    simp only [Mutation.body] at hb
    obtain ⟨-, -, cur', mf, hc, hm, hout⟩ := Post.elim (deleteBody_post (E := E) (e := e) hs.fresh hs.handle) hb
    rw [hs.base] at hc
    cases hc
    have := hout.drift hn hs.curOK.nodup hs.curOK.manifests hs.grows k
    exact ⟨_, hs.drifted (by simpa using this), mf, hm, rfl⟩

end

end Space
