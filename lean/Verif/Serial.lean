import Verif.Shared
import Verif.RefineStep
import Verif.Props.Loads
import Verif.Props.RayWrite

/-!
# Several handles and a table in memory: the simulation
-/

namespace Space

open List (Perm)
open scoped List

/-- Mutations that are compared when they take effect: rows appended or loaded have keys, and no
key given is NaN; deletes by filters that fit the schema and are null on no row; no upsert, delete or refresh loses a row. -/
def Tame (E : Env) (s : Schema) (h : Handle) (w : World) : Mutation → Prop
  | .append tables => KeysSet s tables.flatten
  | .rayAppend _ _ rows => KeysSet s rows
  | .rayAppendFrom _ _ sources => KeysSet s sources.flatten.flatten
  | .insert rows => KeysNum s rows
  | .rayInsert .insert _ _ rows => KeysNum s rows
  | .upsert rows => KeysNum s rows ∧
      Spared (fun r => some (decide (s.pks.map r.val ∈ rows.map (fun r => s.pks.map r.val)))) (headLayout s h w)
  | .rayInsert .upsert _ _ rows => KeysNum s rows ∧
      Spared (fun r => some (decide (s.pks.map r.val ∈ rows.map (fun r => s.pks.map r.val)))) (headLayout s h w)
  | .delete e => FilterFits s e ∧ Spared (e.truth E.I) (headLayout s h w) ∧
      ∀ r ∈ (headLayout s h w).flatten.flatten, e.truth E.I r ≠ none
  | .rayDelete e => FilterFits s e ∧ RaySpared (e.truth E.I) (headLayout s h w) ∧
      ∀ r ∈ (headLayout s h w).flatten.flatten, e.truth E.I r ≠ none
  | .appendParquet files => ∀ f ∈ files, ∀ g, w.fs.parquet f = some g → KeysSet s g.flatten
  | .appendArrayRecord fn _ => ∀ rec, KeysSet s [fn rec]
  | .sync _ _ gone added => KeysSet s (added.getD []).flatten.flatten ∧
      (gone ≠ [] → DeleteSafe (fun r => some (decide (s.pks.map r.val ∈ gone.map (fun r => s.pks.map r.val)))) (headLayout s h w))

section
variable {E : Env} {s : Schema} {m : Mem} {σ σ' : Sys} {md md' : Metadata}

theorem Holds.same (hs : Holds E s m σ md) (hok : SysOK E s σ' md) (hle : FSLe σ.w.fs σ'.w.fs) : Holds E s m σ' md where
  ok := hok
  main := hs.main
  refs := hs.refs
  rows := fun n => (hs.rows n).mono hle fun _ hg => hs.snapOK hg
  keys := hs.keys

theorem Holds.next (hs : Holds E s m σ md) : m.next = md.maxRefId + 1 := by
  unfold Mem.next Metadata.maxRefId
  rw [hs.main, hs.refs]

/-- A commit. -/
theorem Holds.commit (hs : Holds E s m σ md) (hok : SysOK E s σ' md') (hle : FSLe σ.w.fs σ'.w.fs) {b : String}
    {p : Patch} {n : Nat} {cur snap : Snapshot} (com : Committed σ'.w.fs md md' b p n cur snap) {rows : List Row}
    (hrows : (snapRows σ'.w.fs s snap).map (·.select s.writeNames) ~ rows) (hkeys : KeysSet s rows) :
    Holds E s (m.putAt b n rows) σ' md' := by
  refine ⟨hok, ?_, ?_, ?_, ?_⟩
  · simp only [Mem.putAt, hs.main]
    rcases com.move with ⟨c1, c2, -⟩ | ⟨c1, c2, -⟩
    · rw [if_pos (show b = "main" from c1), c2]
    · rw [if_neg (show b ≠ "main" from c1), c2]
  · simp only [Mem.putAt, hs.refs]
    rcases com.move with ⟨c1, -, c2⟩ | ⟨c1, -, r, -, c3, c2⟩
    · rw [if_pos (show b = "main" from c1), c2]
    · rw [if_neg (show b ≠ "main" from c1), c2]
      obtain ⟨i, k⟩ := r
      simp only at c3
      subst c3
      rfl
  · intro k
    simp only [Mem.putAt]
    by_cases hkn : k = n
    · subst hkn
      rw [if_pos rfl, com.newSnap]
      exact hrows
    · rw [if_neg hkn, com.snaps, AMap.get?_set_ne _ _ hkn]
      exact (hs.rows k).mono hle fun snap hg => hs.snapOK hg
  · intro k rs hk
    simp only [Mem.putAt] at hk
    split at hk
    · cases hk; exact hkeys
    · exact hs.keys k rs hk

/-- The rows at the head of a branch. -/
theorem Holds.head (hs : Holds E s m σ md) {b : String} {cur : Snapshot} (hid : md.currentId b = .ok cur.id)
    (hget : md.snaps.get? cur.id = some cur) :
    ∃ old, { m with on := b }.rows none = some old ∧ (snapRows σ.w.fs s cur).map (·.select s.writeNames) ~ old ∧
      KeysSet s old := by
  have hv : { m with on := b }.version none = some cur.id := by
    unfold Mem.version
    simp only [hs.main, hs.refs]
    unfold Metadata.currentId Metadata.lookupRef at hid
    by_cases hm : b = mainBranch
    · rw [if_pos hm] at hid
      rw [if_pos (show b = "main" from hm)]
      rw [Except.ok.inj hid]
    · rw [if_neg hm] at hid
      rw [if_neg (show b ≠ "main" from hm)]
      cases hg : md.refs.get? b with
      | none => rw [hg] at hid; cases hid
      | some r =>
        rw [hg] at hid
        simp only [Except.map, Except.ok.injEq] at hid
        simp [hid]
  have hr := hs.rows cur.id
  rw [hget] at hr
  cases hx : m.versions cur.id with
  | none => rw [hx] at hr; exact hr.elim
  | some rows =>
    rw [hx] at hr
    exact ⟨rows, by simp [Mem.rows, hv, hx], hr, hs.keys _ _ hx⟩

theorem select_twice (rows : List Row) :
    (rows.map (·.select s.writeNames)).map (·.select s.writeNames) = rows.map (·.select s.writeNames) := by
  rw [List.map_map]
  refine List.map_congr_left fun r _ => ?_
  exact select_select (fun c hc => hc)

section
variable {mu : Mutation} {h h' h1 : Handle} {wb w w' w1 : World} {p : Patch} {cur snap : Snapshot} {old : List Row}

theorem Success.effect_add (hk : KeySchema s) (hlast : s.writeNames = s.names)
    (hs : Success E s mu h wb w h' w' h1 w1 p cur snap) {rows : List Row} (hm : mu.added = some rows)
    (hold : (snapRows w.fs s cur).map (·.select s.writeNames) ~ old) (hkeys : KeysSet s old) (hset : KeysSet s rows) :
    ∃ new, effect.add s old rows = some new ∧ (snapRows w'.fs s snap).map (·.select s.writeNames) ~ new ∧ KeysSet s new := by
  obtain ⟨P, hg, hP, hr⟩ := hs.addedG hm
  have hne : rows ≠ [] := by
    rintro rfl
    have : P = [] := by simpa using hP.length_eq
    exact absurd (hg.none_iff.mpr this) (by simp)
  refine ⟨_, by rw [effect.add, if_neg hne], ?_, keysSet_append hkeys ?_⟩
  · refine (hr.map _).trans ?_
    rw [List.map_append, select_twice, ← hlast]
    exact hold.append (Perm.refl _)
  · rw [← hlast]
    exact (keysSet_written hk).mpr hset

theorem Success.effect_insert (hk : KeySchema s) (hlast : s.writeNames = s.names)
    (hs : Success E s mu h wb w h' w' h1 w1 p cur snap) {rows : List Row} (hm : mu.inserts = some (.insert, rows))
    (hold : (snapRows w.fs s cur).map (·.select s.writeNames) ~ old) (hkeys : KeysSet s old) (hnum : KeysNum s rows) :
    ∃ new, effect.insert s old rows = some new ∧ (snapRows w'.fs s snap).map (·.select s.writeNames) ~ new ∧
      KeysSet s new := by
  obtain ⟨h1, h2, h3, h4⟩ := hs.insertG hk hm
  have hne : rows ≠ [] := by
    rintro rfl
    obtain ⟨e, mf, hout⟩ := hs.insertedG hm
    have := hout.key
    simp [primaryKeyFilter, rowFilters] at this
  have hcl : ∀ r ∈ old, rowKey s r ∉ rows.map (rowKey s) := by
    intro r hr
    obtain ⟨x, hx, rfl⟩ := List.mem_map.mp (hold.mem_iff.mpr hr)
    have : rowKey s (x.select s.writeNames) = rowKey s x := keyOf_select hk x
    rw [this]
    exact h3 x hx ((keyNum_of_eq (keyOf_select hk x)).mp (hkeys.num _ hr))
  refine ⟨_, by rw [effect.insert, if_pos ⟨h1, hcl⟩, effect.add, if_neg hne], ?_, keysSet_append hkeys ?_⟩
  · refine (h4.map _).trans ?_
    rw [List.map_append, select_twice, ← hlast]
    exact hold.append (Perm.refl _)
  · rw [← hlast]
    exact (keysSet_written hk).mpr (keysSet_iff.mpr ⟨h2, hnum⟩)

theorem Success.effect_upsert (hk : KeySchema s) (hlast : s.writeNames = s.names)
    (hs : Success E s mu h wb w h' w' h1 w1 p cur snap) {rows : List Row} (hm : mu.inserts = some (.upsert, rows))
    (hold : (snapRows w.fs s cur).map (·.select s.writeNames) ~ old) (hkeys : KeysSet s old) (hnum : KeysNum s rows)
    (hsp : Spared (fun r => some (decide (s.pks.map r.val ∈ rows.map (fun r => s.pks.map r.val)))) (layout w.fs s cur)) :
    ∃ new, effect.upsert s old rows = some new ∧ (snapRows w'.fs s snap).map (·.select s.writeNames) ~ new ∧
      KeysSet s new := by
  obtain ⟨h1, h2, -⟩ := hs.upsert_lost hk hm
  have hne : rows ≠ [] := by
    rintro rfl
    obtain ⟨e, mf, hout⟩ := hs.insertedG hm
    have := hout.key
    simp [primaryKeyFilter, rowFilters] at this
  have hset : KeysSet s (snapRows w.fs s cur) := (keysSet_written hk).mp (hkeys.perm hold.symm)
  have he := hs.upsert_effect hk hm hset
  have hsp := (leftBy_iff (fun r _ => by simp)).2 hsp
  rw [layout_flatten] at hsp
  refine ⟨_, by rw [effect.upsert, if_pos ⟨h1, hne⟩], ?_, keysSet_append (keysSet_filter hkeys _) ?_⟩
  · refine (he.map (·.select s.writeNames)).trans ?_
    rw [List.map_append, select_twice, ← hlast]
    refine Perm.append ?_ (Perm.refl _)
    refine Perm.trans (Perm.of_eq (congrArg (List.map (·.select s.writeNames)) hsp)) ?_
    refine Perm.trans ?_ (hold.filter _)
    rw [List.filter_map]
    refine Perm.of_eq ?_
    congr 1
    refine List.filter_congr fun x _ => ?_
    have hx : rowKey s (x.select s.writeNames) = rowKey s x := keyOf_select hk x
    simp only [Function.comp_apply, hx]
    rw [Bool.eq_iff_iff]
    simp only [Bool.not_eq_true', List.contains_eq_mem, decide_eq_false_iff_not, bne_iff_ne, ne_eq,
      Option.some.injEq, decide_eq_true_eq]
    exact Iff.rfl
  · rw [← hlast]
    exact (keysSet_written hk).mpr (keysSet_iff.mpr ⟨h2, hnum⟩)

/-- A file was modified, so a row was there to delete. -/
theorem truth_of_mods {e : Expr} {mf : Option MExpr} (he : FilterFits s e) (hcur : SnapOK w.fs s cur)
    (hnn : ∀ r ∈ snapRows w.fs s cur, e.truth E.I r ≠ none)
    (hmods : (visited w.fs mf cur.index).files.filter (modFile E.I e w.fs) ≠ []) :
    ∃ r ∈ snapRows w.fs s cur, e.truth E.I r = some true := by
  obtain ⟨f, hfm⟩ := List.exists_mem_of_ne_nil _ hmods
  obtain ⟨q, hq, m', hmm, hmod, -⟩ := visited_mods f hfm
  obtain ⟨y, hy, hyt⟩ := not_false_of_mod ((hcur.manifests q hq).entry hmm) hmod
  have hmem : deref w.fs.records s y ∈ snapRows w.fs s cur :=
    List.mem_map_of_mem (List.mem_flatMap.mpr ⟨q, hq, List.mem_flatMap.mpr ⟨m', hmm, hy⟩⟩)
  have h3 := hnn _ hmem
  refine ⟨_, hmem, ?_⟩
  rw [truth_deref he.plain] at h3 ⊢
  cases ht : e.truth E.I y with
  | none => exact absurd ht h3
  | some b =>
    cases b with
    | true => rfl
    | false => exact absurd ht hyt

/-- What is left agrees with the memory. -/
theorem effect_delete_of {e : Expr} (he : FilterFits s e)
    (hold : (snapRows w.fs s cur).map (·.select s.writeNames) ~ old) (hkeys : KeysSet s old)
    (hany : ∃ r ∈ snapRows w.fs s cur, e.truth E.I r = some true)
    (hleft : snapRows w'.fs s snap ~ (snapRows w.fs s cur).filter (fun r => e.truth E.I r != some true)) :
    ∃ new, effect.delete E.I old e = some new ∧ (snapRows w'.fs s snap).map (·.select s.writeNames) ~ new ∧
      KeysSet s new := by
  have ha : old.any (fun r => e.truth E.I r == some true) = true := by
    obtain ⟨r, hr, ht⟩ := hany
    refine List.any_eq_true.mpr ⟨_, hold.mem_iff.mp (List.mem_map_of_mem hr), ?_⟩
    rw [truth_select he, ht]
    rfl
  refine ⟨_, by rw [effect.delete, if_pos ha], ?_, keysSet_filter hkeys _⟩
  refine (hleft.map _).trans (Perm.trans (Perm.of_eq ?_) (hold.filter _))
  rw [List.filter_map]
  congr 1
  refine List.filter_congr fun x _ => ?_
  simp only [Function.comp_apply, truth_select he]

theorem Success.effect_delete (hk : KeySchema s) {e : Expr}
    (hs : Success E s (.delete e) h wb w h' w' h1 w1 p cur snap) (he : FilterFits s e)
    (hold : (snapRows w.fs s cur).map (·.select s.writeNames) ~ old) (hkeys : KeysSet s old)
    (hsp : Spared (e.truth E.I) (layout w.fs s cur)) (hnn : ∀ r ∈ snapRows w.fs s cur, e.truth E.I r ≠ none) :
    ∃ new, effect.delete E.I old e = some new ∧ (snapRows w'.fs s snap).map (·.select s.writeNames) ~ new ∧
      KeysSet s new := by
  have hmods : ∃ mf, (visited w.fs mf cur.index).files.filter (modFile E.I e w.fs) ≠ [] := by
    have hb := hs.body
    simp only [Mutation.body] at hb
    obtain ⟨hg, -, snap', mf, hsn, hm, hout⟩ := Post.elim (deleteBody_post hs.fresh hs.handle) hb
    rw [hs.base] at hsn
    cases hsn
    rcases hout.out with ⟨hx, -⟩ | ⟨q, dms, carried, mf', rmf, rp, -, hd⟩
    · cases hx
    exact ⟨mf, hd.nonempty⟩
  obtain ⟨mf, hmods⟩ := hmods
  refine effect_delete_of he hold hkeys (truth_of_mods he hs.curOK hnn hmods) ?_
  have hx := (leftBy_iff (by rw [layout_flatten]; exact hnn)).2 hsp
  rw [layout_flatten] at hx
  rw [← hx]
  exact hs.delete_effect hk.names he hnn

theorem Success.effect_rayDelete (hk : KeySchema s) {e : Expr}
    (hs : Success E s (.rayDelete e) h wb w h' w' h1 w1 p cur snap) (he : FilterFits s e)
    (hold : (snapRows w.fs s cur).map (·.select s.writeNames) ~ old) (hkeys : KeysSet s old)
    (hsp : RaySpared (e.truth E.I) (layout w.fs s cur)) (hnn : ∀ r ∈ snapRows w.fs s cur, e.truth E.I r ≠ none) :
    ∃ new, effect.delete E.I old e = some new ∧ (snapRows w'.fs s snap).map (·.select s.writeNames) ~ new ∧
      KeysSet s new := by
  have hmods : ∃ mf, (visited w.fs mf cur.index).files.filter (modFile E.I e w.fs) ≠ [] := by
    have hb := hs.body
    simp only [Mutation.body] at hb
    obtain ⟨hg, -, snap', mf, hsn, hm, hout⟩ := Post.elim (rayDeleteBody_post hs.fresh hk.names hs.handle) hb
    rw [hs.base] at hsn
    cases hsn
    rcases hout.out with ⟨hx, -⟩ | ⟨q, -, -, -, hne, -⟩
    · cases hx
    exact ⟨mf, hne⟩
  obtain ⟨mf, hmods⟩ := hmods
  refine effect_delete_of he hold hkeys (truth_of_mods he hs.curOK hnn hmods) ?_
  have hflat : (namedLayout w.fs s cur).flatMap (·.flatMap (·.2)) = snapRows w.fs s cur := by
    rw [← layout_flatten, ← layout_named]
    simp only [List.flatMap, List.flatten_flatten, List.map_map, Function.comp_def]
  rw [← layout_named] at hsp
  refine (hs.rayDelete_effect hk.names he hnn).trans ?_
  have := rayLeft_all (truth := e.truth E.I) (L := namedLayout w.fs s cur) ?_ ?_ hsp
  · rwa [hflat] at this
  · intro man hman f hf r hr
    refine hnn r ?_
    rw [← hflat]
    exact List.mem_flatMap.mpr ⟨man, hman, List.mem_flatMap.mpr ⟨f, hf, hr⟩⟩
  · intro man hman f hf g hg hfg
    obtain ⟨q, -, rfl⟩ := List.mem_map.mp hman
    obtain ⟨a, -, rfl⟩ := List.mem_map.mp hf
    obtain ⟨b, -, rfl⟩ := List.mem_map.mp hg
    simp only at hfg ⊢
    rw [hfg]

theorem mapM_of_all {α β : Type} {f : α → Option β} {g : α → β} :
    ∀ {l : List α}, (∀ x ∈ l, f x = some (g x)) → l.mapM f = some (l.map g)
  | [], _ => rfl
  | x :: xs, h => by
    rw [List.mapM_cons, h x (List.mem_cons_self ..), mapM_of_all fun y hy => h y (List.mem_cons_of_mem _ hy)]
    rfl

theorem loadParquetRows_some : ∀ {files : List Path} {fs : FS} {rows : List ManifestRow},
    loadParquetRows E s fs files = .ok rows → ∀ f ∈ files, (fs.parquet f).isSome
  | [], _, _, _ => by simp
  | p :: ps, fs, rows, h => by
    simp only [loadParquetRows] at h
    split at h
    · cases h
    rename_i g hg
    split at h
    · cases h
    split at h
    · cases h
    rename_i hx
    intro f hf
    rcases List.mem_cons.mp hf with rfl | hf
    · simp [hg]
    · exact loadParquetRows_some hx f hf

theorem appendParquetBody_some {files : List Path} (h : appendParquetBody E s files w = (.ok (some p), w1)) :
    ∀ f ∈ files, (w.fs.parquet f).isSome := by
  unfold appendParquetBody at h
  split at h
  · cases h
  have h := Post.elim (Post.bind (Q := fun a b => w = a ∧ w = b) (F := fun _ => True) (Post.get ⟨rfl, rfl⟩)
    (R := fun _ _ => ∀ f ∈ files, (w.fs.parquet f).isSome) fun a b hab => ?_) h
  · exact h
  obtain ⟨rfl, hb⟩ := hab
  subst hb
  refine Post.bind (Q := fun a b => loadParquetRows E s w.fs files = .ok a ∧ w = b)
    (Post.lift (fun a ha => ⟨ha, rfl⟩) trivial) ?_
  rintro rows b ⟨hl, -⟩
  have hall := loadParquetRows_some hl
  unfold Post
  split
  · exact hall
  · trivial

theorem Success.effect_parquet (hk : KeySchema s) {files : List Path}
    (hs : Success E s (.appendParquet files) h wb w h' w' h1 w1 p cur snap)
    (hold : (snapRows w.fs s cur).map (·.select s.writeNames) ~ old) (hkeys : KeysSet s old)
    (hset : ∀ f ∈ files, ∀ g, wb.fs.parquet f = some g → KeysSet s g.flatten) :
    ∃ new, effect E.I s w'.fs old (.appendParquet files) = some new ∧
      (snapRows w'.fs s snap).map (·.select s.writeNames) ~ new ∧ KeysSet s new := by
  obtain ⟨hrecs, hdel, -, -, rows, he, hfiles, hents, -, hphys⟩ := hs.loadParquet
  have hb := hs.body
  simp only [Mutation.body, hs.schema] at hb
  have hgot : ∀ f ∈ files, ∃ g, w.fs.parquet f = some g := fun f hf =>
    Option.isSome_iff_exists.mp (appendParquetBody_some hb f hf)
  have hm : files.mapM w'.fs.parquet = some (files.map (fun f => (w.fs.parquet f).getD [])) := by
    refine mapM_of_all fun f hf => ?_
    obtain ⟨g, hg⟩ := hgot f hf
    rw [hs.le.parquet (hs.grows.le.parquet hg), hg]
    rfl
  have hall : files.flatMap (fileRows w1.fs) = (files.map (fun f => (w.fs.parquet f).getD [])).flatten.flatten := by
    rw [List.flatten_flatten, List.map_map, List.flatMap]
    congr 1
    refine List.map_congr_left fun f hf => ?_
    obtain ⟨g, hg⟩ := hgot f hf
    simp [fileRows, hg, hs.grows.le.parquet hg]
  refine ⟨_, by rw [Space.effect, hm]; rfl, ?_, keysSet_append hkeys ?_⟩
  · rw [hs.adds hdel, List.map_append, hphys, ← hall]
    refine hold.append (Perm.of_eq ?_)
    rw [writeNames_plain hrecs, show (files.flatMap (fileRows w1.fs)).map (deref w1.fs.records s) = files.flatMap (fileRows w1.fs) from
      (List.map_congr_left fun r _ => deref_plain hrecs r).trans (List.map_id _)]
    refine select_rows hk.names fun r hr => ?_
    obtain ⟨f, hf, hrf⟩ := List.mem_flatMap.mp hr
    obtain ⟨g, hg⟩ := hgot f hf
    refine conforms_cols (hs.adm f hf g hg r ?_)
    simpa [fileRows, hs.grows.le.parquet hg] using hrf
  · intro r hr
    rw [List.flatten_flatten, List.map_map] at hr
    obtain ⟨x, hx, hrx⟩ := List.mem_flatten.mp hr
    obtain ⟨f, hf, rfl⟩ := List.mem_map.mp hx
    obtain ⟨g, hg⟩ := hgot f hf
    simp only [Function.comp_apply, hg, Option.getD_some] at hrx
    exact hset f hf g (hs.earlier.parquet hg) r hrx

theorem map_val {f : String → Val} {c : String} : ∀ {cs : List String}, c ∈ cs → Row.val (cs.map (fun c => (c, f c))) c = f c
  | d :: ds, h => by
    by_cases hd : d = c
    · subst hd
      simp [Row.val, AMap.get?]
    · have := map_val (f := f) (List.mem_of_ne_of_mem (fun h => hd h.symm) h : c ∈ ds)
      simpa [Row.val, AMap.get?, hd] using this

theorem Success.effect_records (hk : KeySchema s) (hlast : s.writeNames = s.names) {fn : List Nat → Row} {files : List Path}
    (hs : Success E s (.appendArrayRecord fn files) h wb w h' w' h1 w1 p cur snap)
    (hold : (snapRows w.fs s cur).map (·.select s.writeNames) ~ old) (hkeys : KeysSet s old)
    (hset : ∀ rec, KeysSet s [fn rec]) :
    ∃ new, effect E.I s w'.fs old (.appendArrayRecord fn files) = some new ∧
      (snapRows w'.fs s snap).map (·.select s.writeNames) ~ new ∧ KeysSet s new := by
  obtain ⟨f, mf, rmf, p0, hrf, hrec, hf, hadd, hdel, -⟩ := hs.loadRecords
  have hgot : ∀ q ∈ files, ∃ rs, w1.fs.records q = some rs := fun q hq => Option.isSome_iff_exists.mp (hrec q hq)
  have hm : files.mapM w'.fs.records = some (files.map (fun f => (w1.fs.records f).getD [])) := by
    refine mapM_of_all fun q hq => ?_
    obtain ⟨rs, hg⟩ := hgot q hq
    rw [hs.le.records hg, hg]
    rfl
  have hphys : physRows w1.fs p.addIdx =
      (recordIndexRows w1.fs s f.name fn files).map (·.select s.writeNames) := by
    rw [hadd]
    rcases hf.addRows with ha | ⟨q, hq, hr, -⟩
    · cases ha.1
    · cases hq; exact hr
  have hload : ∀ rec, loadedRow s f.name fn rec =
      s.names.map (fun c => (c, if s.recs.contains c then .sc (.bytes rec) else (fn rec).val c)) := by
    intro rec
    rw [loadedRow, hlast]
    refine List.map_congr_left fun c hc => ?_
    obtain ⟨g, hg, rfl⟩ := List.mem_map.mp hc
    by_cases hx : s.recs.contains g.name = true
    · have : g ∈ s.recFields := by
        simp only [Schema.recFields, List.mem_filter, Schema.isRec]
        exact ⟨hg, hx⟩
      rw [hrf, List.mem_singleton] at this
      subst this
      rw [if_pos rfl, if_pos hx]
    · rw [if_neg hx, if_neg]
      intro he
      have := recFields_isRec (s := s) (f := f) (by simp [hrf])
      rw [← he] at this
      exact hx (by simpa using this)
  have hder : ((recordIndexRows w1.fs s f.name fn files).map (·.select s.writeNames)).map (deref w1.fs.records s) =
      (files.map (fun f => (w1.fs.records f).getD [])).flatten.map (loadedRow s f.name fn) := by
    simp only [recordIndexRows, List.map_flatMap, List.map_flatten, List.map_map]
    simp only [List.flatMap]
    congr 1
    refine List.map_congr_left fun q hq => ?_
    obtain ⟨rs, h3⟩ := hgot q hq
    simp only [Function.comp_apply, h3]
    rw [← List.map_map]
    exact indexRows_deref hrf h3
  have hne : (files.map (fun f => (w1.fs.records f).getD [])).flatten ≠ [] := by
    intro hnil
    rw [hnil, List.map_nil, List.map_eq_nil_iff] at hder
    rw [hder] at hf
    have h0 := sumRows_zero hf.ents
    rw [hf.rowsEq] at h0
    exact absurd (hf.none_iff.mpr h0) (by simp)
  refine ⟨_, by rw [Space.effect, hm, Option.bind_some, effect.load, if_neg hne], ?_, keysSet_append hkeys ?_⟩
  · rw [hs.adds hdel, List.map_append, hphys, hder]
    refine hold.append (Perm.of_eq ?_)
    rw [show (fun rec => s.names.map (fun c => (c, if s.recs.contains c then .sc (.bytes rec) else (fn rec).val c))) =
      loadedRow s f.name fn from (funext hload).symm]
    refine select_rows (writeNames_nodup hk.names) fun r hr => ?_
    obtain ⟨x, -, rfl⟩ := List.mem_map.mp hr
    simp only [loadedRow, Row.cols, List.map_map]
    exact List.map_id'' (fun _ => rfl) _
  · intro r hr k hkk
    obtain ⟨rec, -, rfl⟩ := List.mem_map.mp hr
    obtain ⟨v, hv, hvn⟩ := hset rec _ (List.mem_singleton.mpr rfl) k hkk
    refine ⟨v, ?_, hvn⟩
    rw [← hload, loadedRow, map_val (f := fun c => if c = f.name then .sc (.bytes rec) else (fn rec).val c)
      (hlast ▸ hk.keys k hkk), if_neg, hv]
    rintro rfl
    exact hk.plain _ hkk (by simpa using recFields_isRec (s := s) (f := f) (by simp [hrf]))

theorem Success.effect_sync (hk : KeySchema s) (hlast : s.writeNames = s.names) {n : Nat} {sched : List Nat} {gone : List Row}
    {added : Option (List (List (List Row)))}
    (hs : Success E s (.sync n sched gone added) h wb w h' w' h1 w1 p cur snap)
    (hold : (snapRows w.fs s cur).map (·.select s.writeNames) ~ old) (hkeys : KeysSet s old)
    (hset : KeysSet s (added.getD []).flatten.flatten)
    (hsafe : gone ≠ [] → DeleteSafe (fun r => some (decide (s.pks.map r.val ∈ gone.map (fun r => s.pks.map r.val)))) (layout w.fs s cur)) :
    ∃ new, effect.sync s old gone (added.getD []).flatten.flatten = some new ∧
      (snapRows w'.fs s snap).map (·.select s.writeNames) ~ new ∧ KeysSet s new := by
  have hcur : KeysSet s (snapRows w.fs s cur) := (keysSet_written hk).mp (hkeys.perm hold.symm)
  obtain ⟨hnd, hr⟩ := hs.sync hk hcur hsafe
  have hany : (added.getD []).flatten.flatten = [] → ∃ r ∈ old, rowKey s r ∈ gone.map (rowKey s) := by
    intro hnil
    obtain ⟨w0, dp, ap, P, g1, f1, g2, hp, hfin, hP, hdp, -⟩ := hs.syncedG.out
    have hP0 : P = [] := by
      rw [syncRows, hnil] at hP
      simpa using hP.length_eq
    rw [hfin.none_iff.mpr hP0, merge_two] at hp
    rcases hdp with ⟨-, rfl, -⟩ | ⟨e, mf, hkey, hm, hdel⟩
    · cases hp
    obtain ⟨hke, hsem, -, -, -⟩ := primaryKeyFilter_sem hkey E.I
    rcases hdel.out with ⟨rfl, -⟩ | ⟨q, dms, carried, mf', rmf, rp, -, hd⟩
    · cases hp
    obtain ⟨r, hr, ht⟩ := truth_of_mods (hk.fits hke) hs.curOK (fun r hr => hke.total E.I r (hcur r hr)) hd.nonempty
    refine ⟨_, hold.mem_iff.mp (List.mem_map_of_mem hr), ?_⟩
    have hx : rowKey s (r.select s.writeNames) = rowKey s r := keyOf_select hk r
    rw [hx]
    obtain ⟨d, hd1, hd2, -⟩ := (hsem r).mp ht
    exact List.mem_map.mpr ⟨d, hd1, hd2⟩
  refine ⟨_, by rw [effect.sync, if_pos ⟨hnd, hany⟩], ?_, keysSet_append (keysSet_filter hkeys _) ?_⟩
  · refine (hr.map (·.select s.writeNames)).trans ?_
    rw [List.map_append, select_twice, ← hlast]
    refine Perm.append ?_ (Perm.refl _)
    refine Perm.trans ?_ (hold.filter _)
    rw [List.filter_map]
    refine Perm.of_eq ?_
    congr 1
    refine List.filter_congr fun x _ => ?_
    have hx : rowKey s (x.select s.writeNames) = rowKey s x := keyOf_select hk x
    simp only [Function.comp_apply, hx]
    rw [Bool.eq_iff_iff]
    simp only [Bool.not_eq_true', List.contains_eq_mem, decide_eq_false_iff_not, decide_eq_true_eq]
    exact Iff.rfl
  · rw [← hlast]
    exact (keysSet_written hk).mpr hset

/-- A mutation that took effect has the effect it has on the table in memory. -/
theorem Success.effect (hk : KeySchema s) (hlast : s.writeNames = s.names)
    (hs : Success E s mu h wb w h' w' h1 w1 p cur snap) (ht : Tame E s h wb mu)
    (hlay : headLayout s h wb = layout w.fs s cur)
    (hold : (snapRows w.fs s cur).map (·.select s.writeNames) ~ old) (hkeys : KeysSet s old) :
    ∃ new, effect E.I s w'.fs old mu = some new ∧ (snapRows w'.fs s snap).map (·.select s.writeNames) ~ new ∧
      KeysSet s new := by
  cases mu with
  | append ts => exact hs.effect_add hk hlast rfl hold hkeys ht
  | rayAppend n sched rows => exact hs.effect_add hk hlast rfl hold hkeys ht
  | rayAppendFrom n sched sources => exact hs.effect_add hk hlast rfl hold hkeys ht
  | insert rows => exact hs.effect_insert hk hlast rfl hold hkeys ht
  | upsert rows => exact hs.effect_upsert hk hlast rfl hold hkeys ht.1 (hlay ▸ ht.2)
  | rayInsert mode n sched rows =>
    cases mode with
    | insert => exact hs.effect_insert hk hlast rfl hold hkeys ht
    | upsert => exact hs.effect_upsert hk hlast rfl hold hkeys ht.1 (hlay ▸ ht.2)
  | delete e =>
    obtain ⟨t1, t2, t3⟩ := ht
    rw [hlay] at t2 t3
    rw [layout_flatten] at t3
    exact hs.effect_delete hk t1 hold hkeys t2 t3
  | rayDelete e =>
    obtain ⟨t1, t2, t3⟩ := ht
    rw [hlay] at t2 t3
    rw [layout_flatten] at t3
    exact hs.effect_rayDelete hk t1 hold hkeys t2 t3
  | appendParquet files => exact hs.effect_parquet hk hold hkeys ht
  | appendArrayRecord fn files => exact hs.effect_records hk hlast hold hkeys ht
  | sync n sched gone added => exact hs.effect_sync hk hlast hold hkeys ht.1 (hlay ▸ ht.2)

end

/-- A mutation takes effect. -/
theorem Holds.lands (hk : KeySchema s) (hlast : s.writeNames = s.names) (hs : Holds E s m σ md)
    (hr : Reach E s calm σ) {ev : Event} (hp : calm σ ev) (hst : Step E s σ ev σ') {i : Nat} {mu : Mutation}
    (hl : Lands σ ev i mu) {sl : Slot} (hsl : σ.slots[i]? = some sl) (ht : Tame E s sl.h σ.w mu) :
    ∃ n m' md', m.deed E.I s σ'.w.fs ⟨sl.h.branch, .mutate mu, n⟩ = some m' ∧ Holds E s m' σ' md' := by
  obtain ⟨md', hok', hle, hch, -, -⟩ := step_full hk.names hs.ok hst
  obtain ⟨sl0, sl', w, h1, w1, p, cur, snap, hl'⟩ := landed hk.names hr hst hl
  have := hl'.slot
  rw [hsl] at this
  cases this
  have hce : CommitEvent σ ev sl.h.branch := by
    refine ⟨i, sl, hsl, rfl, ?_⟩
    rcases hl with rfl | ⟨rfl, -⟩
    · exact Or.inl ⟨_, rfl⟩
    · exact Or.inr rfl
  cases hch hp.1 with
  | same _ h => exact absurd hce (h _)
  | addRef _ _ _ _ _ _ h => exact absurd hce (h _)
  | removeRef _ _ _ _ _ _ h => exact absurd hce (h _)
  | commit b q n cur' snap' com new hc =>
    have hb : b = sl.h.branch := by
      obtain ⟨j, sl2, hj, hb, hev⟩ := hc
      have hij : j = i := by
        rcases hl with rfl | ⟨rfl, -⟩ <;> rcases hev with ⟨m, he⟩ | he <;> cases he <;> rfl
      subst hij
      rw [hsl] at hj
      cases hj
      exact hb.symm
    subst hb
    have hcur : cur = cur' := by
      have := hl'.succ.head
      simp only [headOf, hs.ok.wok.storedEq, Option.bind_some, target_head com.head com.curGet,
        Except.toOption, Option.some.injEq] at this
      exact this.symm
    have hsnap : snap = snap' := by
      have := hl'.succ.head'
      simp only [headOf, hok'.wok.storedEq, Option.bind_some, hl'.branch, target_head com.newHead com.newSnap,
        Except.toOption, Option.some.injEq] at this
      exact this.symm
    subst hcur
    subst hsnap
    obtain ⟨old, ho1, ho2, ho3⟩ := hs.head com.head com.curGet
    rw [snapRows_mono hl'.succ.earlier hl'.succ.curOK] at ho2
    obtain ⟨new', hn1, hn2, hn3⟩ := hl'.succ.effect hk hlast ht hl'.layout ho2 ho3
    refine ⟨n, m.putAt sl.h.branch n new', md', ?_, hs.commit hok' hle com hn2 hn3⟩
    simp only [Mem.deed, ho1, Option.bind_some, hn1]
    rw [if_pos]
    refine ⟨by rw [hs.next]; exact new, ?_⟩
    rcases com.move with ⟨c1, -⟩ | ⟨-, -, r, c1, c2, -⟩
    · exact Or.inl c1
    · exact Or.inr (by rw [hs.refs, c1]; simp [c2])

/-- Changes of tags and branches. -/
theorem Holds.refsTo (hs : Holds E s m σ md) (hok : SysOK E s σ' md') (hle : FSLe σ.w.fs σ'.w.fs)
    {refs : AMap String Ref} {b : String} (hmd : md' = { md with refs := refs }) :
    Holds E s { m with on := b, refs := refs } σ' md' := by
  subst hmd
  exact ⟨hok, hs.main, rfl, fun n => (hs.rows n).mono hle fun _ hg => hs.snapOK hg, hs.keys⟩

theorem Holds.canAdd (hs : Holds E s m σ md) (name : String) (n : Nat) :
    CanAdd md name n ↔ name ≠ "" ∧ name ≠ "main" ∧ m.refs.get? name = none ∧ (m.versions n).isSome := by
  have := (hs.rows n).isSome
  constructor
  · rintro ⟨h1, h2, h3, h4⟩
    exact ⟨h2, h3, by rw [hs.refs]; exact h4, by rw [← this]; exact h1⟩
  · rintro ⟨h1, h2, h3, h4⟩
    exact ⟨by rw [this]; exact h4, h1, h2, by rw [← hs.refs]; exact h3⟩

/-- A tag or branch added by a handle that is up to date. -/
theorem Holds.addRef (hs : Holds E s m σ md) {h h' : Handle} (hh : HandleOK s σ.w h) (hmd : h.md = md) {r : Result}
    {name : String} {kind : RefKind} {id : Option Nat} (b : String)
    (hc : runUnit (addReference name kind id) h σ.w = (r, h', σ'.w)) (hok : SysOK E s σ' md')
    (hle : FSLe σ.w.fs σ'.w.fs) :
    (r ≠ .returned ∧ Holds E s m σ' md') ∨
      (r = .returned ∧ CanAdd md name (id.getD m.main) ∧
        Holds E s { m with on := b, refs := m.refs.set name { id := id.getD m.main, kind := kind } } σ' md') := by
  unfold runUnit at hc
  have hmain := hs.main
  have hrefs := hs.refs
  rcases addReference_cases hs.ok.wok hh name kind id with ⟨e, h1, h2⟩ | ⟨h1, w1, h2, h3, h4⟩
  · rw [h1] at hc
    simp only [Prod.mk.injEq] at hc
    obtain ⟨rfl, rfl, hw⟩ := hc
    have hx := hok.wok.storedEq
    rw [← hw, hs.ok.wok.storedEq] at hx
    cases hx
    exact Or.inl ⟨by simp, hs.same hok hle⟩
  · rw [h2] at hc
    simp only [Prod.mk.injEq] at hc
    obtain ⟨rfl, rfl, rfl⟩ := hc
    have hx := hok.wok.storedEq
    rw [h4.wok.storedEq] at hx
    cases hx
    refine Or.inr ⟨rfl, by rw [hmain, ← hmd]; exact h3, hs.refsTo hok hle ?_⟩
    rw [h4.md, hmain, hrefs, hmd]

/-- A tag or branch removed by a handle that is up to date. -/
theorem Holds.removeRef (hs : Holds E s m σ md) {h h' : Handle} (hh : HandleOK s σ.w h) (hmd : h.md = md) {r : Result}
    {name : String} {kind : RefKind} (b : String)
    (hc : runUnit (removeReference name kind) h σ.w = (r, h', σ'.w)) (hok : SysOK E s σ' md')
    (hle : FSLe σ.w.fs σ'.w.fs) :
    (r ≠ .returned ∧ Holds E s m σ' md') ∨
      (r = .returned ∧ (m.refs.get? name).map (·.kind) = some kind ∧
        Holds E s { m with on := b, refs := m.refs.erase name } σ' md') := by
  unfold runUnit at hc
  have hrefs := hs.refs
  rcases removeReference_cases hs.ok.wok hh name kind with ⟨e, h1, h2⟩ | ⟨h1, w1, h2, ⟨n, h3⟩, h4⟩
  · rw [h1] at hc
    simp only [Prod.mk.injEq] at hc
    obtain ⟨rfl, rfl, hw⟩ := hc
    have hx := hok.wok.storedEq
    rw [← hw, hs.ok.wok.storedEq] at hx
    cases hx
    exact Or.inl ⟨by simp, hs.same hok hle⟩
  · rw [h2] at hc
    simp only [Prod.mk.injEq] at hc
    obtain ⟨rfl, rfl, rfl⟩ := hc
    have hx := hok.wok.storedEq
    rw [h4.wok.storedEq] at hx
    cases hx
    refine Or.inr ⟨rfl, by rw [hrefs, ← hmd, h3]; rfl, hs.refsTo hok hle ?_⟩
    rw [h4.md, hrefs, hmd]

/-- A call about tags and branches. -/
theorem Holds.refCall (hs : Holds E s m σ md) {i : Nat} {c : Call} {r : Result} (hn : s.names.Nodup)
    (hc : c.isRef = true) (hp : tidy σ (.call i c r)) (hst : Step E s σ (.call i c r) σ') {sl : Slot}
    (hsl : σ.slots[i]? = some sl) :
    (r ≠ .returned ∧ ∃ md', Holds E s m σ' md') ∨
      (r = .returned ∧ ∃ m' md', m.deed E.I s σ'.w.fs ⟨sl.h.branch, c, 0⟩ = some m' ∧ Holds E s m' σ' md') := by
  obtain ⟨md', hok', hle, -, -, -⟩ := step_full hn hs.ok hst
  obtain ⟨hidle, hadm, h2, w2, hrun, rfl⟩ := call_run hsl hst
  have hmd : sl.h.md = md := by
    have := hp.2 hc sl hsl
    rw [hs.ok.wok.storedEq] at this
    cases this
    rfl
  have hh : HandleOK s σ.w sl.h := (hs.ok.slots sl (List.mem_of_getElem? hsl)).1
  cases c with
  | addTag name id =>
    rcases hs.addRef hh hmd sl.h.branch (name := name) (kind := .tag) (id := id) (σ' := ⟨w2, _⟩) hrun hok' hle with
      ⟨h1, h3⟩ | ⟨h0, h1, h3⟩
    · exact Or.inl ⟨h1, md', h3⟩
    · refine Or.inr ⟨h0, _, md', ?_, h3⟩
      rw [hs.canAdd] at h1
      simp only [Mem.deed, Mem.call]
      rw [if_pos h1]
  | addBranch name =>
    rcases hs.addRef hh hmd sl.h.branch (name := name) (kind := .branch) (id := none) (σ' := ⟨w2, _⟩) hrun hok' hle with
      ⟨h1, h3⟩ | ⟨h0, h1, h3⟩
    · exact Or.inl ⟨h1, md', h3⟩
    · refine Or.inr ⟨h0, _, md', ?_, h3⟩
      rw [hs.canAdd] at h1
      simp only [Mem.deed, Mem.call]
      rw [if_pos ⟨h1.1, h1.2.1, h1.2.2.1⟩]
      rfl
  | removeTag name =>
    rcases hs.removeRef hh hmd sl.h.branch (name := name) (kind := .tag) (σ' := ⟨w2, _⟩) hrun hok' hle with
      ⟨h1, h3⟩ | ⟨h0, h1, h3⟩
    · exact Or.inl ⟨h1, md', h3⟩
    · refine Or.inr ⟨h0, _, md', ?_, h3⟩
      simp only [Mem.deed, Mem.call]
      rw [if_pos h1]
  | removeBranch name =>
    by_cases hb : name = sl.h.branch
    · have hrun' := hrun
      simp only [exec, runUnit, removeBranch_run, if_pos hb, Prod.mk.injEq] at hrun'
      obtain ⟨rfl, rfl, hw⟩ := hrun'
      have hx := hok'.wok.storedEq
      simp only at hx
      rw [← hw, hs.ok.wok.storedEq] at hx
      cases hx
      exact Or.inl ⟨by simp, md, hs.same hok' hle⟩
    · rcases hs.removeRef hh hmd sl.h.branch (name := name) (kind := .branch) (h' := h2) (r := r) (σ' := ⟨w2, _⟩)
        (by rw [← hrun]; simp only [exec, runUnit, removeBranch_run, if_neg hb]) hok' hle with ⟨h1, h3⟩ | ⟨h0, h1, h3⟩
      · exact Or.inl ⟨h1, md', h3⟩
      · refine Or.inr ⟨h0, _, md', ?_, h3⟩
        simp only [Mem.deed, Mem.call]
        rw [if_pos ⟨h1, hb⟩]
  | _ => cases hc

/-- What a step did to the table, if it did something: on which branch, and by which call. -/
def took (σ : Sys) : Event → Option (String × Call)
  | .call i (.mutate mu) r =>
    if r = .job .succeeded then σ.slots[i]?.map (fun sl => (sl.h.branch, .mutate mu)) else none
  | .call i c r => if c.isRef ∧ r = .returned then σ.slots[i]?.map (fun sl => (sl.h.branch, c)) else none
  | .commit i r =>
    match σ.slots[i]?, r with
    | some ⟨h, .ready _ mu _⟩, .ok .succeeded => some (h.branch, .mutate mu)
    | _, _ => none
  | .write i r =>
    match σ.slots[i]?, r with
    | some ⟨h, .checked _ mu _⟩, .ok () => some (h.branch, .mutate mu)
    | _, _ => none
  | _ => none

/-- Calm steps whose mutations, where they take effect, are tame. -/
def tame (E : Env) (s : Schema) (σ : Sys) (ev : Event) : Prop :=
  calm σ ev ∧ ∀ i mu sl, Lands σ ev i mu → σ.slots[i]? = some sl → Tame E s sl.h σ.w mu

/-- Runs from a new table, with what was done to the table, in the order in which it took effect. -/
inductive History (E : Env) (s : Schema) (P : Sys → Event → Prop) : List (String × Call) → Sys → Prop where
  | start {σ : Sys} : Started s σ → History E s P [] σ
  | step {tr : List (String × Call)} {σ σ' : Sys} {ev : Event} : History E s P tr σ → P σ ev → Step E s σ ev σ' → History E s P (tr ++ (took σ ev).toList) σ'

theorem History.reach {P Q : Sys → Event → Prop} {tr : List (String × Call)} (hpq : ∀ σ ev, P σ ev → Q σ ev)
    (h : History E s P tr σ) : Reach E s Q σ := by
  induction h with
  | start h => exact ⟨_, h, .refl _⟩
  | step _ hp hst ih =>
    obtain ⟨σ0, h0, hr⟩ := ih
    exact ⟨σ0, h0, hr.step (hpq _ _ hp) hst⟩

/-- One step. -/
theorem Holds.step (hk : KeySchema s) (hlast : s.writeNames = s.names) (hs : Holds E s m σ md)
    (hr : Reach E s calm σ) {ev : Event} (hp : tame E s σ ev) (hst : Step E s σ ev σ') :
    ∃ md', (took σ ev = none ∧ Holds E s m σ' md') ∨
      ∃ d m', took σ ev = some (d.on, d.call) ∧ m.deed E.I s σ'.w.fs d = some m' ∧ Holds E s m' σ' md' := by
  have hland : ∀ i mu sl, Lands σ ev i mu → σ.slots[i]? = some sl → took σ ev = some (sl.h.branch, .mutate mu) →
      ∃ md', (took σ ev = none ∧ Holds E s m σ' md') ∨
        ∃ d m', took σ ev = some (d.on, d.call) ∧ m.deed E.I s σ'.w.fs d = some m' ∧ Holds E s m' σ' md' := by
    intro i mu sl hl hsl ht
    obtain ⟨n, m', md', h1, h2⟩ := hs.lands hk hlast hr hp.1 hst hl hsl (hp.2 i mu sl hl hsl)
    exact ⟨md', Or.inr ⟨_, m', ht, h1, h2⟩⟩
  obtain ⟨md', hok', hle, hch, hq, -⟩ := step_full hk.names hs.ok hst
  have hsame : took σ ev = none → md' = md →
      ∃ md', (took σ ev = none ∧ Holds E s m σ' md') ∨
        ∃ d m', took σ ev = some (d.on, d.call) ∧ m.deed E.I s σ'.w.fs d = some m' ∧ Holds E s m' σ' md' := by
    rintro ht rfl
    exact ⟨md', Or.inl ⟨ht, hs.same hok' hle⟩⟩
  have href : ∀ i c r sl, ev = .call i c r → c.isRef = true → σ.slots[i]? = some sl →
      (r ≠ .returned → took σ ev = none) → (r = .returned → took σ ev = some (sl.h.branch, c)) →
      ∃ md', (took σ ev = none ∧ Holds E s m σ' md') ∨
        ∃ d m', took σ ev = some (d.on, d.call) ∧ m.deed E.I s σ'.w.fs d = some m' ∧ Holds E s m' σ' md' := by
    rintro i c r sl rfl hc hsl h1 h2
    rcases hs.refCall hk.names hc hp.1.1 hst hsl with ⟨h3, md', h4⟩ | ⟨h3, m', md', h4, h5⟩
    · exact ⟨md', Or.inl ⟨h1 h3, h4⟩⟩
    · exact ⟨md', Or.inr ⟨_, m', h2 h3, h4, h5⟩⟩
  cases hst with
  | @call w slots i h c r h' w' hi hadm hrun =>
    have ht : ∀ c : Call, c.isRef = true → (r ≠ .returned → took ⟨w, slots⟩ (.call i c r) = none) ∧
        (r = .returned → took ⟨w, slots⟩ (.call i c r) = some (h.branch, c)) := by
      intro c hc
      cases c <;> first | (cases hc; done) | (clear hc; simp only [took, hi]; constructor <;> intro hx <;> simp [hx, Call.isRef])
    cases c with
    | mutate mu =>
      by_cases hrs : r = .job .succeeded
      · subst hrs
        exact hland i mu _ (Or.inl rfl) hi (by simp [took, hi])
      · exact hsame (by simp [took, hrs]) (hq (.mutation hrs))
    | setBranch b => exact hsame (by simp [took, Call.isRef]) (hq .set)
    | reload => exact hsame (by simp [took, Call.isRef]) (hq .reload)
    | _ => exact href i _ r _ rfl rfl hi (ht _ rfl).1 (ht _ rfl).2
  | @commit w slots i h t mu p r h' w' hi hrun =>
    by_cases hrs : r = .ok .succeeded
    · subst hrs
      exact hland i mu _ (Or.inr ⟨rfl, _, _, _, hi, rfl⟩) hi (by simp [took, hi])
    · refine hsame ?_ (hq (.commit hrs))
      unfold took
      simp only [hi]
      split
      · simp_all
      · rfl
  | begin => exact hsame rfl (hq .begin)
  | beginFail => exact hsame rfl (hq .begin)
  | compute => exact hsame rfl (hq .compute)
  | computeFail => exact hsame rfl (hq .compute)
  | check => exact hsame rfl (hq .check)
  | write => exact hp.1.1.1.elim
  | load =>
    refine hsame rfl ?_
    cases hch hp.1.1 with
    | same h => exact h
    | commit _ _ _ _ _ _ _ h => obtain ⟨_, _, _, _, ⟨_, h⟩ | h⟩ := h <;> cases h
    | addRef _ _ _ _ _ h => obtain ⟨_, _, ⟨_, _, _, h⟩ | ⟨_, _, h⟩⟩ := h <;> cases h
    | removeRef _ _ _ _ _ h => obtain ⟨_, _, ⟨_, h⟩ | ⟨_, h⟩⟩ := h <;> cases h
  | external =>
    refine hsame rfl ?_
    cases hch hp.1.1 with
    | same h => exact h
    | commit _ _ _ _ _ _ _ h => obtain ⟨_, _, _, _, ⟨_, h⟩ | h⟩ := h <;> cases h
    | addRef _ _ _ _ _ h => obtain ⟨_, _, ⟨_, _, _, h⟩ | ⟨_, _, h⟩⟩ := h <;> cases h
    | removeRef _ _ _ _ _ h => obtain ⟨_, _, ⟨_, h⟩ | ⟨_, h⟩⟩ := h <;> cases h
  | orphans =>
    refine hsame rfl ?_
    cases hch hp.1.1 with
    | same h => exact h
    | commit _ _ _ _ _ _ _ h => obtain ⟨_, _, _, _, ⟨_, h⟩ | h⟩ := h <;> cases h
    | addRef _ _ _ _ _ h => obtain ⟨_, _, ⟨_, _, _, h⟩ | ⟨_, _, h⟩⟩ := h <;> cases h
    | removeRef _ _ _ _ _ h => obtain ⟨_, _, ⟨_, h⟩ | ⟨_, h⟩⟩ := h <;> cases h

theorem Mem.deeds_append (I : Interp) (s : Schema) (fs : FS) (m : Mem) (ds es : List Deed) :
    m.deeds I s fs (ds ++ es) = (m.deeds I s fs ds).bind (fun m' => m'.deeds I s fs es) := by
  induction ds generalizing m with
  | nil => rfl
  | cons d ds ih =>
    simp only [List.cons_append, Mem.deeds]
    cases m.deed I s fs d with
    | none => rfl
    | some m' => simp only [Option.bind_some, ih]

theorem mapM_mono {α β : Type} {f g : α → Option β} (hfg : ∀ x y, f x = some y → g x = some y) :
    ∀ {l : List α} {ys : List β}, l.mapM f = some ys → l.mapM g = some ys
  | [], _, h => h
  | x :: xs, ys, h => by
    rw [List.mapM_cons] at h ⊢
    obtain ⟨y, h1, h2⟩ := Option.bind_eq_some_iff.mp h
    obtain ⟨zs, h3, h4⟩ := Option.bind_eq_some_iff.mp h2
    rw [hfg _ _ h1]
    exact Option.bind_eq_some_iff.mpr ⟨y, rfl, Option.bind_eq_some_iff.mpr ⟨zs, mapM_mono hfg h3, h4⟩⟩

/-- Files of users stay, so what was done could be done again. -/
theorem effect_mono {I : Interp} {fs fs' : FS} (hle : FSLe fs fs') {old new : List Row} {mu : Mutation}
    (h : effect I s fs old mu = some new) : effect I s fs' old mu = some new := by
  cases mu with
  | appendParquet files =>
    simp only [effect] at h ⊢
    obtain ⟨found, h1, rfl⟩ := Option.map_eq_some_iff.mp h
    rw [mapM_mono (fun _ _ => hle.parquet) h1]
    rfl
  | appendArrayRecord fn files =>
    simp only [effect] at h ⊢
    obtain ⟨found, h1, h2⟩ := Option.bind_eq_some_iff.mp h
    rw [mapM_mono (fun _ _ => hle.records) h1]
    exact h2
  | rayInsert mode n sched rows => cases mode <;> exact h
  | _ => exact h

theorem Mem.deed_mono {I : Interp} {fs fs' : FS} (hle : FSLe fs fs') {m m' : Mem} {d : Deed}
    (h : m.deed I s fs d = some m') : m.deed I s fs' d = some m' := by
  obtain ⟨b, c, n⟩ := d
  cases c with
  | mutate mu =>
    simp only [Mem.deed] at h ⊢
    split at h
    · rename_i rows hx
      obtain ⟨old, h1, h2⟩ := Option.bind_eq_some_iff.mp hx
      rw [h1, Option.bind_some, effect_mono hle h2]
      exact h
    · cases h
  | _ => exact h

theorem Mem.deeds_mono {I : Interp} {fs fs' : FS} (hle : FSLe fs fs') :
    ∀ {ds : List Deed} {m m' : Mem}, m.deeds I s fs ds = some m' → m.deeds I s fs' ds = some m'
  | [], _, _, h => h
  | d :: ds, m, m', h => by
    simp only [Mem.deeds] at h ⊢
    obtain ⟨m1, h1, h2⟩ := Option.bind_eq_some_iff.mp h
    rw [Mem.deed_mono hle h1]
    exact Mem.deeds_mono hle h2

/-- A run. -/
theorem History.holds (hk : KeySchema s) (hlast : s.writeNames = s.names) {tr : List (String × Call)}
    (h : History E s (tame E s) tr σ) :
    ∃ ds m md, ds.map (fun d => (d.on, d.call)) = tr ∧ Mem.new.deeds E.I s σ.w.fs ds = some m ∧ Holds E s m σ md := by
  induction h with
  | start h0 =>
    obtain ⟨h, hs⟩ := Sim.new (E := E) h0
    exact ⟨[], Mem.new, h.md, rfl, rfl, hs.holds⟩
  | step hh hp hst ih =>
    obtain ⟨ds, m, md, h1, h2, h3⟩ := ih
    have hle := (step_ok hk.names h3.ok hst).choose_spec.2.1
    obtain ⟨md', ⟨h4, h5⟩ | ⟨d, m', h4, h5, h6⟩⟩ := h3.step hk hlast (hh.reach fun _ _ h => h.1) hp hst
    · exact ⟨ds, m, md', by rw [h4]; simpa using h1, Mem.deeds_mono hle h2, h5⟩
    · refine ⟨ds ++ [d], m', md', ?_, ?_, h6⟩
      · rw [List.map_append, h1, h4]
        rfl
      · rw [Mem.deeds_append, Mem.deeds_mono hle h2]
        simp [Mem.deeds, h5]

/-- Mutations whose answers are compared: rows fit the schema, files to be loaded are there, there is an actor, and
no upsert or delete loses a row. -/
def Apt (E : Env) (s : Schema) (h : Handle) (w : World) : Mutation → Prop
  | .rayAppend n _ rows => n ≠ 0 ∧ ∀ r ∈ rows, Takes s r
  | .rayAppendFrom n _ sources => n ≠ 0 ∧ ∀ src ∈ sources, ∀ t ∈ src, ∀ r ∈ t, Takes s r
  | .rayInsert .insert n _ rows => n ≠ 0 ∧ ∀ r ∈ rows, Takes s r
  | .rayInsert .upsert n _ rows => n ≠ 0 ∧ (∀ r ∈ rows, Takes s r) ∧
      Spared (fun r => some (decide (s.pks.map r.val ∈ rows.map (fun r => s.pks.map r.val)))) (headLayout s h w)
  | .rayDelete e => FilterFits s e ∧ RaySpared (e.truth E.I) (headLayout s h w) ∧
      ∀ r ∈ (headLayout s h w).flatten.flatten, e.truth E.I r ≠ none
  | .appendParquet files => s.recs = [] ∧
      ∀ p ∈ files, ∃ g, w.fs.parquet p = some g ∧ (∀ x ∈ g, x ≠ []) ∧ ∀ r ∈ g.flatten, Fit s r
  | .appendArrayRecord fn files => (∃ f, s.recFields = [f]) ∧ (∀ q ∈ files, (w.fs.records q).isSome) ∧
      ∀ rec, Indexes s (fn rec)
  | mu => Fine E s h w (.mutate mu)

theorem Apt.effect {h : Handle} {w : World} {mu : Mutation} (hf : Apt E s h w mu) (I : Interp) {fs : FS}
    (hle : FSLe w.fs fs) (old : List Row) : effect I s w.fs old mu = effect I s fs old mu := by
  cases mu with
  | appendParquet files =>
    have : files.mapM w.fs.parquet = some (files.map (fun p => (w.fs.parquet p).getD [])) :=
      mapM_of_all fun p hp => by
        obtain ⟨g, hg, -⟩ := hf.2 p hp
        simp [hg]
    simp only [Space.effect, this, mapM_mono (fun _ _ => hle.parquet) this]
  | appendArrayRecord fn files =>
    have : files.mapM w.fs.records = some (files.map (fun p => (w.fs.records p).getD [])) :=
      mapM_of_all fun p hp => by
        obtain ⟨g, hg⟩ := Option.isSome_iff_exists.mp (hf.2.1 p hp)
        simp [hg]
    simp only [Space.effect, this, mapM_mono (fun _ _ => hle.records) this]
  | sync => exact hf.elim
  | rayInsert mode n sched rows => cases mode <;> rfl
  | _ => rfl

theorem Apt.tame {h : Handle} {w : World} {mu : Mutation} (hf : Apt E s h w mu) : Tame E s h w mu := by
  cases mu with
  | append tables =>
    intro r hr k hkk
    obtain ⟨t, ht, hrt⟩ := List.mem_flatten.mp hr
    exact (hf t ht r hrt).keys k hkk
  | insert rows => exact (show KeysSet s rows from fun r hr => (hf r hr).keys).num
  | upsert rows => exact ⟨(show KeysSet s rows from fun r hr => (hf.1 r hr).keys).num, hf.2⟩
  | delete e => exact hf
  | rayAppend n sched rows => exact fun r hr k hkk => (hf.2 r hr).keys k hkk
  | rayAppendFrom n sched sources =>
    intro r hr k hkk
    obtain ⟨t, ht, hrt⟩ := List.mem_flatten.mp hr
    obtain ⟨src, hs, hts⟩ := List.mem_flatten.mp ht
    exact (hf.2 src hs t hts r hrt).keys k hkk
  | rayInsert mode n sched rows =>
    cases mode with
    | insert => exact (show KeysSet s rows from fun r hr => (hf.2 r hr).keys).num
    | upsert => exact ⟨(show KeysSet s rows from fun r hr => (hf.2.1 r hr).keys).num, hf.2.2⟩
  | rayDelete e => exact hf
  | appendParquet files =>
    intro p hp g hg r hr
    obtain ⟨g', h1, -, h3⟩ := hf.2 p hp
    rw [hg] at h1
    cases h1
    exact (h3 r hr).2
  | appendArrayRecord fn files =>
    intro rec r hr
    rw [List.mem_singleton] at hr
    subst hr
    exact (hf.2.2 rec).keys
  | _ => exact hf.elim

/-- A whole call of a mutation: whether it takes effect. -/
theorem Holds.answers (hk : KeySchema s) (hlast : s.writeNames = s.names) (hs : Holds E s m σ md)
    (hr : Reach E s calm σ) (hfill : Filled σ.w) {i : Nat} {sl : Slot} (hsl : σ.slots[i]? = some sl)
    (hb : branchIn sl.h.branch σ) {mu : Mutation} {r : Result} (hf : Apt E s sl.h σ.w mu)
    (hst : Step E s σ (.call i (.mutate mu) r) σ') :
    r = .job .succeeded ↔ (({ m with on := sl.h.branch }.rows none).bind (fun old => effect E.I s σ.w.fs old mu)).isSome := by
  constructor
  · rintro rfl
    have hcalm : calm σ (.call i (.mutate mu) (.job .succeeded)) := by
      refine ⟨⟨trivial, ?_⟩, ?_⟩
      · intro h; cases h
      · rintro j b r (h | h) <;> cases h
    obtain ⟨n, m', md', h1, -⟩ := hs.lands hk hlast hr hcalm hst (Or.inl rfl) hsl hf.tame
    simp only [Mem.deed] at h1
    split at h1
    · rename_i hx
      simp only [hf.effect E.I (step_ok hk.names hs.ok hst).choose_spec.2.1, hx]
      rfl
    · cases h1
  · intro he
    have hra : Reach E s anyStep σ := Reach.imp anyStep_of hr
    have hidle := (call_run hsl hst).1
    have hok := hs.ok
    have hh : HandleOK s σ.w sl.h := (hok.slots sl (List.mem_of_getElem? hsl)).1
    have hob := (branchIn_iff hok).mp hb
    obtain ⟨cur, hid, hget, -⟩ := hob.head hok.wok.ok
    have htar := target_head hid hget
    have hlay : headLayout s sl.h σ.w = layout σ.w.fs s cur := by
      simp [headLayout, headOf, hok.wok.storedEq, htar, Except.toOption]
    obtain ⟨old, ho1, ho2, ho3⟩ := hs.head hid hget
    rw [ho1, Option.bind_some] at he
    have hset : KeysSet s (snapRows σ.w.fs s cur) := (keysSet_written hk).mp (ho3.perm ho2.symm)
    have hcok := hs.snapOK hget
    have hfull := hfill.layout hcok
    rw [← hlay] at hfull
    cases mu with
    | append tables =>
      obtain ⟨σ'', hst'⟩ := C01_succeeds (tables := tables) hk hlast hra hsl hidle hb hf
      have hres := call_unique hsl hst hst'
      rw [hres]
      simp only [effect, effect.add] at he
      split at he
      · cases he
      · rename_i hx
        rw [if_neg hx]
    | insert rows =>
      have hreads : Reads E σ sl.h.branch ((snapRows σ.w.fs s cur).map (·.select s.writeNames)) := by
        intro sl' hsl' hb'
        rw [tableRead_full hok.wok (hok.slots _ hsl').1, hb', htar]
      obtain ⟨-, hno⟩ := (C07_partial (E := E) (rows := rows) hk).1 hra hsl hreads hst
      simp only [effect, effect.insert, effect.add] at he
      split at he
      · rename_i hx
        split at he
        · cases he
        rename_i hnil
        refine (hno ?_ hnil hf hlast hb).1
        rintro (h3 | ⟨k, h3, h4⟩)
        · exact h3 hx.1
        · obtain ⟨x, hxx, rfl⟩ := List.mem_map.mp h4
          exact hx.2 x (ho2.mem_iff.mp hxx) h3
      · cases he
    | upsert rows =>
      simp only [effect, effect.upsert] at he
      split at he
      · rename_i hx
        obtain ⟨σ'', hst'⟩ := C08_succeeds hk hlast hra hsl hidle hb hx.2 hf.1 hx.1
          (by rw [hlay, layout_flatten]; exact hset) hfull
        exact call_unique hsl hst hst'
      · cases he
    | delete e =>
      simp only [effect, effect.delete] at he
      split at he
      · rename_i hany
        obtain ⟨j1, j2, σ1, σ2, hst1, -, hj, hj2, htrue⟩ := C23_status hk hlast hra hsl hidle hb hf.1
          (by rw [hlay, layout_flatten]; exact hset) hfull
        have hres := call_unique hsl hst hst1
        rw [hlay, layout_flatten] at htrue
        rw [hres, htrue]
        obtain ⟨x, hx, ht⟩ := List.any_eq_true.mp hany
        obtain ⟨y, hy, rfl⟩ := List.mem_map.mp (ho2.mem_iff.mpr hx)
        exact ⟨y, hy, by rw [← truth_select hf.1]; simpa using ht⟩
      · cases he
    | rayAppend n sched rows =>
      obtain ⟨σ'', hst'⟩ := (C22_succeeds hk hlast hra hsl hidle hb hf.1 sched).1 hf.2
      have hres := call_unique hsl hst hst'
      rw [hres]
      simp only [effect, effect.add] at he
      split at he
      · cases he
      · rename_i hx
        rw [if_neg hx]
    | rayAppendFrom n sched sources =>
      obtain ⟨σ'', hst'⟩ := (C22_succeeds hk hlast hra hsl hidle hb hf.1 sched).2 hf.2
      have hres := call_unique hsl hst hst'
      rw [hres]
      simp only [effect, effect.add] at he
      split at he
      · cases he
      · rename_i hx
        rw [if_neg hx]
    | rayInsert mode n sched rows =>
      cases mode with
      | insert =>
        have hreads : Reads E σ sl.h.branch ((snapRows σ.w.fs s cur).map (·.select s.writeNames)) := by
          intro sl' hsl' hb'
          rw [tableRead_full hok.wok (hok.slots _ hsl').1, hb', htar]
        obtain ⟨-, hno⟩ := (C58_partial (E := E) (rows := rows) hk).1 hra hsl hreads hst
        simp only [effect, effect.insert, effect.add] at he
        split at he
        · rename_i hx
          split at he
          · cases he
          rename_i hnil
          refine (hno ?_ hnil hf.1 hf.2 hlast hb).1
          rintro (h3 | ⟨k, h3, h4⟩)
          · exact h3 hx.1
          · obtain ⟨x, hxx, rfl⟩ := List.mem_map.mp h4
            exact hx.2 x (ho2.mem_iff.mp hxx) h3
        · cases he
      | upsert =>
        simp only [effect, effect.upsert] at he
        split at he
        · rename_i hx
          obtain ⟨σ'', hst'⟩ := (C58_upsert_partial (E := E) (sched := sched) hk).2 hlast hra hsl hidle hb hx.2 hf.1 hf.2.1 hx.1
            (by rw [hlay, layout_flatten]; exact hset) hfull
          exact call_unique hsl hst hst'
        · cases he
    | rayDelete e =>
      simp only [effect, effect.delete] at he
      split at he
      · rename_i hany
        obtain ⟨j1, j2, σ1, σ2, -, hst2, hj, hj2, htrue⟩ := C23_status hk hlast hra hsl hidle hb hf.1
          (by rw [hlay, layout_flatten]; exact hset) hfull
        have hres := call_unique hsl hst hst2
        rw [hlay, layout_flatten] at htrue
        rw [hres]
        have hj1 := htrue (by
          obtain ⟨x, hx, ht⟩ := List.any_eq_true.mp hany
          obtain ⟨y, hy, rfl⟩ := List.mem_map.mp (ho2.mem_iff.mpr hx)
          exact ⟨y, hy, by rw [← truth_select hf.1]; simpa using ht⟩)
        subst hj1
        rcases hj with rfl | ⟨h, -⟩
        · rfl
        · cases h
      · cases he
    | appendParquet files =>
      obtain ⟨σ'', hst'⟩ := C34_parquet_succeeds hk hf.1 hra hsl hidle hb hf.2
      exact call_unique hsl hst hst'
    | appendArrayRecord fn files =>
      obtain ⟨⟨f, hrf⟩, h2, h3⟩ := hf
      obtain ⟨σ'', hst'⟩ := C34_records_succeeds (fn := fn) hk hlast hrf hra hsl hidle hb h2 rfl (fun r _ => h3 r)
      have hres := call_unique hsl hst hst'
      rw [hres]
      have hm : files.mapM σ.w.fs.records = some (files.map (fun p => (σ.w.fs.records p).getD [])) :=
        mapM_of_all fun p hp => by
          obtain ⟨g, hg⟩ := Option.isSome_iff_exists.mp (h2 p hp)
          simp [hg]
      simp only [effect, hm, Option.bind_some, effect.load] at he
      split at he
      · cases he
      · rename_i hx
        rw [if_neg (by simpa [List.flatMap] using hx)]
    | _ => exact hf.elim

/-- A call about tags and branches by a handle that is up to date: whether it takes effect. -/
theorem Holds.refAnswers (hs : Holds E s m σ md) {i : Nat} {c : Call} {r : Result} (hn : s.names.Nodup)
    (hc : c.isRef = true) (hp : tidy σ (.call i c r)) (hst : Step E s σ (.call i c r) σ') {sl : Slot}
    (hsl : σ.slots[i]? = some sl) (fs : FS) (n : Nat) :
    r = .returned ↔ (m.deed E.I s fs ⟨sl.h.branch, c, n⟩).isSome := by
  obtain ⟨hidle, hadm, h2, w2, hrun, rfl⟩ := call_run hsl hst
  have hmd : sl.h.md = md := by
    have := hp.2 hc sl hsl
    rw [hs.ok.wok.storedEq] at this
    cases this
    rfl
  have hh : HandleOK s σ.w sl.h := (hs.ok.slots sl (List.mem_of_getElem? hsl)).1
  have hadd : ∀ {name : String} {kind : RefKind} {id : Option Nat},
      runUnit (addReference name kind id) sl.h σ.w = (r, h2, w2) → (r = .returned ↔ CanAdd md name (id.getD m.main)) := by
    intro name kind id hx
    unfold runUnit at hx
    rw [hs.main, ← hmd]
    rcases addReference_cases hs.ok.wok hh name kind id with ⟨e, h1, h3⟩ | ⟨h1, w1, h3, h4, -⟩
    · rw [h1] at hx
      simp only [Prod.mk.injEq] at hx
      obtain ⟨rfl, -⟩ := hx
      simp [h3]
    · rw [h3] at hx
      simp only [Prod.mk.injEq] at hx
      obtain ⟨rfl, -⟩ := hx
      simp [h4]
  have hrem : ∀ {name : String} {kind : RefKind},
      runUnit (removeReference name kind) sl.h σ.w = (r, h2, w2) →
        (r = .returned ↔ (m.refs.get? name).map (·.kind) = some kind) := by
    intro name kind hx
    unfold runUnit at hx
    rw [hs.refs, ← hmd]
    rcases removeReference_cases hs.ok.wok hh name kind with ⟨e, h1, h3⟩ | ⟨h1, w1, h3, ⟨n, h4⟩, -⟩
    · rw [h1] at hx
      simp only [Prod.mk.injEq] at hx
      obtain ⟨rfl, -⟩ := hx
      constructor
      · intro h; cases h
      · intro h
        obtain ⟨⟨j, k⟩, h5, h6⟩ := Option.map_eq_some_iff.mp h
        simp only at h6
        subst h6
        exact absurd ⟨j, h5⟩ h3
    · rw [h3] at hx
      simp only [Prod.mk.injEq] at hx
      obtain ⟨rfl, -⟩ := hx
      simp [h4]
  cases c with
  | addTag name id =>
    rw [hadd hrun, hs.canAdd]
    by_cases hx : name ≠ "" ∧ name ≠ "main" ∧ m.refs.get? name = none ∧ (m.versions (id.getD m.main)).isSome
    · simp only [Mem.deed, Mem.call, if_pos hx]
      exact iff_of_true hx rfl
    · simp only [Mem.deed, Mem.call, if_neg hx]
      exact iff_of_false hx nofun
  | addBranch name =>
    rw [hadd (id := none) hrun, hs.canAdd]
    have hv : (m.versions m.main).isSome = true := by
      rw [← (hs.rows m.main).isSome, hs.main]
      exact hs.ok.wok.ok.cur
    by_cases hx : name ≠ "" ∧ name ≠ "main" ∧ m.refs.get? name = none
    · simp only [Mem.deed, Mem.call, if_pos hx]
      simp [hx, hv]
    · simp only [Mem.deed, Mem.call, if_neg hx]
      exact iff_of_false (fun h => hx ⟨h.1, h.2.1, h.2.2.1⟩) nofun
  | removeTag name =>
    rw [hrem hrun]
    by_cases hx : (m.refs.get? name).map (·.kind) = some .tag
    · simp only [Mem.deed, Mem.call, if_pos hx]
      exact iff_of_true hx rfl
    · simp only [Mem.deed, Mem.call, if_neg hx]
      exact iff_of_false hx nofun
  | removeBranch name =>
    by_cases hb : name = sl.h.branch
    · have hrun' := hrun
      simp only [exec, runUnit, removeBranch_run, if_pos hb, Prod.mk.injEq] at hrun'
      obtain ⟨rfl, -⟩ := hrun'
      simp [Mem.deed, Mem.call, hb]
    · rw [hrem (name := name) (kind := .branch) (by rw [← hrun]; simp only [exec, runUnit, removeBranch_run, if_neg hb])]
      by_cases hx : (m.refs.get? name).map (·.kind) = some .branch
      · simp only [Mem.deed, Mem.call]
        rw [if_pos ⟨hx, hb⟩]
        exact iff_of_true hx rfl
      · simp only [Mem.deed, Mem.call]
        rw [if_neg fun h => hx h.1]
        exact iff_of_false hx nofun
  | _ => cases hc

end

end Space
