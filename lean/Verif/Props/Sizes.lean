import Verif.Props.Stats
import Verif.Props.Listing
import Verif.AllSteps

/-!
# C68 and C36: what stored manifests say of their files
-/

namespace Space

open Demo

section
variable {E : Env} {s : Schema} {m : Mutation} {h h' h1 : Handle} {wb w w' w1 : World} {p : Patch}
  {cur snap : Snapshot}

/-- Entries of new manifests are entries of old ones or describe the sizes of their files. -/
def SizedFrom (E : Env) (s : Schema) (w w1 : World) (index add : List Path) : Prop :=
  ∀ m ∈ add.flatMap (entriesOf w1.fs), (∃ q ∈ index, m ∈ entriesOf w.fs q) ∨ SizeOK E s w1.fs m

theorem DeleteOut.sizes {e : Expr} {index : List Path} {mf : Option MExpr} {dp : Option Patch}
    (h : DeleteOut E s e w w1 index mf dp) : SizedFrom E s w w1 index ((dp.map (·.addIdx)).getD []) := by
  intro m hm
  rcases h.out with ⟨rfl, -⟩ | ⟨q, dms, carried, mf', rmf, rp, rfl, hd⟩
  · simp at hm
  · simp only [Option.map_some, Option.getD_some, hd.addIdx] at hm
    cases hrp : rp with
    | none => rw [hrp] at hm; simp at hm
    | some r =>
      obtain ⟨u, -, h2, h3⟩ := hd.fin.idx r hrp
      rw [hrp] at hm
      simp only [Option.map_some, Option.getD_some, h2, List.flatMap_cons, List.flatMap_nil, List.append_nil,
        entriesOf, h3, List.mem_append] at hm
      rcases hm with hm | hm
      · left
        rw [hd.carriedEq] at hm
        obtain ⟨d, hd1, hd2⟩ := List.mem_flatMap.mp (List.mem_filter.mp hm).1
        obtain ⟨f, -, hf⟩ := (hd.dmsMem d).mp hd1
        exact ⟨d, (List.mem_filter.mp (packFiles_manifest_mem hf)).1, hd2⟩
      · exact Or.inr (hd.fin.sizes m hm)

theorem loadParquetRows_sizes {fs : FS} : ∀ {files : List Path} {rows : List ManifestRow},
    loadParquetRows E s fs files = .ok rows → ∀ m ∈ rows, SizeOK E s fs m
  | [], rows, h => by simp only [loadParquetRows, Except.ok.injEq] at h; subst h; simp
  | p :: ps, rows, h => by
    simp only [loadParquetRows] at h
    split at h
    · cases h
    · rename_i g hg
      split at h
      · cases h
      · rename_i m hm
        split at h
        · cases h
        · rename_i ms hms
          cases h
          obtain ⟨h1, -, -, h4⟩ := fileStats_ok hm
          intro m' hm'
          rcases List.mem_cons.mp hm' with rfl | hm'
          · exact ⟨g, by rw [h1]; exact hg, h4⟩
          · exact loadParquetRows_sizes hms m' hm'

theorem appendParquetBody_sizes (hf : w.Fresh) (files : List Path) : Post (appendParquetBody E s files w)
    (fun p w' => ∀ q, p = some q → ∀ m ∈ q.addIdx.flatMap (entriesOf w'.fs), SizeOK E s w'.fs m) (fun _ => True) := by
  unfold appendParquetBody
  split
  · exact Post.raise trivial
  refine Post.bind (Q := fun a b => w = a ∧ w = b) (Post.get ⟨rfl, rfl⟩) ?_
  rintro a b ⟨rfl, hb⟩
  subst hb
  refine Post.bind (Q := fun a b => loadParquetRows E s w.fs files = .ok a ∧ w = b)
    (Post.lift (fun a ha => ⟨ha, rfl⟩) trivial) ?_
  rintro rows b ⟨hl, hb⟩
  subst hb
  refine Post.bind (finishIndexManifest_post [] rows hf) ?_
  rintro im w' ⟨g, -, hcase⟩
  refine Post.pure ?_
  rintro q ⟨⟩ m hm
  rcases hcase with ⟨-, rfl⟩ | ⟨rfl, him⟩
  · simp at hm
  · simp only [Option.toList_some, List.flatMap_cons, List.flatMap_nil, List.append_nil, entriesOf, him,
      Option.getD_some, List.nil_append] at hm
    exact (loadParquetRows_sizes hl m hm).mono g.le

/-- What a mutation adds describes the sizes of its files. -/
theorem Computed.sizedFrom (hn : s.names.Nodup) (hs : Computed E s m h1 w w1 p cur) :
    SizedFrom E s w w1 cur.index p.addIdx := by
  have gathered : ∀ {w0 : World} {P : List Row} {ap : Option Patch}, Gathered E s w0 w1 P ap →
      ∀ m ∈ ((ap.map (·.addIdx)).getD []).flatMap (entriesOf w1.fs), SizeOK E s w1.fs m := by
    intro w0 P ap hg m hm
    cases ap with
    | none => simp at hm
    | some q => exact hg.sizes q rfl m (by simpa using hm)
  have both : ∀ {w0 : World} {dp ap : Option Patch} {P : List Row}, Grows w0 w1 →
      some p = mergePatches [dp, ap] → Gathered E s w0 w1 P ap →
      (∀ q ∈ (dp.map (·.addIdx)).getD [], ManifestOK w0.fs s q) →
      SizedFrom E s w w0 cur.index ((dp.map (·.addIdx)).getD []) → SizedFrom E s w w1 cur.index p.addIdx := by
    intro w0 dp ap P g hp hg hok hd m hm
    obtain ⟨-, ha, -⟩ := merge_delIdx hp (fun q hq => hg.del q hq)
    rw [ha, List.flatMap_append, List.mem_append] at hm
    rcases hm with hm | hm
    · rw [flatMap_congr' (g := entriesOf w0.fs) fun x hx => entriesOf_mono g.le (hok x hx)] at hm
      exact (hd m hm).imp_right (·.mono g.le)
    · exact Or.inr (gathered hg m hm)
  have dpOK : ∀ {w0 : World} {e : Expr} {mf : Option MExpr} {dp : Option Patch}, Grows w w0 →
      DeleteOut E s e w w0 cur.index mf dp → ∀ q ∈ (dp.map (·.addIdx)).getD [], ManifestOK w0.fs s q := by
    intro w0 e mf dp g hd q hq
    exact hd.manifests hn hs.curOK.manifests g q (List.mem_append_right _ hq)
  have inserted : ∀ {mode : InsertMode} {data : List Row}, m.inserts = some (mode, data) →
      SizedFrom E s w w1 cur.index p.addIdx := by
    intro mode data hm
    have hfr : w1.Fresh := hs.grows.fresh hs.fresh
    have local_ : ∀ {md : InsertMode}, m.body E h1 = insertBody E h1 md data → ∃ e mf wr, InsertG E s md data wr w w1 cur (some p) e mf := by
      intro md hmode
      have hb := hs.body
      rw [hmode] at hb
      obtain ⟨-, -, hx⟩ := Post.elim (insertBody_post hs.fresh hs.handle md data) hb
      rcases hx with ⟨-, hx⟩ | ⟨-, snap', e, mf, hsn, hout⟩
      · cases hx
      rw [hs.base] at hsn
      cases hsn
      exact ⟨e, mf, _, hout.gen hfr⟩
    have hgen : ∃ e mf wr, InsertG E s mode data wr w w1 cur (some p) e mf := by
      cases m with
      | insert d => cases hm; exact local_ rfl
      | upsert d => cases hm; exact local_ rfl
      | rayInsert mode' n sched d =>
        cases hm
        have hb := hs.body
        simp only [Mutation.body] at hb
        obtain ⟨-, -, hx⟩ := Post.elim (rayInsertBody_post hs.fresh hs.handle mode n sched data) hb
        rcases hx with ⟨-, hx⟩ | ⟨-, snap', e, mf, hsn, hout⟩
        · cases hx
        rw [hs.base] at hsn
        cases hsn
        exact ⟨e, mf, _, hout⟩
      | _ => cases hm
    obtain ⟨e, mf, wr, hout⟩ := hgen
    obtain ⟨w0, dp, ap, P, g1, f1, g2, hp, hfin, hP, hins, hups, hrun⟩ := hout.out
    cases mode with
    | insert =>
      obtain ⟨rfl, rfl, -⟩ := hins rfl
      exact both g2 hp hfin (by simp) (by intro m hm; simp at hm)
    | upsert => exact both g2 hp hfin (dpOK g1 (hups rfl)) (hups rfl).sizes
  have hfr : w1.Fresh := hs.grows.fresh hs.fresh
  have hsch := hs.handle.schema
  have added : (∃ P, Gathered E s w w1 P (some p)) → SizedFrom E s w w1 cur.index p.addIdx := by
    rintro ⟨P, hg⟩
    exact fun x hx => Or.inr (hg.sizes p rfl x hx)
  cases m with
  | append tables =>
    have hb := hs.body
    simp only [Mutation.body, hsch] at hb
    obtain ⟨-, -, P, mf, rmf, hf, -⟩ := Post.elim (appendBody_post (E := E) (s := s) hs.fresh tables) hb
    exact added ⟨P, hf.gathered0 hs.fresh hfr⟩
  | rayAppend n sched rows =>
    have hb := hs.body
    simp only [Mutation.body, hsch] at hb
    obtain ⟨-, -, P, h3, -⟩ := Post.elim (rayAppendBody_post hs.fresh n sched rows) hb
    exact added ⟨P, h3⟩
  | rayAppendFrom n sched sources =>
    have hb := hs.body
    simp only [Mutation.body, hsch] at hb
    obtain ⟨-, -, P, h3, -⟩ := Post.elim (rayAppendFromAll_post hs.fresh _ sched sources) hb
    exact added ⟨P, h3⟩
  | insert data => exact inserted rfl
  | upsert data => exact inserted rfl
  | rayInsert mode n sched data => exact inserted rfl
  | appendParquet files =>
    have hb := hs.body
    simp only [Mutation.body, hsch] at hb
    exact fun x hx => Or.inr (Post.elim (appendParquetBody_sizes (E := E) (s := s) hs.fresh files) hb p rfl x hx)
  | appendArrayRecord fn files =>
    have hb := hs.body
    simp only [Mutation.body, hsch] at hb
    obtain ⟨-, -, hl⟩ := Post.elim (appendArrayRecordBody_post (E := E) (s := s) hs.fresh fn files) hb
    obtain ⟨f, mf, rmf, p0, bytes, -, -, hf, -, hp⟩ := hl.out
    obtain ⟨p0, rfl⟩ : ∃ q, p0 = some q := by
      cases p0 with
      | none => simp at hp
      | some q => exact ⟨q, rfl⟩
    have ha : p.addIdx = p0.addIdx := by
      simp only [Option.map_some, Option.some.injEq] at hp
      rw [hp]
    intro x hx
    obtain ⟨u, -, h2, h3⟩ := hf.idx p0 rfl
    rw [ha, h2] at hx
    simp only [List.flatMap_cons, List.flatMap_nil, List.append_nil, entriesOf, h3, Option.getD_some,
      List.nil_append] at hx
    exact Or.inr (hf.sizes x hx)
  | delete e =>
    have hb := hs.body
    simp only [Mutation.body] at hb
    obtain ⟨-, -, cur', mf, hc, hm, hout⟩ := Post.elim (deleteBody_post (E := E) (e := e) hs.fresh hs.handle) hb
    rw [hs.base] at hc
    cases hc
    exact hout.sizes
  | sync n sched gone new =>
    have hb := hs.body
    simp only [Mutation.body] at hb
    obtain ⟨-, -, -, hsync⟩ := Post.elim (syncBody_post hs.fresh hs.handle n sched gone new) hb
    obtain ⟨w0, dp, ap, P, g1, f1, g2, hp, hfin, hP, hdp, hrun⟩ := (hsync cur (Or.inr hs.base)).out
    refine both g2 hp hfin (fun q hq => hdp.manifests hn hs.curOK.manifests g1 q (List.mem_append_right _ hq)) ?_
    rcases hdp with ⟨-, rfl, rfl⟩ | ⟨e, mf, hkey, hmf, hdel⟩
    · intro m hm; simp at hm
    · exact hdel.sizes
  | rayDelete e =>
    have hb := hs.body
    simp only [Mutation.body] at hb
    obtain ⟨-, -, snap', mf, hsn, -, hout⟩ := Post.elim (rayDeleteBody_post hs.fresh hn hs.handle) hb
    rw [hs.base] at hsn
    cases hsn
    rcases hout.out with ⟨hx, -⟩ | ⟨q, hx, -, -, -, hd⟩
    · cases hx
    cases hx
    intro x hx
    exact (hd.sizes x hx).imp_left fun ⟨q, h1, h2⟩ => ⟨q, ((RayMerged.mem_del hd q).mp h1).1, h2⟩

end

/-- Sizes in stored manifests, on all schemas. -/
theorem stored_sizes {E : Env} {s : Schema} {P : Sys → Event → Prop} (hn : s.names.Nodup) {σ : Sys} (h : Reach E s P σ)
    {md : Metadata} (hmd : σ.w.stored = some md) {n : Nat} {snap : Snapshot} (hs : md.snaps.get? n = some snap) :
    ∀ m ∈ snapEntries σ.w.fs snap, SizeOK E s σ.w.fs m := by
  obtain ⟨md', hok, hv⟩ := reach_have (Q := SizeOK E s) hn (fun _ _ _ hle h => h.mono hle) (fun {m h w w1 p cur} hc hcur q hq x hx => by
    rcases hc.sizedFrom hn x (List.mem_flatMap.mpr ⟨q, hq, hx⟩) with ⟨q', hq', hx'⟩ | hx'
    · exact (hcur q' hq' x hx').mono hc.grows.le
    · exact hx') h
  have : md' = md := by rw [hok.wok.storedEq] at hmd; exact Option.some.inj hmd
  subst this
  intro m hm
  obtain ⟨q, hq, hm⟩ := List.mem_flatMap.mp hm
  exact hv.stored n snap hs q hq m hm

/-- **C68 for stored manifests (partial: keys are plain columns before the first nested
column).** In all histories, interleaved at will, every row of every manifest of every stored
version, however it got there (written by an append, a delete or a Ray job, loaded from a user's
file, carried over from an older manifest), describes the file it names, as it is now: number of
rows, sizes of the key columns, least and greatest value of every key. -/
theorem C68_stored_partial {E : Env} {s : Schema} (hn : s.names.Nodup) (hi : (s.fields.map (·.fid)).Nodup)
    (hk : s.keysLeaf = true) {σ : Sys} (h : Reach E s anyStep σ) {md : Metadata} (hmd : σ.w.stored = some md)
    {n : Nat} {snap : Snapshot} (hs : md.snaps.get? n = some snap) {p : Path} (hp : p ∈ snap.index) :
    ∃ rows, σ.w.fs.imanifest p = some rows ∧
      ∀ m ∈ rows, ∃ groups, σ.w.fs.parquet m.file = some groups ∧ RowOf E s m.file groups m := by
  obtain ⟨md', hok⟩ := reach_ok hn h
  have : md' = md := by rw [hok.wok.storedEq] at hmd; exact Option.some.inj hmd
  subst this
  have hsn := hok.wok.ok.snaps n snap hs
  rw [hok.wok.schema] at hsn
  obtain ⟨rows, a1, -, a3⟩ := hsn.manifests p hp
  refine ⟨rows, a1, fun m hm => ?_⟩
  obtain ⟨g, g1, g2, g3, -⟩ := a3 m hm
  obtain ⟨g', s1, s2, s3⟩ := stored_sizes hn h hmd hs m (List.mem_flatMap.mpr ⟨p, hp, by
    simp only [entriesOf, a1, Option.getD_some]; exact hm⟩)
  rw [g1] at s1
  cases s1
  have hcols : (s.fields.filter fun f => decide (f.name ∈ s.pks)) = s.statsFields := by
    unfold Schema.statsFields
    exact List.filter_congr fun f _ => by simp
  refine ⟨g, g1, rfl, by rw [g2]; exact List.length_flatten, ?_, ?_, ?_, fileStats_exact hk hi g3⟩
  · rw [s2]; simp only [fileBytes, statsColumns hi, keySizes]
  · rw [s3]; simp only [fileBytes, statsColumns hi, keySizes]
  · rw [hcols]; exact fileStats_fids g3

/-- Two appends and a delete that rewrites the first file: of the two rows in manifests one is
carried over. -/
example : ∃ (σ : Sys) (md : Metadata), schema.names.Nodup ∧ (schema.fields.map (·.fid)).Nodup ∧
    schema.keysLeaf = true ∧ Reach envCols schema anyStep σ ∧ σ.w.stored = some md ∧
    (md.snaps.get? 3).map (fun snap => (snapEntries σ.w.fs snap).map (fun m => (m.numRows, m.icb, m.iub))) =
      some [(2, 2, 20), (1, 1, 10)] := by
  let σ := after envCols anyB schema [.call 0 (.mutate (.append [[row 5 "x" [1], row 6 "y" [2]]])),
    .call 0 (.mutate (.append [[row 1 "x" [1], row 2 "y" [2]]])),
    .call 0 (.mutate (.delete (.bin "equal" (.sel "id") (.lit (.int 1)))))]
  obtain ⟨md, h1, h2⟩ := stored_of_map (w := σ.w)
    (f := fun md => (md.snaps.get? 3).map (fun snap => (snapEntries σ.w.fs snap).map (fun m => (m.numRows, m.icb, m.iub))))
    (x := some [(2, 2, 20), (1, 1, 10)]) (by decide +kernel)
  exact ⟨σ, md, by decide, by decide, by decide, after_reach (fun _ _ _ => trivial) _, h1, h2⟩

/-- The sizes of the key columns of a file as it is now. -/
def sizesAt (E : Env) (s : Schema) (fs : FS) (p : Path) : List (Nat × Nat) := keySizes E s ((fs.parquet p).getD [])

/-- C36 in terms of the files themselves, for the histories of `C36_partial`: the index bytes in the
statistics of every stored version are the sizes of the key columns of the files its manifests list, compressed
and uncompressed. -/
theorem C36_files_partial {E : Env} {s : Schema} (hn : s.names.Nodup) (hi : (s.fields.map (·.fid)).Nodup)
    {σ : Sys} (h : Reach E s (tight E s) σ) {md : Metadata} (hmd : σ.w.stored = some md) {n : Nat}
    {snap : Snapshot} (hs : md.snaps.get? n = some snap) :
    snap.stats.icb = (((snapEntries σ.w.fs snap).flatMap (fun m => sizesAt E s σ.w.fs m.file)).map
      (fun x => (x.1 : Int))).sum ∧
    snap.stats.iub = (((snapEntries σ.w.fs snap).flatMap (fun m => sizesAt E s σ.w.fs m.file)).map
      (fun x => (x.2 : Int))).sum := by
  obtain ⟨h1, h2⟩ := C36_partial hn h hmd hs
  have hsz := stored_sizes hn h hmd hs
  have cast : ∀ (l : List (Nat × Nat)) (f : Nat × Nat → Nat), (((l.map f).sum : Nat) : Int) =
      (l.map fun x => (f x : Int)).sum := by
    intro l f
    induction l with
    | nil => rfl
    | cons a l ih => simp [ih]
  have key : ∀ (f : Nat × Nat → Nat) (g : ManifestRow → Nat) (ms : List ManifestRow),
      (∀ m ∈ ms, g m = ((sizesAt E s σ.w.fs m.file).map f).sum) →
      (ms.map (fun m => (g m : Int))).sum =
        ((ms.flatMap (fun m => sizesAt E s σ.w.fs m.file)).map (fun x => (f x : Int))).sum := by
    intro f g ms hm
    induction ms with
    | nil => rfl
    | cons m ms ih =>
      simp only [List.map_cons, List.sum_cons, List.flatMap_cons, List.map_append, List.sum_append,
        ih fun m' hm' => hm m' (List.mem_cons_of_mem _ hm'), hm m (List.mem_cons_self ..), cast]
  have hat : ∀ m ∈ snapEntries σ.w.fs snap, m.icb = ((sizesAt E s σ.w.fs m.file).map Prod.fst).sum ∧
      m.iub = ((sizesAt E s σ.w.fs m.file).map Prod.snd).sum := by
    intro m hm
    obtain ⟨g, g1, g2, g3⟩ := hsz m hm
    rw [g2, g3]
    simp only [sizesAt, g1, Option.getD_some, fileBytes, statsColumns hi, keySizes, and_self]
  rw [h1, h2]
  exact ⟨key Prod.fst (·.icb) _ fun m hm => (hat m hm).1, key Prod.snd (·.iub) _ fun m hm => (hat m hm).2⟩

/-- The history of `C36_partial` with sizes that differ: 2 rows are left of 3. -/
example : ∃ (σ : Sys) (md : Metadata), (schema.fields.map (·.fid)).Nodup ∧ Reach envCols schema (tight envCols schema) σ ∧
    σ.w.stored = some md ∧ (md.snaps.get? 2).map (fun snap => (snap.stats.icb, snap.stats.iub,
      (snapEntries σ.w.fs snap).flatMap (fun m => sizesAt envCols schema σ.w.fs m.file))) =
      some (2, 20, [(2, 20)]) := by
  let σ := after envCols (tightB envCols schema) schema
    [.call 0 (.mutate (.append [[row 1 "a" [1], row 2 "b" [2], row 3 "c" []]])),
    .call 0 (.mutate (.delete (.bin "equal" (.sel "id") (.lit (.int 1)))))]
  obtain ⟨md, h1, h2⟩ := stored_of_map (w := σ.w)
    (f := fun md => (md.snaps.get? 2).map (fun snap => (snap.stats.icb, snap.stats.iub,
      (snapEntries σ.w.fs snap).flatMap (fun m => sizesAt envCols schema σ.w.fs m.file))))
    (x := some (2, 20, [(2, 20)])) (by decide +kernel)
  exact ⟨σ, md, by decide, after_reach tightB_tight _, h1, h2⟩

end Space
