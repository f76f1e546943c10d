import Verif.Props.RayInsertPacking

/-!
# C85 for upserts and refreshes: what is left of the files they cut fills new files up to the size limits
-/

set_option autoImplicit false

namespace Space

open Demo
open List (Perm)
open scoped List

/-- What is left of the files that a delete modifies is divided into files as `Packed` says. -/
theorem DeleteOut.packed {E : Env} {s : Schema} {e : Expr} {w w1 : World} {index : List Path} {mf : Option MExpr}
    {dp : Option Patch} (hn : s.names.Nodup) (hf : w.Fresh) (hok : ∀ q ∈ index, ManifestOK w.fs s q)
    (h : DeleteOut E s e w w1 index mf dp) :
    ∃ files, Packed E files ∧
      files.flatten.flatten = (((index.flatMap (entriesOf w.fs)).filter (modEntry E.I e w.fs mf)).map
        (fun m => survRows E.I e w.fs m.file)).filter (fun t => decide (t ≠ [])) ∧
      (newEntries w w1 dp).map (fun m => w1.fs.parquet m.file) = files.map (fun f => some (stored E f)) := by
  cases dp with
  | none =>
    rcases h.out with ⟨-, hno⟩ | ⟨_, _, _, _, _, _, h0, -⟩
    · have hnil : (index.flatMap (entriesOf w.fs)).filter (modEntry E.I e w.fs mf) = [] := by
        refine List.filter_eq_nil_iff.mpr fun m hm => ?_
        obtain ⟨q, hq, hm⟩ := List.mem_flatMap.mp hm
        have := hno q hq
        simp only [hasMod, List.any_eq_false] at this
        exact this m hm
      exact ⟨[], ⟨[], [], rfl, by simp, Or.inl rfl⟩, by rw [hnil]; rfl, rfl⟩
    · cases h0
  | some q =>
    rcases h.ran with h0 | hrun
    · cases h0
    obtain ⟨-, -, -, hp⟩ := Post.elim (deleteSet_packed (E := E) (e := e) hn hf hok) hrun
    exact hp (by simp)

/-- The same, of the states before and after. -/
theorem DeleteOut.cut {E : Env} {s : Schema} {e : Expr} {w w1 : World} {index : List Path} {mf : Option MExpr}
    {dp : Option Patch} {fs fs' : FS} (hn : s.names.Nodup) (he : FilterFits s e)
    (hm : manifestFilter s (some e) = .ok mf) (hf : w.Fresh) (hi : index.Nodup)
    (hok : ∀ q ∈ index, ManifestOK w.fs s q) (hg : Grows w w1) (h : DeleteOut E s e w w1 index mf dp)
    (hle : FSLe w.fs fs) (hle' : FSLe w1.fs fs') :
    ∃ lost kept gone new files, Rewrites fs fs' s (e.truth E.I) (listedFiles w.fs index)
        (listedFiles w1.fs (index.filter (fun q => !((dp.map (·.delIdx)).getD []).contains q) ++
          (dp.map (·.addIdx)).getD [])) lost kept gone new ∧
      Packed E files ∧
      files.flatten.flatten = (gone.map (fun f => (fileRows fs f).filter
        (fun r => e.truth E.I r == some false))).filter (fun t => decide (t ≠ [])) ∧
      new.map fs'.parquet = files.map (fun f => some (stored E f)) := by
  obtain ⟨lost, kept, gone, new, hr, -, -, hgone, hnew⟩ := h.rewrites (fs := fs) (fs' := fs') hn he hm hf hi hok hg hle hle'
  obtain ⟨files, p1, p2, p3⟩ := h.packed hn hf hok
  refine ⟨lost, kept, gone, new, files, hr, p1, ?_, ?_⟩
  · rw [p2, hgone, List.map_map]
    congr 1
    refine List.map_congr_left fun m hm => ?_
    obtain ⟨q, hq, hme⟩ := List.mem_flatMap.mp (List.mem_filter.mp hm).1
    simp only [Function.comp_apply, survRows, fileRows_mono hle ((hok q hq).entry hme)]
    refine List.filter_congr fun r _ => ?_
    rw [Bool.eq_iff_iff, fails_iff]
    simp
  · rw [hnew, ← p3, List.map_map]
    refine List.map_congr_left fun m hm => ?_
    have : w1.fs.parquet m.file ∈ files.map (fun f => some (stored E f)) := by
      rw [← p3]; exact List.mem_map_of_mem (f := fun m => w1.fs.parquet m.file) hm
    obtain ⟨f, -, hf⟩ := List.mem_map.mp this
    simp only [Function.comp_apply]
    rw [← hf]
    exact hle'.parquet hf.symm

/-- What a filter by keys is on a row whose keys are set. -/
theorem keyFilter_truth {E : Env} {s : Schema} {rows : List Row} {e : Expr} (hk : primaryKeyFilter s.pks rows = .ok (some e))
    {r : Row} (hr : ∀ k ∈ s.pks, ∃ v, r.val k = .sc v ∧ v ≠ .nan) :
    e.truth E.I r = some (decide (s.pks.map r.val ∈ keysOf s rows)) := by
  obtain ⟨hke, hsem, -, -, -⟩ := primaryKeyFilter_sem hk E.I
  have hset : KeysSet s [r] := fun x hx => by rw [List.mem_singleton.mp hx]; exact hr
  have h1 := hke.total E.I r (hset r (by simp))
  have h2 := hsem r
  cases ht : e.truth E.I r with
  | none => exact absurd ht h1
  | some b =>
    congr 1
    rw [Bool.eq_iff_iff, decide_eq_true_eq]
    constructor
    · rintro rfl
      obtain ⟨d, hd1, hd2, -⟩ := h2.mp ht
      exact List.mem_map.mpr ⟨d, hd1, hd2⟩
    · intro hx
      obtain ⟨d, hd1, hd2⟩ := List.mem_map.mp hx
      have := h2.mpr ⟨d, hd1, hd2, hset.num r (by simp)⟩
      rw [ht] at this
      exact Option.some.inj this

/-- `new` are files that hold, of each of the files `gone`, the rows whose keys are not among the keys of `rows`, as one
table and with the rows as they were stored, leaving out files of which nothing is left; these tables are divided in order
into row groups and files as `Packed` says.  The files `gone` are those of `old` with such rows to leave out, and `now` lists
`new` and the other files of `old`, but for some `lost`. -/
def CutByKeys (E : Env) (s : Schema) (fs fs' : FS) (rows : List Row) (old now : List Path) : Prop :=
  ∃ lost kept gone new files,
    Rewrites fs fs' s (fun r => some (decide (s.pks.map r.val ∈ keysOf s rows))) old now lost kept gone new ∧
    Packed E files ∧
    files.flatten.flatten = (gone.map (fun f => (fileRows fs f).filter
      (fun r => decide (s.pks.map r.val ∉ keysOf s rows)))).filter (fun t => decide (t ≠ [])) ∧
    new.map fs'.parquet = files.map (fun f => some (stored E f))

theorem DeleteOut.cutByKeys {E : Env} {s : Schema} {rows : List Row} {e : Expr} {w w1 : World} {index : List Path}
    {mf : Option MExpr} {dp : Option Patch} {fs fs' : FS} (hk : KeySchema s)
    (hkey : primaryKeyFilter s.pks rows = .ok (some e))
    (hm : manifestFilter s (some e) = .ok mf) (hf : w.Fresh) (hi : index.Nodup)
    (hok : ∀ q ∈ index, ManifestOK w.fs s q) (hg : Grows w w1) (h : DeleteOut E s e w w1 index mf dp)
    (hle : FSLe w.fs fs) (hle' : FSLe w1.fs fs') (hold : KeysSet s (filesRows fs s (listedFiles w.fs index))) :
    CutByKeys E s fs fs' rows (listedFiles w.fs index)
      (listedFiles w1.fs (index.filter (fun q => !((dp.map (·.delIdx)).getD []).contains q) ++
        (dp.map (·.addIdx)).getD [])) := by
  obtain ⟨hke, -, -, -, -⟩ := primaryKeyFilter_sem hkey E.I
  obtain ⟨lost, kept, gone, new, files, hr, p1, p2, p3⟩ := h.cut (fs := fs) (fs' := fs') hk.names (hk.fits hke) hm hf hi hok hg
    hle hle'
  refine ⟨lost, kept, gone, new, files, hr.congr fun r hr => keyFilter_truth hkey (hold r hr), p1, ?_, p3⟩
  rw [p2]
  congr 1
  refine List.map_congr_left fun f hfg => ?_
  refine List.filter_congr fun r hrf => ?_
  have hmem : (deref fs.records s r).select s.writeNames ∈ filesRows fs s (listedFiles w.fs index) := by
    refine List.mem_flatMap.mpr ⟨f, hr.before.mem_iff.mpr (List.mem_append_right _ hfg), ?_⟩
    exact List.mem_map_of_mem (List.mem_map_of_mem hrf)
  have hset : ∀ k ∈ s.pks, ∃ v, r.val k = .sc v ∧ v ≠ .nan := by
    intro k hkk
    have := hold _ hmem k hkk
    rw [select_val (writeNames_sub.mpr (hk.keys k hkk)), deref_key (hk.plain k hkk)] at this
    exact this
  rw [keyFilter_truth hkey hset]
  by_cases hx : s.pks.map r.val ∈ keysOf s rows <;> simp [hx]

/-- C85 for what upserts, of the local runner and of Ray, write back of the files that hold rows with the keys given, where
the keys of the version before are set: it is divided into files as `Packed` says.  The files of the rows given follow;
C85_insert and C85_rayInsert state how these are divided. -/
theorem C85_upsert {E : Env} {s : Schema} (hk : KeySchema s) {i : Nat} {m : Mutation} {rows : List Row}
    (hmi : m.inserts = some (.upsert, rows)) {σ σ' : Sys} (h : Done E s i m σ σ') :
    ∃ sl sl' cur snap now added, σ.slots[i]? = some sl ∧ σ'.slots[i]? = some sl' ∧
      headOf sl.h σ.w = some cur ∧ headOf sl'.h σ'.w = some snap ∧
      listedFiles σ'.w.fs snap.index = now ++ added ∧
      filesRows σ'.w.fs s added ~ rows.map (·.select s.writeNames) ∧
      (KeysSet s (filesRows σ.w.fs s (listedFiles σ.w.fs cur.index)) →
        CutByKeys E s σ.w.fs σ'.w.fs rows (listedFiles σ.w.fs cur.index) now) := by
  obtain ⟨sl, sl', w, h1, w1, p, cur, snap, hl, -⟩ := h.landing hk.names
  have hs := hl.succ
  obtain ⟨e, mf, hout⟩ := hs.insertedG hmi
  obtain ⟨w0, dp, ap, P, g1, f1, g2, hp, hfin, hP, -, hups, -⟩ := hout.out
  obtain ⟨hd, ha, -⟩ := merge_delIdx hp (fun q hq => hfin.del q hq)
  have hdel := hups rfl
  have hman := hdel.manifests hk.names hs.curOK.manifests g1
  have hadd : ∀ q ∈ (ap.map (·.addIdx)).getD [], ManifestOK w1.fs s q := by
    intro q hq
    cases ap with
    | none => cases hq
    | some a => exact (hfin.ok a rfl).idx q hq
  refine ⟨sl, sl', cur, snap, listedFiles w0.fs (cur.index.filter (fun q => !((dp.map (·.delIdx)).getD []).contains q) ++
      (dp.map (·.addIdx)).getD []), listedFiles w1.fs ((ap.map (·.addIdx)).getD []), hl.slot, hl.slot', hs.head, hs.head', ?_, ?_,
    fun hold => ?_⟩
  · rw [hl.after, hd, ha, ← List.append_assoc]
    unfold listedFiles
    rw [List.flatMap_append, List.map_append, flatMap_congr' fun q hq => entriesOf_mono g2.le (hman q hq)]
  · have hq : physRows w1.fs ((ap.map (·.addIdx)).getD []) = P := by
      cases ap with
      | none => rw [hfin.none_iff.mp rfl]; rfl
      | some q => exact hfin.phys q rfl
    rw [filesRows_listed_mono hs.le hadd, filesRows_listed w1.fs s { id := 0, index := (ap.map (·.addIdx)).getD [] }]
    unfold snapRows
    rw [hq]
    refine (hP.map _).trans (Perm.of_eq ?_)
    rw [List.map_map]
    exact List.map_congr_left fun r _ => select_select fun c hc => hc
  · rw [hl.before] at hold ⊢
    exact hdel.cutByKeys hk hout.key hout.filter hs.fresh hs.curOK.nodup hs.curOK.manifests g1 hs.earlier (g2.le.trans hs.le) hold

theorem syncAppend_packed {E : Env} {s : Schema} {w : World} (hf : w.Fresh) (n : Nat) (sched : List Nat)
    (added : Option (List (List (List Row)))) :
    Post (syncAppend E s n sched added w) (fun p w' => AddsNew w w' p ∧ ∃ qs parts,
      qs = (added.map (fun sources => (List.range n).map (fun a =>
        ((List.range sources.length).filter (fun j => decide (j % n = a))).flatMap (fun j => sources[j]?.getD [])))).getD [] ∧
      RayPacked E s w'.fs qs parts (addedFiles w'.fs p)) (fun _ => True) := by
  cases added with
  | none =>
    refine Post.pure ⟨?_, [], [], rfl, ?_, rfl, rfl⟩
    · intro q hq; cases hq
    · intro f hf; cases hf
  | some sources =>
    refine ((rayAppendFromAll_new (E := E) (s := s) hf n sched sources).and (?_ : Post _ (fun p w' => ∃ qs parts,
      sourceQueues n sources = .ok qs ∧ RayPacked E s w'.fs qs parts (addedFiles w'.fs p)) (fun _ => True))).imp ?_
        (fun _ _ => trivial)
    · unfold rayAppendFromAll
      refine Post.bind (Q := fun qs b => sourceQueues n sources = .ok qs ∧ w = b)
        (Post.lift (fun a ha => ⟨ha, rfl⟩) trivial) ?_
      rintro qs b ⟨hq, rfl⟩
      refine (rayWrite_packed (E := E) (s := s) hf sched qs).imp ?_ (fun _ _ => trivial)
      rintro p w' ⟨parts, hp⟩
      exact ⟨qs, parts, hq, hp⟩
    · rintro p w' ⟨h1, qs, parts, hq, hp⟩
      exact ⟨h1, qs, parts, sourceQueues_given hq, hp⟩

/-- C85 for the transactions of a refresh of a materialized view by `n` actors: `gone` are the rows whose keys it deletes,
`added` the tables it appends, by source.  What it writes back of the files that hold rows with these keys is divided as
by a delete, where the keys of the version before are set; a refresh that deletes nothing leaves the files of before as they
were.  Actor `a` is given the tables of the sources `j` with `j % n = a`, in order, and divides them into files as `Packed`
says, whatever the schedule; these files are listed last, actor by actor. -/
theorem C85_refresh {E : Env} {s : Schema} (hk : KeySchema s) {i n : Nat} {sched : List Nat} {gone : List Row}
    {added : Option (List (List (List Row)))} {σ σ' : Sys} (h : Done E s i (.sync n sched gone added) σ σ') :
    ∃ sl sl' cur snap now new, ∃ parts : List (List (List (List (List Row)))),
      σ.slots[i]? = some sl ∧ σ'.slots[i]? = some sl' ∧
      headOf sl.h σ.w = some cur ∧ headOf sl'.h σ'.w = some snap ∧
      listedFiles σ'.w.fs snap.index = now ++ new ∧ (∀ f ∈ new, f ∉ listedFiles σ.w.fs cur.index) ∧
      (gone = [] → now = listedFiles σ.w.fs cur.index) ∧
      (KeysSet s (filesRows σ.w.fs s (listedFiles σ.w.fs cur.index)) → gone ≠ [] →
        CutByKeys E s σ.w.fs σ'.w.fs gone (listedFiles σ.w.fs cur.index) now) ∧
      (∀ files ∈ parts, Packed E files) ∧
      parts.map (fun files => files.flatten.flatten.map (·.map (deref σ'.w.fs.records s))) =
        ((added.map (fun sources => (List.range n).map (fun a =>
          ((((List.range sources.length).filter (fun j => decide (j % n = a))).flatMap
            (fun j => sources[j]?.getD [])).filter (fun t => decide (t ≠ []))).map (·.map (·.select s.writeNames))))).getD []) ∧
      new.map σ'.w.fs.parquet = parts.flatten.map (fun f => some (stored E f)) := by
  obtain ⟨sl, sl', w, h1, w1, p, cur, snap, hl, -⟩ := h.landing hk.names
  have hs := hl.succ
  obtain ⟨w0, dp, ap, P, g1, f1, g2, hp, hga, hP, hdel, happ⟩ := hs.syncedG.out
  obtain ⟨hnew, qs, parts, hq, r1, r2, r3⟩ := Post.elim (syncAppend_packed (E := E) (s := s) f1 n sched added) happ
  obtain ⟨hd, ha, -⟩ := merge_delIdx hp (fun q hq => hga.del q hq)
  have haok : ∀ q ∈ (ap.map (·.addIdx)).getD [], ManifestOK w1.fs s q := by
    cases ap with
    | none => intro q hq; cases hq
    | some a => exact (hga.ok a rfl).idx
  have hman := hdel.manifests hk.names hs.curOK.manifests g1
  refine ⟨sl, sl', cur, snap, listedFiles w0.fs (cur.index.filter (fun q => !((dp.map (·.delIdx)).getD []).contains q) ++
    (dp.map (·.addIdx)).getD []), (((ap.map (·.addIdx)).getD []).flatMap (entriesOf w1.fs)).map (·.file), parts,
    hl.slot, hl.slot', hs.head, hs.head', ?_, ?_, ?_, ?_, r1, ?_, ?_⟩
  · rw [hl.after, hd, ha, ← List.append_assoc]
    unfold listedFiles
    rw [List.flatMap_append, List.map_append, flatMap_congr' fun q hq => entriesOf_mono g2.le (hman q hq)]
  · intro f hf hmem
    rw [hl.before] at hmem
    obtain ⟨x, hx, rfl⟩ := List.mem_map.mp hf
    obtain ⟨y, hy, hxy⟩ := List.mem_map.mp hmem
    obtain ⟨q, hq, hy⟩ := List.mem_flatMap.mp hy
    have a := hasFile_mono g1.le ((hs.curOK.manifests q hq).entry hy).hasFile
    cases ap with
    | none => cases hx
    | some ap =>
      have b := (hnew ap rfl).2 x hx
      unfold hasFile at a b
      rw [hxy, b] at a
      cases a
  · intro h0
    rcases hdel with ⟨-, rfl, rfl⟩ | ⟨e, mf, hkey, -, -⟩
    · rw [hl.before]
      have hkeep : cur.index.filter (fun q => !([] : List Path).contains q) = cur.index :=
        List.filter_eq_self.mpr fun _ _ => rfl
      simp only [Option.map_none, Option.getD_none, List.append_nil]
      rw [hkeep]
    · exact absurd h0 (primaryKeyFilter_sem hkey E.I).2.2.2.2
  · intro hold hne
    rcases hdel with ⟨h0, -, -⟩ | ⟨e, mf, hkey, hmf, hout⟩
    · exact absurd h0 hne
    · rw [hl.before] at hold ⊢
      exact hout.cutByKeys hk hkey hmf hs.fresh hs.curOK.nodup hs.curOK.manifests g1 hs.earlier (g2.le.trans hs.le) hold
  · refine Eq.trans ?_ (r2.trans ?_)
    · refine List.map_congr_left fun files hfiles => List.map_congr_left fun t ht => ?_
      refine map_deref_mono hs.le.lookLe fun r hr => ?_
      obtain ⟨g, hg, htg⟩ := List.mem_flatten.mp ht
      obtain ⟨f, hf, hgf⟩ := List.mem_flatten.mp hg
      have ht' : t ∈ f.flatten := List.mem_flatten.mpr ⟨g, hgf, htg⟩
      have : some (stored E f) ∈ addedFiles w1.fs ap := by
        rw [r3]
        exact List.mem_map_of_mem (f := fun f => some (stored E f)) (List.mem_flatten.mpr ⟨files, hfiles, hf⟩)
      obtain ⟨m, hm, hmf⟩ := List.mem_map.mp this
      obtain ⟨x, hx, hm⟩ := List.mem_flatMap.mp hm
      refine (fileRows_mem ((haok x hx).entry hm) r ?_).2
      unfold fileRows
      rw [hmf, Option.getD_some, stored_flatten]
      exact List.mem_flatten.mpr ⟨t, ht', hr⟩
    · subst hq
      cases added with
      | none => rfl
      | some sources =>
        simp only [Option.map_some, Option.getD_some, List.map_map]
        rfl
  · rw [← r3, List.map_map]
    refine List.map_congr_left fun m hm => ?_
    obtain ⟨x, hx, hm⟩ := List.mem_flatMap.mp hm
    obtain ⟨g, hg, -⟩ := (haok x hx).entry hm
    show σ'.w.fs.parquet m.file = _
    rw [hg]
    exact hs.le.parquet hg

/-- A Ray upsert by two actors that cuts three files: what is left of the first two fills a new file, what is left of the
third goes to another, and the rows given to one file of each actor. -/
example : ∃ σ σ' sl cur, KeySchema schema ∧ Done env schema 0
      (.rayInsert .upsert 2 [1, 0] [row 1 "A" [1], row 5 "E" [], row 9 "I" [9], row 20 "z" []]) σ σ' ∧
    σ.slots[0]? = some sl ∧ headOf sl.h σ.w = some cur ∧
    KeysSet schema (filesRows σ.w.fs schema (listedFiles σ.w.fs cur.index)) ∧
    headGroups σ = [some [[4], [4], [4]]] ∧ headGroups σ' = [some [[3, 3], [3], [2], [2]]] := by
  let σ := after env anyB schema [.call 0 (.mutate (.append [[row 1 "a" [1], row 2 "b" [2], row 3 "c" [3], row 4 "d" [4]],
    [row 5 "e" [5], row 6 "f" [6], row 7 "g" [7], row 8 "h" [8]],
    [row 9 "i" [9], row 10 "j" [9], row 11 "k" [9], row 12 "l" [9]]]))]
  let m : Mutation := .rayInsert .upsert 2 [1, 0] [row 1 "A" [1], row 5 "E" [], row 9 "I" [9], row 20 "z" []]
  obtain ⟨e, hst⟩ := doing_step (E := env) (s := schema) (σ := σ) (a := .call 0 (.mutate m))
    (o := .res (.job .succeeded)) (by decide +kernel)
  obtain ⟨sl, h0, -, h2⟩ := slot_of (σ := σ) (i := 0)
    (f := fun sl => (headOf sl.h σ.w).map fun cur => keysSetB schema (filesRows σ.w.fs schema (listedFiles σ.w.fs cur.index)))
    (x := some true) (by decide +kernel)
  obtain ⟨cur, hc, hall⟩ := Option.map_eq_some_iff.mp h2
  exact ⟨σ, _, sl, cur, keys, .call (after_reach (fun _ _ _ => trivial) _) hst, h0, hc, keysSetB_set hall,
    by decide +kernel, by decide +kernel⟩

/-- A transaction of a refresh that cuts the same files and appends three sources by two actors. -/
example : ∃ σ σ' sl cur, KeySchema schema ∧ Done env schema 0
      (.sync 2 [1, 0] [row 1 "A" [1], row 5 "g" [], row 9 "x" []]
        (some [[[row 17 "g" []]], [[row 18 "h" []]], [[row 19 "i" []]]])) σ σ' ∧
    σ.slots[0]? = some sl ∧ headOf sl.h σ.w = some cur ∧
    KeysSet schema (filesRows σ.w.fs schema (listedFiles σ.w.fs cur.index)) ∧
    headGroups σ = [some [[4], [4], [4]]] ∧ headGroups σ' = [some [[3, 3], [3], [2], [1]]] := by
  let σ := after env anyB schema [.call 0 (.mutate (.append [[row 1 "a" [1], row 2 "b" [2], row 3 "c" [3], row 4 "d" [4]],
    [row 5 "e" [5], row 6 "f" [6], row 7 "g" [7], row 8 "h" [8]],
    [row 9 "i" [9], row 10 "j" [9], row 11 "k" [9], row 12 "l" [9]]]))]
  let m : Mutation := .sync 2 [1, 0] [row 1 "A" [1], row 5 "g" [], row 9 "x" []]
        (some [[[row 17 "g" []]], [[row 18 "h" []]], [[row 19 "i" []]]])
  obtain ⟨e, hst⟩ := doing_step (E := env) (s := schema) (σ := σ) (a := .call 0 (.mutate m))
    (o := .res (.job .succeeded)) (by decide +kernel)
  obtain ⟨sl, h0, -, h2⟩ := slot_of (σ := σ) (i := 0)
    (f := fun sl => (headOf sl.h σ.w).map fun cur => keysSetB schema (filesRows σ.w.fs schema (listedFiles σ.w.fs cur.index)))
    (x := some true) (by decide +kernel)
  obtain ⟨cur, hc, hall⟩ := Option.map_eq_some_iff.mp h2
  exact ⟨σ, _, sl, cur, keys, .call (after_reach (fun _ _ _ => trivial) _) hst, h0, hc, keysSetB_set hall,
    by decide +kernel, by decide +kernel⟩

end Space
