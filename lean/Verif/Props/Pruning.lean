import Verif.StatsExact
import Verif.RowEffects
import Verif.Props.Reading

/-!
# C67, C06, C38: which files a filter opens
-/

set_option autoImplicit false

namespace Space

open Demo

/-- C06, also the other way round, for schemas whose keys are preceded by columns of one Parquet leaf
only: for each index file in a manifest of any stored snapshot and each primary key, the recorded minimum
and maximum are the least and the greatest value in the file, and there is none recorded if the
file holds nulls and NaN only.  Missing: keys after nested columns, see `C06_violated`. -/
theorem C06_exact_partial {E : Env} {s : Schema} (hn : s.names.Nodup) (hi : (s.fields.map (·.fid)).Nodup)
    (hk : s.keysLeaf = true) {σ : Sys} (h1 : Reach E s anyStep σ) {md : Metadata}
    (hmd : σ.w.stored = some md) {n : Nat} {snap : Snapshot} (hs : md.snaps.get? n = some snap)
    {p : Path} (hp : p ∈ snap.index) {rows : List ManifestRow} (hr : σ.w.fs.imanifest p = some rows)
    {m : ManifestRow} (hm : m ∈ rows) {groups : List (List Row)}
    (hg : σ.w.fs.parquet m.file = some groups) {c : String} (hkey : c ∈ s.pks) {fid : Nat} (hf : s.fidOf c = some fid) :
    ∃ st, m.stats.get? fid = some st ∧
      ((st = (none, none) ∧ ∀ r ∈ groups.flatten, ∀ x, r.val c = .sc x → x = .nan) ∨
        ∃ mn mx, st = (some mn, some mx) ∧ mn ≠ .nan ∧ mx ≠ .nan ∧ (∃ r ∈ groups.flatten, r.val c = .sc mn) ∧
          (∃ r ∈ groups.flatten, r.val c = .sc mx) ∧
          ∀ r ∈ groups.flatten, ∀ x, r.val c = .sc x → x ≠ .nan → mn ≤ x ∧ x ≤ mx) := by
  obtain ⟨md', hok⟩ := reach_ok hn h1
  have : md' = md := by rw [hok.wok.storedEq] at hmd; exact Option.some.inj hmd
  subst this
  have hsn := hok.wok.ok.snaps n snap hs
  rw [hok.wok.schema] at hsn
  obtain ⟨rows', a1, -, a3⟩ := hsn.manifests p hp
  rw [hr] at a1
  cases a1
  obtain ⟨g, g1, -, g3, -⟩ := a3 m hm
  rw [hg] at g1
  cases g1
  obtain ⟨st, h2, h3⟩ := fileStats_exact hk hi g3 c hkey fid hf
  refine ⟨st, h2, ?_⟩
  rcases h3 with ⟨h3, h4⟩ | ⟨mn, mx, h3, h4, h5, h6⟩
  · exact .inl ⟨h3, fun r hr x hx => Classical.byContradiction fun hne => h4 x ⟨hne, r, hr, hx⟩⟩
  · exact .inr ⟨mn, mx, h3, h4.1, h5.1, h4.2, h5.2, fun r hr x hx hne => h6 x ⟨hne, r, hr, hx⟩⟩

/-- Paths of the files to read. -/
def FileSet.paths (fset : FileSet) : List Path := fset.files.map (·.path)

theorem packFiles_paths {fs : FS} {mf : Option MExpr} {ps : List Path} {mid : Nat} :
    (packFiles fs mf (ps.filter (fun p => decide (keptEntries fs mf p ≠ []))) mid).paths =
      ps.flatMap (fun p => (keptEntries fs mf p).map (·.file)) := by
  unfold FileSet.paths
  rw [← List.flatMap_singleton' (List.map _ _), List.flatMap_map,
    packFiles_flatMap (g' := fun m => [m.file]) (fun f => [f.path]) (fun _ _ => rfl)]
  rw [flatMap_filter_nil _ _ fun p hp => by
    simp only [ne_eq, decide_not, Bool.not_eq_false', decide_eq_true_eq] at hp
    rw [hp]
    rfl]
  simp [List.flatMap_singleton', List.map_eq_flatMap]

/-- C67 for filters made by `and` and `or` of comparisons of columns and literals, without NaN and
without `≠` between two keys, on schemas whose keys precede nested and record columns: `data_files`, which every
read, delete and upsert asks for the files to open, gives exactly those of the version whose ranges of
keys admit the filter, in the same order.  Missing: `not`, `≠` between keys, and other schemas, for which files are
skipped wrongly, see `C05_violated_not`, `C05_violated_ne`, `C05_violated_nested`. -/
theorem C67_partial {E : Env} {s : Schema} (hn : s.names.Nodup) (hi : (s.fields.map (·.fid)).Nodup)
    (hk : s.keysLeaf = true) {σ : Sys} (h : Reach E s anyStep σ) {sl : Slot} (hsl : sl ∈ σ.slots) {c : Cond}
    (hc : c.ok s) (id : Option Nat) : ∃ opens : Path → Bool,
    (∀ p groups, σ.w.fs.parquet p = some groups → (opens p = true ↔ c.Admits s groups.flatten)) ∧
    (dataFiles σ.w.fs sl.h (some c.expr) id).map (·.paths) =
      (dataFiles σ.w.fs sl.h none id).map (fun fset => fset.paths.filter opens) := by
  classical
  refine ⟨fun p => decide (∃ groups, σ.w.fs.parquet p = some groups ∧ c.Admits s groups.flatten), ?_, ?_⟩
  · intro p groups hp
    simp [hp]
  obtain ⟨md, hok⟩ := reach_ok hn h
  have hh := (hok.slots sl hsl).1
  obtain ⟨mf, hmf, hkeep⟩ := manifestFilter_exact hc
  cases hsn : sl.h.snapshot id with
  | error e => simp [dataFiles, hsn, Except.map]
  | ok snap =>
    have hsnok : SnapOK σ.w.fs s snap := by
      rw [← hh.schema]
      unfold Handle.snapshot Metadata.snapshot at hsn
      repeat' split at hsn
      all_goals first | cases hsn | skip
      all_goals
        rename_i hget
        exact hh.ok.snaps _ _ hget
    have hmok : ∀ p ∈ snap.index, ManifestOK σ.w.fs sl.h.md.schema p := by
      rw [hh.schema]
      exact hsnok.manifests
    rw [dataFiles_eq hsn (mf := mf) (by rw [hh.schema]; exact hmf) hmok,
      dataFiles_eq (filter := none) hsn (mf := none) rfl hmok]
    simp only [Except.map, Except.ok.injEq, packFiles_paths, List.filter_flatMap]
    refine flatMap_congr' fun p hp => ?_
    obtain ⟨rows, h1, -, h3⟩ := hsnok.manifests p hp
    have hall : rows.filter (fun m => MExpr.keeps none m.stats) = rows := List.filter_eq_self.mpr fun _ _ => rfl
    simp only [keptEntries, entriesOf, h1, Option.getD_some, hall, List.filter_map]
    congr 1
    refine List.filter_congr fun m hm => ?_
    obtain ⟨g, g1, -, g3, -⟩ := h3 m hm
    have := hkeep (fileStats_exact hk hi g3)
    simp only [Function.comp, g1, Option.some.injEq, exists_eq_left']
    exact Bool.eq_iff_iff.mpr (by simpa using this)

/-- Two files, with ids 1, 2 and 5, 9: `id >= 3 and (txt = "x" or 7 > id)` and `id = 7` open the second
only, `txt = "x"` both, and `id = 3` none. -/
example : ∃ σ sl, Reach env schema anyStep σ ∧ sl ∈ σ.slots ∧
    ([.and (.cmp .gte (.col "id") (.lit (.int 3))) (.or (.cmp .equal (.col "txt") (.lit (.str "x")))
        (.cmp .gt (.lit (.int 7)) (.col "id"))), .cmp .equal (.col "id") (.lit (.int 7)),
      .cmp .equal (.col "txt") (.lit (.str "x")), .cmp .equal (.col "id") (.lit (.int 3))] : List Cond).map
      (fun c => ((dataFiles σ.w.fs sl.h (some c.expr) none).toOption.map (fun f => f.paths.map
        (fun p => (σ.w.fs.parquet p).map (fun g => g.flatten.map (·.val "id")))))) =
      [some [some [.sc (.int 5), .sc (.int 9)]], some [some [.sc (.int 5), .sc (.int 9)]],
        some [some [.sc (.int 1), .sc (.int 2)], some [.sc (.int 5), .sc (.int 9)]], some []] := by
  let σ := after env anyB schema [.call 0 (.mutate (.append [[row 1 "a" [], row 2 "b" []]])),
    .call 0 (.mutate (.append [[row 5 "c" [], row 9 "d" []]]))]
  obtain ⟨sl, -, h1, h2⟩ := slot_of (σ := σ) (i := 0) (f := fun sl =>
    ([.and (.cmp .gte (.col "id") (.lit (.int 3))) (.or (.cmp .equal (.col "txt") (.lit (.str "x")))
        (.cmp .gt (.lit (.int 7)) (.col "id"))), .cmp .equal (.col "id") (.lit (.int 7)),
      .cmp .equal (.col "txt") (.lit (.str "x")), .cmp .equal (.col "id") (.lit (.int 3))] : List Cond).map
      (fun c => ((dataFiles σ.w.fs sl.h (some c.expr) none).toOption.map (fun f => f.paths.map
        (fun p => (σ.w.fs.parquet p).map (fun g => g.flatten.map (·.val "id")))))))
    (x := [some [some [.sc (.int 5), .sc (.int 9)]], some [some [.sc (.int 5), .sc (.int 9)]],
        some [some [.sc (.int 1), .sc (.int 2)], some [.sc (.int 5), .sc (.int 9)]], some []]) (by decide +kernel)
  exact ⟨σ, sl, after_reach (fun _ _ _ => trivial) _, h1, h2⟩

/-- The conditions of the example are of the kind. -/
example : schema.names.Nodup ∧ (schema.fields.map (·.fid)).Nodup ∧ schema.keysLeaf = true ∧
    (Cond.and (.cmp .gte (.col "id") (.lit (.int 3))) (.or (.cmp .equal (.col "txt") (.lit (.str "x")))
      (.cmp .gt (.lit (.int 7)) (.col "id")))).ok schema := by
  refine ⟨by decide, by decide, by decide, ⟨?_, ?_, by simp⟩, ⟨?_, ?_, by simp⟩, ?_, ?_, by simp⟩ <;>
    simp [Operand.ok] <;> decide

theorem manifestFilter_not (s : Schema) (e : Expr) :
    manifestFilter s (some (.un "not" e)) = (manifestFilter s (some e)).map (·.map .not) := by
  have h : buildManifestFilter s (.un "not" e) = (buildManifestFilter s e).map (·.map .not) := by
    simp only [buildManifestFilter, ffInternal, if_true]
    cases ffInternal s e with
    | error x => cases x <;> rfl
    | ok o => cases o <;> rfl
  have hcols : (Expr.un "not" e).cols = e.cols := rfl
  by_cases hc : (e.cols.all fun c => s.names.contains c) = true
  · simp only [manifestFilter, hcols, hc, if_true, h]
    cases buildManifestFilter s e <;> rfl
  · simp only [manifestFilter, hcols, hc, Bool.false_eq_true, if_false]
    rfl

/-- C67 for `not`, every filter, every schema, every version of every reachable state: `not e` raises exactly if `e`
does; if no condition on ranges is made of `e`, both open all files; otherwise no file is opened by both, so that
of the rows of a file `e` can match, `not e` finds none, though rows of one file may differ. -/
theorem C67_not {E : Env} {s : Schema} (hn : s.names.Nodup) {σ : Sys} (h : Reach E s anyStep σ) {sl : Slot}
    (hsl : sl ∈ σ.slots) (e : Expr) (id : Option Nat) :
    (dataFiles σ.w.fs sl.h (some e) id = dataFiles σ.w.fs sl.h (some (.un "not" e)) id ∧
      ∀ fset, dataFiles σ.w.fs sl.h (some e) id = .ok fset → dataFiles σ.w.fs sl.h none id = .ok fset) ∨
    ∃ yes no, dataFiles σ.w.fs sl.h (some e) id = .ok yes ∧
      dataFiles σ.w.fs sl.h (some (.un "not" e)) id = .ok no ∧ ∀ p ∈ yes.paths, p ∉ no.paths := by
  obtain ⟨md, hok⟩ := reach_ok hn h
  have hh := (hok.slots sl hsl).1
  cases hsn : sl.h.snapshot id with
  | error e => simp [dataFiles, hsn]
  | ok snap =>
    have hsnok : SnapOK σ.w.fs s snap := by
      rw [← hh.schema]
      unfold Handle.snapshot Metadata.snapshot at hsn
      repeat' split at hsn
      all_goals first | cases hsn | skip
      all_goals
        rename_i hget
        exact hh.ok.snaps _ _ hget
    have hmok : ∀ p ∈ snap.index, ManifestOK σ.w.fs sl.h.md.schema p := by
      rw [hh.schema]
      exact hsnok.manifests
    have hnot := manifestFilter_not sl.h.md.schema e
    cases hmf : manifestFilter sl.h.md.schema (some e) with
    | error x =>
      rw [hmf] at hnot
      simp only [Except.map] at hnot
      simp [dataFiles, hsn, hmf, hnot]
    | ok mf =>
      rw [hmf] at hnot
      simp only [Except.map] at hnot
      cases mf with
      | none =>
        have h0 : manifestFilter sl.h.md.schema none = .ok none := rfl
        simp only [Option.map_none] at hnot
        simp [dataFiles, hsn, hmf, hnot, h0]
      | some f =>
        right
        refine ⟨_, _, dataFiles_eq hsn hmf hmok, dataFiles_eq hsn hnot hmok, ?_⟩
        rw [packFiles_paths, packFiles_paths]
        intro p h1 h2
        obtain ⟨q1, hq1, h1⟩ := List.mem_flatMap.mp h1
        obtain ⟨q2, hq2, h2⟩ := List.mem_flatMap.mp h2
        obtain ⟨m1, hm1, e1⟩ := List.mem_map.mp h1
        obtain ⟨m2, hm2, e2⟩ := List.mem_map.mp h2
        simp only [keptEntries] at hm1 hm2
        obtain ⟨hm1, k1⟩ := List.mem_filter.mp hm1
        obtain ⟨hm2, k2⟩ := List.mem_filter.mp hm2
        obtain ⟨g1, a1, -, a3, -⟩ := (hsnok.manifests q1 hq1).entry hm1
        obtain ⟨g2, b1, -, b3, -⟩ := (hsnok.manifests q2 hq2).entry hm2
        rw [e1] at a1
        rw [e2, a1] at b1
        cases b1
        rw [a3] at b3
        have hst := Except.ok.inj b3
        simp only [MExpr.keeps, Option.map_some, MExpr.eval, beq_iff_eq] at k1 k2
        rw [← hst, k1] at k2
        cases k2

/-- Two files, with ids 1, 2 and 5, 9: `id = 9` opens the second and `not (id = 9)` the first only, which misses the
row with 5; `txt = "a"` and its negation open both. -/
example : ∃ σ sl, Reach env schema anyStep σ ∧ sl ∈ σ.slots ∧
    ([.bin "equal" (.sel "id") (.lit (.int 9)), .un "not" (.bin "equal" (.sel "id") (.lit (.int 9))),
      .bin "equal" (.sel "txt") (.lit (.str "a")), .un "not" (.bin "equal" (.sel "txt") (.lit (.str "a")))] :
        List Expr).map
      (fun e => ((dataFiles σ.w.fs sl.h (some e) none).toOption.map (fun f => f.paths.map
        (fun p => (σ.w.fs.parquet p).map (fun g => g.flatten.map (·.val "id")))))) =
      [some [some [.sc (.int 5), .sc (.int 9)]], some [some [.sc (.int 1), .sc (.int 2)]],
        some [some [.sc (.int 1), .sc (.int 2)], some [.sc (.int 5), .sc (.int 9)]],
        some [some [.sc (.int 1), .sc (.int 2)], some [.sc (.int 5), .sc (.int 9)]]] := by
  let σ := after env anyB schema [.call 0 (.mutate (.append [[row 1 "a" [], row 2 "b" []]])),
    .call 0 (.mutate (.append [[row 5 "c" [], row 9 "d" []]]))]
  obtain ⟨sl, -, h1, h2⟩ := slot_of (σ := σ) (i := 0) (f := fun sl =>
    ([.bin "equal" (.sel "id") (.lit (.int 9)), .un "not" (.bin "equal" (.sel "id") (.lit (.int 9))),
      .bin "equal" (.sel "txt") (.lit (.str "a")), .un "not" (.bin "equal" (.sel "txt") (.lit (.str "a")))] :
        List Expr).map
      (fun e => ((dataFiles σ.w.fs sl.h (some e) none).toOption.map (fun f => f.paths.map
        (fun p => (σ.w.fs.parquet p).map (fun g => g.flatten.map (·.val "id")))))))
    (x := [some [some [.sc (.int 5), .sc (.int 9)]], some [some [.sc (.int 1), .sc (.int 2)]],
        some [some [.sc (.int 1), .sc (.int 2)], some [.sc (.int 5), .sc (.int 9)]],
        some [some [.sc (.int 1), .sc (.int 2)], some [.sc (.int 5), .sc (.int 9)]]]) (by decide +kernel)
  exact ⟨σ, sl, after_reach (fun _ _ _ => trivial) _, h1, h2⟩

/-! ## C38, reference reads -/

theorem readFiles_whole {E : Env} {fs : FS} {s : Schema} {o : ReadOpts} (hr : o.refRead = true)
    (hc : ∀ c ∈ o.cols s, c ∈ s.names) : ∀ (files : List DataFile),
    (∀ f ∈ files, (fs.parquet f.path).isSome ∧ f.bitmap = none ∧ f.slice = none) →
    readFiles E fs s o files = .ok (files.map (fun f =>
      (filterRows E.I o.filter (fileRows fs f.path)).map (·.select (o.cols s))))
  | [], _ => rfl
  | f :: files, h => by
    obtain ⟨h1, h2, h3⟩ := h f List.mem_cons_self
    obtain ⟨g, hg⟩ := Option.isSome_iff_exists.mp h1
    have hf : readFile E fs s o f =
        .ok [(filterRows E.I o.filter (fileRows fs f.path)).map (·.select (o.cols s))] := by
      unfold readFile
      rw [if_pos (by simpa using hc)]
      simp only [readTable, hg, selectRows, h2, h3, hr, if_true, fileRows, Option.getD_some, filterRows]
      cases o.filter <;> rfl
    simp only [readFiles, hf, readFiles_whole hr hc files fun f hf => h f (List.mem_cons_of_mem _ hf),
      List.map_cons, List.cons_append, List.nil_append]

/-- C38 for reads with `reference_read`: whatever the batch size, the batches are the files that
are opened, one each and in their order, each with the rows of the file the filter is true of; without a filter
these are all files of the version. -/
theorem C38_refs {E : Env} {s : Schema} (hn : s.names.Nodup) {σ : Sys} {sl : Slot}
    (h1 : Reach E s anyStep σ) (hsl : sl ∈ σ.slots) {o : ReadOpts} (hr : o.refRead = true) (v : Option Version)
    {bs : List (List Row)} (hb : tableBatches E sl.h σ.w o v = .ok bs) :
    ∃ md snap files, σ.w.stored = some md ∧ md.target sl.h.branch v = .ok snap ∧
      List.Sublist files (snap.index.flatMap (fun p => (entriesOf σ.w.fs p).map (·.file))) ∧
      (o.filter = none → files = snap.index.flatMap (fun p => (entriesOf σ.w.fs p).map (·.file))) ∧
      bs = files.map (fun p => ((fileRows σ.w.fs p).filter
        (fun r => match o.filter with | none => true | some e => e.holds E.I r)).map (·.select (o.cols s))) := by
  obtain ⟨md, hok⟩ := reach_ok hn h1
  rw [tableBatches_target hok.wok (hok.slots sl hsl).1] at hb
  cases ht : md.target sl.h.branch v with
  | error e => rw [ht] at hb; cases hb
  | ok snap =>
    rw [ht] at hb
    simp only at hb
    have hsn := (target_ok hok.wok ht).1
    have hfilter : ∀ rows : List Row, rows.filter
        (fun r => match o.filter with | none => true | some e => e.holds E.I r) = filterRows E.I o.filter rows := by
      intro rows
      unfold filterRows
      cases o.filter with
      | none => exact List.filter_eq_self.mpr fun _ _ => rfl
      | some e => rfl
    unfold readSnap at hb
    cases hm : manifestFilter s o.filter with
    | error e => rw [hm] at hb; cases hb
    | ok mf =>
      rw [hm] at hb
      simp only at hb
      rw [collectFiles_eq snap.index 1 fun p hp => by
        obtain ⟨rows, h, -⟩ := hsn.manifests p hp
        simp [h]] at hb
      simp only at hb
      refine ⟨md, snap, snap.index.flatMap (fun p => (keptEntries σ.w.fs mf p).map (·.file)), hok.wok.storedEq, ht,
        flatMap_sublist (fun p => List.Sublist.map _ List.filter_sublist) _, ?_, ?_⟩
      · intro hf
        rw [hf] at hm
        cases hm
        refine flatMap_congr' fun p _ => congrArg _ (List.filter_eq_self.mpr fun _ _ => rfl)
      · have hfile : ∀ f ∈ (packFiles σ.w.fs mf
            (snap.index.filter (fun p => decide (keptEntries σ.w.fs mf p ≠ []))) 1).files,
            (σ.w.fs.parquet f.path).isSome ∧ f.bitmap = none ∧ f.slice = none := by
          intro f hf
          obtain ⟨p, hp, m, hm', n, rfl, -, -⟩ := packFiles_mem hf
          obtain ⟨g, hg, -⟩ := (hsn.manifests p (List.mem_filter.mp hp).1).entry (List.mem_filter.mp hm').1
          exact ⟨Option.isSome_iff_exists.mpr ⟨g, hg⟩, rfl, rfl⟩
        rw [← packFiles_paths (mid := 1)]
        simp only [hfilter, FileSet.paths, List.map_map]
        by_cases hc : ∀ c ∈ o.cols s, c ∈ s.names
        · rw [readFiles_whole hr hc _ hfile] at hb
          cases hb
          rfl
        · rw [readFiles_bad hc] at hb
          split at hb
          · rename_i hnil
            cases hb
            rw [hnil]
            rfl
          · cases hb

/-- Two files, with one and two rows, read by reference in batches of one: two batches, the second with
two rows. -/
example : ∃ (σ : Sys) (sl : Slot), Reach env schema anyStep σ ∧ sl ∈ σ.slots ∧
    (tableBatches env sl.h σ.w { batch := 1, refRead := true } none).map (·.map List.length) = .ok [1, 2] := by
  let σ := after env anyB schema [.call 0 (.mutate (.append [[row 1 "x" [1]]])),
    .call 0 (.mutate (.append [[row 2 "y" [2], row 7 "y" [3]]]))]
  obtain ⟨sl, -, h1, h2⟩ := slot_of (σ := σ) (i := 0)
    (f := fun sl => (tableBatches env sl.h σ.w { batch := 1, refRead := true } none).map (·.map List.length))
    (x := .ok [1, 2]) (by decide +kernel)
  exact ⟨σ, sl, after_reach (fun _ _ _ => trivial) _, h1, h2⟩

end Space
