import Verif.Props.UpsertPacking

/-!
# C86 for refreshes: the transactions of a refresh rewrite only the files that hold rows to delete
-/

set_option autoImplicit false

namespace Space

open Demo
open List (Perm)
open scoped List

/-- C86 for the transactions of a refresh of a materialized view, `gone` being the rows whose keys it deletes and `added`
the tables it appends: the files of the rows appended follow; of the others nothing changes if no rows are deleted, and else
the same is true as for a delete by the keys, where C08 holds.  Missing: layouts on which files get lost, and
keys that are null or NaN. -/
theorem C86_refresh_partial {E : Env} {s : Schema} (hk : KeySchema s) {i n : Nat} {sched : List Nat} {gone : List Row}
    {added : Option (List (List (List Row)))} {σ σ' : Sys} (h : Done E s i (.sync n sched gone added) σ σ') :
    ∃ sl sl' cur snap now last, σ.slots[i]? = some sl ∧ σ'.slots[i]? = some sl' ∧
      headOf sl.h σ.w = some cur ∧ headOf sl'.h σ'.w = some snap ∧
      listedFiles σ'.w.fs snap.index = now ++ last ∧
      filesRows σ'.w.fs s last ~ (added.getD []).flatten.flatten.map (·.select s.writeNames) ∧
      (gone = [] → now = listedFiles σ.w.fs cur.index) ∧
      (gone ≠ [] → KeysSet s (filesRows σ.w.fs s (listedFiles σ.w.fs cur.index)) →
        DeleteSafe (fun r => some (decide (s.pks.map r.val ∈ keysOf s gone))) (headLayout s sl.h σ.w) →
        ∃ kept torn new, Rewrites σ.w.fs σ'.w.fs s (fun r => some (decide (s.pks.map r.val ∈ keysOf s gone)))
          (listedFiles σ.w.fs cur.index) now [] kept torn new) := by
  obtain ⟨sl, sl', w, h1, w1, p, cur, snap, hl, -⟩ := h.landing hk.names
  have hs := hl.succ
  obtain ⟨w0, dp, ap, P, g1, f1, g2, hp, hfin, hP, hdel, -⟩ := hs.syncedG.out
  obtain ⟨hd, ha, -⟩ := merge_delIdx hp (fun q hq => hfin.del q hq)
  have hman := hdel.manifests hk.names hs.curOK.manifests g1
  have hadd : ∀ q ∈ (ap.map (·.addIdx)).getD [], ManifestOK w1.fs s q := by
    cases ap with
    | none => intro q hq; cases hq
    | some a => exact (hfin.ok a rfl).idx
  refine ⟨sl, sl', cur, snap, listedFiles w0.fs (cur.index.filter (fun q => !((dp.map (·.delIdx)).getD []).contains q) ++
      (dp.map (·.addIdx)).getD []), listedFiles w1.fs ((ap.map (·.addIdx)).getD []), hl.slot, hl.slot', hs.head, hs.head',
    ?_, ?_, ?_, fun hne hold hsafe => ?_⟩
  · rw [hl.after, hd, ha, ← List.append_assoc]
    unfold listedFiles
    rw [List.flatMap_append, List.map_append, flatMap_congr' fun q hq => entriesOf_mono g2.le (hman q hq)]
  · have hq : physRows w1.fs ((ap.map (·.addIdx)).getD []) = P := by
      cases ap with
      | none => rw [hfin.none_iff.mp rfl]; rfl
      | some q => exact hfin.phys q rfl
    rw [filesRows_listed_mono hs.le hadd, filesRows_listed w1.fs s { id := 0, index := (ap.map (·.addIdx)).getD [] }]
    unfold snapRows
    rw [hq]
    refine (hP.map _).trans (Perm.of_eq ?_)
    rw [List.map_map]
    exact List.map_congr_left fun r _ => select_select fun c hc => hc
  · intro h0
    rcases hdel with ⟨-, rfl, rfl⟩ | ⟨e, mf, hkey, -, -⟩
    · rw [hl.before]
      have hkeep : cur.index.filter (fun q => !([] : List Path).contains q) = cur.index :=
        List.filter_eq_self.mpr fun _ _ => rfl
      simp only [Option.map_none, Option.getD_none, List.append_nil]
      rw [hkeep]
    · exact absurd h0 (primaryKeyFilter_sem hkey E.I).2.2.2.2
  · rcases hdel with ⟨h0, -, -⟩ | ⟨e, mf, hkey, hmf, hout⟩
    · exact absurd h0 hne
    obtain ⟨hke, -, -, -, -⟩ := primaryKeyFilter_sem hkey E.I
    have he := hk.fits hke
    obtain ⟨lost, kept, torn, new, hr, -, hno, -⟩ := hout.rewrites (fs := σ.w.fs) (fs' := σ'.w.fs) hk.names he hmf
      hs.fresh hs.curOK.nodup hs.curOK.manifests g1 hs.earlier (g2.le.trans hs.le)
    refine ⟨kept, torn, new, ?_⟩
    rw [hl.before, filesRows_listed_mono hs.earlier hs.curOK.manifests] at hold
    have hold' : KeysSet s (snapRows w.fs s cur) := by
      intro r hr k hkk
      rw [filesRows_listed] at hold
      have := hold _ (List.mem_map_of_mem hr) k hkk
      rw [select_val (writeNames_sub.mpr (hk.keys k hkk))] at this
      exact this
    have hsafe' : DeleteSafe (e.truth E.I) (layout w.fs s cur) := by
      rw [hl.layout] at hsafe
      exact hsafe.congr fun r hr => by rw [layout_flatten] at hr; exact (keyFilter_truth hkey (hold' r hr)).symm
    have hl0 := hno (noLoss_of_safe he.prune hmf he.plain hs.curOK.manifests hsafe')
    subst hl0
    rw [hl.before]
    refine hr.congr fun r hr => ?_
    rw [filesRows_listed_mono hs.earlier hs.curOK.manifests] at hr
    exact keyFilter_truth hkey (hold r hr)

/-- A transaction of a refresh that deletes a row of the second file and appends two sources by two actors: the other rows
of that file go to a new file, the other files stay, and the files of the two actors follow. -/
example : ∃ σ σ' sl cur, KeySchema schema ∧ Done env schema 0 (.sync 2 [1, 0] [row 5 "E" [5], row 12 "k" []]
      (some [[[row 11 "k" []]], [[row 13 "l" []]]])) σ σ' ∧
    σ.slots[0]? = some sl ∧ headOf sl.h σ.w = some cur ∧
    KeysSet schema (filesRows σ.w.fs schema (listedFiles σ.w.fs cur.index)) ∧
    DeleteSafe (fun r => some (decide (schema.pks.map r.val ∈ keysOf schema [row 5 "E" [5], row 12 "k" []])))
      (headLayout schema sl.h σ.w) ∧
    filesNow σ = [some [.index 1, .index 3, .index 5, .index 11]] ∧
    filesNow σ' = [some [.index 11, .index 1, .index 5, .index 17, .index 21, .index 19]] ∧
    filesRows σ'.w.fs schema [.index 17] = [row 6 "f" [6], row 7 "g" [7], row 8 "h" [8]] ∧
    filesRows σ'.w.fs schema [.index 21, .index 19] = [row 11 "k" [], row 13 "l" []] := by
  let σ := after env anyB schema [.call 0 (.mutate (.append [[row 1 "a" [1], row 2 "b" [2], row 3 "c" [3], row 4 "d" [4]],
    [row 5 "e" [5], row 6 "f" [6], row 7 "g" [7], row 8 "h" [8]], [row 9 "i" [9]]])),
    .call 0 (.mutate (.append [[row 10 "j" [1]]]))]
  let m : Mutation := .sync 2 [1, 0] [row 5 "E" [5], row 12 "k" []] (some [[[row 11 "k" []]], [[row 13 "l" []]]])
  obtain ⟨e, hst⟩ := doing_step (E := env) (s := schema) (σ := σ) (a := .call 0 (.mutate m))
    (o := .res (.job .succeeded)) (by decide +kernel)
  obtain ⟨sl, h0, -, h2⟩ := slot_of (σ := σ) (i := 0)
    (f := fun sl => (safeB (fun r => some (decide (schema.pks.map r.val ∈ keysOf schema [row 5 "E" [5], row 12 "k" []])))
      (headLayout schema sl.h σ.w),
      (headOf sl.h σ.w).map fun cur => keysSetB schema (filesRows σ.w.fs schema (listedFiles σ.w.fs cur.index))))
    (x := (true, some true)) (by decide +kernel)
  simp only [Prod.mk.injEq] at h2
  obtain ⟨cur, hc, hall⟩ := Option.map_eq_some_iff.mp h2.2
  exact ⟨σ, _, sl, cur, keys, .call (after_reach (fun _ _ _ => trivial) _) hst, h0, hc, keysSetB_set hall, safeB_safe h2.1,
    by decide +kernel, by decide +kernel, by decide +kernel, by decide +kernel⟩

end Space
