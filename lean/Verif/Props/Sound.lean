import Verif.Props.Reading

/-!
# What every filtered read returns

C05 is false of filters with `not` or with `≠` between two keys and on some schemas: rows on
which the filter is true are missing, or the read fails. What is left for every filter and
every schema: a filtered read makes nothing up. The rows it returns are rows of the full
read, in the same order and no row more often, and the filter is true of each.
-/

namespace Space
open Demo

/-- Skipping entries leaves a part of the rows, in order. -/
theorem flatMap_filter_sublist {α β : Type} (k : α → Bool) (f : α → List β) : ∀ xs : List α,
    ((xs.filter k).flatMap f).Sublist (xs.flatMap f)
  | [] => by simp
  | x :: xs => by
    have ih := flatMap_filter_sublist k f xs
    simp only [List.filter_cons, List.flatMap_cons]
    split
    · rw [List.flatMap_cons]
      exact (List.Sublist.refl _).append ih
    · exact ih.trans (List.sublist_append_right _ _)

theorem flatMap_sublists {α β : Type} {f g : α → List β} : ∀ (xs : List α),
    (∀ x, (f x).Sublist (g x)) → (xs.flatMap f).Sublist (xs.flatMap g)
  | [], _ => by simp
  | x :: xs, h => by
    simp only [List.flatMap_cons]
    exact (h x).append (flatMap_sublists xs h)

/-- What pruning leaves is a part of the rows on which the filter is true, in order. -/
theorem keptRowsOf_sublist {I : Interp} {fs : FS} {e : Expr} {mf : Option MExpr} (ps : List Path) :
    (keptRowsOf I fs (some e) mf ps).Sublist ((physRows fs ps).filter (fun r => e.holds I r)) := by
  have h : (physRows fs ps).filter (fun r => e.holds I r) = ps.flatMap (fun p =>
      (entriesOf fs p).flatMap (fun m => filterRows I (some e) (fileRows fs m.file))) := by
    simp only [physRows, List.filter_flatMap]
    rfl
  rw [h]
  exact flatMap_sublists ps fun p => flatMap_filter_sublist _ _ _

/-- C05, the part that holds of every filter on plain columns and every schema: whatever a
filtered read of a version returns is, row by row and in the same order, among the rows of the
full read of that version on which the filter is true, restricted to the selected columns if
some were selected. In particular it returns no row on which the filter is not true and no row
twice that is there once. Missing: that all those rows are returned, see `C05_partial` for
when they are and the witnesses `C05_violated_…` for when not. -/
theorem C05_sound_partial {E : Env} {s : Schema} (hn : s.names.Nodup) {σ : Sys} {sl : Slot}
    (h1 : Reach E s anyStep σ) (hsl : sl ∈ σ.slots) {e : Expr}
    (he : ∀ c ∈ e.cols, c ∈ s.names ∧ c ∉ s.recs) (v : Option Version) :
    (∀ rows, tableRead E sl.h σ.w { filter := some e } v = .ok rows →
      ∃ all, tableRead E sl.h σ.w {} v = .ok all ∧
        rows.Sublist (all.filter (fun r => e.holds E.I r))) ∧
    ∀ cs : List String, (∀ c ∈ cs, c ∈ s.names) →
      ∀ rows, tableRead E sl.h σ.w { filter := some e, fields := some cs } v = .ok rows →
        ∃ all, tableRead E sl.h σ.w {} v = .ok all ∧
          rows.Sublist ((all.filter (fun r => e.holds E.I r)).map
            (·.select (cs.filter (fun c => !s.recs.contains c) ++
              cs.filter (fun c => s.recs.contains c)))) := by
  obtain ⟨md, hok⟩ := reach_ok hn h1
  have hh := (hok.slots sl hsl).1
  have key : ∀ snap, ((snapRows σ.w.fs s snap).map (·.select s.writeNames)).filter
      (fun r => e.holds E.I r) =
      ((snapRows σ.w.fs s snap).filter (fun r => e.holds E.I r)).map (·.select s.writeNames) := by
    intro snap
    rw [List.filter_map]
    congr 1
    refine List.filter_congr fun r _ => holds_congr fun c hc => select_val ?_
    rw [← outCols_names]
    simp only [outCols, List.mem_append, List.mem_filter]
    have := (he c hc).1
    cases hb : s.recs.contains c <;> simp [this]
  have main : ∀ (o : ReadOpts) rows, o.filter = some e → o.refRead = false →
      (∀ c ∈ o.cols s, c ∈ s.names) → tableRead E sl.h σ.w o v = .ok rows →
      ∃ snap, md.target sl.h.branch v = .ok snap ∧
        rows.Sublist (((snapRows σ.w.fs s snap).filter (fun r => e.holds E.I r)).map
          (·.select (outCols s (o.cols s)))) := by
    intro o rows ho hrr hc hr
    rw [tableRead_target hok.wok hh] at hr
    cases ht : md.target sl.h.branch v with
    | error x => rw [ht] at hr; cases hr
    | ok snap =>
      refine ⟨snap, rfl, ?_⟩
      rw [ht] at hr
      simp only at hr
      cases hmf : manifestFilter s o.filter with
      | error x => simp [readSnap, hmf, Except.map] at hr
      | ok mf =>
        obtain ⟨bs, h1, h2, -⟩ := readSnap_rows (E := E) (o := o) (target_ok hok.wok ht).1 hmf hc hrr
        simp only [h1, Except.map, rowsOf_flatten, h2, Except.ok.injEq] at hr
        subst hr
        rw [select_map_deref]
        refine List.Sublist.map _ ?_
        rw [show snapRows σ.w.fs s snap = (physRows σ.w.fs snap.index).map (deref σ.w.fs.records s)
          from rfl, ← filter_deref fun c hc => (he c hc).2]
        refine List.Sublist.map _ ?_
        rw [ho]
        exact keptRowsOf_sublist _
  constructor
  · intro rows hr
    obtain ⟨snap, ht, hs⟩ := main { filter := some e } rows rfl rfl (fun c hc => hc) hr
    refine ⟨(snapRows σ.w.fs s snap).map (·.select s.writeNames), ?_, ?_⟩
    · rw [tableRead_full hok.wok hh, ht]
    · rw [key, ← outCols_names]
      exact hs
  · intro cs hcs rows hr
    obtain ⟨snap, ht, hs⟩ := main { filter := some e, fields := some cs } rows rfl rfl hcs hr
    refine ⟨(snapRows σ.w.fs s snap).map (·.select s.writeNames), ?_, ?_⟩
    · rw [tableRead_full hok.wok hh, ht]
    · rw [key, List.map_map]
      rw [show (((snapRows σ.w.fs s snap).filter (fun r => e.holds E.I r)).map
          ((fun r => r.select (cs.filter (fun c => !s.recs.contains c) ++
              cs.filter (fun c => s.recs.contains c))) ∘ fun r => r.select s.writeNames)) =
        ((snapRows σ.w.fs s snap).filter (fun r => e.holds E.I r)).map
          (·.select (outCols s cs)) from List.map_congr_left fun r _ => select_select fun c hc => by
            rw [← outCols_names]
            simp only [outCols, List.mem_append, List.mem_filter] at hc ⊢
            rcases hc with ⟨hc, hb⟩ | ⟨hc, hb⟩
            · exact Or.inl ⟨hcs c hc, hb⟩
            · exact Or.inr ⟨hcs c hc, hb⟩]
      exact hs

/-- A filter with `not` on a table of two files: of the three rows on which it is true two
are returned, as the file of the other is skipped. -/
example : ∃ (σ : Sys) (sl : Slot) (e : Expr), Reach env schema anyStep σ ∧ sl ∈ σ.slots ∧
    (∀ c ∈ e.cols, c ∈ schema.names ∧ c ∉ schema.recs) ∧
    tableRead env sl.h σ.w {} none = .ok [row 1 "x" [1], row 9 "y" [2], row 2 "z" [3], row 3 "z" [3]] ∧
    tableRead env sl.h σ.w { filter := some e } none = .ok [row 2 "z" [3], row 3 "z" [3]] := by
  let e : Expr := .un "not" (.bin "gt" (.sel "id") (.lit (.int 5)))
  let σ := after env anyB schema [.call 0 (.mutate (.append [[row 1 "x" [1], row 9 "y" [2]]])),
    .call 0 (.mutate (.append [[row 2 "z" [3], row 3 "z" [3]]]))]
  obtain ⟨sl, -, h1, h2⟩ := slot_of (σ := σ) (i := 0)
    (f := fun sl => (tableRead env sl.h σ.w {} none, tableRead env sl.h σ.w { filter := some e } none))
    (x := (.ok [row 1 "x" [1], row 9 "y" [2], row 2 "z" [3], row 3 "z" [3]],
      .ok [row 2 "z" [3], row 3 "z" [3]])) (by decide +kernel)
  simp only [Prod.mk.injEq] at h2
  exact ⟨σ, sl, e, after_reach (fun _ _ _ => trivial) _, h1, by decide, h2⟩

end Space
