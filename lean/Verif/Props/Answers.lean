import Verif.Props.Pruning
import Verif.Props.Reading
import Verif.Props.Naming

/-!
# C79: a read raises only if it asks for something that is not there

A version that is there can be read in every later state, with all options; nothing that is done to
the storage makes a read of it raise.
-/

set_option autoImplicit false

namespace Space
open Demo

/-- The stored table has the version that a read of a handle on `branch` asks for: the branch, a
snapshot, or a tag or branch. -/
def IsThere (md : Metadata) (branch : String) : Option Version → Prop
  | none => branch = "main" ∨ ∃ r, md.refs.get? branch = some r
  | some (.id n) => ∃ snap, md.snaps.get? n = some snap
  | some (.name x) => ∃ r, md.refs.get? x = some r

/-- No column before a column that the filter mentions is a struct or a record field. -/
def FlatBefore (s : Schema) (e : Expr) : Prop :=
  ∀ pre f post, s.fields = pre ++ f :: post → f.name ∈ e.cols → ∀ g ∈ pre, s.simple g = true

theorem FlatBefore.aligned {s : Schema} {e : Expr} (h : FlatBefore s e) (hn : s.names.Nodup)
    (hc : ∀ c ∈ e.cols, c ∈ s.names) : s.Aligned e := by
  intro c hcol
  obtain ⟨f, hf, rfl⟩ := List.mem_map.mp (hc c hcol)
  obtain ⟨pre, post, hs⟩ := List.append_of_mem hf
  exact resolve_simple hs (h pre f post hs hcol) hn

theorem isThere_iff {fs : FS} {md : Metadata} (hm : MdOK fs md) (b : String) (v : Option Version) :
    (IsThere md b v → ∃ snap, md.target b v = .ok snap) ∧
      (¬ IsThere md b v → md.target b v = .error .versionNotFound) := by
  have hid : ∀ n, (md.snaps.get? n).isSome → ∃ snap, md.snapshot n = .ok snap := by
    intro n h
    obtain ⟨snap, hs⟩ := Option.isSome_iff_exists.mp h
    exact ⟨snap, by simp [Metadata.snapshot, hs]⟩
  cases v with
  | none =>
    constructor
    · rintro (rfl | ⟨r, hr⟩)
      · obtain ⟨snap, hs⟩ := hid _ hm.cur
        exact ⟨snap, by simpa [Metadata.target, Metadata.currentId, mainBranch] using hs⟩
      · obtain ⟨snap, hs⟩ := hid _ (hm.refs b r hr)
        by_cases hb : b = mainBranch
        · rw [hb, hm.noMain] at hr
          cases hr
        · exact ⟨snap, by simpa [Metadata.target, Metadata.currentId, hb, Metadata.lookupRef, hr, Except.map] using hs⟩
    · intro h
      simp only [IsThere, not_or, not_exists] at h
      have h1 : b ≠ mainBranch := h.1
      have h2 : md.refs.get? b = none := by
        cases hg : md.refs.get? b with
        | none => rfl
        | some r => exact absurd hg (h.2 r)
      simp [Metadata.target, Metadata.currentId, h1, Metadata.lookupRef, h2, Except.map]
  | some v =>
    cases v with
    | id n =>
      constructor
      · rintro ⟨snap, hs⟩
        exact ⟨snap, by simp [Metadata.target, Metadata.versionId, Metadata.snapshot, hs]⟩
      · intro h
        have h2 : md.snaps.get? n = none := by
          cases hg : md.snaps.get? n with
          | none => rfl
          | some r => exact absurd ⟨r, hg⟩ h
        simp [Metadata.target, Metadata.versionId, Metadata.snapshot, h2]
    | name x =>
      constructor
      · rintro ⟨r, hr⟩
        obtain ⟨snap, hs⟩ := hid _ (hm.refs x r hr)
        exact ⟨snap, by simpa [Metadata.target, Metadata.versionId, Metadata.lookupRef, hr, Except.map] using hs⟩
      · intro h
        have h2 : md.refs.get? x = none := by
          cases hg : md.refs.get? x with
          | none => rfl
          | some r => exact absurd ⟨r, hg⟩ h
        simp [Metadata.target, Metadata.versionId, Metadata.lookupRef, h2, Except.map]

theorem manifestFilter_iff {s : Schema} (hn : s.names.Nodup) {f : Option Expr}
    (hf : ∀ e, f = some e → FlatBefore s e) :
    ((∀ e, f = some e → ∀ c ∈ e.cols, c ∈ s.names) → ∃ mf, manifestFilter s f = .ok mf) ∧
      ((¬ ∀ e, f = some e → ∀ c ∈ e.cols, c ∈ s.names) → manifestFilter s f = .error (.other "ArrowInvalid")) := by
  cases f with
  | none => exact ⟨fun _ => ⟨none, rfl⟩, fun h => absurd (fun e he => by cases he) h⟩
  | some e =>
    constructor
    · intro h
      exact manifestFilter_total (h e rfl) ((hf e rfl).aligned hn (h e rfl))
    · intro h
      have : ¬ (e.cols.all (fun c => s.names.contains c) = true) := by
        intro hall
        apply h
        intro e' he c hc
        cases he
        simpa using List.all_eq_true.mp hall c hc
      exact if_neg this

/-- A read of columns of the schema from a version returns if its filter can be converted. -/
theorem readSnap_known {E : Env} {fs : FS} {s : Schema} {o : ReadOpts} {snap : Snapshot}
    (hok : SnapOK fs s snap) {mf : Option MExpr} (hm : manifestFilter s o.filter = .ok mf)
    (hc : ∀ c ∈ o.cols s, c ∈ s.names) : ∃ bs, readSnap E fs s o snap = .ok bs := by
  rcases Bool.eq_false_or_eq_true o.refRead with hr | hr
  · unfold readSnap
    rw [hm]
    simp only
    rw [collectFiles_eq snap.index 1 fun p hp => by
      obtain ⟨rows, h, -⟩ := hok.manifests p hp
      simp [h]]
    simp only
    rw [readFiles_whole hr hc _ (by
      intro f hf
      obtain ⟨p, hp, m, hm', n, rfl, -, -⟩ := packFiles_mem hf
      obtain ⟨g, hg, -⟩ := (hok.manifests p (List.mem_filter.mp hp).1).entry (List.mem_filter.mp hm').1
      exact ⟨Option.isSome_iff_exists.mpr ⟨g, hg⟩, rfl, rfl⟩)]
    exact ⟨_, rfl⟩
  · obtain ⟨bs, h, -⟩ := readSnap_rows (E := E) (o := o) hok hm hc hr
    exact ⟨bs, h⟩

/-- C79, filters on columns with no struct or record field before them: in every reachable state, a read
of columns of the schema (or of all columns), with any batch size, by reference or not, returns if the
version is there and the filter mentions columns of the schema only.  If the version is not there, it raises
the error for versions that are not found.  If it is there and the filter mentions another column, it raises.
Missing: other filters raise although there is nothing wrong with them (`C79_violated`). -/
theorem C79_partial {E : Env} {s : Schema} (hn : s.names.Nodup) {σ : Sys} (h1 : Reach E s anyStep σ)
    {sl : Slot} (hsl : sl ∈ σ.slots) {o : ReadOpts} (hf : ∀ e, o.filter = some e → FlatBefore s e)
    (hc : ∀ c ∈ o.cols s, c ∈ s.names) (v : Option Version) :
    ∃ md, σ.w.stored = some md ∧
      ((∃ rows, tableRead E sl.h σ.w o v = .ok rows) ↔
        IsThere md sl.h.branch v ∧ ∀ e, o.filter = some e → ∀ c ∈ e.cols, c ∈ s.names) ∧
      (tableRead E sl.h σ.w o v = .error .versionNotFound ↔ ¬ IsThere md sl.h.branch v) := by
  obtain ⟨md, hok⟩ := reach_ok hn h1
  refine ⟨md, hok.wok.storedEq, ?_⟩
  rw [tableRead_target hok.wok (hok.slots sl hsl).1]
  obtain ⟨hyes, hno⟩ := isThere_iff hok.wok.ok sl.h.branch v
  by_cases hthere : IsThere md sl.h.branch v
  · obtain ⟨snap, ht⟩ := hyes hthere
    rw [ht]
    simp only
    by_cases hcols : ∀ e, o.filter = some e → ∀ c ∈ e.cols, c ∈ s.names
    · obtain ⟨mf, hm⟩ := (manifestFilter_iff hn hf).1 hcols
      obtain ⟨bs, hb⟩ := readSnap_known (E := E) (target_ok hok.wok ht).1 hm hc
      rw [hb]
      exact ⟨⟨fun _ => ⟨hthere, hcols⟩, fun _ => ⟨_, rfl⟩⟩,
        ⟨fun h => by simp [Except.map] at h, fun h => absurd hthere h⟩⟩
    · have hm := (manifestFilter_iff hn hf).2 hcols
      unfold readSnap
      rw [hm]
      exact ⟨⟨fun ⟨_, h⟩ => by simp [Except.map] at h, fun h => absurd h.2 hcols⟩,
        ⟨fun h => by simp [Except.map] at h, fun h => absurd hthere h⟩⟩
  · rw [hno hthere]
    exact ⟨⟨fun ⟨_, h⟩ => by simp at h, fun h => absurd h.1 hthere⟩, ⟨fun _ => hthere, fun _ => rfl⟩⟩

/-- C79, columns: an unfiltered read that selects a column the schema does not have raises, unless the
version has no files at all; then it returns no rows. -/
theorem C79_columns {E : Env} {s : Schema} (hn : s.names.Nodup) {σ : Sys} (h1 : Reach E s anyStep σ)
    {sl : Slot} (hsl : sl ∈ σ.slots) {o : ReadOpts} (hf : o.filter = none)
    {c : String} (hc : c ∈ o.cols s) (hx : c ∉ s.names) {n : Nat} {md : Metadata} {snap : Snapshot}
    (hmd : σ.w.stored = some md) (hs : md.snaps.get? n = some snap) :
    tableRead E sl.h σ.w o (some (.id n)) =
      if ∀ p ∈ snap.index, entriesOf σ.w.fs p = [] then .ok [] else .error (.other "ArrowInvalid") := by
  obtain ⟨md', hok⟩ := reach_ok hn h1
  obtain rfl : md' = md := by
    have := hok.wok.storedEq
    rw [hmd] at this
    exact (Option.some.inj this).symm
  rw [tableRead_target hok.wok (hok.slots sl hsl).1, target_id]
  have ht : md'.snapshot n = .ok snap := by simp [Metadata.snapshot, hs]
  have hsn := hok.wok.ok.snaps n snap hs
  rw [ht]
  simp only
  unfold readSnap
  rw [hf]
  simp only [manifestFilter]
  rw [collectFiles_eq snap.index 1 fun p hp => by
    obtain ⟨rows, h, -⟩ := hsn.manifests p hp
    simp [h]]
  simp only
  rw [readFiles_bad (fun h => hx (h c hc))]
  have hpaths : (packFiles σ.w.fs none (snap.index.filter (fun p => decide (keptEntries σ.w.fs none p ≠ []))) 1).files = [] ↔
      ∀ p ∈ snap.index, entriesOf σ.w.fs p = [] := by
    have hp := packFiles_paths (fs := σ.w.fs) (mf := none) (ps := snap.index) (mid := 1)
    have hk : ∀ p, keptEntries σ.w.fs none p = entriesOf σ.w.fs p := fun p =>
      List.filter_eq_self.mpr fun _ _ => rfl
    have h0 : (packFiles σ.w.fs none (snap.index.filter (fun p => decide (keptEntries σ.w.fs none p ≠ []))) 1).files = [] ↔
        (packFiles σ.w.fs none (snap.index.filter (fun p => decide (keptEntries σ.w.fs none p ≠ []))) 1).paths = [] := by
      simp [FileSet.paths]
    rw [h0, hp]
    simp [List.flatMap_eq_nil_iff, hk]
  by_cases hall : ∀ p ∈ snap.index, entriesOf σ.w.fs p = []
  · rw [if_pos (hpaths.mpr hall), if_pos hall]
    rfl
  · rw [if_neg (fun h => hall (hpaths.mp h)), if_neg hall]
    rfl

/-- A table with a version, a tag and a branch: reads of each return; reads of others do not. -/
example : ∃ (σ : Sys) (sl : Slot), Reach env schema anyStep σ ∧ sl ∈ σ.slots ∧
    tableRead env sl.h σ.w {} (some (.id 1)) = .ok [row 1 "x" [1]] ∧
    tableRead env sl.h σ.w {} (some (.name "t")) = .ok [row 1 "x" [1]] ∧
    tableRead env sl.h σ.w {} (some (.id 7)) = .error .versionNotFound ∧
    tableRead env sl.h σ.w { fields := some ["nope"] } (some (.id 1)) = .error (.other "ArrowInvalid") ∧
    tableRead env sl.h σ.w { fields := some ["nope"] } (some (.id 0)) = .ok [] := by
  let σ := after env anyB schema [.call 0 (.mutate (.append [[row 1 "x" [1]]])), .call 0 (.addTag "t" none)]
  obtain ⟨sl, -, h1, h2⟩ := slot_of (σ := σ) (i := 0)
    (f := fun sl => decide (tableRead env sl.h σ.w {} (some (.id 1)) = .ok [row 1 "x" [1]] ∧
      tableRead env sl.h σ.w {} (some (.name "t")) = .ok [row 1 "x" [1]] ∧
      tableRead env sl.h σ.w {} (some (.id 7)) = .error .versionNotFound ∧
      tableRead env sl.h σ.w { fields := some ["nope"] } (some (.id 1)) = .error (.other "ArrowInvalid") ∧
      tableRead env sl.h σ.w { fields := some ["nope"] } (some (.id 0)) = .ok []))
    (x := true) (by decide +kernel)
  exact ⟨σ, sl, after_reach (fun _ _ _ => trivial) _, h1, of_decide_eq_true h2⟩

/-- A filter on the key of a schema without structs and record fields meets the hypothesis. -/
example : FlatBefore schema (.bin "equal" (.sel "id") (.lit (.int 1))) := by
  intro pre f post hs hcol
  cases pre with
  | nil => simp
  | cons a pre =>
    exfalso
    have hnd : schema.names.Nodup := by decide
    simp only [Expr.cols, List.mem_cons, List.append_nil, List.not_mem_nil, or_false] at hcol
    have ha : a.name = "id" := by
      have := congrArg (fun l => (l.head?).map Field.name) hs
      simpa [schema] using this.symm
    rw [Schema.names, hs] at hnd
    simp [ha, hcol] at hnd

/-- C79 is false for filters on a column that has a struct before it: the column is in the schema, the
version is there and can be read without the filter, but the read with the filter raises. -/
theorem C79_violated : ∃ (σ : Sys) (sl : Slot) (e : Expr), Reach env nestedFirst anyStep σ ∧ sl ∈ σ.slots ∧
    (∀ c ∈ e.cols, c ∈ nestedFirst.names) ∧ tableRead env sl.h σ.w {} none = .ok [rowP 5 6 1] ∧
    tableRead env sl.h σ.w { filter := some e } none = .error (.other "KeyError") := by
  obtain ⟨σ, sl, h1, h2, h3, h4⟩ := C05_violated_nested
  exact ⟨σ, sl, _, h1, h2, by decide, h3, h4⟩

end Space
