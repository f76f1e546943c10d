import Verif.Props.Stats

/-!
# C53, C54: record files and record fields
-/

set_option autoImplicit false

namespace Space

open Demo

/-- The entries of a record manifest. -/
def recEntriesOf (fs : FS) (p : Path) : List RecManifestRow := (fs.rmanifest p).getD []

/-- A record file holds `rs`: its manifest entry carries the id of a record field, the
number of records, and the bytes of the column chunks the records were written in. -/
structure ListedRight (E : Env) (s : Schema) (fs : FS) (m : RecManifestRow) : Prop where
  field : ∃ f ∈ s.recFields, m.fid = f.fid ∧ ∃ u, m.file = .record f.name u
  records : ∃ (rs : List (List Nat)) (chunks : List (List (List Nat))), fs.records m.file = some rs ∧ m.numRows = rs.length ∧ chunks.flatten = rs ∧
    m.bytes = (chunks.map (fun c => E.columnBytes (c.map (fun b => Val.sc (.bytes b))))).sum

/-- C54: when an append takes effect, the new version has the record manifests of the old
one and new ones.  The new ones list exactly the record files that the append wrote (it ran
from `w` to `w1`), each once, with the right field id, number of records and bytes. -/
theorem C54 {E : Env} {s : Schema} (hn : s.names.Nodup) {i : Nat} {tables : List (List Row)} {σ σ' : Sys}
    (h : Done E s i (.append tables) σ σ') :
    ∃ sl sl' cur snap new h1 w p w1, σ.slots[i]? = some sl ∧ σ'.slots[i]? = some sl' ∧
      headOf sl.h σ.w = some cur ∧ headOf sl'.h σ'.w = some snap ∧ snap.recs = cur.recs ++ new ∧
      (Mutation.append tables).body E h1 w = (.ok (some p), w1) ∧ FSLe w.fs σ.w.fs ∧ FSLe w1.fs σ'.w.fs ∧
      ((new.flatMap (recEntriesOf σ'.w.fs)).map (·.file)).Nodup ∧
      (∀ m ∈ new.flatMap (recEntriesOf σ'.w.fs), ListedRight E s σ'.w.fs m) ∧
      ∀ q, (q ∈ (new.flatMap (recEntriesOf σ'.w.fs)).map (·.file) ↔
        (w1.fs.records q).isSome ∧ w.fs.records q = none) := by
  obtain ⟨sl, sl', w, h1, w1, p, cur, snap, hl, -, -⟩ := h.landing hn
  obtain ⟨-, -, P, mf, rmf, hf, -, -⟩ := hl.succ.append
  have hents : p.addRec.flatMap (recEntriesOf σ'.w.fs) = rmf := by
    rcases hf.recs p rfl with ⟨rfl, h⟩ | ⟨v, -, h, hm⟩
    · simp [h]
    · simp [h, recEntriesOf, hl.succ.le.rmanifest hm]
  refine ⟨sl, sl', cur, snap, p.addRec, h1, w, p, w1, hl.slot, hl.slot', hl.succ.head, hl.succ.head',
    hl.succ.recs, hl.succ.body, hl.succ.earlier, hl.succ.le, ?_, ?_, ?_⟩
  · rw [hents]; exact hf.recNodup
  · rw [hents]
    intro m hm
    obtain ⟨f, hf1, u, rs, h2, h3, h4, h5, cols, h6, h7⟩ := hf.recEnts m hm
    exact ⟨⟨f, hf1, h3, u, h2⟩, rs, cols, hl.succ.le.records h4, h5, h6, h7⟩
  · rw [hents]
    intro q
    constructor
    · intro hq
      obtain ⟨m, hm, rfl⟩ := List.mem_map.mp hq
      obtain ⟨f, -, u, rs, -, -, h4, -⟩ := hf.recEnts m hm
      refine ⟨by simp [h4], ?_⟩
      obtain ⟨f', u', h6, h7⟩ := hf.recNew m hm
      rw [h6]
      have := hl.succ.fresh (.record f' u') u' rfl h7
      simp [FS.records, this]
    · rintro ⟨hq, hq0⟩
      obtain ⟨rs, hrs⟩ := Option.isSome_iff_exists.mp hq
      obtain ⟨m, hm, rfl⟩ := hf.recAll q rs hrs hq0
      exact List.mem_map_of_mem hm

/-- An append over the size at which record files are cut: two new record files are
listed besides the one of the version before. -/
example : ∃ σ σ' : Sys, Done env schema 0 (.append [[row 2 "b" [2, 2, 2], row 3 "c" [3]], [row 4 "d" [4, 4, 4, 4, 4], row 5 "e" [5, 5, 5]],
      [row 6 "f" [6, 6, 6, 6], row 7 "g" [7]]]) σ σ' ∧
    σ.slots.map (fun sl => (headOf sl.h σ.w).map (fun c => c.recs.length)) = [some 1] ∧
    σ'.slots.map (fun sl => (headOf sl.h σ'.w).map (fun c => c.recs.map fun p => (recEntriesOf σ'.w.fs p).map (·.numRows))) =
      [some [[1], [4, 2]]] := by
  let σ := after env anyB schema [.call 0 (.mutate (.append [[row 1 "a" [1]]]))]
  let m : Mutation := .append [[row 2 "b" [2, 2, 2], row 3 "c" [3]], [row 4 "d" [4, 4, 4, 4, 4], row 5 "e" [5, 5, 5]],
      [row 6 "f" [6, 6, 6, 6], row 7 "g" [7]]]
  obtain ⟨e, hst⟩ := doing_step (E := env) (s := schema) (σ := σ) (a := .call 0 (.mutate m))
    (o := .res (.job .succeeded)) (by decide +kernel)
  exact ⟨σ, _, .call (after_reach (fun _ _ _ => trivial) _) hst, by decide +kernel, by decide +kernel⟩

/-! ## C53 -/

/-- C53, the part that holds: if the record fields come last in the schema, in any state,
on a branch that exists, any rows with the columns of the schema can be appended, and are
read back.  Missing: the other positions of record fields, see `C53_refused`. -/
theorem C53_partial {E : Env} {s : Schema} (hk : KeySchema s) (hlast : s.writeNames = s.names)
    {σ : Sys} (hr : Reach E s anyStep σ) {i : Nat} {sl : Slot} (hsl : σ.slots[i]? = some sl)
    (hi : sl.phase = .idle) (hb : branchIn sl.h.branch σ) {tables : List (List Row)}
    (hne : tables.flatten ≠ []) (hc : ∀ t ∈ tables, ∀ r ∈ t, r.cols = s.names)
    (ht : ∀ t ∈ tables, ∀ r ∈ t, Takes s r) :
    ∃ σ' old, Step E s σ (.call i (.mutate (.append tables)) (.job .succeeded)) σ' ∧
      Reads E σ sl.h.branch old ∧ Reads E σ' sl.h.branch (old ++ tables.flatten) := by
  obtain ⟨σ', hst⟩ := C01_succeeds (E := E) hk hlast hr hsl hi hb ht
  rw [if_neg hne] at hst
  obtain ⟨sl1, old, h1, h2, h3⟩ := C01 hk.names hlast (.call hr hst) hc
  rw [hsl] at h1
  cases h1
  exact ⟨σ', old, hst, h2, h3⟩

/-- The other positions: if some record field comes before an index field, no append takes
effect, in any history and whatever the rows. -/
theorem C53_refused {E : Env} {s : Schema} (hn : s.names.Nodup) (hlast : s.writeNames ≠ s.names)
    {i : Nat} {tables : List (List Row)} {σ σ' : Sys} : ¬ Done E s i (.append tables) σ σ' := by
  intro h
  obtain ⟨sl, sl', w, h1, w1, p, cur, snap, hl, -, -⟩ := h.landing hn
  obtain ⟨-, hrows, P, mf, rmf, hf, hP, -⟩ := hl.succ.append
  have hne : P ≠ [] := by
    rintro rfl
    have h2 := hf.none_iff.mpr (by rw [sumRows_zero hf.ents, hf.rowsEq]; rfl)
    cases h2
  obtain ⟨r, hr⟩ := List.exists_mem_of_ne_nil _ hne
  have hr1 := hr
  rw [← hf.rowsEq] at hr1
  obtain ⟨m, hm, hmr⟩ := List.mem_flatMap.mp hr1
  obtain ⟨groups, hg, -, -, hok⟩ := hf.ents m hm
  have hc : s.conforms r = true := (hok r (by simpa [fileRows, hg] using hmr)).1
  have hcols : (deref w1.fs.records s r).cols = s.writeNames := by
    have : deref w1.fs.records s r ∈ P.map (deref w1.fs.records s) := List.mem_map_of_mem hr
    rw [hP] at this
    obtain ⟨r', -, hr'⟩ := List.mem_map.mp this
    rw [← hr']
    exact select_cols _ _
  rw [deref_cols] at hcols
  have := conforms_cols hc
  exact hlast (hcols.symm.trans this)

/-- A schema whose record field comes before an index field. -/
def Demo.recMid : Schema :=
  { fields := [⟨"id", 0, .int⟩, ⟨"img", 1, .bytes⟩, ⟨"txt", 2, .str⟩], pks := ["id"], recs := ["img"] }

/-- C53 fails: right after creation, a row with the columns of an accepted schema, in order
and of the right types, is refused with an error. -/
theorem C53_violated : ∃ (s : Schema) (σ σ' : Sys) (r : Row) (e : Err), KeySchema s ∧ r.cols = s.names ∧
    Takes s r ∧ Reach env s anyStep σ ∧ (∃ sl, σ.slots[0]? = some sl ∧ sl.h.branch = mainBranch) ∧
    Step env s σ (.call 0 (.mutate (.append [[r]])) (.raised e)) σ' := by
  let σ := after env anyB recMid []
  let r : Row := [("id", .sc (.int 1)), ("img", .sc (.bytes [7])), ("txt", .sc (.str "a"))]
  obtain ⟨e, hst⟩ := doing_step (E := env) (s := recMid) (σ := σ) (a := .call 0 (.mutate (.append [[r]])))
    (o := .res (.raised (.other "ValueError"))) (by decide +kernel)
  refine ⟨recMid, σ, _, r, _, ?_, rfl, ⟨?_, ?_, ?_, ?_⟩, after_reach (fun _ _ _ => trivial) [], ⟨_, rfl, rfl⟩, hst⟩
  · refine ⟨?_, ?_, ?_, ?_, ?_, ?_⟩ <;> decide
  · decide
  · decide
  · intro f hf hr
    simp only [recMid, List.mem_cons, List.not_mem_nil, or_false] at hf hr
    rcases hf with rfl | rfl | rfl
    · simp at hr
    · exact ⟨[7], rfl⟩
    · simp at hr
  · intro k hk
    simp only [recMid, List.mem_cons, List.not_mem_nil, or_false] at hk
    subst hk
    exact ⟨_, rfl, by intro h; cases h⟩

end Space
