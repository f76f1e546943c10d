import Verif.RandomAccessLemmas

/-!
# C32: random access

The array record data source exposes each address once, in an order of its own; the Arrow
data source follows the address list.
-/

namespace Space

/-- `groups` is the result of grouping the row ids of an address list by file: one group for
each file in the list, holding the row ids of that file with their repetitions, in any
order. -/
structure Grouped (addrs : List (Path × Nat)) (groups : List (Path × List Nat)) : Prop where
  files : (groups.map Prod.fst).Nodup
  all : ∀ a ∈ addrs, a.1 ∈ groups.map Prod.fst
  rows : ∀ g ∈ groups, g.2.Perm ((addrs.filter (fun a => a.1 = g.1)).map Prod.snd)

/-- The record stored at an address. -/
def recordAt (fs : FS) (a : Path × Nat) : Option (List Nat) :=
  (fs.records a.1).bind (·[a.2]?)

theorem groupRows_get : ∀ (as : List (Path × Nat)) (m : AMap Path (List Nat)) (p : Path),
    (m.keys.Nodup → (groupRows as m).keys.Nodup) ∧
      (groupRows as m).get? p =
        if (as.filter (fun a => a.1 = p)) = [] then m.get? p
        else some ((m.get? p).getD [] ++ (as.filter (fun a => a.1 = p)).map Prod.snd)
  | [], m, p => by simp [groupRows]
  | (q, i) :: as, m, p => by
    have ih := groupRows_get as (m.set q ((m.get? q).getD [] ++ [i])) p
    refine ⟨fun h => ih.1 (AMap.keys_set_nodup h), ?_⟩
    simp only [groupRows]
    rw [ih.2]
    by_cases hq : q = p
    · subst hq
      simp only [AMap.get?_set_self, Option.getD_some, List.filter_cons, decide_true, if_true,
        List.map_cons, List.append_assoc, List.cons_append, List.nil_append, reduceCtorEq, if_false]
      split
      · rename_i h; rw [h]; rfl
      · rfl
    · simp only [AMap.get?_set_ne _ _ (Ne.symm hq), List.filter_cons, hq, decide_false,
        Bool.false_eq_true, if_false]

/-- Grouping by first occurrence is a grouping. -/
theorem groupRows_grouped (addrs : List (Path × Nat)) : Grouped addrs (groupRows addrs []) := by
  have hn : (groupRows addrs []).keys.Nodup := (groupRows_get addrs [] .entryPoint).1 List.nodup_nil
  refine ⟨hn, fun a ha => ?_, fun g hg => ?_⟩
  · have := (groupRows_get addrs [] a.1).2
    refine AMap.mem_keys_iff.mpr ⟨_, this.trans (if_neg fun h => ?_)⟩
    rw [List.filter_eq_nil_iff] at h
    exact h a ha (by simp)
  · have h1 := AMap.get?_of_mem (k := g.1) (v := g.2) hn hg
    rw [(groupRows_get addrs [] g.1).2] at h1
    split at h1
    · cases h1
    · simp only [AMap.get?_nil, Option.getD_none, List.nil_append, Option.some.injEq] at h1
      rw [h1]

/-- **C32** (partial).  The array record data source built from any list of addresses exposes
every address of the list, only those, and each exactly once.  Missing: an address that
occurs several times is exposed once, and the order is by file and row id, not that of the
list (`C32_violated_order`, `C32_violated_repeated`). -/
theorem C32_partial {addrs : List (Path × Nat)} {groups : List (Path × List Nat)}
    (hg : Grouped addrs groups) :
    (exposed (buildFileInstructions groups)).Nodup ∧
      ∀ a, a ∈ exposed (buildFileInstructions groups) ↔ a ∈ addrs := by
  rw [exposed_build]
  constructor
  · exact nodup_flatMap_keys (fun g => squeeze (g.2.mergeSort (· ≤ ·))) hg.files
      fun g _ => nodup_squeeze_sort g.2
  · intro a
    simp only [List.mem_flatMap, List.mem_map, mem_squeeze_sort]
    constructor
    · rintro ⟨g, hm, r, hr, rfl⟩
      have := (hg.rows g hm).mem_iff.mp hr
      obtain ⟨⟨p, r'⟩, h1, rfl⟩ := List.mem_map.mp this
      have h2 := List.mem_filter.mp h1
      have : p = g.1 := by simpa using h2.2
      exact this ▸ h2.1
    · intro ha
      obtain ⟨g, hm, he⟩ := List.mem_map.mp (hg.all a ha)
      refine ⟨g, hm, a.2, (hg.rows g hm).mem_iff.mpr ?_, by rw [he]⟩
      exact List.mem_map_of_mem (f := Prod.snd) (List.mem_filter.mpr ⟨ha, by simp [he]⟩)

/-- **C32** (partial).  From the address list to the data source, with groups in order of first
occurrence: every address of the list is exposed, only those, each exactly once. -/
theorem C32_source_partial (addrs : List (Path × Nat)) :
    (exposed (buildFileInstructions (groupRows addrs []))).Nodup ∧
      ∀ a, a ∈ exposed (buildFileInstructions (groupRows addrs [])) ↔ a ∈ addrs :=
  C32_partial (groupRows_grouped addrs)

/-- **C32** (partial).  When no address is repeated, the exposed records are those of the
list, each once, up to order. -/
theorem C32_distinct_partial {addrs : List (Path × Nat)} {groups : List (Path × List Nat)}
    (hg : Grouped addrs groups) (hd : addrs.Nodup) :
    (exposed (buildFileInstructions groups)).Perm addrs := by
  obtain ⟨h1, h2⟩ := C32_partial hg
  exact (List.perm_ext_iff_of_nodup h1 hd).mpr h2

/-- **C32** (partial).  When the list names its files one after the other, in the order of
the groups, with increasing row ids in each file, the exposed records are the list itself. -/
theorem C32_sorted_partial {addrs : List (Path × Nat)} {groups : List (Path × List Nat)}
    (ha : addrs = groups.flatMap (fun g => g.2.map (fun r => (g.1, r))))
    (hs : ∀ g ∈ groups, g.2.Pairwise (· < ·)) :
    exposed (buildFileInstructions groups) = addrs := by
  rw [exposed_build, ha]
  have : ∀ g ∈ groups, squeeze (g.2.mergeSort (· ≤ ·)) = g.2 := by
    intro g hm
    rw [List.mergeSort_of_pairwise, squeeze_of_lt (hs g hm)]
    exact (hs g hm).imp fun h => by simpa using Nat.le_of_lt h
  unfold List.flatMap
  congr 1
  exact List.map_congr_left fun g hm => by rw [this g hm]

/-- **C32** (element access).  The `k`-th element of the array record data source is the
record stored at the `k`-th exposed address, and it raises when there is none. -/
theorem C32_get (fs : FS) (is : List FileInstr) (k : Nat) (b : List Nat) :
    arrayGet fs is k = .ok b ↔ ((exposed is)[k]?).bind (recordAt fs) = some b := by
  unfold arrayGet recordAt
  cases (exposed is)[k]? with
  | none => simp
  | some a =>
    obtain ⟨p, r⟩ := a
    dsimp only [Option.bind_some]
    cases fs.records p with
    | none => simp
    | some rs =>
      dsimp only [Option.bind_some]
      cases rs[r]? <;> simp

/-- Instructions never reach beyond the number of records they state. -/
theorem C32_bounds {groups : List (Path × List Nat)} :
    ∀ i ∈ buildFileInstructions groups, i.skip + i.take ≤ i.total ∧ 0 < i.take := by
  have key : ∀ (p : Path) (n : Nat) (l : List Nat) (s i : Nat), s ≤ i → (i :: l).Pairwise (· ≤ ·) →
      (∀ x ∈ i :: l, x + 1 ≤ n) → ∀ j ∈ runsFrom p n s (i :: l), j.skip + j.take ≤ j.total ∧ 0 < j.take := by
    intro p n l
    induction l with
    | nil =>
      intro s i h _ hn j hj
      simp only [runsFrom, List.mem_singleton] at hj
      have := hn i List.mem_cons_self
      subst hj
      simp only [fileInstruction]
      omega
    | cons k l ih =>
      intro s i h hs hn j hj
      have h2 := List.pairwise_cons.mp hs
      have hik : i ≤ k := h2.1 k List.mem_cons_self
      have hn' : ∀ x ∈ k :: l, x + 1 ≤ n := fun x hx => hn x (List.mem_cons_of_mem _ hx)
      simp only [runsFrom] at hj
      split at hj
      · rcases List.mem_cons.mp hj with rfl | hj
        · have := hn i List.mem_cons_self
          simp only [fileInstruction]
          omega
        · exact ih k k (Nat.le_refl k) h2.2 hn' j hj
      · exact ih s k (by omega) h2.2 hn' j hj
  intro i hi
  obtain ⟨g, -, hi⟩ := List.mem_flatMap.mp hi
  unfold fileRuns at hi
  have hs := sorted_mergeSort_le g.2
  generalize g.2.mergeSort (· ≤ ·) = l at hs hi
  cases l with
  | nil => cases hi
  | cons a l =>
    dsimp only at hi
    refine key g.1 _ l a a (Nat.le_refl a) hs (fun x hx => ?_) i hi
    have hlast : ∀ (l : List Nat) (a x : Nat), (a :: l).Pairwise (· ≤ ·) → x ∈ a :: l →
        x ≤ (a :: l).getLastD 0 := by
      intro l
      induction l with
      | nil => intro a x _ hx; simp at hx; simp [hx]
      | cons b l ih =>
        intro a x hs hx
        have h2 := List.pairwise_cons.mp hs
        rcases List.mem_cons.mp hx with rfl | hx
        · have h3 := ih b b h2.2 List.mem_cons_self
          have h4 := h2.1 b List.mem_cons_self
          simp only [List.getLastD_cons] at h3 ⊢
          omega
        · simpa [List.getLastD_cons] using ih b x h2.2 hx
    have := hlast l a x hs hx
    omega

/-- **C32 is violated** (order): the first exposed record is not that of the first
address. -/
theorem C32_violated_order : ∃ addrs : List (Path × Nat), addrs.Nodup ∧
    exposed (buildFileInstructions (groupRows addrs [])) ≠ addrs := by
  refine ⟨[(.record "f" 0, 1), (.record "f" 0, 0)], by decide, fun h => ?_⟩
  have h2 := exposed_build (groupRows [(.record "f" 0, 1), (.record "f" 0, 0)] [])
  rw [h] at h2
  have h3 : List.mergeSort [1, 0] (fun a b : Nat => decide (a ≤ b)) = [0, 1] := by
    simp [List.mergeSort, List.MergeSort.Internal.splitInTwo, List.merge]
  simp [groupRows, AMap.set, AMap.get?, h3, squeeze] at h2

/-- **C32 is violated** (repetitions): an address asked for twice is exposed once, whatever
the order of the groups. -/
theorem C32_violated_repeated : ∃ addrs : List (Path × Nat), ∀ groups, Grouped addrs groups →
    (exposed (buildFileInstructions groups)).length ≠ addrs.length := by
  refine ⟨[(.record "f" 0, 3), (.record "f" 0, 3)], fun groups hg h => ?_⟩
  obtain ⟨h1, h2⟩ := C32_partial hg
  match hl : exposed (buildFileInstructions groups) with
  | [] => rw [hl] at h; simp at h
  | [_] => rw [hl] at h; simp at h
  | a :: b :: l =>
    rw [hl] at h1 h2
    have ha := (h2 a).mp (by simp)
    have hb := (h2 b).mp (by simp)
    simp only [List.mem_cons, List.not_mem_nil, or_false, or_self] at ha hb
    simp [ha, hb] at h1

/-- **C32** (Arrow data source, one index).  For every table of addresses and every index,
the element is, for each feature field, the record stored at the address of that row; it
raises exactly when some address or record does not exist. -/
theorem C32_arrow (fs : FS) (t : AddrTable) (k : Nat) (m : AMap String (List Nat)) :
    arrowGet fs t k = .ok m ↔
      m.map (fun x => (x.1, some x.2)) = t.map (fun x => (x.1, (x.2[k]?).bind (recordAt fs))) := by
  induction t generalizing m with
  | nil => cases m <;> simp [arrowGet]
  | cons x t ih =>
    obtain ⟨f, col⟩ := x
    simp only [arrowGet, List.map_cons]
    cases hk : col[k]? with
    | none => cases m <;> simp
    | some a =>
      simp only [readRecordFile, Option.bind_some, recordAt]
      cases hr : fs.records a.1 with
      | none => cases m <;> simp
      | some rs =>
        simp only [pick, Option.bind_some]
        cases hb : rs[a.2]? with
        | none => cases m <;> simp
        | some b =>
          simp only
          cases hg : arrowGet fs t k with
          | error e =>
            simp only [reduceCtorEq, false_iff]
            cases m with
            | nil => simp
            | cons y m =>
              simp only [List.map_cons, List.cons.injEq, not_and]
              intro _ h2
              rw [(ih m).mpr h2] at hg
              cases hg
          | ok m' =>
            simp only [Except.ok.injEq]
            have hm' := (ih m').mp hg
            constructor
            · rintro rfl
              simp [hm']
            · intro h2
              cases m with
              | nil => simp at h2
              | cons y m =>
                obtain ⟨y1, y2⟩ := y
                simp only [List.map_cons, List.cons.injEq, Prod.mk.injEq, Option.some.injEq] at h2
                have := (ih m).mpr h2.2
                rw [hg] at this
                cases this
                rw [h2.1.1, h2.1.2]

/-- **C32** (Arrow data source, many indexes).  Asking for a list of existing records gives,
for each feature field, the records in the order asked for, with repetitions. -/
theorem C32_arrow_many (fs : FS) : ∀ (t : AddrTable) (ks : List Nat),
    (∀ x ∈ t, ∀ k ∈ ks, ∃ a b, x.2[k]? = some a ∧ recordAt fs a = some b) →
    ∃ m, arrowGetMany fs t ks = .ok m ∧ m.keys = t.keys ∧
      ∀ (j : Nat) (f : String) (vs : List Val), m[j]? = some (f, vs) → vs.length = ks.length ∧
        ∀ (i k : Nat), ks[i]? = some k → ∃ col a b, t[j]? = some (f, col) ∧ col[k]? = some a ∧
          recordAt fs a = some b ∧ vs[i]? = some (.sc (.bytes b))
  | [], ks, _ => ⟨[], rfl, rfl, fun j f vs h => by simp at h⟩
  | (f, col) :: t, ks, h => by
    obtain ⟨m, h1, h2, h3⟩ := C32_arrow_many fs t ks fun x hx => h x (List.mem_cons_of_mem _ hx)
    have hcol := h (f, col) List.mem_cons_self
    have htake : ∀ ks : List Nat, (∀ k ∈ ks, ∃ a b, col[k]? = some a ∧ recordAt fs a = some b) →
        ∃ as, takeAddrs col ks = .ok as ∧ as.map some = ks.map (col[·]?) := by
      intro ks
      induction ks with
      | nil => intro _; exact ⟨[], rfl, rfl⟩
      | cons k ks ih =>
        intro hk
        obtain ⟨a, b, ha, -⟩ := hk k List.mem_cons_self
        obtain ⟨as, e1, e2⟩ := ih fun x hx => hk x (List.mem_cons_of_mem _ hx)
        exact ⟨a :: as, by simp [takeAddrs, ha, e1], by simp [ha, e2]⟩
    obtain ⟨as, e1, e2⟩ := htake ks hcol
    have hget : ∀ (i k : Nat), ks[i]? = some k → ∃ a b, as[i]? = some a ∧ col[k]? = some a ∧
        recordAt fs a = some b := by
      intro i k hik
      obtain ⟨a, b, ha, hb⟩ := hcol k (List.mem_of_getElem? hik)
      refine ⟨a, b, ?_, ha, hb⟩
      have := congrArg (·[i]?) e2
      simpa [hik, ha] using this
    have hlen : as.length = ks.length := by simpa using congrArg List.length e2
    have hval : ∀ v ∈ as.map (fun a => Val.addr a.1 a.2), AddrVal fs.records v := by
      intro v hv
      obtain ⟨a, ha, rfl⟩ := List.mem_map.mp hv
      obtain ⟨i, hi⟩ := List.mem_iff_getElem?.mp ha
      have hi' : i < ks.length := hlen ▸ (List.getElem?_eq_some_iff.mp hi).1
      obtain ⟨a', b, h4, h5, h6⟩ := hget i ks[i] (List.getElem?_eq_getElem hi')
      rw [hi] at h4
      cases h4
      unfold recordAt at h6
      cases hr : fs.records a.1 with
      | none => rw [hr] at h6; cases h6
      | some rs =>
        rw [hr] at h6
        exact ⟨a.1, a.2, rs, rfl, hr, (List.getElem?_eq_some_iff.mp h6).1⟩
    refine ⟨(f, (as.map (fun a => Val.addr a.1 a.2)).map (derefVal fs.records)) :: m, ?_, ?_, ?_⟩
    · simp only [arrowGetMany, e1, readRecordColumn_eq hval, h1]
    · simpa [AMap.keys] using h2
    · intro j g vs hj
      cases j with
      | zero =>
        simp only [List.getElem?_cons_zero, Option.some.injEq, Prod.mk.injEq] at hj
        obtain ⟨rfl, rfl⟩ := hj
        refine ⟨by simp [hlen], fun i k hik => ?_⟩
        obtain ⟨a, b, h4, h5, h6⟩ := hget i k hik
        refine ⟨col, a, b, rfl, h5, h6, ?_⟩
        simp only [List.getElem?_map, h4, Option.map_some, derefVal]
        unfold recordAt at h6
        cases hr : fs.records a.1 with
        | none => rw [hr] at h6; cases h6
        | some rs =>
          rw [hr] at h6
          simp only [Option.bind_some] at h6
          simp [h6, Val.ofRecord]
      | succ j =>
        simp only [List.getElem?_cons_succ] at hj ⊢
        exact h3 j g vs hj

/-! ## A concrete case -/

namespace Demo

/-- Two record files. -/
def recordFs : FS :=
  [(.record "f" 0, .records [[1], [2], [3], [4], [5]]), (.record "f" 1, .records [[6], [7]])]

/-- Addresses over both files, out of order, with a gap. -/
def addrs : List (Path × Nat) :=
  [(.record "f" 0, 4), (.record "f" 1, 1), (.record "f" 0, 0), (.record "f" 0, 1)]

end Demo

example : Grouped Demo.addrs (groupRows Demo.addrs []) ∧ Demo.addrs.Nodup :=
  ⟨groupRows_grouped _, by decide⟩

example : (arrowGet Demo.recordFs [("f", Demo.addrs)] 1).toOption = some [("f", [7])] := by decide

example : ∀ x ∈ ([("f", Demo.addrs)] : AddrTable), ∀ k ∈ [3, 1, 3],
    ∃ a b, x.2[k]? = some a ∧ recordAt Demo.recordFs a = some b := by
  intro x hx k hk
  simp only [List.mem_cons, List.not_mem_nil, or_false] at hx hk
  subst hx
  rcases hk with rfl | rfl | rfl
  · exact ⟨(.record "f" 0, 1), [2], rfl, rfl⟩
  · exact ⟨(.record "f" 1, 1), [7], rfl, rfl⟩
  · exact ⟨(.record "f" 0, 1), [2], rfl, rfl⟩

end Space
