import Verif.AppendLemmas

/-! # Reading: record columns, batches, files -/

namespace Space

/-! ## Record columns -/

/-- `x` is among the positions grouped under `p`. -/
def InGroup (m : AMap Path (List (Nat × Nat))) (p : Path) (x : Nat × Nat) : Prop :=
  ∃ xs, (p, xs) ∈ m ∧ x ∈ xs

theorem inGroup_add (m : AMap Path (List (Nat × Nat))) (p q : Path) (x y : Nat × Nat) :
    InGroup (groupAdd m p x) q y ↔ InGroup m q y ∨ (q = p ∧ y = x) := by
  unfold groupAdd
  induction m with
  | nil =>
    simp only [InGroup, AMap.set, AMap.get?, Option.getD_none, List.nil_append, List.mem_singleton,
      Prod.mk.injEq, List.not_mem_nil, false_and, exists_false, false_or]
    constructor
    · rintro ⟨xs, ⟨rfl, rfl⟩, hy⟩; exact ⟨rfl, by simpa using hy⟩
    · rintro ⟨rfl, rfl⟩; exact ⟨_, ⟨rfl, rfl⟩, by simp⟩
  | cons e m ih =>
    obtain ⟨k, v⟩ := e
    simp only [AMap.get?, AMap.set]
    by_cases h : k = p
    · subst h
      simp only [ite_true, Option.getD_some, InGroup, List.mem_cons, Prod.mk.injEq]
      constructor
      · rintro ⟨xs, (⟨rfl, rfl⟩ | h), hy⟩
        · simp only [List.mem_append, List.mem_singleton] at hy
          rcases hy with hy | rfl
          · exact Or.inl ⟨v, Or.inl ⟨rfl, rfl⟩, hy⟩
          · exact Or.inr ⟨rfl, rfl⟩
        · exact Or.inl ⟨xs, Or.inr h, hy⟩
      · rintro (⟨xs, (⟨rfl, rfl⟩ | h), hy⟩ | ⟨rfl, rfl⟩)
        · exact ⟨_, Or.inl ⟨rfl, rfl⟩, by simp [hy]⟩
        · exact ⟨xs, Or.inr h, hy⟩
        · exact ⟨_, Or.inl ⟨rfl, rfl⟩, by simp⟩
    · simp only [h, ite_false]
      constructor
      · rintro ⟨xs, hm, hy⟩
        rcases List.mem_cons.mp hm with hm | hm
        · exact Or.inl ⟨xs, by rw [hm]; exact List.mem_cons_self .., hy⟩
        · rcases ih.mp ⟨xs, hm, hy⟩ with ⟨xs', h1, h2⟩ | h'
          · exact Or.inl ⟨xs', List.mem_cons_of_mem _ h1, h2⟩
          · exact Or.inr h'
      · rintro (⟨xs, hm, hy⟩ | h')
        · rcases List.mem_cons.mp hm with hm | hm
          · exact ⟨xs, by rw [hm]; exact List.mem_cons_self .., hy⟩
          · obtain ⟨xs', h1, h2⟩ := ih.mpr (Or.inl ⟨xs, hm, hy⟩)
            exact ⟨xs', List.mem_cons_of_mem _ h1, h2⟩
        · obtain ⟨xs', h1, h2⟩ := ih.mpr (Or.inr h')
          exact ⟨xs', List.mem_cons_of_mem _ h1, h2⟩

theorem groupAddrs_ok : ∀ (vs : List Val) (k : Nat) (m m' : AMap Path (List (Nat × Nat))),
    groupAddrs vs k m = .ok m' →
    (∀ v ∈ vs, ∃ p i, v = .addr p i) ∧
      ∀ p x, InGroup m' p x ↔ InGroup m p x ∨ ∃ j, vs[j]? = some (.addr p x.1) ∧ x.2 = k + j
  | [], k, m, m', h => by
    simp only [groupAddrs, Except.ok.injEq] at h
    subst h
    simp
  | .addr p i :: vs, k, m, m', h => by
    simp only [groupAddrs] at h
    obtain ⟨h1, h2⟩ := groupAddrs_ok vs _ _ _ h
    refine ⟨?_, ?_⟩
    · intro v hv
      rcases List.mem_cons.mp hv with rfl | hv
      · exact ⟨p, i, rfl⟩
      · exact h1 v hv
    · intro q x
      rw [h2, inGroup_add]
      obtain ⟨xi, xk⟩ := x
      constructor
      · rintro ((h | ⟨rfl, hx⟩) | ⟨j, hj, hk⟩)
        · exact Or.inl h
        · simp only [Prod.mk.injEq] at hx
          exact Or.inr ⟨0, by simp [hx.1], by simp [hx.2]⟩
        · exact Or.inr ⟨j + 1, by simpa using hj, by simp only at hk ⊢; omega⟩
      · rintro (h | ⟨j, hj, hk⟩)
        · exact Or.inl (Or.inl h)
        · cases j with
          | zero =>
            simp only [List.getElem?_cons_zero, Option.some.injEq, Val.addr.injEq] at hj
            simp only [Nat.add_zero] at hk
            exact Or.inl (Or.inr ⟨hj.1.symm, by rw [hk, hj.2]⟩)
          | succ j =>
            exact Or.inr ⟨j, by simpa using hj, by simp only at hk ⊢; omega⟩
  | .null :: _, _, _, _, h => by simp [groupAddrs] at h
  | .sc _ :: _, _, _, _, h => by simp [groupAddrs] at h
  | .struct _ :: _, _, _, _, h => by simp [groupAddrs] at h

theorem groupAddrs_total : ∀ (vs : List Val) (k : Nat) (m : AMap Path (List (Nat × Nat))),
    (∀ v ∈ vs, ∃ p i, v = .addr p i) → ∃ m', groupAddrs vs k m = .ok m'
  | [], _, m, _ => ⟨m, rfl⟩
  | v :: vs, k, m, h => by
    obtain ⟨p, i, rfl⟩ := h v (List.mem_cons_self ..)
    simp only [groupAddrs]
    exact groupAddrs_total vs _ _ fun v hv => h v (List.mem_cons_of_mem _ hv)

theorem pick_ok {rs : List (List Nat)} : ∀ {is : List Nat} {out : List (List Nat)},
    pick rs is = .ok out ↔ out.map some = is.map (rs[·]?)
  | [], out => by cases out <;> simp [pick]
  | i :: is, out => by
    simp only [pick]
    cases hi : rs[i]? with
    | none => cases out <;> simp [hi]
    | some r =>
      simp only
      cases hp : pick rs is with
      | error e =>
        simp only [List.map_cons, hi, reduceCtorEq, false_iff]
        intro h
        cases out with
        | nil => simp at h
        | cons o out =>
          simp only [List.map_cons, List.cons.injEq] at h
          have := (pick_ok (rs := rs) (is := is) (out := out)).mpr h.2
          rw [hp] at this
          cases this
      | ok out' =>
        have := (pick_ok (rs := rs) (is := is) (out := out')).mp hp
        simp only [Except.ok.injEq, List.map_cons, hi]
        constructor
        · rintro rfl; simp [this]
        · intro h
          cases out with
          | nil => simp at h
          | cons o out =>
            simp only [List.map_cons, List.cons.injEq, Option.some.injEq] at h
            have h2 := (pick_ok (rs := rs) (is := is) (out := out)).mpr h.2
            rw [hp] at h2
            cases h2
            rw [h.1]

theorem pick_total {rs : List (List Nat)} : ∀ {is : List Nat}, (∀ i ∈ is, i < rs.length) →
    ∃ out, pick rs is = .ok out
  | [], _ => ⟨[], rfl⟩
  | i :: is, h => by
    obtain ⟨out, ho⟩ := pick_total (rs := rs) (is := is) fun j hj => h j (List.mem_cons_of_mem _ hj)
    have hi := h i (List.mem_cons_self ..)
    exact ⟨rs[i] :: out, by simp [pick, List.getElem?_eq_getElem hi, ho]⟩

theorem scatterOne_length : ∀ (vs : List (List Nat)) (ks : List Nat)
    (out : List (Option (List Nat))), (scatterOne vs ks out).length = out.length
  | [], _, out => by simp [scatterOne]
  | _ :: _, [], out => by simp [scatterOne]
  | v :: vs, k :: ks, out => by simp [scatterOne, scatterOne_length]

/-- Scattering values that agree with `V`. -/
theorem scatterOne_get (V : Nat → Option (List Nat)) : ∀ (xs : List (Nat × Nat))
    (vs : List (List Nat)) (rs : List (List Nat)) (out : List (Option (List Nat))),
    vs.map some = xs.map (fun x => rs[x.1]?) → (∀ x ∈ xs, rs[x.1]? = V x.2) →
    ∀ k, k < out.length → ((∃ x ∈ xs, x.2 = k) ∨ out[k]? = some (V k)) →
      (scatterOne vs (xs.map (·.2)) out)[k]? = some (V k)
  | [], vs, rs, out, h, _, k, hk, hw => by
    rcases hw with ⟨x, hx, -⟩ | hw
    · simp at hx
    · cases vs <;> simpa [scatterOne] using hw
  | x :: xs, [], rs, out, h, _, k, hk, hw => by simp at h
  | x :: xs, v :: vs, rs, out, h, hV, k, hk, hw => by
    simp only [List.map_cons, List.cons.injEq] at h
    simp only [List.map_cons, scatterOne]
    refine scatterOne_get V xs vs rs _ h.2 (fun y hy => hV y (List.mem_cons_of_mem _ hy)) k
      (by simpa using hk) ?_
    have hx := hV x (List.mem_cons_self ..)
    by_cases hxk : x.2 = k
    · right
      rw [← hxk] at hk ⊢
      rw [List.getElem?_set_self hk, h.1, hx]
    · rcases hw with ⟨y, hy, hyk⟩ | hw
      · rcases List.mem_cons.mp hy with rfl | hy
        · exact absurd hyk hxk
        · exact Or.inl ⟨y, hy, hyk⟩
      · right
        rw [List.getElem?_set_ne hxk]
        exact hw

theorem scatter_get {fs : FS} (V : Nat → Option (List Nat)) :
    ∀ (m : AMap Path (List (Nat × Nat))) (out out' : List (Option (List Nat))),
    scatter fs m out = .ok out' →
    (∀ p x, InGroup m p x → ((fs.records p).bind (fun rs => rs[x.1]?)) = V x.2) →
    out'.length = out.length ∧
    ∀ k, k < out.length → ((∃ p x, InGroup m p x ∧ x.2 = k) ∨ out[k]? = some (V k)) →
      out'[k]? = some (V k)
  | [], out, out', h, _ => by
    simp only [scatter, Except.ok.injEq] at h
    subst h
    refine ⟨rfl, ?_⟩
    rintro k hk (⟨p, x, ⟨xs, hx, -⟩, -⟩ | h)
    · simp at hx
    · exact h
  | (p, xs) :: m, out, out', h, hV => by
    simp only [scatter] at h
    split at h
    · cases h
    · rename_i vs hvs
      unfold readRecordFile at hvs
      split at hvs
      · cases hvs
      · rename_i rs hrs
        have hp := pick_ok.mp hvs
        rw [List.map_map] at hp
        have hx : ∀ x ∈ xs, rs[x.1]? = V x.2 := by
          intro x hx
          have := hV p x ⟨xs, List.mem_cons_self .., hx⟩
          simpa [hrs] using this
        obtain ⟨h1, h2⟩ := scatter_get V m _ _ h (fun q x ⟨ys, hy, hx⟩ =>
          hV q x ⟨ys, List.mem_cons_of_mem _ hy, hx⟩)
        rw [scatterOne_length] at h1 h2
        refine ⟨h1, ?_⟩
        intro k hk hw
        refine h2 k hk ?_
        by_cases hkx : ∃ x ∈ xs, x.2 = k
        · exact Or.inr (scatterOne_get V xs vs rs out hp hx k hk (Or.inl hkx))
        · rcases hw with ⟨q, x, ⟨ys, hy, hx'⟩, hxk⟩ | hw
          · rcases List.mem_cons.mp hy with hy | hy
            · simp only [Prod.mk.injEq] at hy
              exact absurd ⟨x, by rw [← hy.2]; exact hx', hxk⟩ hkx
            · exact Or.inl ⟨q, x, ⟨ys, hy, hx'⟩, hxk⟩
          · exact Or.inr (scatterOne_get V xs vs rs out hp hx k hk (Or.inr hw))

theorem scatter_total {fs : FS} : ∀ (m : AMap Path (List (Nat × Nat)))
    (out : List (Option (List Nat))),
    (∀ p xs, (p, xs) ∈ m → ∃ rs, fs.records p = some rs ∧ ∀ x ∈ xs, x.1 < rs.length) →
    ∃ out', scatter fs m out = .ok out'
  | [], out, _ => ⟨out, rfl⟩
  | (p, xs) :: m, out, h => by
    obtain ⟨rs, hrs, hx⟩ := h p xs (List.mem_cons_self ..)
    obtain ⟨vs, hvs⟩ := pick_total (rs := rs) (is := xs.map (·.1)) (by
      intro i hi; obtain ⟨x, hx', rfl⟩ := List.mem_map.mp hi; exact hx x hx')
    obtain ⟨out', ho⟩ := scatter_total m (scatterOne vs (xs.map (·.2)) out) fun q ys hq =>
      h q ys (List.mem_cons_of_mem _ hq)
    exact ⟨out', by simp [scatter, readRecordFile, hrs, hvs, ho]⟩

/-- Groups come from values, so they are not empty. -/
theorem groupAddrs_nonempty : ∀ (vs : List Val) (k : Nat) (m m' : AMap Path (List (Nat × Nat))),
    groupAddrs vs k m = .ok m' → (∀ p xs, (p, xs) ∈ m → xs ≠ []) →
    ∀ p xs, (p, xs) ∈ m' → xs ≠ []
  | [], k, m, m', h, hm => by
    simp only [groupAddrs, Except.ok.injEq] at h
    subst h
    exact hm
  | .addr p i :: vs, k, m, m', h, hm => by
    simp only [groupAddrs] at h
    refine groupAddrs_nonempty vs _ _ _ h ?_
    clear h
    unfold groupAdd
    generalize hv : (AMap.get? m p).getD [] ++ [(i, k)] = v
    have hv' : v ≠ [] := by rw [← hv]; simp
    clear hv
    induction m with
    | nil =>
      intro q xs hq
      simp only [AMap.set, List.mem_singleton, Prod.mk.injEq] at hq
      rw [hq.2]; exact hv'
    | cons e m ih =>
      intro q xs hq
      simp only [AMap.set] at hq
      split at hq
      · rcases List.mem_cons.mp hq with hq | hq
        · simp only [Prod.mk.injEq] at hq; rw [hq.2]; exact hv'
        · exact hm q xs (List.mem_cons_of_mem _ hq)
      · rcases List.mem_cons.mp hq with hq | hq
        · exact hm q xs (by rw [hq]; exact List.mem_cons_self ..)
        · exact ih (fun q xs hq => hm q xs (List.mem_cons_of_mem _ hq)) q xs hq
  | .null :: _, _, _, _, h, _ => by simp [groupAddrs] at h
  | .sc _ :: _, _, _, _, h, _ => by simp [groupAddrs] at h
  | .struct _ :: _, _, _, _, h, _ => by simp [groupAddrs] at h

/-- Addresses that resolve are read as the records they point to. -/
theorem readRecordColumn_eq {fs : FS} {addrs : List Val}
    (h : ∀ v ∈ addrs, AddrVal fs.records v) :
    readRecordColumn fs addrs = .ok (addrs.map (derefVal fs.records)) := by
  obtain ⟨m, hm⟩ := groupAddrs_total addrs 0 [] (fun v hv => by
    obtain ⟨p, i, _, h1, _⟩ := h v hv; exact ⟨p, i, h1⟩)
  obtain ⟨-, hg⟩ := groupAddrs_ok _ _ _ _ hm
  have hempty : ∀ p x, ¬ InGroup [] p x := by rintro p x ⟨xs, hx, -⟩; simp at hx
  have hall : ∀ p x, InGroup m p x → addrs[x.2]? = some (.addr p x.1) := by
    intro p x hx
    rcases (hg p x).mp hx with h' | ⟨j, hj, hk⟩
    · exact absurd h' (hempty p x)
    · rw [hk, Nat.zero_add]; exact hj
  obtain ⟨out, hout⟩ := scatter_total (fs := fs) m (List.replicate addrs.length none) (by
    intro p xs hp
    have hne := groupAddrs_nonempty _ _ _ _ hm (by simp) p xs hp
    obtain ⟨x, hx⟩ := List.exists_mem_of_ne_nil xs hne
    have hxa := hall p x ⟨xs, hp, hx⟩
    obtain ⟨p', i', rs, h1, h2, h3⟩ := h _ (List.mem_of_getElem? hxa)
    simp only [Val.addr.injEq] at h1
    refine ⟨rs, by rw [h1.1]; exact h2, ?_⟩
    intro y hy
    have hya := hall p y ⟨xs, hp, hy⟩
    obtain ⟨p2, i2, rs2, g1, g2, g3⟩ := h _ (List.mem_of_getElem? hya)
    simp only [Val.addr.injEq] at g1
    rw [← g1.1, h1.1, h2] at g2
    cases g2
    rw [g1.2]; exact g3)
  let V : Nat → Option (List Nat) := fun k => match addrs[k]? with
    | some (.addr p i) => (fs.records p).bind (fun rs => rs[i]?)
    | _ => none
  obtain ⟨hl, hget⟩ := scatter_get V m _ _ hout (by
    intro p x hx
    simp only [V, hall p x hx])
  simp only [List.length_replicate] at hl hget
  unfold readRecordColumn
  rw [hm]
  simp only [hout, Except.ok.injEq]
  apply List.ext_getElem?
  intro k
  by_cases hk : k < addrs.length
  · obtain ⟨p, i, rs, h1, h2, h3⟩ := h addrs[k] (List.getElem_mem hk)
    have hin : InGroup m p (i, k) := (hg p (i, k)).mpr (Or.inr ⟨k, by
      rw [List.getElem?_eq_getElem hk, h1], by simp⟩)
    have := hget k hk (Or.inl ⟨p, (i, k), hin, rfl⟩)
    rw [List.getElem?_map, this, List.getElem?_map, List.getElem?_eq_getElem hk, h1]
    simp [V, List.getElem?_eq_getElem hk, h1, derefVal]
  · rw [List.getElem?_eq_none (by simp; omega), List.getElem?_eq_none (by simp; omega)]

/-- An address that does not resolve makes the read raise. -/
theorem readRecordColumn_error {fs : FS} {addrs : List Val} {out : List Val}
    (h : readRecordColumn fs addrs = .ok out) : ∀ v ∈ addrs, AddrVal fs.records v := by
  unfold readRecordColumn at h
  split at h
  · cases h
  rename_i m hm
  split at h
  · cases h
  rename_i o ho
  obtain ⟨h1, hg⟩ := groupAddrs_ok _ _ _ _ hm
  intro v hv
  obtain ⟨p, i, rfl⟩ := h1 v hv
  obtain ⟨k, hk⟩ := List.mem_iff_getElem?.mp hv
  have hin : InGroup m p (i, k) := (hg p (i, k)).mpr (Or.inr ⟨k, hk, by simp⟩)
  clear h hg hm
  generalize List.replicate addrs.length none = out0 at ho
  induction m generalizing out0 with
  | nil => obtain ⟨xs, hx, -⟩ := hin; simp at hx
  | cons e m ih =>
    obtain ⟨q, ys⟩ := e
    simp only [scatter] at ho
    split at ho
    · cases ho
    · rename_i vs hvs
      obtain ⟨xs, hx, hxm⟩ := hin
      rcases List.mem_cons.mp hx with hx | hx
      · simp only [Prod.mk.injEq] at hx
        obtain ⟨rfl, rfl⟩ := hx
        unfold readRecordFile at hvs
        split at hvs
        · cases hvs
        · rename_i rs hrs
          have hp := pick_ok.mp hvs
          refine ⟨p, i, rs, rfl, hrs, ?_⟩
          have : rs[i]? ∈ vs.map some := by
            rw [hp]; exact List.mem_map.mpr ⟨i, List.mem_map.mpr ⟨(i, k), hxm, rfl⟩, rfl⟩
          obtain ⟨r, -, hr⟩ := List.mem_map.mp this
          exact (List.getElem?_eq_some_iff.mp hr.symm).1
      · exact ih ⟨xs, hx, hxm⟩ _ ho

end Space
