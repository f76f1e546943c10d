import Verif.AtomicWrite

/-!
# Invariant of writers and readers of metadata files
-/

namespace Space.Disk

/-- Names of temporary files. -/
def Temp (p : Name) : Prop := ∃ pre, p = pre ++ ['.', 't', 'm', 'p']

def Proc.path : Proc → Name
  | .writer w => w.path
  | .reader r => r.path

theorem tmpName_temp (p id : Name) : Temp (tmpName p id) := ⟨p ++ '.' :: id, rfl⟩

theorem tmpName_inj {p q a b : Name} (hl : a.length = b.length) (h : tmpName p a = tmpName q b) : p = q ∧ a = b := by
  unfold tmpName at h
  have h1 := List.append_cancel_right h
  have h2 := List.append_inj' h1 (by simp [hl])
  refine ⟨h2.1, ?_⟩
  simpa using h2.2

theorem ne_tmp {p q id : Name} (h : ¬ Temp p) : p ≠ tmpName q id := fun he => h (he ▸ tmpName_temp q id)

/-- Where the temporary file of a writer is. -/
def WInv (d : Disk) (w : Writer) : Prop :=
  match w.stage with
  | .writing ino off => d.names w.tmp = some ino ∧ d.data ino = w.text.take off ∧ off ≤ w.text.length
  | .closed => ∃ ino, d.names w.tmp = some ino ∧ d.data ino = w.text
  | _ => d.names w.tmp = none

/-- Names are of different files, which exist. -/
structure Sound (d : Disk) : Prop where
  inj : ∀ p q i, d.names p = some i → d.names q = some i → p = q
  bound : ∀ p i, d.names p = some i → i < d.next

/-- What a step of a writer does. -/
structure Moved (w w' : Writer) (d d' : Disk) : Prop where
  path : w'.path = w.path
  id : w'.id = w.id
  text : w'.text = w.text
  flag : w'.failIfExists = w.failIfExists
  sound : Sound d'
  inv : WInv d' w'
  next : d.next ≤ d'.next
  tmp : d'.names w.tmp = d.names w.tmp ∨ d'.names w.tmp = none ∨ d'.names w.tmp = some d.next
  names : ∀ q, q ≠ w.tmp → q ≠ w.path → d'.names q = d.names q
  data : ∀ k, k < d.next → d.names w.tmp ≠ some k → d'.data k = d.data k
  target : (w'.stage ≠ .done ∧ d'.names w.path = d.names w.path) ∨
    (w.stage = .closed ∧ w'.stage = .done ∧ d'.names w.path = d.names w.tmp ∧ d'.data = d.data)
  raised : w'.stage = .raised → w.failIfExists = true ∧ d.names w.path ≠ none

theorem writeAt_end {c bs : List Nat} {off : Nat} (h : c.length = off) : writeAt c off bs = c ++ bs := by
  unfold writeAt
  subst h
  simp

theorem Writer.step_moved {w w' : Writer} {n : Nat} {d d' : Disk} (hs : Sound d) (hi : WInv d w) (hp : ¬ Temp w.path)
    (h : w.step n d = some (w', d')) : Moved w w' d d' := by
  have hne : w.path ≠ w.tmp := ne_tmp hp
  unfold Writer.step at h
  unfold WInv at hi
  cases hst : w.stage with
  | start =>
    simp only [hst] at h hi
    split at h
    · rename_i hc
      cases h
      refine ⟨rfl, rfl, rfl, rfl, hs, hi, Nat.le_refl _, .inl rfl, fun _ _ _ => rfl, fun _ _ _ => rfl,
        .inl ⟨by simp, rfl⟩, fun _ => ⟨hc.1, ?_⟩⟩
      intro hn
      rw [hn] at hc
      simp at hc
    · cases h
      exact ⟨rfl, rfl, rfl, rfl, hs, hi, Nat.le_refl _, .inl rfl, fun _ _ _ => rfl, fun _ _ _ => rfl,
        .inl ⟨by simp, rfl⟩, fun h => by simp at h⟩
  | checked =>
    simp only [hst] at h hi
    rw [hi] at h
    cases h
    refine ⟨rfl, rfl, rfl, rfl, ⟨?_, ?_⟩, ?_, Nat.le_succ _, .inr (.inr ?_), ?_, ?_, .inl ⟨by simp, ?_⟩,
      fun h => by simp at h⟩
    · intro p q i hp hq
      simp only at hp hq
      by_cases h1 : p = w.tmp <;> by_cases h2 : q = w.tmp
      · rw [h1, h2]
      · rw [if_pos h1] at hp; rw [if_neg h2] at hq
        cases hp
        exact absurd (hs.bound _ _ hq) (Nat.lt_irrefl _)
      · rw [if_neg h1] at hp; rw [if_pos h2] at hq
        cases hq
        exact absurd (hs.bound _ _ hp) (Nat.lt_irrefl _)
      · rw [if_neg h1] at hp; rw [if_neg h2] at hq
        exact hs.inj p q i hp hq
    · intro p i hp
      simp only at hp
      split at hp
      · cases hp; exact Nat.lt_succ_self _
      · exact Nat.lt_succ_of_lt (hs.bound p i hp)
    · show _ ∧ _ ∧ _
      refine ⟨if_pos rfl, ?_, Nat.zero_le _⟩
      simp
    · exact if_pos rfl
    · intro q h1 _; exact if_neg h1
    · intro k hk _; exact if_neg (Nat.ne_of_lt hk)
    · exact if_neg hne
  | writing ino off =>
    simp only [hst] at h hi
    obtain ⟨h1, h2, h3⟩ := hi
    split at h
    · rename_i hc
      cases h
      refine ⟨rfl, rfl, rfl, rfl, hs, ?_, Nat.le_refl _, .inl rfl, fun _ _ _ => rfl, fun _ _ _ => rfl,
        .inl ⟨by simp, rfl⟩, fun h => by simp at h⟩
      refine ⟨ino, h1, ?_⟩
      rw [h2]
      exact List.take_of_length_le hc
    · cases h
      refine ⟨rfl, rfl, rfl, rfl, ⟨hs.inj, hs.bound⟩, ?_, Nat.le_refl _, .inl rfl, fun _ _ _ => rfl, ?_,
        .inl ⟨by simp, rfl⟩, fun h => by simp at h⟩
      · refine ⟨h1, ?_, ?_⟩
        · show (if ino = ino then _ else _) = _
          rw [if_pos rfl, h2, writeAt_end (by rw [List.length_take]; exact Nat.min_eq_left h3)]
          have : (List.take (n + 1) (List.drop off w.text)).length = min (n + 1) (w.text.length - off) := by simp
          show _ = List.take (off + _) w.text
          rw [this, List.take_add (i := off)]
          congr 1
          rw [List.take_eq_take_iff]
          simp
        · simp only [List.length_take, List.length_drop]
          omega
      · intro k _ hk
        refine if_neg ?_
        rintro rfl
        exact hk h1
  | closed =>
    simp only [hst] at h hi
    obtain ⟨ino, h1, h2⟩ := hi
    rw [h1] at h
    cases h
    refine ⟨rfl, rfl, rfl, rfl, ⟨?_, ?_⟩, ?_, Nat.le_refl _, .inr (.inl ?_), ?_, fun _ _ _ => rfl,
      .inr ⟨hst, rfl, ?_, rfl⟩, fun h => by simp at h⟩
    · have aux : ∀ p i, (if p = w.path then some ino else if p = w.tmp then none else d.names p) = some i →
        (p = w.path ∧ i = ino) ∨ (p ≠ w.path ∧ p ≠ w.tmp ∧ d.names p = some i) := by
        intro p i hp
        by_cases ha : p = w.path
        · rw [if_pos ha] at hp; cases hp; exact .inl ⟨ha, rfl⟩
        · rw [if_neg ha] at hp
          by_cases hb : p = w.tmp
          · rw [if_pos hb] at hp; cases hp
          · rw [if_neg hb] at hp; exact .inr ⟨ha, hb, hp⟩
      intro p q i hp hq
      rcases aux p i hp with ⟨ha, hb⟩ | ⟨ha, hb, hc⟩ <;> rcases aux q i hq with ⟨ha', hb'⟩ | ⟨ha', hb', hc'⟩
      · rw [ha, ha']
      · subst hb; exact absurd (hs.inj _ _ _ hc' h1) hb'
      · subst hb'; exact absurd (hs.inj _ _ _ hc h1) hb
      · exact hs.inj p q i hc hc'
    · intro p i hp
      simp only at hp
      split at hp
      · cases hp; exact hs.bound _ _ h1
      · split at hp
        · cases hp
        · exact hs.bound _ _ hp
    · show (if w.tmp = w.path then _ else if w.tmp = w.tmp then _ else _) = _
      rw [if_neg (Ne.symm hne), if_pos rfl]
    · show (if w.tmp = w.path then _ else if w.tmp = w.tmp then _ else _) = _
      rw [if_neg (Ne.symm hne), if_pos rfl]
    · intro q ha hb
      show (if q = w.path then _ else if q = w.tmp then _ else _) = _
      rw [if_neg hb, if_neg ha]
    · show (if w.path = w.path then _ else _) = _
      rw [if_pos rfl, h1]
  | done => simp only [hst] at h; cases h
  | raised => simp only [hst] at h; cases h

/-- The reader has opened its file and not returned. -/
def Opened (σ : State) (i : Nat) : Prop := ∃ p ino got, σ.procs[i]? = some (.reader ⟨p, .reading ino got⟩)

/-- What a reader has seen. -/
def RInv (tr : List State) (σ : State) (i : Nat) (r : Reader) : Prop :=
  match r.stage with
  | .start => True
  | .reading ino got => ino < σ.disk.next ∧ (∀ (j : Nat) (w : Writer), σ.procs[j]? = some (.writer w) → σ.disk.names w.tmp ≠ some ino) ∧
      got <+: σ.disk.data ino ∧ ∃ τ ∈ tr, Opened τ i ∧ τ.disk.content r.path = some (σ.disk.data ino)
  | .done b => ∃ τ ∈ tr, Opened τ i ∧ τ.disk.content r.path = some b
  | .raised => ∃ τ ∈ tr, τ.disk.content r.path = none

structure Held (tr : List State) (σ : State) : Prop where
  sound : Sound σ.disk
  paths : ∀ p ∈ σ.procs, ¬ Temp p.path
  tmps : ∀ (i j : Nat) (w v : Writer), σ.procs[i]? = some (.writer w) → σ.procs[j]? = some (.writer v) → w.tmp = v.tmp → i = j
  wr : ∀ (i : Nat) (w : Writer), σ.procs[i]? = some (.writer w) → WInv σ.disk w
  rd : ∀ (i : Nat) (r : Reader), σ.procs[i]? = some (.reader r) → RInv tr σ i r

theorem set_get {α : Type} {l : List α} {i j : Nat} {x y z : α} (_ : l[i]? = some z)
    (h : (l.set i x)[j]? = some y) : (j = i ∧ y = x) ∨ (j ≠ i ∧ l[j]? = some y) := by
  rw [List.getElem?_set] at h
  split at h
  · rename_i he
    subst he
    split at h
    · cases h; exact .inl ⟨rfl, rfl⟩
    · cases h
  · rename_i he
    exact .inr ⟨fun hh => he hh.symm, h⟩

theorem State.step_cases {σ σ' : State} {i n : Nat} (h : σ.step i n = some σ') :
    (∃ w w' d', σ.procs[i]? = some (.writer w) ∧ w.step n σ.disk = some (w', d') ∧
      σ' = ⟨d', σ.procs.set i (.writer w')⟩) ∨
    ∃ r r', σ.procs[i]? = some (.reader r) ∧ r.step n σ.disk = some r' ∧ σ' = ⟨σ.disk, σ.procs.set i (.reader r')⟩ := by
  unfold State.step at h
  cases hp : σ.procs[i]? with
  | none => rw [hp] at h; cases h
  | some p =>
    rw [hp] at h
    cases p with
    | writer w =>
      simp only [Proc.step, Option.map_map, Option.map_eq_some_iff] at h
      obtain ⟨x, hx, rfl⟩ := h
      exact .inl ⟨w, x.1, x.2, rfl, hx, rfl⟩
    | reader r =>
      simp only [Proc.step, Option.map_map, Option.map_eq_some_iff] at h
      obtain ⟨x, hx, rfl⟩ := h
      exact .inr ⟨r, x, rfl, hx, rfl⟩

theorem WInv.frame {d d' : Disk} {v : Writer} (h : WInv d v) (hn : d'.names v.tmp = d.names v.tmp)
    (hd : ∀ k, d.names v.tmp = some k → d'.data k = d.data k) : WInv d' v := by
  unfold WInv at h ⊢
  split at h
  · exact ⟨hn.trans h.1, (hd _ h.1).trans h.2.1, h.2.2⟩
  · obtain ⟨ino, h1, h2⟩ := h
    exact ⟨ino, hn.trans h1, (hd _ h1).trans h2⟩
  · exact hn.trans h

theorem RInv.frame {tr : List State} {σ σ' : State} {j : Nat} {r : Reader} (h : RInv tr σ j r)
    (hnext : σ.disk.next ≤ σ'.disk.next)
    (hw : ∀ ino, ino < σ.disk.next → (∀ (j : Nat) (w : Writer), σ.procs[j]? = some (.writer w) → σ.disk.names w.tmp ≠ some ino) →
      (∀ (j : Nat) (w : Writer), σ'.procs[j]? = some (.writer w) → σ'.disk.names w.tmp ≠ some ino) ∧
      σ'.disk.data ino = σ.disk.data ino) : RInv (σ' :: tr) σ' j r := by
  unfold RInv at h ⊢
  split at h
  · trivial
  · obtain ⟨h1, h2, h3, τ, h4, h5, h6⟩ := h
    obtain ⟨h7, h8⟩ := hw _ h1 h2
    exact ⟨Nat.lt_of_lt_of_le h1 hnext, h7, by rw [h8]; exact h3, τ, List.mem_cons_of_mem _ h4, h5, by rw [h8]; exact h6⟩
  · obtain ⟨τ, h4, h5, h6⟩ := h
    exact ⟨τ, List.mem_cons_of_mem _ h4, h5, h6⟩
  · obtain ⟨τ, h4, h5⟩ := h
    exact ⟨τ, List.mem_cons_of_mem _ h4, h5⟩

theorem Held.step {tr : List State} {σ σ' : State} {i n : Nat} (hi : Held tr σ) (h : σ.step i n = some σ') :
    Held (σ' :: tr) σ' := by
  rcases State.step_cases h with ⟨w, w', d', hw, hst, rfl⟩ | ⟨r, r', hr, hst, rfl⟩
  · have hpath : ¬ Temp w.path := hi.paths _ (List.mem_of_getElem? hw)
    have hm := Writer.step_moved hi.sound (hi.wr i w hw) hpath hst
    have htmp : w'.tmp = w.tmp := by unfold Writer.tmp; rw [hm.path, hm.id]
    have other : ∀ j v, j ≠ i → σ.procs[j]? = some (.writer v) → v.tmp ≠ w.tmp :=
      fun j v hj hv he => hj (hi.tmps j i v w hv hw he)
    have hne : ∀ v : Writer, v.tmp ≠ w.path := fun v => (ne_tmp hpath).symm
    refine ⟨hm.sound, ?_, ?_, ?_, ?_⟩
    · intro p hp
      rcases List.mem_or_eq_of_mem_set hp with hp | rfl
      · exact hi.paths p hp
      · show ¬ Temp w'.path
        rw [hm.path]; exact hpath
    · intro a b x y hx hy hxy
      rcases set_get hw hx with ⟨rfl, hx'⟩ | ⟨ha, hx'⟩ <;> rcases set_get hw hy with ⟨rfl, hy'⟩ | ⟨hb, hy'⟩
      · rfl
      · cases hx'; exact absurd (hxy.symm.trans htmp) (other b y hb hy')
      · cases hy'; exact absurd (hxy.trans htmp) (other a x ha hx')
      · exact hi.tmps a b x y hx' hy' hxy
    · intro j v hv
      rcases set_get hw hv with ⟨rfl, hv'⟩ | ⟨hj, hv'⟩
      · cases hv'; exact hm.inv
      · refine (hi.wr j v hv').frame (hm.names _ (other j v hj hv') (hne v)) fun k hk => ?_
        exact hm.data k (hi.sound.bound _ _ hk) fun hk' => other j v hj hv' (hi.sound.inj _ _ _ hk hk')
    · intro j r hr
      rcases set_get hw hr with ⟨rfl, hr'⟩ | ⟨hj, hr'⟩
      · cases hr'
      · refine (hi.rd j r hr').frame hm.next fun ino hlt hno => ⟨?_, hm.data ino hlt (hno i w hw)⟩
        intro k v hv
        rcases set_get hw hv with ⟨rfl, hv'⟩ | ⟨hk, hv'⟩
        · cases hv'
          rw [htmp]
          rcases hm.tmp with he | he | he
          · exact fun hh => hno k w hw (he.symm.trans hh)
          · intro hh; rw [he] at hh; cases hh
          · intro hh
            rw [he] at hh
            cases hh
            exact Nat.lt_irrefl _ hlt
        · intro hh
          exact hno k v hv' ((hm.names _ (other k v hk hv') (hne v)).symm.trans hh)
  · have hpath : ¬ Temp r.path := hi.paths _ (List.mem_of_getElem? hr)
    have hpaths : ¬ Temp r'.path := by
      have : r'.path = r.path := by
        unfold Reader.step at hst
        split at hst
        · split at hst <;> cases hst <;> rfl
        · simp only at hst
          split at hst <;> cases hst <;> rfl
        · cases hst
        · cases hst
      rw [this]; exact hpath
    have hwr : ∀ (j : Nat) (v : Writer), (σ.procs.set i (.reader r'))[j]? = some (.writer v) → σ.procs[j]? = some (.writer v) := by
      intro j v hv
      rcases set_get hr hv with ⟨rfl, hv'⟩ | ⟨-, hv'⟩
      · cases hv'
      · exact hv'
    refine ⟨hi.sound, ?_, fun a b x y hx hy => hi.tmps a b x y (hwr a x hx) (hwr b y hy),
      fun j v hv => hi.wr j v (hwr j v hv), ?_⟩
    · intro p hp
      rcases List.mem_or_eq_of_mem_set hp with hp | rfl
      · exact hi.paths p hp
      · exact hpaths
    · intro j r2 hr2
      have hlen : i < σ.procs.length := (List.getElem?_eq_some_iff.mp hr).1
      rcases set_get hr hr2 with ⟨rfl, hr'⟩ | ⟨hj, hr'⟩
      · cases hr'
        have hold := hi.rd j r hr
        unfold Reader.step at hst
        unfold RInv at hold
        split at hst
        · split at hst
          · rename_i hnone
            cases hst
            exact ⟨_, List.mem_cons_self, by simp only [Disk.content, hnone]; rfl⟩
          · rename_i ino hsome
            cases hst
            refine ⟨hi.sound.bound _ _ hsome, ?_, List.nil_prefix, _, List.mem_cons_self, ?_, ?_⟩
            · intro k v hv hh
              exact ne_tmp hpath (hi.sound.inj _ _ _ hsome hh)
            · exact ⟨r.path, ino, [], by simp [List.getElem?_set, hlen]⟩
            · simp only [Disk.content, hsome]; rfl
        · rename_i ino got hstage
          rw [hstage] at hold
          obtain ⟨h1, h2, ⟨rest, h3⟩, τ, h4, h5, h6⟩ := hold
          simp only at hst
          split at hst
          · rename_i hnil
            cases hst
            refine ⟨τ, List.mem_cons_of_mem _ h4, h5, ?_⟩
            rw [h6, ← h3]
            rw [← h3, List.drop_left] at hnil
            cases rest with
            | nil => simp
            | cons a rest => simp at hnil
          · cases hst
            refine ⟨h1, fun k v hv => h2 k v (hwr k v hv), ?_, τ, List.mem_cons_of_mem _ h4, h5, h6⟩
            show got ++ _ <+: _
            rw [← h3, List.drop_left]
            exact (List.prefix_append_right_inj got).mpr (List.take_prefix _ _)
        · cases hst
        · cases hst
      · exact (hi.rd j r2 hr').frame (Nat.le_refl _) fun ino _ hno => ⟨fun k v hv => hno k v (hwr k v hv), rfl⟩

end Space.Disk
