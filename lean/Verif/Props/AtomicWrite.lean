import Verif.AtomicWriteLemmas

/-!
# C69: metadata files are replaced in one step
-/

namespace Space.Disk

/-- Processes about to call `write_proto` and `read_proto` on a disk: files to write and to read have no temporary names,
random ids have the same length, two writers of a file draw different ones, which are not in
use, and different names are of different files. -/
structure Ready (σ : State) : Prop where
  idle : ∀ p ∈ σ.procs, (∃ w, p = .writer w ∧ w.stage = .start) ∨ ∃ r, p = .reader r ∧ r.stage = .start
  paths : ∀ p ∈ σ.procs, ¬ Temp p.path
  ids : ∀ w v, .writer w ∈ σ.procs → .writer v ∈ σ.procs → w.id.length = v.id.length
  distinct : ∀ (i j : Nat) (w v : Writer), σ.procs[i]? = some (.writer w) → σ.procs[j]? = some (.writer v) →
    w.path = v.path → w.id = v.id → i = j
  unused : ∀ w, .writer w ∈ σ.procs → σ.disk.names (tmpName w.path w.id) = none
  sound : Sound σ.disk

theorem Ready.held {σ : State} (h : Ready σ) : Held [σ] σ := by
  refine ⟨h.sound, h.paths, ?_, ?_, ?_⟩
  · intro i j w v hw hv he
    obtain ⟨h1, h2⟩ := tmpName_inj (h.ids w v (List.mem_of_getElem? hw) (List.mem_of_getElem? hv)) he
    exact h.distinct i j w v hw hv h1 h2
  · intro i w hw
    have hm := List.mem_of_getElem? hw
    rcases h.idle _ hm with ⟨w', he, hst⟩ | ⟨r, he, -⟩
    · cases he
      unfold WInv
      rw [hst]
      exact h.unused w hm
    · cases he
  · intro i r hr
    rcases h.idle _ (List.mem_of_getElem? hr) with ⟨w, he, -⟩ | ⟨r', he, hst⟩
    · cases he
    · cases he
      unfold RInv
      rw [hst]
      trivial

theorem Exec.held {σ0 : State} {tr : List State} {σ : State} (h0 : Ready σ0) (h : Exec σ0 tr σ) : Held tr σ := by
  induction h with
  | start => exact h0.held
  | step _ hs ih => exact ih.step hs

/-- The step is the one with which writer `i` returns. -/
def Returns (σ σ' : State) (i : Nat) (w : Writer) : Prop :=
  σ.procs[i]? = some (.writer w) ∧ w.stage ≠ .done ∧ σ'.procs[i]? = some (.writer { w with stage := .done })

/-- **C69.** However the calls of writers and readers on the file system interleave and wherever
processes stop: the call with which a writer returns puts the whole message in place of what the file
showed and changes no other file; every other call changes no file but temporary ones. -/
theorem C69 {σ0 : State} (h0 : Ready σ0) {tr : List State} {σ σ' : State} (h : Exec σ0 tr σ) {i n : Nat}
    (hs : σ.step i n = some σ') :
    (∀ w, Returns σ σ' i w → ∀ p, ¬ Temp p →
      σ'.disk.content p = if p = w.path then some w.text else σ.disk.content p) ∧
    ((∀ w, ¬ Returns σ σ' i w) → ∀ p, ¬ Temp p → σ'.disk.content p = σ.disk.content p) := by
  have hi := h.held h0
  rcases State.step_cases hs with ⟨w, w', d', hw, hst, rfl⟩ | ⟨r, r', hr, hst, rfl⟩
  · have hlen : i < σ.procs.length := (List.getElem?_eq_some_iff.mp hw).1
    have hpath : ¬ Temp w.path := hi.paths _ (List.mem_of_getElem? hw)
    have hm := Writer.step_moved hi.sound (hi.wr i w hw) hpath hst
    have hself : (σ.procs.set i (.writer w'))[i]? = some (.writer w') := by simp [List.getElem?_set, hlen]
    have hother : ∀ p, ¬ Temp p → p ≠ w.path → (⟨d', σ.procs.set i (.writer w')⟩ : State).disk.content p = σ.disk.content p := by
      intro p hp hne
      have hn := hm.names p (ne_tmp hp) hne
      simp only [Disk.content, hn]
      cases hk : σ.disk.names p with
      | none => rfl
      | some k =>
        simp only [Option.map_some]
        rw [hm.data k (hi.sound.bound _ _ hk) fun hk' => ne_tmp hp (hi.sound.inj _ _ _ hk hk')]
    rcases hm.target with ⟨h1, h2⟩ | ⟨h1, h2, h3, h4⟩
    · refine ⟨?_, ?_⟩
      · rintro v ⟨hv, -, hv'⟩
        simp only at hv'
        rw [hself] at hv'
        cases hv'
        exact absurd rfl h1
      · intro _ p hp
        by_cases hne : p = w.path
        · subst hne
          simp only [Disk.content, h2]
          cases hk : σ.disk.names w.path with
          | none => rfl
          | some k =>
            simp only [Option.map_some]
            rw [hm.data k (hi.sound.bound _ _ hk) fun hk' => ne_tmp hp (hi.sound.inj _ _ _ hk hk')]
        · exact hother p hp hne
    · have hw' : w' = { w with stage := .done } := by
        have e1 := hm.path; have e2 := hm.id; have e3 := hm.text; have e4 := hm.flag
        cases w; cases w'
        simp only at e1 e2 e3 e4 h2 ⊢
        subst e1 e2 e3 e4 h2
        rfl
      refine ⟨?_, ?_⟩
      · rintro v ⟨hv, -, -⟩ p hp
        rw [hw] at hv
        cases hv
        by_cases hne : p = w.path
        · subst hne
          rw [if_pos rfl]
          have hinv := hi.wr i w hw
          unfold WInv at hinv
          rw [h1] at hinv
          obtain ⟨ino, h5, h6⟩ := hinv
          simp only [Disk.content, h3, h5, h4, Option.map_some, h6]
        · rw [if_neg hne]; exact hother p hp hne
      · intro hno
        refine absurd ⟨hw, ?_, ?_⟩ (hno w)
        · rw [h1]; decide
        · show (σ.procs.set i (.writer w'))[i]? = _
          rw [hself, hw']
  · refine ⟨?_, fun _ _ _ => rfl⟩
    rintro v ⟨hv, -, -⟩
    rw [hr] at hv
    cases hv

/-- **C69.** A reader that returns got, however slowly it read, what the file showed at one moment after it was called and before it
returned; one that raised did not find the file. -/
theorem C69_read {σ0 : State} (h0 : Ready σ0) {tr : List State} {σ : State} (h : Exec σ0 tr σ) {i : Nat} {p : Name} :
    (∀ b, σ.procs[i]? = some (.reader ⟨p, .done b⟩) → ∃ τ ∈ tr, Opened τ i ∧ τ.disk.content p = some b) ∧
    (σ.procs[i]? = some (.reader ⟨p, .raised⟩) → ∃ τ ∈ tr, τ.disk.content p = none) :=
  ⟨fun _ hr => (h.held h0).rd i _ hr, fun hr => (h.held h0).rd i _ hr⟩

/-- What happened to the processes. -/
theorem Exec.kept {σ0 : State} {tr : List State} {σ : State} (h0 : Ready σ0) (h : Exec σ0 tr σ) :
    ∀ τ ∈ tr, ∀ (i : Nat) (w : Writer), τ.procs[i]? = some (.writer w) → w.stage = .done →
      σ.procs[i]? = some (.writer w) := by
  induction h with
  | start => intro τ hτ i w hw _; simp only [List.mem_singleton] at hτ; subst hτ; exact hw
  | @step tr σ σ' i n hex hs ih =>
    intro τ hτ j w hw hd
    rcases List.mem_cons.mp hτ with rfl | hτ
    · exact hw
    · have hj := ih τ hτ j w hw hd
      rcases State.step_cases hs with ⟨v, v', d', hv, hst, rfl⟩ | ⟨r, r', hr, hst, rfl⟩
      · by_cases he : i = j
        · subst he
          rw [hv] at hj
          cases hj
          unfold Writer.step at hst
          rw [hd] at hst
          cases hst
        · simp only [List.getElem?_set, if_neg he]; exact hj
      · by_cases he : i = j
        · subst he
          rw [hr] at hj
          cases hj
        · simp only [List.getElem?_set, if_neg he]; exact hj

/-- **C69.** At every moment every file shows what it showed at first or a whole message, that of a writer of
this file that has returned. -/
theorem C69_whole {σ0 : State} (h0 : Ready σ0) {tr : List State} {σ : State} (h : Exec σ0 tr σ) {p : Name}
    (hp : ¬ Temp p) : σ.disk.content p = σ0.disk.content p ∨
      ∃ w, .writer w ∈ σ.procs ∧ w.path = p ∧ w.stage = .done ∧ σ.disk.content p = some w.text := by
  induction h with
  | start => exact .inl rfl
  | @step tr σ σ' i n hex hs ih =>
    have hst := C69 h0 hex hs
    have hkeep : ∀ w, .writer w ∈ σ.procs → w.stage = .done → .writer w ∈ σ'.procs := by
      intro w hw hd
      obtain ⟨j, hj⟩ := List.getElem?_of_mem hw
      refine List.mem_of_getElem? (Exec.kept h0 (hex.step hs) σ ?_ j w hj hd)
      cases hex <;> simp
    by_cases hr : ∃ w, Returns σ σ' i w
    · obtain ⟨w, hw⟩ := hr
      have := hst.1 w hw p hp
      by_cases he : p = w.path
      · rw [if_pos he] at this
        exact .inr ⟨_, List.mem_of_getElem? hw.2.2, he.symm, rfl, this⟩
      · rw [if_neg he] at this
        rw [this]
        rcases ih with ih | ⟨v, h1, h2, h3, h4⟩
        · exact .inl ih
        · exact .inr ⟨v, hkeep v h1 h3, h2, h3, h4⟩
    · have := hst.2 (fun w hw => hr ⟨w, hw⟩) p hp
      rw [this]
      rcases ih with ih | ⟨v, h1, h2, h3, h4⟩
      · exact .inl ih
      · exact .inr ⟨v, hkeep v h1 h3, h2, h3, h4⟩

/-- **C69.** A writer that returns leaves no temporary file; it raises only if it was to fail on an existing file and met
one, and leaves no temporary file then. -/
theorem C69_ends {σ0 : State} (h0 : Ready σ0) {tr : List State} {σ : State} (h : Exec σ0 tr σ) {i : Nat} {w : Writer}
    (hw : σ.procs[i]? = some (.writer w)) :
    (w.stage = .done ∨ w.stage = .raised → σ.disk.names (tmpName w.path w.id) = none) ∧
    (w.stage = .raised → w.failIfExists = true ∧ ∃ τ ∈ tr, τ.disk.content w.path ≠ none) := by
  refine ⟨?_, ?_⟩
  · intro hst
    have := (h.held h0).wr i w hw
    unfold WInv at this
    rcases hst with hst | hst <;> rw [hst] at this <;> exact this
  · induction h with
    | start =>
      intro hst
      rcases h0.idle _ (List.mem_of_getElem? hw) with ⟨w', he, hs⟩ | ⟨r, he, -⟩
      · cases he
        rw [hs] at hst
        cases hst
      · cases he
    | @step tr σ σ' j n hex hs ih =>
      intro hst
      have hmem : σ ∈ tr := by cases hex <;> simp
      have hi := hex.held h0
      have keep : σ.procs[i]? = some (.writer w) → w.failIfExists = true ∧ ∃ τ ∈ σ' :: tr, τ.disk.content w.path ≠ none := by
        intro hold
        obtain ⟨h1, τ, h2, h3⟩ := ih hold hst
        exact ⟨h1, τ, List.mem_cons_of_mem _ h2, h3⟩
      rcases State.step_cases hs with ⟨v, v', d', hv, hstep, rfl⟩ | ⟨r, r', hr, hstep, rfl⟩
      · rcases set_get hv hw with ⟨rfl, he⟩ | ⟨-, hold⟩
        · cases he
          have hm := Writer.step_moved hi.sound (hi.wr i v hv) (hi.paths _ (List.mem_of_getElem? hv)) hstep
          obtain ⟨h1, h2⟩ := hm.raised hst
          refine ⟨hm.flag.trans h1, σ, List.mem_cons_of_mem _ hmem, ?_⟩
          rw [hm.path]
          unfold Disk.content
          intro hn
          exact h2 (Option.map_eq_none_iff.mp hn)
        · exact keep hold
      · rcases set_get hr hw with ⟨rfl, he⟩ | ⟨-, hold⟩
        · cases he
        · exact keep hold

/-- **C69.** With messages that parse to themselves, a reader that returns gets a whole message, if the files at first held such. -/
theorem C69_parse {σ0 : State} (h0 : Ready σ0) {Msg : Type} (text : Msg → List Nat) (parse : List Nat → Option Msg)
    (hparse : ∀ m, parse (text m) = some m) (hw : ∀ w, .writer w ∈ σ0.procs → ∃ m, w.text = text m)
    {p : Name} (hp : ∀ c, σ0.disk.content p = some c → ∃ m, c = text m) {tr : List State} {σ : State}
    (h : Exec σ0 tr σ) {i : Nat} {b : List Nat} (hr : σ.procs[i]? = some (.reader ⟨p, .done b⟩)) :
    ∃ m, parse b = some m ∧ b = text m := by
  have hpt : ¬ Temp p := (h.held h0).paths _ (List.mem_of_getElem? hr)
  have texts : ∀ {tr σ}, Exec σ0 tr σ → ∀ w, .writer w ∈ σ.procs → ∃ m, w.text = text m := by
    intro tr σ h
    induction h with
    | start => exact hw
    | @step tr σ σ' j n hex hs ih =>
      intro w hmem
      obtain ⟨k, hk⟩ := List.getElem?_of_mem hmem
      have hi := hex.held h0
      rcases State.step_cases hs with ⟨v, v', d', hv, hstep, rfl⟩ | ⟨r, r', hr, hstep, rfl⟩
      · rcases set_get hv hk with ⟨rfl, he⟩ | ⟨-, hold⟩
        · cases he
          have hm := Writer.step_moved hi.sound (hi.wr _ v hv) (hi.paths _ (List.mem_of_getElem? hv)) hstep
          rw [hm.text]
          exact ih v (List.mem_of_getElem? hv)
        · exact ih w (List.mem_of_getElem? hold)
      · rcases set_get hr hk with ⟨rfl, he⟩ | ⟨-, hold⟩
        · cases he
        · exact ih w (List.mem_of_getElem? hold)
  have past : ∀ {tr σ}, Exec σ0 tr σ → ∀ τ ∈ tr, ∃ tr', Exec σ0 tr' τ := by
    intro tr σ h
    induction h with
    | start => intro τ hτ; simp only [List.mem_singleton] at hτ; subst hτ; exact ⟨_, .start⟩
    | step hex hs ih =>
      intro τ hτ
      rcases List.mem_cons.mp hτ with rfl | hτ
      · exact ⟨_, hex.step hs⟩
      · exact ih τ hτ
  obtain ⟨τ, hτ, -, hc⟩ := (C69_read h0 h).1 b hr
  obtain ⟨tr', hex⟩ := past h τ hτ
  have : ∃ m, b = text m := by
    rcases C69_whole h0 hex hpt with he | ⟨w, h1, -, -, h4⟩
    · exact hp b (he ▸ hc)
    · obtain ⟨m, hm⟩ := texts hex w h1
      rw [hc] at h4
      cases h4
      exact ⟨m, hm⟩
  obtain ⟨m, rfl⟩ := this
  exact ⟨m, hparse m, rfl⟩

theorem run_exec : ∀ {es : List (Nat × Nat)} {σ0 : State} {tr : List State} {σ σ' : State}, Exec σ0 tr σ → run σ es = some σ' →
    ∃ tr', Exec σ0 tr' σ'
  | [], _, tr, _, _, h, hr => by cases hr; exact ⟨tr, h⟩
  | (i, n) :: es, σ0, tr, σ, σ', h, hr => by
    simp only [run] at hr
    split at hr
    · cases hr
    · rename_i σ1 hs
      exact run_exec (h.step hs) hr

namespace Demo

def entry : Name := ['e', 'p']

/-- Two writers that replace the file `ep`, holding 1 1 1, one that is to fail if it exists, and a reader. -/
def four (a b : Name) : State where
  disk := { names := fun q => if q = entry then some 0 else none, data := fun _ => [1, 1, 1], next := 1 }
  procs := [.writer { path := entry, text := [2, 2, 2, 2], failIfExists := false, id := a },
    .writer { path := entry, text := [3, 3], failIfExists := false, id := b },
    .writer { path := entry, text := [4], failIfExists := true, id := ['c'] }, .reader { path := entry }]

/-- What the file shows, how far the processes are, and whether the first writers have temporary files. -/
def view (a b : Name) (es : List (Nat × Nat)) : Option (Option (List Nat) × List Proc × List Bool) :=
  (run (four a b) es).map fun σ => (σ.disk.content entry, σ.procs,
    [(σ.disk.names (tmpName entry a)).isSome, (σ.disk.names (tmpName entry b)).isSome])

theorem four_ready {a b : Name} (ha : a.length = 1) (hb : b.length = 1) (hab : a ≠ b) (hac : a ≠ ['c']) (hbc : b ≠ ['c']) :
    Ready (four a b) := by
  have hsplit : ∀ (i : Nat) (w : Writer), (four a b).procs[i]? = some (.writer w) →
      (i = 0 ∧ w.path = entry ∧ w.id = a) ∨ (i = 1 ∧ w.path = entry ∧ w.id = b) ∨
      (i = 2 ∧ w.path = entry ∧ w.id = ['c']) := by
    intro i w h
    match i with
    | 0 => cases h; exact .inl ⟨rfl, rfl, rfl⟩
    | 1 => cases h; exact .inr (.inl ⟨rfl, rfl, rfl⟩)
    | 2 => cases h; exact .inr (.inr ⟨rfl, rfl, rfl⟩)
    | 3 => cases h
    | n + 4 => cases h
  have hpath : ¬ Temp entry := by
    rintro ⟨pre, h⟩
    have := congrArg List.length h
    simp [entry] at this
  have hlen : ∀ w, .writer w ∈ (four a b).procs → w.path = entry ∧ w.id.length = 1 := by
    intro w h
    obtain ⟨i, hi⟩ := List.getElem?_of_mem h
    rcases hsplit i w hi with ⟨-, h1, h2⟩ | ⟨-, h1, h2⟩ | ⟨-, h1, h2⟩ <;> rw [h2] <;> exact ⟨h1, by first | assumption | rfl⟩
  refine ⟨?_, ?_, ?_, ?_, ?_, ?_, ?_⟩
  · intro p hp
    simp only [four, List.mem_cons, List.not_mem_nil, or_false] at hp
    rcases hp with rfl | rfl | rfl | rfl
    · exact .inl ⟨_, rfl, rfl⟩
    · exact .inl ⟨_, rfl, rfl⟩
    · exact .inl ⟨_, rfl, rfl⟩
    · exact .inr ⟨_, rfl, rfl⟩
  · intro p hp
    simp only [four, List.mem_cons, List.not_mem_nil, or_false] at hp
    rcases hp with rfl | rfl | rfl | rfl <;> exact hpath
  · intro w v hw hv
    rw [(hlen w hw).2, (hlen v hv).2]
  · intro i j w v hw hv _ he
    rcases hsplit i w hw with ⟨h1, -, h2⟩ | ⟨h1, -, h2⟩ | ⟨h1, -, h2⟩ <;>
      rcases hsplit j v hv with ⟨h3, -, h4⟩ | ⟨h3, -, h4⟩ | ⟨h3, -, h4⟩ <;> rw [h1, h3] <;>
      rw [h2, h4] at he <;> first | exact absurd he (by assumption) | exact absurd he.symm (by assumption)
  · intro w hw
    have hne : tmpName w.path w.id ≠ entry := fun he => hpath (he ▸ tmpName_temp _ _)
    exact if_neg hne
  · intro p q i hp hq
    simp only [four] at hp hq
    split at hp
    · split at hq
      · rename_i h1 h2; rw [h1, h2]
      · cases hq
    · cases hp
  · intro p i hp
    simp only [four] at hp
    split at hp
    · cases hp; exact Nat.zero_lt_one
    · cases hp

/-- The reader opens the file and reads one byte; both writers write in pieces and return; the reader, after both, gets the
old message whole.  The third writer raises. -/
example : Ready (four ['a'] ['b']) ∧
    view ['a'] ['b'] [(3, 0), (3, 0), (0, 0), (1, 0), (0, 0), (1, 0), (0, 1), (1, 0), (1, 0), (1, 0), (1, 0), (3, 0), (0, 0), (0, 5),
      (0, 0), (0, 0), (3, 5), (3, 5), (2, 0)] =
    some (some [2, 2, 2, 2],
      [.writer { path := entry, text := [2, 2, 2, 2], failIfExists := false, id := ['a'], stage := .done },
       .writer { path := entry, text := [3, 3], failIfExists := false, id := ['b'], stage := .done },
       .writer { path := entry, text := [4], failIfExists := true, id := ['c'], stage := .raised },
       .reader { path := entry, stage := .done [1, 1, 1] }], [false, false]) :=
  ⟨four_ready rfl rfl (by decide) (by decide) (by decide), by decide⟩

/-- A writer that stops half-way leaves its temporary file and nothing else. -/
example : (view ['a'] ['b'] [(0, 0), (0, 0), (0, 1)]).map (fun x => (x.1, x.2.2)) = some (some [1, 1, 1], [true, false]) := by
  decide

end Demo

/-- **C69 is false if two writers draw the same id** (ids have eight hexadecimal digits): the file then shows neither message. -/
theorem C69_collision : ∃ (σ0 σ : State) (tr : List State) (p : Name), Exec σ0 tr σ ∧ ¬ Temp p ∧
    σ.disk.content p ≠ σ0.disk.content p ∧ ∀ w, .writer w ∈ σ.procs → σ.disk.content p ≠ some w.text := by
  have hv : Demo.view ['a'] ['a'] [(0, 0), (1, 0), (0, 0), (1, 0), (0, 9), (1, 9), (1, 0), (1, 0)] =
    some (some [3, 3, 2, 2],
      [.writer { path := Demo.entry, text := [2, 2, 2, 2], failIfExists := false, id := ['a'], stage := .writing 1 4 },
       .writer { path := Demo.entry, text := [3, 3], failIfExists := false, id := ['a'], stage := .done },
       .writer { path := Demo.entry, text := [4], failIfExists := true, id := ['c'] },
       .reader { path := Demo.entry }], [false, false]) := by decide
  simp only [Demo.view, Option.map_eq_some_iff] at hv
  obtain ⟨σ, hrun, hv⟩ := hv
  obtain ⟨tr, hex⟩ := run_exec (.start) hrun
  injection hv with h1 h2
  injection h2 with h2 h3
  refine ⟨_, σ, tr, Demo.entry, hex, ?_, ?_, ?_⟩
  · rintro ⟨pre, h⟩
    have := congrArg List.length h
    simp [Demo.entry] at this
  · rw [h1]; decide
  · intro w hw
    rw [h1]
    rw [h2] at hw
    simp only [List.mem_cons, List.not_mem_nil, or_false, Proc.writer.injEq, reduceCtorEq] at hw
    rcases hw with rfl | rfl | rfl <;> simp

end Space.Disk
