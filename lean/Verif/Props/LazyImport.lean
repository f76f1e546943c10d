import Verif.LazyImport

/-!
# C70: lazy imports
-/

namespace Space.LazyImport

/-- Modules that import statements bind, as absolute names, until a relative import. -/
def targets : List Stmt → List ModName
  | [] => []
  | .relative _ :: _ => []
  | .imp name :: ss => name.take 1 :: targets ss
  | .froms name names :: ss => names.map (fun n => name ++ [n]) ++ targets ss

/-- `with lazy_imports` statements one after the other; what they bind. -/
def blocks (py : Py) : List (Nat × List Stmt) → State → List Got × State
  | [], σ => ([], σ)
  | (cb, ss) :: bs, σ =>
    let r := withLazy py cb ss σ
    let rs := blocks py bs r.2
    (r.1 ++ rs.1, rs.2)

/-- The attribute `n` of the module called `name`, with `L` telling what importing it gives. -/
def eager (py : Py) (L : ModName → Option Nat) (name : ModName) (n : String) : Got :=
  match L name with
  | none => .importError
  | some m => match py.attr m n with
    | some v => .value v
    | none => .attributeError

/-- The value bound is an object for the module. -/
def Binds (σ : State) (g : Got) (name : ModName) : Prop :=
  ∃ i o, g = .object i ∧ σ.objs[i]? = some o ∧ o.name = name

/-- Two lists of the same length, related place by place. -/
inductive Each {α β : Type} (R : α → β → Prop) : List α → List β → Prop where
  | nil : Each R [] []
  | cons {a b l m} : R a b → Each R l m → Each R (a :: l) (b :: m)

theorem Each.append {α β : Type} {R : α → β → Prop} {l l' : List α} {m m' : List β} (h : Each R l m) (h' : Each R l' m') :
    Each R (l ++ l') (m ++ m') := by
  induction h with
  | nil => exact h'
  | cons h1 _ ih => exact .cons h1 ih

theorem Each.imp {α β : Type} {R S : α → β → Prop} (hRS : ∀ a b, R a b → S a b) {l : List α} {m : List β} (h : Each R l m) :
    Each S l m := by
  induction h with
  | nil => exact .nil
  | cons h1 _ ih => exact .cons (hRS _ _ h1) ih

/-! ## Before anything is loaded -/

structure Unloaded (σ : State) : Prop where
  objs : ∀ o ∈ σ.objs, o.mod = none
  cache : ∀ e ∈ σ.cache, σ.objs[e.2]? = some e.1
  calls : σ.calls = []
  reports : σ.reports = []

/-- Objects may be added, nothing else happens. -/
structure Quiet (σ σ' : State) : Prop where
  unloaded : Unloaded σ'
  objs : σ.objs <+: σ'.objs
  importer : σ'.importer = σ.importer

theorem Quiet.refl {σ : State} (h : Unloaded σ) : Quiet σ σ := ⟨h, List.prefix_rfl, rfl⟩

theorem Quiet.trans {a b c : State} (h : Quiet a b) (h' : Quiet b c) : Quiet a c :=
  ⟨h'.unloaded, h.objs.trans h'.objs, h'.importer.trans h.importer⟩

theorem prefix_get {α : Type} {l l' : List α} (h : l <+: l') {i : Nat} {x : α} (hx : l[i]? = some x) : l'[i]? = some x := by
  obtain ⟨t, rfl⟩ := h
  rw [List.getElem?_append_left (List.getElem?_eq_some_iff.mp hx).1]
  exact hx

theorem fromCache_quiet {k : LazyModule} (hk : k.mod = none) {σ : State} (h : Unloaded σ) :
    Quiet σ (fromCache k σ).2 ∧ (fromCache k σ).2.objs[(fromCache k σ).1]? = some k := by
  unfold fromCache
  cases hf : σ.cache.find? (fun e => e.1 = k) with
  | some e =>
    have h1 : e.1 = k := by simpa using List.find?_some hf
    refine ⟨Quiet.refl h, ?_⟩
    rw [← h1]
    exact h.cache e (List.mem_of_find?_eq_some hf)
  | none =>
    refine ⟨⟨⟨?_, ?_, h.calls, h.reports⟩, List.prefix_append _ _, rfl⟩, ?_⟩
    · intro o ho
      rcases List.mem_append.mp ho with ho | ho
      · exact h.objs o ho
      · simp only [List.mem_singleton] at ho; subst ho; exact hk
    · intro e he
      rcases List.mem_append.mp he with he | he
      · exact prefix_get (List.prefix_append _ _) (h.cache e he)
      · simp only [List.mem_singleton] at he; subst he; simp
    · simp

theorem getAll_quiet (py : Py) {i : Nat} {name : ModName} {fl : List String} {cb : Nat} : ∀ {ns : List String} {σ : State},
    (∀ n ∈ ns, n ∈ fl) → Unloaded σ → σ.objs[i]? = some ⟨name, none, fl, cb⟩ →
    Quiet σ (getAll py i ns σ).2 ∧ Each (Binds (getAll py i ns σ).2) (getAll py i ns σ).1 (ns.map (fun n => name ++ [n]))
  | [], σ, _, h, _ => ⟨Quiet.refl h, .nil⟩
  | n :: ns, σ, hfl, h, ho => by
    obtain ⟨h1, h2⟩ := fromCache_quiet (k := ⟨name ++ [n], none, fl, cb⟩) rfl h
    have hg : getattr py i n σ = (.object (fromCache ⟨name ++ [n], none, fl, cb⟩ σ).1, (fromCache ⟨name ++ [n], none, fl, cb⟩ σ).2) := by
      unfold getattr
      rw [ho]
      simp only [hfl n (by simp), if_true]
    obtain ⟨h3, h4⟩ := getAll_quiet py (ns := ns) (fun m hm => hfl m (by simp [hm])) h1.unloaded (prefix_get h1.objs ho)
    simp only [getAll, hg, List.map_cons]
    exact ⟨h1.trans h3, .cons ⟨_, _, rfl, prefix_get h3.objs h2, rfl⟩ h4⟩

theorem Binds.mono {σ σ' : State} (h : σ.objs <+: σ'.objs) (g : Got) (n : ModName) : Binds σ g n → Binds σ' g n := by
  rintro ⟨i, o, h1, h2, h3⟩
  exact ⟨i, o, h1, prefix_get h h2, h3⟩

theorem execAll_quiet (py : Py) {cb : Nat} : ∀ {ss : List Stmt} {σ : State}, Unloaded σ →
    Quiet σ (execAll py cb ss σ).2 ∧ Each (Binds (execAll py cb ss σ).2) (execAll py cb ss σ).1 (targets ss)
  | [], σ, h => ⟨Quiet.refl h, .nil⟩
  | .relative _ :: ss, σ, h => ⟨Quiet.refl h, .nil⟩
  | .imp name :: ss, σ, h => by
    obtain ⟨h1, h2⟩ := fromCache_quiet (k := { name := name.take 1, callbacks := cb }) rfl h
    obtain ⟨h3, h4⟩ := execAll_quiet py (cb := cb) (ss := ss) h1.unloaded
    simp only [execAll, exec, targets]
    exact ⟨h1.trans h3, .cons ⟨_, _, rfl, prefix_get h3.objs h2, rfl⟩ h4⟩
  | .froms name names :: ss, σ, h => by
    obtain ⟨h1, h2⟩ := fromCache_quiet (k := { name := name, fromlist := names, callbacks := cb }) rfl h
    obtain ⟨h3, h4⟩ := getAll_quiet py (ns := names) (fun _ hn => hn) h1.unloaded h2
    obtain ⟨h5, h6⟩ := execAll_quiet py (cb := cb) (ss := ss) h3.unloaded
    simp only [execAll, exec, targets]
    exact ⟨(h1.trans h3).trans h5, (h4.imp (Binds.mono h5.objs)).append h6⟩

theorem withLazy_quiet (py : Py) {cb : Nat} {ss : List Stmt} {σ : State} (h : Unloaded σ) :
    Quiet σ (withLazy py cb ss σ).2 ∧ Each (Binds (withLazy py cb ss σ).2) (withLazy py cb ss σ).1 (targets ss) := by
  obtain ⟨h1, h2⟩ := execAll_quiet py (cb := cb) (ss := ss) (σ := { σ with importer := .lazy cb })
    ⟨h.objs, h.cache, h.calls, h.reports⟩
  exact ⟨⟨⟨h1.unloaded.objs, h1.unloaded.cache, h1.unloaded.calls, h1.unloaded.reports⟩, h1.objs, rfl⟩, h2⟩

theorem blocks_quiet (py : Py) : ∀ {bs : List (Nat × List Stmt)} {σ : State}, Unloaded σ →
    Quiet σ (blocks py bs σ).2 ∧ Each (Binds (blocks py bs σ).2) (blocks py bs σ).1 (bs.flatMap (fun b => targets b.2))
  | [], σ, h => ⟨Quiet.refl h, .nil⟩
  | (cb, ss) :: bs, σ, h => by
    obtain ⟨h1, h2⟩ := withLazy_quiet py (cb := cb) (ss := ss) h
    obtain ⟨h3, h4⟩ := blocks_quiet py (bs := bs) h1.unloaded
    simp only [blocks, List.flatMap_cons]
    exact ⟨h1.trans h3, (h2.imp (Binds.mono h3.objs)).append h4⟩

/-! ## Later -/

/-- What later uses do to the objects `objs`. -/
structure Using (py : Py) (L : ModName → Option Nat) (objs : List LazyModule) (σ : State) : Prop where
  each : ∀ (i : Nat) (o : LazyModule), objs[i]? = some o →
    (σ.objs[i]? = some o ∧ σ.calls.filter (fun c => c.obj = i ∧ c.result.isSome) = []) ∨
    ∃ m, L o.name = some m ∧ σ.objs[i]? = some { o with mod := some m } ∧
      σ.calls.filter (fun c => c.obj = i ∧ c.result.isSome) = [⟨i, o.name, some m⟩]
  reports : σ.reports = σ.calls.map fun c => match objs[c.obj]?.map (·.callbacks), c.result with
    | some cb, some m => .success cb c.name m
    | some cb, none => .error cb c.name
    | none, _ => .error 0 c.name
  calls : ∀ c ∈ σ.calls, ∃ o, objs[c.obj]? = some o ∧ c.name = o.name ∧ c.result = L o.name

theorem getattr_using {py : Py} {L : ModName → Option Nat} (hL : ∀ t n, py.load t n = L n) {objs : List LazyModule}
    (hm : ∀ o ∈ objs, o.mod = none) {σ : State} (h : Using py L objs σ) {i : Nat} {o : LazyModule} (ho : objs[i]? = some o)
    {n : String} (hn : n ∉ o.fromlist) :
    (getattr py i n σ).1 = eager py L o.name n ∧ Using py L objs (getattr py i n σ).2 ∧
    ∃ cs, (getattr py i n σ).2.calls = σ.calls ++ cs ∧ ∀ c ∈ cs, c.obj = i := by
  have hmo : o.mod = none := hm o (List.mem_of_getElem? ho)
  rcases h.each i o ho with ⟨h1, h2⟩ | ⟨m, h1, h2, h3⟩
  · unfold getattr
    rw [h1]
    simp only [hn, if_false, hmo, hL]
    cases hl : L o.name with
    | none =>
      refine ⟨by simp [eager, hl], ⟨?_, ?_, ?_⟩, _, rfl, by simp⟩
      · intro j o' ho'
        rcases h.each j o' ho' with ⟨h4, h5⟩ | ⟨m, h4, h5, h6⟩
        · exact .inl ⟨h4, by rw [List.filter_append, h5]; simp⟩
        · exact .inr ⟨m, h4, h5, by rw [List.filter_append, h6]; simp⟩
      · simp [h.reports, ho]
      · intro c hc
        rcases List.mem_append.mp hc with hc | hc
        · exact h.calls c hc
        · simp only [List.mem_singleton] at hc; subst hc; exact ⟨o, ho, rfl, hl.symm⟩
    | some m =>
      refine ⟨by simp only [eager, hl, attrOf]; cases py.attr m n <;> rfl, ⟨?_, ?_, ?_⟩, _, rfl, by simp⟩
      · intro j o' ho'
        by_cases hj : j = i
        · subst hj
          rw [ho] at ho'
          cases ho'
          refine .inr ⟨m, hl, ?_, ?_⟩
          · have hlen := (List.getElem?_eq_some_iff.mp h1).1
            simp [List.getElem?_set, hlen]
          · simp only [List.filter_append, h2, List.nil_append]
            simp
        · rcases h.each j o' ho' with ⟨h4, h5⟩ | ⟨m', h4, h5, h6⟩
          · refine .inl ⟨by simp only [List.getElem?_set, if_neg (Ne.symm hj)]; exact h4, ?_⟩
            simp only [List.filter_append, h5, List.nil_append]
            simp [Ne.symm hj]
          · refine .inr ⟨m', h4, by simp only [List.getElem?_set, if_neg (Ne.symm hj)]; exact h5, ?_⟩
            simp only [List.filter_append, h6]
            simp [Ne.symm hj]
      · simp [h.reports, ho]
      · intro c hc
        rcases List.mem_append.mp hc with hc | hc
        · exact h.calls c hc
        · simp only [List.mem_singleton] at hc; subst hc; exact ⟨o, ho, rfl, hl.symm⟩
  · unfold getattr
    rw [h2]
    simp only [hn, if_false]
    exact ⟨by simp only [eager, h1, attrOf]; cases py.attr m n <;> rfl, h, [], by simp, by simp⟩

theorem useAll_using {py : Py} {L : ModName → Option Nat} (hL : ∀ t n, py.load t n = L n) {objs : List LazyModule}
    (hm : ∀ o ∈ objs, o.mod = none) (nameOf : Nat → ModName) : ∀ {us : List (Nat × String)} {σ : State}, Using py L objs σ →
    (∀ u ∈ us, ∃ o, objs[u.1]? = some o ∧ o.name = nameOf u.1 ∧ u.2 ∉ o.fromlist) →
    (useAll py us σ).1 = us.map (fun u => eager py L (nameOf u.1) u.2) ∧ Using py L objs (useAll py us σ).2 ∧
    ∃ cs, (useAll py us σ).2.calls = σ.calls ++ cs ∧ ∀ c ∈ cs, ∃ u ∈ us, u.1 = c.obj
  | [], σ, h, _ => ⟨rfl, h, [], by simp [useAll], by simp⟩
  | u :: us, σ, h, hu => by
    obtain ⟨o, ho, hname, hn⟩ := hu u (by simp)
    obtain ⟨h1, h2, cs, h3, h4⟩ := getattr_using hL hm h ho hn
    obtain ⟨h5, h6, cs', h7, h8⟩ := useAll_using hL hm nameOf (us := us) h2 (fun v hv => hu v (by simp [hv]))
    simp only [useAll]
    refine ⟨by rw [h1, h5, hname]; rfl, h6, cs ++ cs', by rw [h7, h3, List.append_assoc], ?_⟩
    intro c hc
    rcases List.mem_append.mp hc with hc | hc
    · exact ⟨u, by simp, (h4 c hc).symm⟩
    · obtain ⟨v, hv, he⟩ := h8 c hc
      exact ⟨v, by simp [hv], he⟩

/-- The object that a name is bound to, and the attributes that are looked up on it: not those that were
imported together with it. -/
def Careful (σ : State) (us : List (Nat × String)) : Prop := ∀ u ∈ us, ∃ o, σ.objs[u.1]? = some o ∧ u.2 ∉ o.fromlist

/-- The module of an object. -/
def State.nameOf (σ : State) (i : Nat) : ModName := (σ.objs[i]?.map (·.name)).getD []

/-- **C70 (partial: attributes that are not names of the import statement, all imports before the first use).** The
import statements in any number of `with lazy_imports` blocks bind objects for the modules they name, import nothing,
call no callback, and afterwards `__import__` is the original one.  Looking attributes up later gives what importing the module and looking
the attribute up gives.  Every module is imported only when an attribute is looked up on its object, successfully at most once for
each object, and each import is reported once, to the callback for its outcome. -/
theorem C70_partial {py : Py} {L : ModName → Option Nat} (hL : ∀ t n, py.load t n = L n) (bs : List (Nat × List Stmt))
    (us : List (Nat × String)) :
    let r := blocks py bs {}
    let q := useAll py us r.2
    (Each (Binds r.2) r.1 (bs.flatMap fun b => targets b.2) ∧
      r.2.calls = [] ∧ r.2.reports = [] ∧ r.2.importer = .original) ∧
    (Careful r.2 us →
      q.1 = us.map (fun u => eager py L (r.2.nameOf u.1) u.2) ∧
      (∀ c ∈ q.2.calls, (∃ u ∈ us, u.1 = c.obj) ∧ c.name = r.2.nameOf c.obj ∧ c.result = L c.name) ∧
      (∀ i, (q.2.calls.filter fun c => c.obj = i ∧ c.result.isSome).length ≤ 1) ∧
      q.2.reports = q.2.calls.map fun c => match r.2.objs[c.obj]?.map (·.callbacks), c.result with
        | some cb, some m => .success cb c.name m
        | some cb, none => .error cb c.name
        | none, _ => .error 0 c.name) := by
  intro r q
  have h0 : Unloaded {} := ⟨by simp, by simp, rfl, rfl⟩
  obtain ⟨h1, h2⟩ := blocks_quiet py (bs := bs) h0
  refine ⟨⟨h2, h1.unloaded.calls, h1.unloaded.reports, h1.importer⟩, ?_⟩
  intro hc
  have hu : Using py L r.2.objs r.2 := by
    refine ⟨?_, ?_, ?_⟩
    · intro i o ho
      exact .inl ⟨ho, by rw [h1.unloaded.calls]; rfl⟩
    · rw [h1.unloaded.calls, h1.unloaded.reports]; rfl
    · rw [h1.unloaded.calls]; simp
  have hnames : ∀ i o, r.2.objs[i]? = some o → r.2.nameOf i = o.name := by
    intro i o ho
    simp [State.nameOf, ho]
  obtain ⟨h3, h4, cs, h5, h6⟩ := useAll_using hL h1.unloaded.objs r.2.nameOf (us := us) hu (by
    intro u hmem
    obtain ⟨o, ho, hn⟩ := hc u hmem
    exact ⟨o, ho, (hnames _ o ho).symm, hn⟩)
  refine ⟨h3, ?_, ?_, h4.reports⟩
  · intro c hmem
    obtain ⟨o, ho, h7, h8⟩ := h4.calls c hmem
    have : c ∈ cs := by
      have hmem' : c ∈ (useAll py us r.2).2.calls := hmem
      rw [h5, h1.unloaded.calls] at hmem'
      simpa using hmem'
    exact ⟨h6 c this, by rw [hnames _ o ho, h7], by rw [h8, h7]⟩
  · intro i
    by_cases hi : ∃ o, r.2.objs[i]? = some o
    · obtain ⟨o, ho⟩ := hi
      rcases h4.each i o ho with ⟨-, h7⟩ | ⟨m, -, -, h7⟩
      · show (List.filter _ (useAll py us r.2).2.calls).length ≤ 1
        rw [h7]; simp
      · show (List.filter _ (useAll py us r.2).2.calls).length ≤ 1
        rw [h7]; simp
    · have : List.filter (fun c => decide (c.obj = i ∧ c.result.isSome = true)) q.2.calls = [] := by
        rw [List.filter_eq_nil_iff]
        intro c hmem hd
        obtain ⟨o, ho, -⟩ := h4.calls c hmem
        simp only [decide_eq_true_eq] at hd
        exact hi ⟨o, hd.1 ▸ ho⟩
      rw [this]; simp

namespace Demo

/-- Modules `ray`, `x`, `x.a` and `x.a.a`; no other can be imported.  Each has an attribute `f`, and
`x.a` an attribute `a`. -/
def modules : ModName → Option Nat
  | ["ray"] => some 1
  | ["x"] => some 2
  | ["x", "a"] => some 3
  | ["x", "a", "a"] => some 4
  | _ => none

def py : Py where
  load := fun _ => modules
  attr := fun m n => if n = "f" then some (10 * m) else if m = 3 ∧ n = "a" then some 35 else none

/-- Two blocks as at the end of the file: `from x import a`; `import ray`, `from x import missing`. -/
def twoBlocks : List (Nat × List Stmt) := [(7, [.froms ["x"] ["a"]]), (0, [.imp ["ray", "data"], .froms ["x"] ["missing"]])]

end Demo

open Demo in
/-- Attributes of `a`, `ray` and `missing`. -/
example : (blocks py twoBlocks {}).1 = [.object 1, .object 2, .object 4] ∧
    Careful (blocks py twoBlocks {}).2 [(2, "f"), (1, "f"), (1, "g"), (4, "f"), (4, "f")] ∧
    (useAll py [(2, "f"), (1, "f"), (1, "g"), (4, "f"), (4, "f")] (blocks py twoBlocks {}).2).1 =
      [.value 10, .value 30, .attributeError, .importError, .importError] ∧
    (useAll py [(2, "f"), (1, "f"), (1, "g"), (4, "f"), (4, "f")] (blocks py twoBlocks {}).2).2.reports =
      [.success 0 ["ray"] 1, .success 7 ["x", "a"] 3, .error 0 ["x", "missing"], .error 0 ["x", "missing"]] := by
  refine ⟨by decide, ?_, by decide, by decide⟩
  intro u hu
  simp only [List.mem_cons, List.not_mem_nil, or_false] at hu
  rcases hu with rfl | rfl | rfl | rfl | rfl <;> exact ⟨_, rfl, by decide⟩

/-- **C70 is false in general**: after `from x import a`, the attribute `a` of `x.a` is not found, a
lazy module `x.a.a` is given instead. -/
theorem C70_violated : ∃ (py : Py) (L : ModName → Option Nat) (bs : List (Nat × List Stmt)) (i : Nat),
    (∀ t n, py.load t n = L n) ∧ (blocks py bs {}).1 = [.object i] ∧ (blocks py bs {}).2.nameOf i = ["x", "a"] ∧
    eager py L ["x", "a"] "a" = .value 35 ∧ (useAll py [(i, "a")] (blocks py bs {}).2).1 = [.object 2] :=
  ⟨Demo.py, Demo.modules, [(0, [.froms ["x"] ["a"]])], 1, fun _ _ => rfl, by decide, by decide, by decide, by decide⟩

/-- **C70 is false for imports after a use**: `from x import a`, a use of `a`, then `from x.a import a` binds
an object for `x.a.a` whose attributes are those of `x.a`. -/
theorem C70_violated_loaded : ∃ (py : Py) (L : ModName → Option Nat) (i j : Nat),
    (∀ t n, py.load t n = L n) ∧
    let r := blocks py [(0, [.froms ["x"] ["a"]])] {}
    let u := useAll py [(i, "f")] r.2
    let b := blocks py [(0, [.froms ["x", "a"] ["a"]])] u.2
    r.1 = [.object i] ∧ b.1 = [.object j] ∧ b.2.nameOf j = ["x", "a", "a"] ∧
    eager py L ["x", "a", "a"] "f" = .value 40 ∧ (useAll py [(j, "f")] b.2).1 = [.value 30] :=
  ⟨Demo.py, Demo.modules, 1, 2, fun _ _ => rfl, by decide, by decide, by decide, by decide, by decide⟩

end Space.LazyImport
