import Verif.Paths

/-!
# C33, C34: stored paths
-/

set_option autoImplicit false

namespace Space.Paths

/-! ## Lemmas -/

theorem walk_append (d : List Str) (a b : List Str) : walk d (a ++ b) = walk (walk d a) b := by
  induction a generalizing d with
  | nil => rfl
  | cons x a ih => simp only [List.cons_append, walk]; exact ih _

theorem split_ne (p : Str) : split p ≠ [] := by
  cases p with
  | nil => simp [split]
  | cons c cs =>
    unfold split
    split
    · simp
    · split <;> simp

theorem split_cons (c : Char) (cs : Str) : split (c :: cs) =
    if c = '/' then [] :: split cs
    else
      match split cs with
      | x :: xs => (c :: x) :: xs
      | [] => [[c]] := by
  conv => lhs; unfold split
  rfl

theorem split_slash (a b : Str) : split (a ++ '/' :: b) = split a ++ split b := by
  induction a with
  | nil => simp [split]
  | cons c a ih =>
    rw [List.cons_append, split_cons, split_cons]
    by_cases hc : c = '/'
    · simp [hc, ih]
    · rw [if_neg hc, if_neg hc, ih]
      cases hs : split a with
      | nil => exact absurd hs (split_ne a)
      | cons x xs => simp

theorem split_noslash {x : Str} (h : '/' ∉ x) : split x = [x] := by
  induction x with
  | nil => rfl
  | cons c x ih =>
    simp only [List.mem_cons, not_or] at h
    unfold split
    rw [if_neg (Ne.symm h.1), ih h.2]

theorem split_mem_noslash (p : Str) : ∀ x ∈ split p, '/' ∉ x := by
  induction p with
  | nil => simp [split]
  | cons c p ih =>
    intro x hx
    unfold split at hx
    by_cases hc : c = '/'
    · rw [if_pos hc] at hx
      rcases List.mem_cons.mp hx with rfl | hx
      · simp
      · exact ih x hx
    · rw [if_neg hc] at hx
      cases hs : split p with
      | nil => exact absurd hs (split_ne p)
      | cons y ys =>
        rw [hs] at hx ih
        simp only at hx
        rcases List.mem_cons.mp hx with rfl | hx
        · simp only [List.mem_cons, not_or]
          exact ⟨Ne.symm hc, ih y (List.mem_cons_self ..)⟩
        · exact ih x (List.mem_cons_of_mem _ hx)

theorem walk_split_join {d : List Str} {a b : Str} (hb : isabs b = false) :
    walk d (split (join a b)) = walk (walk d (split a)) (split b) := by
  unfold join
  rw [if_neg (by simp [hb])]
  split
  · rename_i h
    rcases h with rfl | h
    · simp [split, walk]
    · obtain ⟨a', rfl⟩ : ∃ a', a = a' ++ ['/'] := by
        obtain ⟨ys, hy⟩ := List.getLast?_eq_some_iff.mp h
        exact ⟨ys, hy⟩
      rw [List.append_assoc, List.singleton_append, split_slash, split_slash, walk_append, walk_append]
      simp [split, walk]
  · rw [split_slash, walk_append]

theorem isabs_join {a b : Str} (hb : isabs b = false) (ha : a ≠ []) : isabs (join a b) = isabs a := by
  unfold join
  rw [if_neg (by simp [hb])]
  cases a with
  | nil => exact absurd rfl ha
  | cons c a => split <;> rfl

theorem isabs_join_abs {a b : Str} (ha : isabs a = true) : isabs (join a b) = true := by
  cases hb : isabs b with
  | true => unfold join; rw [if_pos hb, hb]
  | false =>
    rw [isabs_join hb, ha]
    rintro rfl
    cases ha

/-- Joining a relative path goes on from where the first path leads. -/
theorem place_join {d : List Str} {a b : Str} (hb : isabs b = false) :
    place d (join a b) = place (place d a) b := by
  cases ha : a with
  | nil =>
    have : join [] b = b := by unfold join; simp [hb]
    rw [this]
    simp [place, isabs, split, walk]
  | cons c cs =>
    rw [← ha]
    have hne : a ≠ [] := by simp [ha]
    unfold place
    rw [isabs_join hb hne, walk_split_join hb, hb]
    simp

theorem place_abs {d : List Str} {p : Str} (h : isabs p = true) : place d p = rooted p := by
  simp [rooted, place, h]

theorem join_abs {a b : Str} (hb : isabs b = true) : join a b = b := by simp [join, hb]

/-- Names of files and directories, not the special segments. -/
def Name (x : Str) : Prop := x ≠ [] ∧ x ≠ ['.'] ∧ x ≠ ['.', '.'] ∧ '/' ∉ x

theorem mem_dropLast {α : Type} {l : List α} {x : α} (h : x ∈ l.dropLast) : x ∈ l :=
  List.dropLast_subset l h

theorem walk_names {d : List Str} (hd : ∀ x ∈ d, Name x) : ∀ {segs : List Str}, (∀ x ∈ segs, '/' ∉ x) →
    ∀ x ∈ walk d segs, Name x := by
  intro segs
  induction segs generalizing d with
  | nil => exact fun _ => hd
  | cons y ys ih =>
    intro hs
    unfold walk
    refine ih ?_ (fun x hx => hs x (List.mem_cons_of_mem _ hx))
    split
    · exact hd
    · rename_i h1
      split
      · exact fun x hx => hd x (mem_dropLast hx)
      · rename_i h2
        intro x hx
        rcases List.mem_append.mp hx with hx | hx
        · exact hd x hx
        · simp only [List.mem_singleton] at hx
          subst hx
          simp only [not_or] at h1
          exact ⟨h1.1, h1.2, h2, hs x (List.mem_cons_self ..)⟩

theorem place_names {d : List Str} (hd : ∀ x ∈ d, Name x) (p : Str) : ∀ x ∈ place d p, Name x := by
  unfold place
  refine walk_names ?_ (split_mem_noslash p)
  split
  · simp
  · exact hd

theorem getLast_mem {α : Type} {l : List α} {x : α} (h : l.getLast? = some x) : x ∈ l := by
  obtain ⟨ys, rfl⟩ := List.getLast?_eq_some_iff.mp h
  simp

/-- On absolute paths the loop of `normpath` follows the path. -/
theorem norm_walk : ∀ {segs : List Str} {acc : List Str}, (∀ x ∈ acc, Name x) → (∀ x ∈ segs, '/' ∉ x) →
    segs.foldl (normStep true) acc = walk acc segs := by
  intro segs
  induction segs with
  | nil => intros; rfl
  | cons y ys ih =>
    intro acc ha hs
    simp only [List.foldl_cons, walk]
    have he : normStep true acc y =
        (if y = [] ∨ y = ['.'] then acc else if y = ['.', '.'] then acc.dropLast else acc ++ [y]) := by
      unfold normStep
      split
      · rfl
      · have hl : acc.getLast? ≠ some ['.', '.'] := fun h => (ha _ (getLast_mem h)).2.2.1 rfl
        by_cases hy : y = ['.', '.']
        · simp [hy, hl]
        · simp [hy]
    rw [he]
    have := walk_names (segs := [y]) ha (by simpa using hs y (List.mem_cons_self ..))
    exact ih this (fun x hx => hs x (List.mem_cons_of_mem _ hx))

theorem split_unsplit : ∀ {segs : List Str}, segs ≠ [] → (∀ x ∈ segs, '/' ∉ x) → split (unsplit segs) = segs
  | [], h, _ => absurd rfl h
  | [x], _, h => by simpa [unsplit] using split_noslash (h x (List.mem_cons_self ..))
  | x :: y :: xs, _, h => by
    have ih := split_unsplit (segs := y :: xs) (by simp) (fun z hz => h z (List.mem_cons_of_mem _ hz))
    unfold unsplit
    rw [split_slash, ih, split_noslash (h x (List.mem_cons_self ..))]
    rfl

theorem slashes_abs {p : Str} (h : isabs p = true) : slashes p = ['/'] ∨ slashes p = ['/', '/'] := by
  unfold slashes
  split
  · exact Or.inr rfl
  · split
    · exact Or.inl rfl
    · exact Or.inr rfl
  · exact Or.inl rfl
  · rename_i h1
    cases p with
    | nil => cases h
    | cons c cs =>
      simp only [isabs, List.head?_cons, beq_iff_eq, Option.some.injEq] at h
      subst h
      exact absurd rfl (h1 cs)

/-- The segments of a normalised absolute path are where it leads. -/
theorem parts_normpath {p : Str} (h : isabs p = true) : parts (normpath p) = rooted p := by
  have hw : (split p).foldl (normStep (isabs p)) [] = rooted p := by
    rw [h, norm_walk (by simp) (split_mem_noslash p)]
    simp [rooted, place]
  have hnames : ∀ x ∈ rooted p, Name x := place_names (by simp) p
  have hn : normpath p = slashes p ++ unsplit (rooted p) := by
    unfold normpath
    rw [hw]
    rcases slashes_abs h with h | h <;> rw [h] <;> rfl
  have hu : (split (unsplit (rooted p))).filter (fun x => x ≠ []) = rooted p := by
    by_cases hne : rooted p = []
    · rw [hne]; rfl
    · rw [split_unsplit hne (fun x hx => (hnames x hx).2.2.2)]
      exact List.filter_eq_self.mpr fun x hx => by simpa using (hnames x hx).1
  rw [hn]
  unfold parts
  rcases slashes_abs h with h | h <;> rw [h]
  · rw [List.singleton_append]
    unfold split
    rw [if_pos rfl, List.filter_cons_of_neg (by simp)]
    exact hu
  · rw [List.cons_append, List.singleton_append]
    unfold split
    rw [if_pos rfl, List.filter_cons_of_neg (by simp)]
    unfold split
    rw [if_pos rfl, List.filter_cons_of_neg (by simp)]
    exact hu

theorem parts_abspath {cwd p : Str} (hc : isabs cwd = true) :
    parts (abspath cwd p) = place (rooted cwd) p := by
  unfold abspath
  cases hp : isabs p with
  | true => rw [if_pos rfl, parts_normpath hp, place_abs hp]
  | false =>
    rw [if_neg (by simp), parts_normpath (isabs_join_abs hc)]
    exact place_join hp

theorem name_rel {x : Str} (h : '/' ∉ x) : isabs x = false := by
  cases x with
  | nil => rfl
  | cons c cs =>
    simp only [List.mem_cons, not_or] at h
    simp only [isabs, List.head?_cons, beq_eq_false_iff_ne, ne_eq, Option.some.injEq]
    exact Ne.symm h.1

theorem walk_joinAll {d : List Str} : ∀ {xs : List Str} {a : Str}, (∀ x ∈ xs, '/' ∉ x) →
    walk d (split (joinAll a xs)) = walk (walk d (split a)) xs := by
  intro xs
  induction xs with
  | nil => intros; rfl
  | cons x xs ih =>
    intro a h
    have hx := h x (List.mem_cons_self ..)
    simp only [joinAll, List.foldl_cons] at ih ⊢
    rw [ih (fun y hy => h y (List.mem_cons_of_mem _ hy)), walk_split_join (name_rel hx), split_noslash hx]
    simp [walk]

theorem isabs_joinAll : ∀ {xs : List Str} {a : Str}, (∀ x ∈ xs, '/' ∉ x) → a ≠ [] → isabs a = false →
    isabs (joinAll a xs) = false
  | [], _, _, _, h => h
  | x :: xs, a, h, hne, ha => by
    have hx := name_rel (h x (List.mem_cons_self ..))
    simp only [joinAll, List.foldl_cons]
    refine isabs_joinAll (fun y hy => h y (List.mem_cons_of_mem _ hy)) ?_ ?_
    · unfold join
      rw [if_neg (by simp [hx])]
      split <;> simp [hne]
    · rw [isabs_join hx hne, ha]

theorem walk_up (d : List Str) : ∀ n, walk d (List.replicate n ['.', '.']) = d.take (d.length - n) := by
  intro n
  induction n generalizing d with
  | zero => simp [walk]
  | succ n ih =>
    rw [List.replicate_succ]
    simp only [walk]
    rw [if_neg (by decide), if_pos trivial, ih, List.dropLast_eq_take, List.take_take, List.length_take]
    congr 1
    omega

theorem walk_down {d segs : List Str} (h : ∀ x ∈ segs, Name x) : walk d segs = d ++ segs := by
  induction segs generalizing d with
  | nil => simp [walk]
  | cons x xs ih =>
    obtain ⟨h1, h2, h3, -⟩ := h x (List.mem_cons_self ..)
    simp only [walk]
    rw [if_neg (by simp [h1, h2]), if_neg h3, ih fun y hy => h y (List.mem_cons_of_mem _ hy)]
    simp

theorem common_take : ∀ (s p : List Str), s.take (common s p) = p.take (common s p)
  | [], [] => rfl
  | [], _ :: _ => rfl
  | _ :: _, [] => rfl
  | x :: xs, y :: ys => by
    unfold common
    split
    · rename_i h
      simp [h, common_take xs ys]
    · rfl

theorem common_le : ∀ (s p : List Str), common s p ≤ s.length
  | [], _ => by simp [common]
  | _ :: _, [] => by simp [common]
  | x :: xs, y :: ys => by
    unfold common
    split
    · simpa using common_le xs ys
    · simp

theorem common_append (s t : List Str) : common s (s ++ t) = s.length := by
  induction s with
  | nil => cases t <;> rfl
  | cons x s ih => simp [common, ih]

/-- The segments `relpath` puts together. -/
def relSegs (s p : List Str) : List Str :=
  List.replicate (s.length - common s p) ['.', '.'] ++ p.drop (common s p)

theorem relSegs_walk {s p : List Str} (hp : ∀ x ∈ p, Name x) : walk s (relSegs s p) = p := by
  unfold relSegs
  rw [walk_append, walk_up, walk_down (fun x hx => hp x (List.drop_subset _ _ hx))]
  have h1 := common_le s p
  rw [show s.length - (s.length - common s p) = common s p by omega, common_take,
    List.take_append_drop]

/-- A path made by `relpath` is relative and leads along `relSegs`. -/
theorem relpath_spec {cwd path start : Str} (hc : isabs cwd = true) :
    isabs (relpath cwd path start) = false ∧
    ∀ d, walk d (split (relpath cwd path start)) =
      walk d (relSegs (place (rooted cwd) start) (place (rooted cwd) path)) := by
  have hcn : ∀ x ∈ rooted cwd, Name x := place_names (by simp) cwd
  have hsegs : ∀ x ∈ relSegs (place (rooted cwd) start) (place (rooted cwd) path), '/' ∉ x ∧ x ≠ [] := by
    intro x hx
    rcases List.mem_append.mp hx with hx | hx
    · rw [(List.mem_replicate.mp hx).2]
      decide
    · have := place_names hcn path x (List.drop_subset _ _ hx)
      exact ⟨this.2.2.2, this.1⟩
  unfold relpath
  rw [parts_abspath hc, parts_abspath hc]
  show isabs (match relSegs (place (rooted cwd) start) (place (rooted cwd) path) with
      | [] => ['.']
      | x :: xs => joinAll x xs) = false ∧ ∀ d, walk d (split (match relSegs (place (rooted cwd) start)
        (place (rooted cwd) path) with
      | [] => ['.']
      | x :: xs => joinAll x xs)) = _
  cases hr : relSegs (place (rooted cwd) start) (place (rooted cwd) path) with
  | nil => exact ⟨rfl, fun d => by simp [split, walk]⟩
  | cons x xs =>
    rw [hr] at hsegs
    have hx := hsegs x (List.mem_cons_self ..)
    have hxs := fun y hy => (hsegs y (List.mem_cons_of_mem _ hy)).1
    refine ⟨isabs_joinAll hxs hx.2 (name_rel hx.1), fun d => ?_⟩
    simp only
    rw [walk_joinAll hxs, split_noslash hx.1, ← walk_append]
    rfl

/-! ## C33 -/

/-- C33: the short form of any path, made full again, denotes the same file; for every
location and path, absolute or relative, with dot segments or repeated slashes. -/
theorem C33_resolves {cwd : Str} (hc : isabs cwd = true) (location p : Str) :
    place (rooted cwd) (fullPath location (shortPath cwd location p)) = place (rooted cwd) p := by
  have hcn : ∀ x ∈ rooted cwd, Name x := place_names (by simp) cwd
  obtain ⟨h1, h2⟩ := relpath_spec (cwd := cwd) (path := p) (start := location) hc
  unfold fullPath shortPath
  rw [place_join h1]
  show walk (if isabs _ then [] else _) _ = _
  rw [h1, if_neg (by simp), h2]
  exact relSegs_walk (place_names hcn p)

/-- C33, moving: a path to something in or below the location, written in short form, leads
to the same place relative to any other location, from any other working directory. -/
theorem C33_moved {cwd : Str} (hc : isabs cwd = true) {location p : Str} {below : List Str}
    (hb : place (rooted cwd) p = place (rooted cwd) location ++ below) (dir' : List Str) (location' : Str) :
    place dir' (fullPath location' (shortPath cwd location p)) = place dir' location' ++ below := by
  have hcn : ∀ x ∈ rooted cwd, Name x := place_names (by simp) cwd
  obtain ⟨h1, h2⟩ := relpath_spec (cwd := cwd) (path := p) (start := location) hc
  unfold fullPath shortPath
  rw [place_join h1]
  show walk (if isabs _ then [] else _) _ = _
  rw [h1, if_neg (by simp), h2, hb]
  have hbn : ∀ x ∈ below, Name x := fun x hx => place_names hcn p x (by rw [hb]; exact List.mem_append_right _ hx)
  unfold relSegs
  rw [common_append, Nat.sub_self, List.replicate_zero, List.nil_append, List.drop_left]
  exact walk_down hbn

/-- A file name the storage makes up is a name. -/
theorem name_of {pre mid suf : Str} (h1 : '/' ∉ pre) (h2 : '/' ∉ mid) (h3 : '/' ∉ suf)
    (hlen : 3 ≤ (pre ++ mid ++ suf).length) : Name (pre ++ mid ++ suf) := by
  refine ⟨?_, ?_, ?_, by simp [h1, h2, h3]⟩ <;> (intro h; rw [h] at hlen; simp at hlen)

theorem place_under {dir : List Str} {a x : Str} (hx : Name x) : place dir (join a x) = place dir a ++ [x] := by
  rw [place_join (name_rel hx.2.2.2)]
  unfold place
  rw [name_rel hx.2.2.2, split_noslash hx.2.2.2]
  simp only [Bool.false_eq_true, if_false]
  exact walk_down (by simpa using hx)

/-- A uuid: some characters, none a slash. -/
def Uuid (u : Str) : Prop := '/' ∉ u

/-- Files of a storage at `location` as the storage names them. -/
inductive Written (location : Str) : Str → List Str → Prop where
  | index (u) : Uuid u → Written location (newIndexFile (dataDir location) u)
      [str "data", str "index_" ++ u ++ str ".parquet"]
  | record (field u) : '/' ∉ field → Uuid u → Written location (newRecordFile (dataDir location) field u)
      [str "data", field ++ str "_" ++ u ++ str ".array_record"]
  | indexManifest (u) : Uuid u → Written location (newIndexManifest (metadataDir location) u)
      [str "metadata", str "index_manifest_" ++ u ++ str ".parquet"]
  | recordManifest (u) : Uuid u → Written location (newRecordManifest (metadataDir location) u)
      [str "metadata", str "record_manifest_" ++ u ++ str ".parquet"]
  | mdata (u) : Uuid u → Written location (newMetadata (metadataDir location) u)
      [str "metadata", str "metadata_" ++ u ++ str ".txtpb"]
  | changeLog (u) : Uuid u → Written location (newChangeLog location u)
      [str "metadata", str "changes", str "change_" ++ u ++ str ".txtpb"]

theorem Written.place {location p : Str} {below : List Str} (h : Written location p below) (dir : List Str) :
    place dir p = Paths.place dir location ++ below := by
  have hd : Name (str "data") := by unfold Name; decide
  have hm : Name (str "metadata") := by unfold Name; decide
  have hch : Name (str "changes") := by unfold Name; decide
  cases h with
  | index u hu =>
    unfold newIndexFile dataDir
    rw [place_under (name_of (by decide) hu (by decide) (by simp [str] )), place_under hd]
    simp
  | record f u hf hu =>
    unfold newRecordFile dataDir
    rw [place_under (x := f ++ str "_" ++ u ++ str ".array_record")
      (name_of (by simp [hf, str]) hu (by decide) (by simp [str]; omega)), place_under hd]
    simp
  | indexManifest u hu =>
    unfold newIndexManifest metadataDir
    rw [place_under (name_of (by decide) hu (by decide) (by simp [str])), place_under hm]
    simp
  | recordManifest u hu =>
    unfold newRecordManifest metadataDir
    rw [place_under (name_of (by decide) hu (by decide) (by simp [str])), place_under hm]
    simp
  | mdata u hu =>
    unfold newMetadata metadataDir
    rw [place_under (name_of (by decide) hu (by decide) (by simp [str])), place_under hm]
    simp
  | changeLog u hu =>
    unfold newChangeLog metadataDir
    rw [place_under (name_of (by decide) hu (by decide) (by simp [str])), place_under hch, place_under hm]
    simp

/-- C33 for every file a storage writes: the stored short path, made full with the location
the directory was moved to, leads to the moved file. -/
theorem C33_files {cwd : Str} (hc : isabs cwd = true) {location p : Str} {below : List Str}
    (hw : Written location p below) (dir' : List Str) (location' : Str) :
    place (rooted cwd) p = place (rooted cwd) location ++ below ∧
    place dir' (fullPath location' (shortPath cwd location p)) = place dir' location' ++ below :=
  ⟨hw.place _, C33_moved hc (hw.place _) _ _⟩

/-- C33, the entry point is found at the new location. -/
theorem C33_entry (dir : List Str) (location : Str) :
    place dir (entryPointPath location) = place dir location ++ [str "metadata", str "entrypoint.txtpb"] := by
  have h1 : Name (str "metadata") := by unfold Name; decide
  have h2 : Name (str "entrypoint.txtpb") := by unfold Name; decide
  show place dir (join (join location (str "metadata")) (str "entrypoint.txtpb")) = _
  rw [place_under h2, place_under h1]
  simp

/-- A relative location with dot segments, from a working directory. -/
example : shortPath (str "/home/u") (str "./a/../t//") (str "./a/../t//data/f.parquet") = str "data/f.parquet" ∧
    place (rooted (str "/home/u")) (str "./a/../t//data/f.parquet") =
      [str "home", str "u", str "t", str "data", str "f.parquet"] := by decide

/-- A file outside the location. -/
example : shortPath (str "/home/u") (str "t") (str "/in/f.parquet") = str "../../../in/f.parquet" ∧
    fullPath (str "t") (str "../../../in/f.parquet") = str "t/../../../in/f.parquet" := by decide

/-! ## C34 -/

/-- C34, the part about names that holds: the loaders store the name of a matched file as it
is (`parquet.py:57-60`, `array_record.py:78-109`).  An absolute name leads to the same file
when the table is read, from any working directory and at any location.  Missing: relative
names. -/
theorem C34_resolves_partial {name : Str} (h : isabs name = true) (dir dir' : List Str) (location : Str) :
    place dir' (fullPath location name) = place dir name := by
  unfold fullPath
  rw [join_abs h, place_abs h, place_abs h]

/-- For a relative name, the file opened at read time is the one of that name below the
location; the file that was loaded is the one below the working directory. -/
theorem C34_relative {name : Str} (h : isabs name = false) (dir : List Str) (location : Str) :
    place dir (fullPath location name) = place (place dir location) name :=
  place_join h

/-- C34 fails: a file loaded by a relative pattern is looked for in a place where there is
no such file, even from the same working directory. -/
theorem C34_violated : ∃ (files : List (List Str)) (cwd location name : Str), isabs cwd = true ∧
    place (rooted cwd) name ∈ files ∧ place (rooted cwd) (fullPath location name) ∉ files :=
  ⟨[[str "home", str "in", str "f.parquet"]], str "/home", str "/tables/t", str "in/f.parquet", by decide⟩

/-- An absolute name. -/
example : isabs (str "/in/../in/f.parquet") = true ∧
    place [] (fullPath (str "t") (str "/in/../in/f.parquet")) = [str "in", str "f.parquet"] := by decide

end Space.Paths
