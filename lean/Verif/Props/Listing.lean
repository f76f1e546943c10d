import Verif.StatsExact
import Verif.Demo

/-!
# C68: what a manifest says of a file
-/

namespace Space

/-- The file can be listed: in no key column a row group with a value comes before a row group without. -/
def Listable (s : Schema) (groups : List (List Row)) : Prop :=
  ∀ c ∈ s.pks, groups.Pairwise fun g g' => (∃ x, HasValue g c x) → ∃ x, HasValue g' c x

/-- Positions of the key columns. -/
def keyColumns (s : Schema) : List Nat :=
  (List.range s.fields.length).filter fun i => s.names[i]?.any fun n => decide (n ∈ s.pks)

/-- Sizes of the key columns of a file, row group by row group. -/
def keySizes (E : Env) (s : Schema) (groups : List (List Row)) : List (Nat × Nat) :=
  groups.flatMap fun g => (keyColumns s).map fun i => E.colSize g i

/-- The row of a manifest describes the file: number of rows, compressed and uncompressed size of
the key columns, least and greatest value of every key. -/
structure RowOf (E : Env) (s : Schema) (path : Path) (groups : List (List Row)) (m : ManifestRow) : Prop where
  file : m.file = path
  rows : m.numRows = (groups.map List.length).sum
  compressed : m.icb = ((keySizes E s groups).map Prod.fst).sum
  uncompressed : m.iub = ((keySizes E s groups).map Prod.snd).sum
  fields : m.stats.map Prod.fst = (s.fields.filter fun f => decide (f.name ∈ s.pks)).map (·.fid)
  stats : ∀ c ∈ s.pks, ∀ fid, s.fidOf c = some fid → ∃ st, m.stats.get? fid = some st ∧
    Sums (HasValue groups.flatten c) st

theorem columns_suffix {l : List Field} (hn : (l.map (·.fid)).Nodup) (p : String → Bool) :
    ∀ (suf pre : List Field), l = pre ++ suf →
    (suf.filter fun f => p f.name).filterMap (fun f => l.findIdx? (fun g => g.fid = f.fid)) =
      (List.range' pre.length suf.length).filter fun i => (l.map (·.name))[i]?.any p
  | [], pre, _ => by simp
  | f :: suf, pre, hl => by
    have ih := columns_suffix hn p suf (pre ++ [f]) (by rw [hl]; simp)
    have hat : (l.map (·.name))[pre.length]? = some f.name := by rw [hl]; simp
    have hidx : l.findIdx? (fun g => g.fid = f.fid) = some pre.length := findIdx_split hl hn
    rw [List.length_cons, List.range'_succ, List.filter_cons, List.filter_cons, hat]
    rw [List.length_append] at ih
    simp only [List.length_cons, List.length_nil, Nat.zero_add] at ih
    simp only [Option.any_some]
    rcases Bool.eq_false_or_eq_true (p f.name) with hp | hp
    · rw [if_pos hp, if_pos hp, List.filterMap_cons, hidx, ih]
    · rw [if_neg (by simp [hp]), if_neg (by simp [hp]), ih]

theorem statsColumns {s : Schema} (hn : (s.fields.map (·.fid)).Nodup) :
    s.statsFields.filterMap (fun f => s.columnIdOf f.fid) = keyColumns s := by
  have h := columns_suffix hn (fun n => decide (n ∈ s.pks)) s.fields [] rfl
  unfold keyColumns Schema.statsFields Schema.columnIdOf
  rw [List.range_eq_range']
  simpa [Schema.names] using h

theorem mergeGroups_some {α : Type} {W : α → Scalar → Prop} {f : α → Option Scalar × Option Scalar} :
    ∀ {gs : List α} {a b : Scalar}, (∀ g ∈ gs, Sums (W g) (f g)) →
    ((∃ out, mergeGroups (gs.map f) (some a, some b) = .ok out) ↔ ∀ g ∈ gs, ∃ x, W g x)
  | [], a, b, _ => by simp [mergeGroups]
  | g :: gs, a, b, h => by
    rcases h g (by simp) with ⟨h1, h2⟩ | ⟨mn, mx, h1, h2, -⟩
    · simp only [List.map_cons, mergeGroups, h1, mergeStats]
      constructor
      · rintro ⟨out, ho⟩; cases ho
      · intro hall
        obtain ⟨x, hx⟩ := hall g (by simp)
        exact absurd hx (h2 x)
    · simp only [List.map_cons, mergeGroups, h1, mergeStats]
      rw [mergeGroups_some fun g hg => h g (by simp [hg])]
      constructor
      · intro hall g' hg'
        rcases List.mem_cons.mp hg' with rfl | hg'
        · exact ⟨mn, h2⟩
        · exact hall g' hg'
      · exact fun hall g' hg' => hall g' (by simp [hg'])

theorem mergeGroups_iff {α : Type} {W : α → Scalar → Prop} {f : α → Option Scalar × Option Scalar} :
    ∀ {gs : List α}, (∀ g ∈ gs, Sums (W g) (f g)) →
    ((∃ out, mergeGroups (gs.map f) (none, none) = .ok out) ↔
      gs.Pairwise fun g g' => (∃ x, W g x) → ∃ x, W g' x)
  | [], _ => by simp [mergeGroups]
  | g :: gs, h => by
    have hgs : ∀ g ∈ gs, Sums (W g) (f g) := fun g hg => h g (by simp [hg])
    rw [List.pairwise_cons]
    rcases h g (by simp) with ⟨h1, h2⟩ | ⟨mn, mx, h1, h2, -⟩
    · simp only [List.map_cons, mergeGroups, h1, mergeStats]
      rw [mergeGroups_iff hgs]
      constructor
      · exact fun hp => ⟨fun g' _ ⟨x, hx⟩ => absurd hx (h2 x), hp⟩
      · exact fun hp => hp.2
    · simp only [List.map_cons, mergeGroups, h1, mergeStats]
      rw [mergeGroups_some hgs]
      constructor
      · intro hall
        refine ⟨fun g' hg' _ => hall g' hg', List.Pairwise.imp_of_mem ?_ (List.pairwise_of_forall (R := fun _ _ => True) fun _ _ => trivial)⟩
        intro a b _ hb _ _
        exact hall b hb
      · exact fun hp g' hg' => hp.1 g' hg' ⟨mn, h2⟩

theorem fileStats_iff {s : Schema} (hk : s.keysLeaf = true) (hn : (s.fields.map (·.fid)).Nodup)
    {groups : List (List Row)} : ∀ (fs : List Field), (∀ f ∈ fs, f ∈ s.statsFields) →
    ((∃ st, fileStats s groups fs = .ok st) ↔
      ∀ f ∈ fs, groups.Pairwise fun g g' => (∃ x, HasValue g f.name x) → ∃ x, HasValue g' f.name x)
  | [], _ => by simp [fileStats]
  | f :: fs, h => by
    have hf := h f (by simp)
    simp only [Schema.statsFields, List.mem_filter] at hf
    obtain ⟨pre, post, hsplit⟩ := List.append_of_mem hf.1
    obtain ⟨hsimple, hpre⟩ := Schema.keysLeaf_split hk hsplit hf.2
    have hcol : s.columnIdOf f.fid = some pre.length := findIdx_split hsplit hn
    have hm := mergeGroups_iff (gs := groups) (W := fun g => HasValue g f.name)
      (f := fun g => groupStats s g pre.length)
      (fun g _ => groupStats_sums fun r => rowLeaves_simple r hsplit hpre hsimple)
    have ih := fileStats_iff hk hn (groups := groups) fs (fun g hg => h g (by simp [hg]))
    simp only [fileStats, hcol]
    constructor
    · rintro ⟨st, hst⟩
      cases h1 : mergeGroups (groups.map fun g => groupStats s g pre.length) (none, none) with
      | error e => rw [h1] at hst; cases hst
      | ok o =>
        cases h2 : fileStats s groups fs with
        | error e => rw [h1, h2] at hst; cases hst
        | ok rest =>
          intro f' hf'
          rcases List.mem_cons.mp hf' with rfl | hf'
          · exact hm.mp ⟨o, h1⟩
          · exact ih.mp ⟨rest, h2⟩ f' hf'
    · intro hall
      obtain ⟨o, h1⟩ := hm.mpr (hall f (by simp))
      obtain ⟨rest, h2⟩ := ih.mpr fun f' hf' => hall f' (by simp [hf'])
      exact ⟨(f.fid, o) :: rest, by rw [h1, h2]⟩

theorem fileStats_fids {s : Schema} {groups : List (List Row)} : ∀ {fs : List Field} {st : Stats},
    fileStats s groups fs = .ok st → st.map Prod.fst = fs.map (·.fid)
  | [], st, h => by cases h; rfl
  | f :: fs, st, h => by
    simp only [fileStats] at h
    split at h
    · cases h
    · split at h
      · cases h
      · split at h
        · cases h
        · rename_i rest hrest
          cases h
          simp [fileStats_fids hrest]

/-- **C68 (partial: keys are plain columns before the first nested column).** A row for the manifest can be
made exactly if in no key column a row group with a value comes before one without, and the
row describes the file. -/
theorem C68_partial {E : Env} {s : Schema} (hk : s.keysLeaf = true) (hn : (s.fields.map (·.fid)).Nodup)
    (hp : ∀ c ∈ s.pks, c ∈ s.names) (path : Path) (groups : List (List Row)) :
    ((∃ m, manifestRow E s path groups = .ok m) ↔ Listable s groups) ∧
    ∀ m, manifestRow E s path groups = .ok m → RowOf E s path groups m := by
  have hiff := fileStats_iff hk hn (groups := groups) s.statsFields (fun _ h => h)
  have hcols : (s.fields.filter fun f => decide (f.name ∈ s.pks)) = s.statsFields := by
    unfold Schema.statsFields
    exact List.filter_congr fun f _ => by simp
  refine ⟨?_, ?_⟩
  · have h1 : (∃ m, manifestRow E s path groups = .ok m) ↔ ∃ st, fileStats s groups s.statsFields = .ok st := by
      unfold manifestRow
      cases fileStats s groups s.statsFields <;> simp
    rw [h1, hiff]
    constructor
    · intro hall c hc
      obtain ⟨f, hf, rfl⟩ := List.mem_map.mp (hp c hc)
      exact hall f (by rw [← hcols]; simp [hf, hc])
    · intro hall f hf
      rw [← hcols] at hf
      simp only [List.mem_filter, decide_eq_true_eq] at hf
      exact hall f.name hf.2
  · intro m hm
    unfold manifestRow at hm
    cases hst : fileStats s groups s.statsFields with
    | error e => rw [hst] at hm; cases hm
    | ok st =>
      rw [hst] at hm
      cases hm
      refine ⟨rfl, List.length_flatten, ?_, ?_, ?_, fileStats_exact hk hn hst⟩
      · simp only [fileBytes, statsColumns hn, keySizes]
      · simp only [fileBytes, statsColumns hn, keySizes]
      · rw [hcols]; exact fileStats_fids hst

namespace Demo

/-- Column `i` takes `i + 1` bytes for each row, ten times as much uncompressed. -/
def envCols : Env := { env with colSize := fun g i => (g.length * (i + 1), g.length * 10 * (i + 1)) }

/-- Two keys around a column that is none. -/
def twoKeys : Schema :=
  { fields := [⟨"id", 3, .int⟩, ⟨"txt", 1, .str⟩, ⟨"at", 5, .int⟩, ⟨"img", 2, .bytes⟩], pks := ["at", "id"],
    recs := ["img"] }

/-- A row of `twoKeys`. -/
def twoKeysRow (i : Int) (v : Val) : Row :=
  [("id", .sc (.int i)), ("txt", .sc (.str "x")), ("at", v), ("img", .addr (.record "img" 9) 0)]

/-- Nulls in the first row group only. -/
def nullsFirst : List (List Row) :=
  [[twoKeysRow 4 .null], [twoKeysRow 7 (.sc (.int 9)), twoKeysRow 2 (.sc (.int 8)), twoKeysRow 3 .null]]

/-- Nulls in the last row group only. -/
def nullsLast : List (List Row) := nullsFirst.reverse

end Demo

open Demo

example : twoKeys.keysLeaf = true ∧ (twoKeys.fields.map (·.fid)).Nodup ∧ (∀ c ∈ twoKeys.pks, c ∈ twoKeys.names) ∧
    keyColumns twoKeys = [0, 2] ∧
    manifestRow envCols twoKeys (.index 5) nullsFirst = .ok
      { file := .index 5, numRows := 4, icb := 16, iub := 160,
        stats := [(3, some (.int 2), some (.int 7)), (5, some (.int 8), some (.int 9))] } ∧
    (manifestRow envCols twoKeys (.index 5) nullsLast).isOk = false := by decide

end Space
