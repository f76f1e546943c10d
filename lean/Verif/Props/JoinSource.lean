import Verif.Props.Source
import Verif.Props.Join

/-!
# C65: joining addresses and looking the records up gives the join of the data
-/

set_option autoImplicit false

namespace Space

open scoped List

/-- The record at an address; other values as they are. -/
def fetch (fs : FS) : Val → Val
  | .addr p i =>
    match recordAt fs (p, i) with
    | some b => .sc (.bytes b)
    | none => .null
  | v => v

/-- A joined row with the records in place of the addresses: a column of the left input is looked up
in the left storage, any other in the right one. -/
def fetchRow (s s' : Schema) (left right : FS) (leftCols : List String) (r : Row) : Row :=
  r.map fun x => (x.1,
    if x.1 ∈ leftCols then (if x.1 ∈ s.recs then fetch left x.2 else x.2)
    else (if x.1 ∈ s'.recs then fetch right x.2 else x.2))

theorem fetch_deref (fs : FS) (v : Val) : fetch fs v = derefVal fs.records v := by
  cases v with
  | addr p i =>
    simp only [fetch, recordAt, derefVal]
    cases ((fs.records p).bind fun rs => rs[i]?) <;> rfl
  | _ => rfl

theorem joinTables_fetch {key : String} {outs : List String} {F F' G G' : Row → Row} {lk : String → Val → Val}
    {l r : List Row} (h1 : ∀ a ∈ l, (F a).val key = (F' a).val key) (h2 : ∀ b ∈ r, (G b).val key = (G' b).val key)
    (h3 : ∀ a ∈ l, ∀ b ∈ r, ∀ c ∈ outs, (if (F a).cols.contains c then (F a).val c else (G b).val c) =
      lk c (if (F' a).cols.contains c then (F' a).val c else (G' b).val c)) :
    joinTables key outs (l.map F) (r.map G) =
      (joinTables key outs (l.map F') (r.map G')).map (fun x => x.map fun y => (y.1, lk y.1 y.2)) := by
  unfold joinTables
  rw [List.map_flatMap, List.flatMap_map, List.flatMap_map]
  refine flatMap_congr' fun a ha => ?_
  rw [List.filter_map, List.filter_map, List.map_map, List.map_map, List.map_map]
  have hf : r.filter ((fun b => decide ((F a).val key ≠ .null) && decide ((F a).val key = b.val key)) ∘ G) =
      r.filter ((fun b => decide ((F' a).val key ≠ .null) && decide ((F' a).val key = b.val key)) ∘ G') :=
    List.filter_congr fun b hb => by simp only [Function.comp_apply, h1 a ha, h2 b hb]
  rw [hf]
  refine List.map_congr_left fun b hb => ?_
  simp only [Function.comp_apply, List.map_map]
  refine List.map_congr_left fun c hc => ?_
  simp only [Function.comp_apply]
  rw [h3 a ha b (List.mem_filter.mp hb).1 c hc]

/-! ## A join read in two ways returns either both times or never -/

/-- Two ways to read the rows `X`. -/
structure TwoWays (key : String) (X : List Row) (F F' : Row → Row) (cs cs' : List String) : Prop where
  key : ∀ a ∈ X, (F a).val key = (F' a).val key
  left : ∀ a ∈ X, (F a).cols = cs
  right : ∀ a ∈ X, (F' a).cols = cs'
  cols : cs ~ cs'
  nested : ∀ a ∈ X, (F a).any (fun c => c.2.nested) = (F' a).any (fun c => c.2.nested)

theorem TwoWays.sub {key : String} {X Y : List Row} {F F' : Row → Row} {cs cs' : List String} (h : TwoWays key X F F' cs cs')
    (hs : ∀ a ∈ Y, a ∈ X) : TwoWays key Y F F' cs cs' :=
  ⟨fun a ha => h.key a (hs a ha), fun a ha => h.left a (hs a ha), fun a ha => h.right a (hs a ha), h.cols,
    fun a ha => h.nested a (hs a ha)⟩

theorem any_two {X : List Row} {F F' : Row → Row} {p : Row → Bool} (h : ∀ a ∈ X, p (F a) = p (F' a)) :
    (X.map F).any p = (X.map F').any p := by
  induction X with
  | nil => rfl
  | cons a X ih =>
    simp only [List.map_cons, List.any_cons, h a List.mem_cons_self]
    rw [ih fun b hb => h b (List.mem_cons_of_mem _ hb)]

theorem any_perm {α : Type} {l l' : List α} (h : l ~ l') (p : α → Bool) : l.any p = l'.any p := by
  rw [Bool.eq_iff_iff, List.any_eq_true, List.any_eq_true]
  exact ⟨fun ⟨x, hx, hp⟩ => ⟨x, h.mem_iff.mp hx, hp⟩, fun ⟨x, hx, hp⟩ => ⟨x, h.mem_iff.mpr hx, hp⟩⟩

section
variable {key : String} {outs cs cs' ds ds' : List String} {X Y : List Row} {F F' G G' : Row → Row}
  {lrec rrec lrec' rrec' : Option (List String)}

theorem joinPart_two (hX : TwoWays key X F F' cs cs') (hY : TwoWays key Y G G' ds ds') {l l' r r' : List Row}
    (hl : l ~ X.map F) (hl' : l' ~ X.map F') (hr : r ~ Y.map G) (hr' : r' ~ Y.map G')
    (fl : Foldable key outs (lrec.getD []) (X.map F)) (fl' : Foldable key outs (lrec'.getD []) (X.map F'))
    (fr : Foldable key outs (rrec.getD []) (Y.map G)) (fr' : Foldable key outs (rrec'.getD []) (Y.map G')) {o : Option (List Row)}
    (h : joinPart key outs lrec rrec l r = .ok o) : ∃ o', joinPart key outs lrec' rrec' l' r' = .ok o' ∧ o'.isNone = o.isNone := by
  rw [joinPart_plain (fl.sub fun x hx => hl.mem_iff.mp hx) (fr.sub fun x hx => hr.mem_iff.mp hx)] at h
  rw [joinPart_plain (fl'.sub fun x hx => hl'.mem_iff.mp hx) (fr'.sub fun x hx => hr'.mem_iff.mp hx)]
  cases hx : X with
  | nil =>
    subst hx
    rw [hl.eq_nil] at h
    rw [hl'.eq_nil]
    cases h
    exact ⟨none, rfl, rfl⟩
  | cons x0 X0 =>
    cases hy : Y with
    | nil =>
      subst hy
      rw [hr.eq_nil] at h
      rw [hr'.eq_nil]
      unfold joinPlain at h ⊢
      cases l <;> cases h <;> exact ⟨none, by cases l' <;> rfl, rfl⟩
    | cons y0 Y0 =>
      cases l with
      | nil => rw [hx] at hl; exact absurd hl.length_eq (by simp)
      | cons a l =>
      cases l' with
      | nil => rw [hx] at hl'; exact absurd hl'.length_eq (by simp)
      | cons a' l' =>
      cases r with
      | nil => rw [hy] at hr; exact absurd hr.length_eq (by simp)
      | cons b r =>
      cases r' with
      | nil => rw [hy] at hr'; exact absurd hr'.length_eq (by simp)
      | cons b' r' =>
      have ca : a.cols = cs := by
        obtain ⟨x, hx, rfl⟩ := List.mem_map.mp (hl.mem_iff.mp List.mem_cons_self)
        exact hX.left x hx
      have ca' : a'.cols = cs' := by
        obtain ⟨x, hx, rfl⟩ := List.mem_map.mp (hl'.mem_iff.mp List.mem_cons_self)
        exact hX.right x hx
      have cb : b.cols = ds := by
        obtain ⟨x, hx, rfl⟩ := List.mem_map.mp (hr.mem_iff.mp List.mem_cons_self)
        exact hY.left x hx
      have cb' : b'.cols = ds' := by
        obtain ⟨x, hx, rfl⟩ := List.mem_map.mp (hr'.mem_iff.mp List.mem_cons_self)
        exact hY.right x hx
      have hn : ((a :: l) ++ (b :: r)).any (fun x => x.any (fun c => c.2.nested)) =
          ((a' :: l') ++ (b' :: r')).any (fun x => x.any (fun c => c.2.nested)) := by
        rw [List.any_append, List.any_append, any_perm hl, any_perm hl', any_perm hr, any_perm hr',
          any_two (F := F) (F' := F') hX.nested, any_two (F := G) (F' := G') hY.nested]
      have hcnt : ∀ c, (cs ++ ds.filter (· ≠ key)).count c = (cs' ++ ds'.filter (· ≠ key)).count c := fun c =>
        (hX.cols.append (hY.cols.filter _)).count_eq c
      have same : ∀ {X : List Row} {F : Row → Row} {l : List Row} {cs : List String}, l ~ X.map F → (∀ a ∈ X, (F a).cols = cs) →
          l.all (fun x => decide (x.cols = cs)) = true := by
        intro X F l cs hl hc
        refine List.all_eq_true.mpr fun y hy => ?_
        obtain ⟨x, hx, rfl⟩ := List.mem_map.mp (hl.mem_iff.mp hy)
        exact decide_eq_true (hc x hx)
      unfold joinPlain at h ⊢
      simp only [ca, ca', cb, cb', hn, hcnt, same hl hX.left, same hl' hX.right, same hr hY.left, same hr' hY.right, Bool.and_self,
        Bool.not_true, Bool.false_eq_true, if_false] at h ⊢
      split at h
      · cases h
      · rename_i hn
        rw [if_neg hn]
        split at h
        · rename_i hc
          rw [if_pos hc]
          cases h
          exact ⟨_, rfl, rfl⟩
        · cases h

theorem filter_two (hX : TwoWays key X F F' cs cs') (ρ : KeyRange) :
    (X.map F).filter (fun r => ρ.has (r.val key)) = (X.filter (fun a => ρ.has ((F a).val key))).map F ∧
    (X.map F').filter (fun r => ρ.has (r.val key)) = (X.filter (fun a => ρ.has ((F a).val key))).map F' := by
  refine ⟨List.filter_map, ?_⟩
  rw [List.filter_map]
  congr 1
  exact List.filter_congr fun a ha => by simp only [Function.comp_apply, hX.key a ha]

theorem joinParts_two (hX : TwoWays key X F F' cs cs') (hY : TwoWays key Y G G' ds ds')
    (fl : Foldable key outs (lrec.getD []) (X.map F)) (fl' : Foldable key outs (lrec'.getD []) (X.map F'))
    (fr : Foldable key outs (rrec.getD []) (Y.map G)) (fr' : Foldable key outs (rrec'.getD []) (Y.map G'))
    {lread rread lread' rread' : Nat → Expr → Except Err (List Row)}
    (hl : ∀ k (ρ : KeyRange), ∃ rows, lread k (ρ.filter key) = .ok rows ∧ rows ~ (X.map F).filter (fun r => ρ.has (r.val key)))
    (hr : ∀ k (ρ : KeyRange), ∃ rows, rread k (ρ.filter key) = .ok rows ∧ rows ~ (Y.map G).filter (fun r => ρ.has (r.val key)))
    (hl' : ∀ k (ρ : KeyRange), ∃ rows, lread' k (ρ.filter key) = .ok rows ∧ rows ~ (X.map F').filter (fun r => ρ.has (r.val key)))
    (hr' : ∀ k (ρ : KeyRange), ∃ rows, rread' k (ρ.filter key) = .ok rows ∧ rows ~ (Y.map G').filter (fun r => ρ.has (r.val key))) :
    ∀ {ρs : List KeyRange} {k : Nat} {parts : List (Option (List Row))},
    joinParts lread rread key outs lrec rrec k ρs = .ok parts →
    ∃ parts', joinParts lread' rread' key outs lrec' rrec' k ρs = .ok parts' ∧ parts'.map Option.isNone = parts.map Option.isNone
  | [], k, parts, h => ⟨[], rfl, by cases h; rfl⟩
  | ρ :: ρs, k, parts, h => by
    obtain ⟨l, h1, h2⟩ := hl k ρ
    obtain ⟨r, h3, h4⟩ := hr k ρ
    obtain ⟨l', h1', h2'⟩ := hl' k ρ
    obtain ⟨r', h3', h4'⟩ := hr' k ρ
    rw [(filter_two hX ρ).1] at h2
    rw [(filter_two hX ρ).2] at h2'
    rw [(filter_two hY ρ).1] at h4
    rw [(filter_two hY ρ).2] at h4'
    have sub : ∀ {X : List Row} {F : Row → Row} {p : Row → Bool}, ∀ x ∈ (X.filter p).map F, x ∈ X.map F := by
      intro X F p x hx
      obtain ⟨y, hy, rfl⟩ := List.mem_map.mp hx
      exact List.mem_map_of_mem (List.mem_filter.mp hy).1
    rw [joinParts, h1, h3] at h
    simp only at h
    cases hb : joinPart key outs lrec rrec l r with
    | error e => rw [hb] at h; cases h
    | ok p =>
      rw [hb] at h
      simp only at h
      cases hp : joinParts lread rread key outs lrec rrec (k + 1) ρs with
      | error e => rw [hp] at h; cases h
      | ok ps =>
        rw [hp] at h
        cases h
        obtain ⟨p', e1, e2⟩ := joinPart_two (hX.sub fun a ha => (List.mem_filter.mp ha).1) (hY.sub fun a ha => (List.mem_filter.mp ha).1)
          h2 h2' h4 h4' (fl.sub sub) (fl'.sub sub) (fr.sub sub) (fr'.sub sub) hb
        obtain ⟨ps', e3, e4⟩ := joinParts_two hX hY fl fl' fr fr' hl hr hl' hr' hp
        refine ⟨p' :: ps', ?_, by simp only [List.map_cons, e2, e4]⟩
        rw [joinParts, h1', h3']
        simp only
        rw [e1]
        simp only
        rw [e3]

theorem fromArrowRefs_two {nb : Option Err} : ∀ {parts parts' : List (Option (List Row))} {bs : List (List Row)},
    parts'.map Option.isNone = parts.map Option.isNone → fromArrowRefs nb parts = .ok bs →
    ∃ bs', fromArrowRefs nb parts' = .ok bs'
  | [], [], _, _, _ => ⟨[], rfl⟩
  | [], _ :: _, _, h, _ => by simp at h
  | _ :: _, [], _, h, _ => by simp at h
  | b :: parts, b' :: parts', bs, h, hok => by
    simp only [List.map_cons, List.cons.injEq] at h
    have ih := fun bs => fromArrowRefs_two (nb := nb) (parts := parts) (parts' := parts') (bs := bs) h.2
    have go : ∀ {x : List Row}, (∃ bs, (match fromArrowRefs nb parts with
        | .error e => (.error e : Except Err (List (List Row)))
        | .ok cs => .ok (x :: cs)) = .ok bs) → ∃ cs, fromArrowRefs nb parts' = .ok cs := by
      rintro x ⟨bs, h⟩
      cases hp : fromArrowRefs nb parts with
      | error e => rw [hp] at h; cases h
      | ok cs => exact ih cs hp
    cases nb with
    | none =>
      obtain ⟨cs, hcs⟩ := go (x := b.getD []) ⟨bs, by cases b <;> exact hok⟩
      exact ⟨b'.getD [] :: cs, by cases b' <;> simp only [fromArrowRefs, hcs]⟩
    | some e =>
      cases b with
      | none => cases hok
      | some x =>
        cases b' with
        | none => simp at h
        | some x' =>
          obtain ⟨cs, hcs⟩ := go (x := x) ⟨bs, hok⟩
          exact ⟨x' :: cs, by simp only [fromArrowRefs, hcs, Option.getD_some]⟩

end

/-- The fields read from an input. -/
def asking (key : String) (names : List String) (asked : Option (List String)) : List String :=
  (withKey key asked).getD names

theorem mem_withKey {key : String} {names : List String} {asked : Option (List String)} (hk : key ∈ names) {c : String} :
    c ∈ asking key names asked ↔ c = key ∨ c ∈ giving key names asked := by
  unfold asking giving withKey
  cases asked with
  | none =>
    simp only [Option.map_none, Option.getD_none, List.mem_filter, decide_eq_true_eq]
    by_cases h : c = key
    · simp [h, hk]
    · simp [h]
  | some fs =>
    simp only [Option.map_some, Option.getD_some, List.mem_filter, decide_eq_true_eq]
    by_cases h : c = key
    · subst h
      split <;> simp_all
    · split <;> simp [h]

/-- The value of a column of a stored row read as data. -/
theorem data_val {fs : FS} {s : Schema} {r : Row} {c : String} :
    (deref fs.records s r).val c = if c ∈ s.recs then fetch fs (r.val c) else r.val c := by
  rw [deref_val, fetch_deref]
  simp

section
variable {E : Env} {R : RayEnv} {U : UdfEnv} {ray : RayOpts} {s s' : Schema} {g : Nat → Row → List Row}

/-- A stored row as a reference read shows it, or as any other read does. -/
def shown (fs : FS) (s : Schema) (ref : Bool) (r : Row) : Row := if ref then r else deref fs.records s r

theorem fetch_shown {fs : FS} {ref : Bool} {r : Row} {c : String} :
    (if c ∈ s.recs then fetch fs ((shown fs s ref r).val c) else (shown fs s ref r).val c) = (deref fs.records s r).val c := by
  cases ref with
  | true => exact data_val.symm
  | false =>
    simp only [shown, Bool.false_eq_true, if_false]
    split
    · rename_i hc
      rw [data_val, if_pos hc, fetch_deref, fetch_deref]
      cases r.val c with
      | addr p i => simp only [derefVal]; cases ((fs.records p).bind fun rs => rs[i]?) <;> rfl
      | _ => rfl
    · rfl

theorem nested_shown {fs : FS} {ref : Bool} {r : Row} {c : String} :
    ((shown fs s ref r).val c).nested = (r.val c).nested := by
  cases ref with
  | true => rfl
  | false =>
    simp only [shown, Bool.false_eq_true, if_false]
    rw [deref_val]
    split
    · cases r.val c with
      | addr p i => simp only [derefVal]; cases ((fs.records p).bind fun rs => rs[i]?) <;> rfl
      | _ => rfl
    · rfl

/-- What a dataset as a side of a join reads: from each stored row, the columns asked for, with the
addresses or with the records. -/
theorem side_rows {fs : FS} {snap : Snapshot} {d : Source} {keep : Nat → Row → Bool} {key : String}
    {asked : Option (List String)} (hk : key ∈ s.names) (ha : CanAsk key s.names asked) (ref : Bool) :
    ∃ cs, cs ~ asking key s.names asked ∧
      sideRows fs s g keep ⟨.dataset d, withKey key asked, ref⟩ snap =
        (physRows fs snap.index).map (fun r => (shown fs s ref r).select cs) := by
  cases ref with
  | true => exact ⟨_, .refl _, by simp [sideRows, asking, shown]⟩
  | false =>
    unfold sideRows
    simp only [Bool.false_eq_true, if_false, View.rowsOn, snapRows, List.map_map]
    have split : ∀ l : List String, l.filter (fun c => !s.recs.contains c) ++ l.filter (fun c => s.recs.contains c) ~ l :=
      fun l => List.perm_append_comm.trans (List.filter_append_perm (fun c => s.recs.contains c) l)
    cases asked with
    | none =>
      refine ⟨s.writeNames, ?_, rfl⟩
      rw [← outCols_names]
      exact split _
    | some f =>
      refine ⟨View.inputCols s (.dataset d) (asking key s.names (some f)), split _, List.map_congr_left fun r _ => ?_⟩
      exact select_select fun c hc => writeNames_sub.mpr (by
        have h1 : c ∈ asking key s.names (some f) := by
          simpa [asking, withKey] using mem_inputCols.mp hc
        rcases (mem_withKey hk).mp h1 with h | h
        · exact h ▸ hk
        · exact ha.2 c h)

theorem KeyOf.notRec {key : String} (hk : KeyOf s key) : key ∉ s.recs := by
  intro hc
  obtain ⟨f, hf, rfl, hsim⟩ := hk.field
  simp [Schema.simple, Schema.isRec, hc] at hsim

theorem key_shown {fs : FS} {key : String} (hk : KeyOf s key) {ref : Bool} {r : Row} : (shown fs s ref r).val key = r.val key := by
  have h1 := fetch_shown (s := s) (fs := fs) (ref := ref) (r := r) (c := key)
  rw [if_neg hk.notRec, data_val, if_neg hk.notRec] at h1
  exact h1

theorem shown_two {fs : FS} {key : String} (hk : KeyOf s key) {asked : Option (List String)} {X : List Row} {ref ref' : Bool}
    {cs cs' : List String} (hc : cs ~ asking key s.names asked) (hc' : cs' ~ asking key s.names asked) :
    TwoWays key X (fun r => (shown fs s ref r).select cs) (fun r => (shown fs s ref' r).select cs') cs cs' := by
  have hkin : key ∈ asking key s.names asked := (mem_withKey hk.name).mpr (.inl rfl)
  refine ⟨fun r _ => ?_, fun r _ => select_cols _ _, fun r _ => select_cols _ _, hc.trans hc'.symm, fun r _ => ?_⟩
  · rw [select_val (hc.mem_iff.mpr hkin), select_val (hc'.mem_iff.mpr hkin), key_shown hk, key_shown hk]
  · unfold Row.select
    rw [List.any_map, List.any_map, any_perm (hc.trans hc'.symm)]
    congr 1
    funext c
    simp only [Function.comp_apply, nested_shown]

end

section
variable {E : Env} {R : RayEnv} {U : UdfEnv} {ray : RayOpts} {s s' : Schema} {g : Nat → Row → List Row}
  {σ σ' : Sys} {sl sl' : Slot} {d d' : Source} {keys : List String} {lf rf : Option (List String)} {same : Bool}
  {J J' : JoinView} {partition : Option (KeyRange → List KeyRange)} {nb : Option Err}

/-- The record fields are distinct, and fields. -/
def DistinctRecs (s : Schema) : Prop := s.recs.Nodup ∧ ∀ c ∈ s.recs, c ∈ s.names

instance (s : Schema) : Decidable (DistinctRecs s) := inferInstanceAs (Decidable (_ ∧ _))

theorem side_refers {v : View} {key : String} {asked : Option (List String)} {outs : List String} {b : Bool} (hk : KeyOf s key)
    (hf : DistinctRecs s) (ho : ∀ c ∈ giving key s.names asked, c ∈ outs) : Refers s outs ⟨v, withKey key asked, b⟩ :=
  fun _ => ⟨hf.1, hf.2, fun c hc ha => by
    rcases (mem_withKey (asked := asked) hk.name).mp ha with h | h
    · exact absurd (h ▸ hc) hk.notRec
    · exact ho c h⟩

/-- **C65** (returning).  If a join of two datasets can be read with some choice of reference reads,
it can be read with any other.  Missing: record fields that are listed twice, see `C65_violated`. -/
theorem C65_returns_partial (h : Reach E s anyStep σ) (h' : Reach E s' anyStep σ')
    (hsl : sl ∈ σ.slots) (hsl' : sl' ∈ σ'.slots) (hR : Smooth R ray) (hg : RowWise U g)
    (hs : ∀ k ∈ s.pks, KeyOf s k) (hs' : ∀ k ∈ s'.pks, KeyOf s' k) (hf : DistinctRecs s) (hf' : DistinctRecs s')
    {lref rref lref' rref' : Bool}
    (hJ : View.join s s' (.dataset d) (.dataset d') keys lf rf lref rref same = .ok J)
    (hJ' : View.join s s' (.dataset d) (.dataset d') keys lf rf lref' rref' same = .ok J')
    (hp : Partitions partition) {rows : List Row}
    (h1 : joinRead E R U nb ray J partition sl.h σ.w sl'.h σ'.w {} none = .ok rows) :
    ∃ rows', joinRead E R U nb ray J' partition sl.h σ.w sl'.h σ'.w {} none = .ok rows' := by
  obtain ⟨key, rfl, k1, k2, k3, k4, rfl⟩ := C43_view.mp hJ
  obtain ⟨_, e, -, -, -, -, rfl⟩ := C43_view.mp hJ'
  cases e
  have hk := hs key k1
  have hk' := hs' key k2
  obtain ⟨a, b, ha, hb, -⟩ := C43_partial h h' hsl hsl' hR hg hk hk' (dataset_fits hk k3) (dataset_fits hk' k4) hp h1
  obtain ⟨md, hok⟩ := reach_ok hk.distinct h
  obtain ⟨md', hok'⟩ := reach_ok hk'.distinct h'
  have hh := (hok.slots sl hsl).1
  have hh' := (hok'.slots sl' hsl').1
  obtain ⟨snap, ht⟩ := inputRead_target hok.wok hh hR hg (dataset_fits hk k3) ha
  obtain ⟨snap', ht'⟩ := inputRead_target hok'.wok hh' hR hg (dataset_fits hk' k4) hb
  obtain ⟨_, hd, e1, e2, e3, -⟩ := reload_eq hok.wok hh
  obtain ⟨_, hd', e1', e2', e3', -⟩ := reload_eq hok'.wok hh'
  unfold joinRead at h1 ⊢
  rw [e1, e1'] at h1 ⊢
  simp only [Option.isSome_none, Bool.false_or, Bool.false_eq_true, if_false] at h1 ⊢
  unfold joinBlocks at h1 ⊢
  simp only at h1 ⊢
  cases hlr : joinKeyRange σ.w.fs hd (.dataset d) key with
  | error e => rw [hlr] at h1; cases h1
  | ok lr =>
    rw [hlr] at h1
    simp only at h1 ⊢
    cases hrr : joinKeyRange σ'.w.fs hd' (.dataset d') key with
    | error e => rw [hrr] at h1; cases h1
    | ok rr =>
      rw [hrr, e2, e2', hok.wok.schema, hok'.wok.schema] at h1
      rw [e2, e2', hok.wok.schema, hok'.wok.schema]
      simp only at h1 ⊢
      cases hps : joinParts (fun k e => sideRead E R U σ.w.fs hd ray ⟨.dataset d, withKey key lf, lref⟩ [k, 0] (some e))
          (fun k e => sideRead E R U σ'.w.fs hd' ray ⟨.dataset d', withKey key rf, rref⟩ [k, 1] (some e)) key
          (key :: giving key s.names lf ++ giving key s'.names rf) (JoinSide.folded s ⟨.dataset d, withKey key lf, lref⟩)
          (JoinSide.folded s' ⟨.dataset d', withKey key rf, rref⟩) 0 (joinRanges partition lr rr) with
      | error e => simp only [View.schemaNames] at h1; rw [hps] at h1; cases h1
      | ok parts =>
        simp only [View.schemaNames] at h1 ⊢
        rw [hps] at h1
        simp only at h1
        obtain ⟨cs, c1, c2⟩ := side_rows (g := g) (fs := σ.w.fs) (snap := snap) (d := d) (keep := U.keep) hk.name k3 lref
        obtain ⟨ds, d1, d2⟩ := side_rows (g := g) (fs := σ'.w.fs) (snap := snap') (d := d') (keep := U.keep) hk'.name k4 rref
        obtain ⟨cs', c1', c2'⟩ := side_rows (g := g) (fs := σ.w.fs) (snap := snap) (d := d) (keep := U.keep) hk.name k3 lref'
        obtain ⟨ds', d1', d2'⟩ := side_rows (g := g) (fs := σ'.w.fs) (snap := snap') (d := d') (keep := U.keep) hk'.name k4 rref'
        have hL := fun k ρ => sideRead_rows (E := E) hok.wok e2 e3 hR hg hk (dataset_fits hk k3 : SideFits s g U.keep key ⟨.dataset d, withKey key lf, lref⟩) ht [k, 0] ρ
        have hL' := fun k ρ => sideRead_rows (E := E) hok.wok e2 e3 hR hg hk (dataset_fits hk k3 : SideFits s g U.keep key ⟨.dataset d, withKey key lf, lref'⟩) ht [k, 0] ρ
        have hT := fun k ρ => sideRead_rows (E := E) hok'.wok e2' e3' hR hg hk' (dataset_fits hk' k4 : SideFits s' g U.keep key ⟨.dataset d', withKey key rf, rref⟩) ht' [k, 1] ρ
        have hT' := fun k ρ => sideRead_rows (E := E) hok'.wok e2' e3' hR hg hk' (dataset_fits hk' k4 : SideFits s' g U.keep key ⟨.dataset d', withKey key rf, rref'⟩) ht' [k, 1] ρ
        have fld : ∀ {outs : List String} {b : Bool}, (∀ c ∈ giving key s.names lf, c ∈ outs) →
            Foldable key outs ((JoinSide.folded s ⟨.dataset d, withKey key lf, b⟩).getD [])
              (sideRows σ.w.fs s g U.keep ⟨.dataset d, withKey key lf, b⟩ snap) := fun ho =>
          sideRows_foldable hk (target_ok hok.wok ht).1 (dataset_fits hk k3) (side_refers hk hf ho)
        have fld' : ∀ {outs : List String} {b : Bool}, (∀ c ∈ giving key s'.names rf, c ∈ outs) →
            Foldable key outs ((JoinSide.folded s' ⟨.dataset d', withKey key rf, b⟩).getD [])
              (sideRows σ'.w.fs s' g U.keep ⟨.dataset d', withKey key rf, b⟩ snap') := fun ho =>
          sideRows_foldable hk' (target_ok hok'.wok ht').1 (dataset_fits hk' k4) (side_refers hk' hf' ho)
        have o1 : ∀ c ∈ giving key s.names lf, c ∈ key :: giving key s.names lf ++ giving key s'.names rf := fun c hc => by simp [hc]
        have o2 : ∀ c ∈ giving key s'.names rf, c ∈ key :: giving key s.names lf ++ giving key s'.names rf := fun c hc => by simp [hc]
        have f1 := fld (b := lref) o1
        have f2 := fld (b := lref') o1
        have f3 := fld' (b := rref) o2
        have f4 := fld' (b := rref') o2
        rw [c2] at f1
        rw [c2'] at f2
        rw [d2] at f3
        rw [d2'] at f4
        simp only [c2] at hL
        simp only [c2'] at hL'
        simp only [d2] at hT
        simp only [d2'] at hT'
        obtain ⟨parts', p1, p2⟩ := joinParts_two
          (lread' := fun k e => sideRead E R U σ.w.fs hd ray ⟨.dataset d, withKey key lf, lref'⟩ [k, 0] (some e))
          (rread' := fun k e => sideRead E R U σ'.w.fs hd' ray ⟨.dataset d', withKey key rf, rref'⟩ [k, 1] (some e))
          (shown_two (ref' := lref') hk c1 c1') (shown_two (ref' := rref') hk' d1 d1') f1 f2 f3 f4 hL hT hL' hT' hps
        rw [p1]
        simp only
        cases hbs : fromArrowRefs nb parts with
        | error e => rw [hbs] at h1; cases h1
        | ok bs =>
          obtain ⟨bs', hbs'⟩ := fromArrowRefs_two p2 hbs
          rw [hbs']
          exact ⟨_, rfl⟩

/-- **C65** (records).  Reading a join of two datasets with addresses instead of the records of one
or both, and then replacing each address by its record, gives the rows the join has when it is read
with the records: the same rows, each as often.  Missing: as in `C65_returns_partial`. -/
theorem C65_rows_partial (h : Reach E s anyStep σ) (h' : Reach E s' anyStep σ')
    (hsl : sl ∈ σ.slots) (hsl' : sl' ∈ σ'.slots) (hR : Smooth R ray) (hg : RowWise U g)
    (hs : ∀ k ∈ s.pks, KeyOf s k) (hs' : ∀ k ∈ s'.pks, KeyOf s' k) (hf : DistinctRecs s) (hf' : DistinctRecs s')
    {lref rref : Bool}
    (hJ : View.join s s' (.dataset d) (.dataset d') keys lf rf lref rref same = .ok J)
    (hJ' : View.join s s' (.dataset d) (.dataset d') keys lf rf false false same = .ok J')
    (hp : Partitions partition) {refs : List Row}
    (h1 : joinRead E R U nb ray J partition sl.h σ.w sl'.h σ'.w {} none = .ok refs) :
    ∃ key rows, keys = [key] ∧ joinRead E R U nb ray J' partition sl.h σ.w sl'.h σ'.w {} none = .ok rows ∧
      rows ~ refs.map (fetchRow s s' σ.w.fs σ'.w.fs (giving key s.names lf)) := by
  obtain ⟨rows, h2⟩ := C65_returns_partial h h' hsl hsl' hR hg hs hs' hf hf' hJ hJ' hp h1
  obtain ⟨key, rfl, k1, k2, k3, k4, rfl⟩ := C43_view.mp hJ
  obtain ⟨_, e, -, -, -, -, rfl⟩ := C43_view.mp hJ'
  cases e
  refine ⟨key, rows, rfl, h2, ?_⟩
  have hk := hs key k1
  have hk' := hs' key k2
  obtain ⟨md, hok⟩ := reach_ok hk.distinct h
  obtain ⟨md', hok'⟩ := reach_ok hk'.distinct h'
  have hh := (hok.slots sl hsl).1
  have hh' := (hok'.slots sl' hsl').1
  obtain ⟨a, b, ha, hb, hab⟩ := C43_partial h h' hsl hsl' hR hg hk hk' (dataset_fits hk k3) (dataset_fits hk' k4) hp h1
  obtain ⟨a', b', ha', hb', hab'⟩ := C43_partial h h' hsl hsl' hR hg hk hk' (dataset_fits hk k3) (dataset_fits hk' k4) hp h2
  obtain ⟨snap, ht⟩ := inputRead_target hok.wok hh hR hg (dataset_fits hk k3) ha
  obtain ⟨snap', ht'⟩ := inputRead_target hok'.wok hh' hR hg (dataset_fits hk' k4) hb
  have perm : ∀ {s : Schema} {w : World} {md : Metadata} {h : Handle} {key : String} {x : JoinSide} {snap : Snapshot} {a : List Row},
      WOK s w md → HandleOK s w h → SideFits s g U.keep key x → md.target h.branch none = .ok snap →
      inputRead E R U ray x h w = .ok a → a ~ sideRows w.fs s g U.keep x snap := by
    intro s w md h key x snap a hw hh hx ht ha
    obtain ⟨_, e1, e2⟩ := inputRead_rows (E := E) hw hh hR hg hx ht
    cases ha.symm.trans e1
    exact e2
  have pa := perm hok.wok hh (dataset_fits hk k3) ht ha
  have pb := perm hok'.wok hh' (dataset_fits hk' k4) ht' hb
  have pa' := perm hok.wok hh (dataset_fits hk k3) ht ha'
  have pb' := perm hok'.wok hh' (dataset_fits hk' k4) ht' hb'
  obtain ⟨cs, c1, c2⟩ := side_rows (g := g) (fs := σ.w.fs) (snap := snap) (d := d) (keep := U.keep) hk.name k3 lref
  obtain ⟨ds, d1, d2⟩ := side_rows (g := g) (fs := σ'.w.fs) (snap := snap') (d := d') (keep := U.keep) hk'.name k4 rref
  obtain ⟨cs', c1', c2'⟩ := side_rows (g := g) (fs := σ.w.fs) (snap := snap) (d := d) (keep := U.keep) hk.name k3 false
  obtain ⟨ds', d1', d2'⟩ := side_rows (g := g) (fs := σ'.w.fs) (snap := snap') (d := d') (keep := U.keep) hk'.name k4 false
  rw [c2] at pa
  rw [d2] at pb
  rw [c2'] at pa'
  rw [d2'] at pb'
  rw [innerJoin_eq] at hab hab'
  have kin : ∀ {s : Schema} {asked : Option (List String)}, KeyOf s key → key ∈ asking key s.names asked :=
    fun hk => (mem_withKey hk.name).mpr (.inl rfl)
  have qa := pa.filter fun x => (x.val key).num
  have qa' := pa'.filter fun x => (x.val key).num
  rw [List.filter_map] at qa qa'
  have same : (physRows σ.w.fs snap.index).filter ((fun x : Row => (x.val key).num) ∘ fun r => (shown σ.w.fs s false r).select cs') =
      (physRows σ.w.fs snap.index).filter ((fun x : Row => (x.val key).num) ∘ fun r => (shown σ.w.fs s lref r).select cs) :=
    List.filter_congr fun r hr => by
      have := (shown_two (fs := σ.w.fs) (ref := lref) (ref' := false) hk c1 c1').key r hr
      simp only [Function.comp_apply, this]
  rw [same] at qa'
  refine hab'.trans ((joinTables_perm qa' pb').trans ?_)
  refine List.Perm.trans (.of_eq ?_) ((hab.trans (joinTables_perm qa pb)).map _).symm
  refine joinTables_fetch (lk := fun c v => if c ∈ giving key s.names lf then (if c ∈ s.recs then fetch σ.w.fs v else v)
    else (if c ∈ s'.recs then fetch σ'.w.fs v else v)) ?_ ?_ ?_
  · exact fun r hr => ((shown_two hk c1 c1').key r hr).symm
  · exact fun r hr => ((shown_two hk' d1 d1').key r hr).symm
  · intro r hr r' _ c hc
    simp only [select_cols, List.contains_eq_mem, c1.mem_iff, c1'.mem_iff, decide_eq_true_eq]
    by_cases hck : c = key
    · subst hck
      have hng : c ∉ giving c s.names lf := by simp [giving]
      rw [if_pos (kin hk), if_pos (kin hk), if_neg hng, if_neg hk'.notRec]
      exact ((shown_two hk c1 c1').key r hr).symm
    · by_cases hl : c ∈ giving key s.names lf
      · have hin : c ∈ asking key s.names lf := (mem_withKey hk.name).mpr (.inr hl)
        rw [if_pos hin, if_pos hin, if_pos hl, select_val (c1.mem_iff.mpr hin), select_val (c1'.mem_iff.mpr hin), fetch_shown]
        rfl
      · have hni : c ∉ asking key s.names lf := fun hin => ((mem_withKey hk.name).mp hin).elim hck hl
        have hin' : c ∈ asking key s'.names rf := (mem_withKey hk'.name).mpr (.inr (by
          simp only [View.schemaNames, List.cons_append, List.mem_cons, List.mem_append] at hc
          rcases hc with hc | hc | hc
          · exact absurd hc hck
          · exact absurd hc hl
          · exact hc))
        rw [if_neg hni, if_neg hni, if_neg hl, select_val (d1.mem_iff.mpr hin'), select_val (d1'.mem_iff.mpr hin'), fetch_shown]
        rfl

/-- Every record column of a joined row that was read with references holds the address of a record
in the storage of its side. -/
theorem join_addrs (h : Reach E s anyStep σ) (h' : Reach E s' anyStep σ')
    (hsl : sl ∈ σ.slots) (hsl' : sl' ∈ σ'.slots) (hR : Smooth R ray) (hg : RowWise U g)
    (hs : ∀ k ∈ s.pks, KeyOf s k) (hs' : ∀ k ∈ s'.pks, KeyOf s' k) {key : String}
    (hJ : View.join s s' (.dataset d) (.dataset d') [key] lf rf true true same = .ok J)
    (hp : Partitions partition) {refs : List Row}
    (h1 : joinRead E R U nb ray J partition sl.h σ.w sl'.h σ'.w {} none = .ok refs) :
    ∀ r ∈ refs, (∀ f ∈ giving key s.names lf, f ∈ s.recs → AddrVal σ.w.fs.records (r.val f)) ∧
      ∀ f ∈ giving key s'.names rf, f ∉ giving key s.names lf → f ∈ s'.recs → AddrVal σ'.w.fs.records (r.val f) := by
  obtain ⟨_, e, k1, k2, k3, k4, rfl⟩ := C43_view.mp hJ
  cases e
  have hk := hs key k1
  have hk' := hs' key k2
  obtain ⟨md, hok⟩ := reach_ok hk.distinct h
  obtain ⟨md', hok'⟩ := reach_ok hk'.distinct h'
  have hh := (hok.slots sl hsl).1
  have hh' := (hok'.slots sl' hsl').1
  obtain ⟨a, b, ha, hb, hab⟩ := C43_partial h h' hsl hsl' hR hg hk hk' (dataset_fits hk k3) (dataset_fits hk' k4) hp h1
  obtain ⟨snap, ht⟩ := inputRead_target hok.wok hh hR hg (dataset_fits hk k3) ha
  obtain ⟨snap', ht'⟩ := inputRead_target hok'.wok hh' hR hg (dataset_fits hk' k4) hb
  obtain ⟨_, x1, pa⟩ := inputRead_rows (E := E) hok.wok hh hR hg (dataset_fits hk k3 : SideFits s g U.keep key ⟨.dataset d, withKey key lf, true⟩) ht
  cases ha.symm.trans x1
  obtain ⟨_, x2, pb⟩ := inputRead_rows (E := E) hok'.wok hh' hR hg (dataset_fits hk' k4 : SideFits s' g U.keep key ⟨.dataset d', withKey key rf, true⟩) ht'
  cases hb.symm.trans x2
  obtain ⟨cs, c1, c2⟩ := side_rows (g := g) (fs := σ.w.fs) (snap := snap) (d := d) (keep := U.keep) hk.name k3 true
  obtain ⟨ds, d1, d2⟩ := side_rows (g := g) (fs := σ'.w.fs) (snap := snap') (d := d') (keep := U.keep) hk'.name k4 true
  rw [c2] at pa
  rw [d2] at pb
  intro r hr
  have hr := hab.mem_iff.mp hr
  unfold innerJoin at hr
  obtain ⟨⟨a0, b0⟩, hm, rfl⟩ := List.mem_map.mp hr
  obtain ⟨hm, -⟩ := List.mem_filter.mp hm
  obtain ⟨a1, ha1, hm⟩ := List.mem_flatMap.mp hm
  obtain ⟨b1, hb1, e⟩ := List.mem_map.mp hm
  cases e
  obtain ⟨x, hx, rfl⟩ := List.mem_map.mp (pa.mem_iff.mp ha1)
  obtain ⟨y, hy, rfl⟩ := List.mem_map.mp (pb.mem_iff.mp hb1)
  have ox := physRows_ok (target_ok hok.wok ht).1.manifests x hx
  have oy := physRows_ok (target_ok hok'.wok ht').1.manifests y hy
  have hval : ∀ {outs : List String} {φ : String → Val} {f : String}, f ∈ outs → Row.val (outs.map fun c => (c, φ c)) f = φ f := by
    intro outs φ f hf
    show (AMap.get? (outs.map fun c => (c, φ c)) f).getD .null = φ f
    induction outs with
    | nil => simp at hf
    | cons c outs ih =>
      simp only [List.map_cons, AMap.get?]
      by_cases hcf : c = f
      · simp [hcf]
      · rw [if_neg hcf]
        exact ih (by simpa [Ne.symm hcf] using hf)
  constructor
  · intro f hf hrec
    have hin : f ∈ asking key s.names lf := (mem_withKey hk.name).mpr (.inr hf)
    simp only
    rw [hval (by simp [View.schemaNames, hf]), if_pos (by rw [select_cols]; exact c1.mem_iff.mpr hin), select_val (c1.mem_iff.mpr hin)]
    exact ox.addrVal hrec (k3.2 f hf)
  · intro f hf hnl hrec
    have hin : f ∈ asking key s'.names rf := (mem_withKey hk'.name).mpr (.inr hf)
    have hfk : f ≠ key := by
      simp only [giving, List.mem_filter, decide_eq_true_eq] at hf
      exact hf.2
    have hni : f ∉ asking key s.names lf := fun hin => ((mem_withKey hk.name).mp hin).elim hfk hnl
    simp only
    rw [hval (by simp [View.schemaNames, hf]), if_neg (by rw [select_cols]; exact fun h => hni (c1.mem_iff.mp h)),
      select_val (d1.mem_iff.mpr hin)]
    exact oy.addrVal hrec (k4.2 f hf)

theorem fetchRow_val {left right : FS} {cols : List String} {r : Row} {c : String} :
    (fetchRow s s' left right cols r).val c =
      if c ∈ cols then (if c ∈ s.recs then fetch left (r.val c) else r.val c)
      else (if c ∈ s'.recs then fetch right (r.val c) else r.val c) := by
  unfold fetchRow Row.val
  induction r with
  | nil => simp [AMap.get?, fetch]
  | cons e r ih =>
    obtain ⟨k, v⟩ := e
    simp only [List.map_cons, AMap.get?]
    by_cases hk : k = c
    · subst hk
      simp
    · rw [if_neg hk, if_neg hk]
      exact ih

/-- The storages of record fields of a join: the left one for the columns of the left input. -/
def joinFeats (leftCols : List String) (left right : Feature) (fields : List String) : AMap String Feature :=
  fields.map fun f => (f, if f ∈ leftCols then left else right)

/-- **C65** (random access).  The addresses in the record columns of a join can be given to a random
access source: it has one element for each row of the join, and its element `k` is the records of
row `k` of the join, also after later changes of both tables. -/
theorem C65_source (h : Reach E s anyStep σ) (h' : Reach E s' anyStep σ')
    (hsl : sl ∈ σ.slots) (hsl' : sl' ∈ σ'.slots) (hR : Smooth R ray) (hg : RowWise U g)
    (hs : ∀ k ∈ s.pks, KeyOf s k) (hs' : ∀ k ∈ s'.pks, KeyOf s' k) {key : String}
    (hJ : View.join s s' (.dataset d) (.dataset d') [key] lf rf true true same = .ok J)
    (hp : Partitions partition) {refs : List Row}
    (h1 : joinRead E R U nb ray J partition sl.h σ.w sl'.h σ'.w {} none = .ok refs)
    {fields : List String} (hf : ∀ f ∈ fields, (f ∈ giving key s.names lf ∧ f ∈ s.recs) ∨
      (f ∉ giving key s.names lf ∧ f ∈ giving key s'.names rf ∧ f ∈ s'.recs))
    {left right : Feature} {useArray : Bool} (hmode : useArray = false ∨ fields.length ≠ 1)
    (group : List (Path × Nat) → List (Path × List Nat)) :
    ∃ t src, addrColumns fields refs fields = .ok t ∧
      openSource E group (joinFeats (giving key s.names lf) left right fields) (some ⟨refs.length, t⟩) false useArray = .ok src ∧
      src.len = refs.length ∧
      ∀ {P P' : Sys → Event → Prop} {τ τ' : Sys} (disk : String → FS), Run E s P σ τ → Run E s' P' σ' τ' →
        disk left.location = τ.w.fs → disk right.location = τ'.w.fs →
        ∀ k r, refs[k]? = some r → src.get disk k =
          .ok (valueOrDict (fields.map fun f => (f, (fetchRow s s' σ.w.fs σ'.w.fs (giving key s.names lf) r).val f))) := by
  have hin := join_addrs h h' hsl hsl' hR hg hs hs' hJ hp h1
  obtain ⟨_, e, k1, k2, -, -, -⟩ := C43_view.mp hJ
  cases e
  obtain ⟨md, hok⟩ := reach_ok (hs key k1).distinct h
  obtain ⟨md', hok'⟩ := reach_ok (hs' key k2).distinct h'
  obtain ⟨t, t1, t2⟩ := addrColumns_eq (recs := fields) (rows := refs) (fields := fields) (fun f hf => hf) (by
    intro f hff r hr
    rcases hf f hff with ⟨h1, h2⟩ | ⟨h1, h2, h3⟩
    · obtain ⟨p, i, _, e, -⟩ := (hin r hr).1 f h1 h2
      exact ⟨p, i, e⟩
    · obtain ⟨p, i, _, e, -⟩ := (hin r hr).2 f h2 h1 h3
      exact ⟨p, i, e⟩)
  obtain ⟨src, e1, e2, e3, -⟩ := C64_external (E := E) (group := group) (feats := joinFeats (giving key s.names lf) left right fields)
    (a := ⟨refs.length, t⟩) (useArray := useArray) (by simpa [joinFeats] using hmode)
  refine ⟨t, src, t1, e1, e2, ?_⟩
  intro P P' τ τ' disk hrun hrun' hd hd' k r hk
  have hr := List.mem_of_getElem? hk
  obtain ⟨-, -, hle⟩ := run_ok (hs key k1).distinct hok hrun
  obtain ⟨-, -, hle'⟩ := run_ok (hs' key k2).distinct hok' hrun'
  refine (e3 disk k _).mpr ⟨_, rfl, ?_⟩
  simp only [joinFeats, List.map_map]
  refine List.map_congr_left fun f hff => ?_
  simp only [Function.comp_apply, Prod.mk.injEq, true_and]
  obtain ⟨col, g1, g2⟩ := t2 f hff
  have hat := ColsOf.at g2 k
  rw [hk] at hat
  cases hc : col[k]? with
  | none => rw [hc] at hat; simp at hat
  | some ad =>
    rw [hc] at hat
    simp only [Option.map_some, Option.some.injEq] at hat
    simp only [featureCell, g1, Option.bind_some, hc]
    rw [fetchRow_val]
    have cell : ∀ {fs fs' : FS}, AddrVal fs.records (r.val f) → FSLe fs fs' →
        some (fetch fs (r.val f)) = (recordAt fs' ad).map fun b => Val.sc (.bytes b) := by
      intro fs fs' hv hle
      rw [← hat] at hv ⊢
      obtain ⟨b, b1, b2⟩ := recordAt_val (hv.mono hle.lookLe)
      rw [b1, fetch_deref, ← derefVal_mono hle.lookLe hv, b2]
      rfl
    rcases hf f hff with ⟨h1, h2⟩ | ⟨h1, h2, h3⟩
    · rw [if_pos h1, if_pos h2, if_pos h1, hd]
      exact cell ((hin r hr).1 f h1 h2) hle
    · rw [if_neg h1, if_pos h3, if_neg h1, hd']
      exact cell ((hin r hr).2 f h2 h1 h3) hle'

end

/-! ### Examples -/

namespace Demo

/-- A second table with records. -/
def picSchema : Schema := { fields := [⟨"id", 0, .int⟩, ⟨"pic", 1, .bytes⟩], pks := ["id"], recs := ["pic"] }

def picRow (i : Int) (b : List Nat) : Row := [("id", .sc (.int i)), ("pic", .sc (.bytes b))]

def pics : View := .dataset { loc := "/p".toList, schema := [], pks := ["id"], recs := ["pic"] }

def pictured : List Act :=
  [.call 0 (.mutate (.append [[picRow 5 [50], picRow 2 [20], picRow 5 [51]]])),
    .call 0 (.mutate (.append [[picRow 4 [40], picRow 9 [90]]]))]

/-- The records of both tables side by side. -/
def sides (lref rref : Bool) : JoinView :=
  { key := "id", left := { view := src, fields := some ["img", "id"], refRead := lref },
    right := { view := pics, refRead := rref }, outs := ["id", "img", "pic"] }

/-- The addresses the join gives. -/
def sideRefs : List Row :=
  [(4, 3, 8, 0), (5, 4, 2, 0), (5, 4, 2, 2), (2, 1, 2, 1)].map fun (i, k, u, l) =>
    [("id", .sc (.int i)), ("img", .addr (.record "img" 2) k), ("pic", .addr (.record "pic" u) l)]

/-- And the records. -/
def sideVals : List Row :=
  [(4, 4, 40), (5, 5, 50), (5, 5, 51), (2, 2, 20)].map fun (i, k, l) =>
    [("id", .sc (.int i)), ("img", .sc (.bytes [k])), ("pic", .sc (.bytes [l]))]

end Demo

open Demo

/-- Two tables to which the theorems apply: the join by reference, the join of the records, the
addresses with their records in place, and a source on the addresses of both fields. -/
example : ∃ σ sl σ' sl', Reach env schema anyStep σ ∧ sl ∈ σ.slots ∧ Reach env picSchema anyStep σ' ∧ sl' ∈ σ'.slots ∧
    Smooth rayEnv {} ∧ RowWise udfs rowFns ∧ (∀ k ∈ schema.pks, KeyOf schema k) ∧ (∀ k ∈ picSchema.pks, KeyOf picSchema k) ∧
    DistinctRecs schema ∧ DistinctRecs picSchema ∧
    View.join schema picSchema src pics ["id"] (some ["img"]) none true true false = .ok (sides true true) ∧
    View.join schema picSchema src pics ["id"] (some ["img"]) none false false false = .ok (sides false false) ∧
    Partitions (some at4) ∧
    joinRead env rayEnv udfs (some .runtime) {} (sides true true) (some at4) sl.h σ.w sl'.h σ'.w {} none = .ok sideRefs ∧
    joinRead env rayEnv udfs (some .runtime) {} (sides false false) (some at4) sl.h σ.w sl'.h σ'.w {} none = .ok sideVals ∧
    sideRefs.map (fetchRow schema picSchema σ.w.fs σ'.w.fs (giving "id" schema.names (some ["img"]))) = sideVals ∧
    (∀ f ∈ ["pic", "img"], (f ∈ giving "id" schema.names (some ["img"]) ∧ f ∈ schema.recs) ∨
      (f ∉ giving "id" schema.names (some ["img"]) ∧ f ∈ giving "id" picSchema.names none ∧ f ∈ picSchema.recs)) := by
  obtain ⟨sl, h1, sl', h3, h2⟩ := slots_of (σ := after env anyB schema seven) (σ' := after env anyB picSchema pictured)
    (f := fun sl sl' => (joinRead env rayEnv udfs (some .runtime) {} (sides true true) (some at4) sl.h (after env anyB schema seven).w
        sl'.h (after env anyB picSchema pictured).w {} none,
      joinRead env rayEnv udfs (some .runtime) {} (sides false false) (some at4) sl.h (after env anyB schema seven).w
        sl'.h (after env anyB picSchema pictured).w {} none))
    (x := (.ok sideRefs, .ok sideVals)) (by decide +kernel)
  simp only [Prod.mk.injEq] at h2
  refine ⟨_, sl, _, sl', after_reach (fun _ _ _ => trivial) _, h1, after_reach (fun _ _ _ => trivial) _, h3,
    Or.inl rfl, udfs_rowWise, fun k hk => ?_, fun k hk => ?_, by decide, by decide, rfl, rfl, at4_partitions, h2.1, h2.2, by decide +kernel,
    by decide⟩
  · cases List.mem_singleton.mp hk; exact schema_key
  · cases List.mem_singleton.mp hk; exact ⟨by decide, by decide, by decide, by decide, by decide⟩

/-! ### What is wrong with it -/

/-- `picSchema` with its record field listed twice; `validate_logical_schema`
(`schema/utils.py:65-94`) accepts it. -/
def Demo.twiceSchema : Schema := { picSchema with recs := ["pic", "pic"] }

/-- C65 is false for tables with a record field that is listed twice: the join of the data returns,
the join of the addresses raises, because the second turn of the loop in `_fold_addresses`
(`ray/ops/join.py:194-211`) does not find the columns that the first one has replaced. -/
theorem C65_violated : ∃ σ sl σ' sl', Reach env schema anyStep σ ∧ sl ∈ σ.slots ∧ Reach env twiceSchema anyStep σ' ∧ sl' ∈ σ'.slots ∧
    Smooth rayEnv {} ∧ RowWise udfs rowFns ∧ (∀ k ∈ schema.pks, KeyOf schema k) ∧ (∀ k ∈ twiceSchema.pks, KeyOf twiceSchema k) ∧
    View.join schema twiceSchema src pics ["id"] (some ["img"]) none true true false = .ok (sides true true) ∧
    View.join schema twiceSchema src pics ["id"] (some ["img"]) none false false false = .ok (sides false false) ∧
    Partitions (some at4) ∧
    joinRead env rayEnv udfs (some .runtime) {} (sides true true) (some at4) sl.h σ.w sl'.h σ'.w {} none = .error (.other "KeyError") ∧
    joinRead env rayEnv udfs (some .runtime) {} (sides false false) (some at4) sl.h σ.w sl'.h σ'.w {} none = .ok sideVals := by
  obtain ⟨sl, h1, sl', h3, h2⟩ := slots_of (σ := after env anyB schema seven) (σ' := after env anyB twiceSchema pictured)
    (f := fun sl sl' => (joinRead env rayEnv udfs (some .runtime) {} (sides true true) (some at4) sl.h (after env anyB schema seven).w
        sl'.h (after env anyB twiceSchema pictured).w {} none,
      joinRead env rayEnv udfs (some .runtime) {} (sides false false) (some at4) sl.h (after env anyB schema seven).w
        sl'.h (after env anyB twiceSchema pictured).w {} none))
    (x := (.error (.other "KeyError"), .ok sideVals)) (by decide +kernel)
  simp only [Prod.mk.injEq] at h2
  refine ⟨_, sl, _, sl', after_reach (fun _ _ _ => trivial) _, h1, after_reach (fun _ _ _ => trivial) _, h3,
    Or.inl rfl, udfs_rowWise, fun k hk => ?_, fun k hk => ?_, rfl, rfl, at4_partitions, h2.1, h2.2⟩
  · cases List.mem_singleton.mp hk; exact schema_key
  · cases List.mem_singleton.mp hk; exact ⟨by decide, by decide, by decide, by decide, by decide⟩

end Space
