import Verif.JoinLemmas
import Verif.Props.Views

/-!
# C43: join views
-/

set_option autoImplicit false

namespace Space

open Demo List

/-- The key lies in the range: from the minimum, up to the maximum, which belongs to it if it
is inclusive.  NaN lies in no range, and nothing lies in a range with the bound NaN. -/
def InRange (ρ : KeyRange) (k : Scalar) : Prop :=
  (k ≠ .nan ∧ ρ.min ≠ .nan ∧ ρ.max ≠ .nan) ∧ ρ.min ≤ k ∧ (k < ρ.max ∨ (ρ.includeMax = true ∧ k = ρ.max))

/-- The partition function splits every range: each key of the range is in exactly one part. -/
def Partitions (f : Option (KeyRange → List KeyRange)) : Prop :=
  ∀ p, f = some p → ∀ ρ k, InRange ρ k → ∃ i, (∃ h : i < (p ρ).length, InRange (p ρ)[i] k) ∧
    ∀ j (h : j < (p ρ).length), InRange (p ρ)[j] k → j = i

/-- The inner join of two lists of rows on the key: one row for each pair with equal keys that
are not null, with the columns `outs`, taken from the left row if it has them.  NaN equals
nothing. -/
def innerJoin (key : String) (outs : List String) (l r : List Row) : List Row :=
  ((l.flatMap fun a => r.map fun b => (a, b)).filter fun p =>
    p.1.val key ≠ .null ∧ p.1.val key ≠ .sc .nan ∧ p.1.val key = p.2.val key).map
    fun p => outs.map fun c => (c, if c ∈ p.1.cols then p.1.val c else p.2.val c)

theorem innerJoin_eq (key : String) (outs : List String) (l r : List Row) :
    innerJoin key outs l r = joinTables key outs (l.filter fun x => (x.val key).num) r := by
  unfold innerJoin joinTables
  induction l with
  | nil => rfl
  | cons a l ih =>
    rw [List.flatMap_cons, List.filter_append, List.map_append, ih, List.filter_cons]
    by_cases hn : a.val key = .sc .nan
    · simp [Val.num, hn, List.filter_map, Function.comp_def]
    · rw [if_pos (by simp [Val.num, hn]), List.flatMap_cons]
      congr 1
      rw [List.filter_map, List.map_map]
      simp [Function.comp_def, hn]

theorem InRange.has {ρ : KeyRange} {k : Scalar} : InRange ρ k ↔ ρ.has (.sc k) = true := by
  unfold InRange KeyRange.has
  simp only [Bool.and_eq_true, decide_eq_true_eq, and_assoc]
  refine and_congr_right fun _ => and_congr_right fun _ => and_congr_right fun _ => ?_
  cases ρ.includeMax with
  | false => simp
  | true =>
    simp only [true_and, if_true, decide_eq_true_eq]
    refine and_congr_right fun _ => ⟨?_, ?_⟩
    · rintro (h | rfl)
      · exact Std.le_of_lt h
      · exact Scalar.le_refl _
    · intro h
      by_cases e : k = ρ.max
      · exact Or.inr e
      · exact Or.inl (Scalar.not_le.mp fun h' => e (Scalar.le_antisymm h h'))

theorem filter_one {α : Type} {p : α → Bool} : ∀ {l : List α} {i : Nat} (h : i < l.length), p l[i] = true →
    (∀ j (h : j < l.length), p l[j] = true → j = i) → (l.filter p).length = 1
  | x :: l, 0, _, h1, h2 => by
    rw [List.filter_cons_of_pos (a := x) (by simpa using h1)]
    have : l.filter p = [] := by
      refine List.filter_eq_nil_iff.mpr fun y hy hp => ?_
      obtain ⟨j, hj, rfl⟩ := List.getElem_of_mem hy
      have := h2 (j + 1) (by simpa using hj) (by simpa using hp)
      omega
    rw [this]; rfl
  | x :: l, i + 1, h, h1, h2 => by
    have hx : ¬ p x = true := fun hp => by
      have := h2 0 (by simp) hp
      omega
    rw [List.filter_cons_of_neg hx]
    refine filter_one (i := i) (by simpa using h) (by simpa using h1) fun j hj hp => ?_
    have := h2 (j + 1) (by simpa using hj) (by simpa using hp)
    omega

section
variable {E : Env} {R : RayEnv} {U : UdfEnv} {ray : RayOpts} {s s' : Schema} {g : Nat → Row → List Row}

/-- C43, as far as it holds: in every history of the two sources, for every join of two
datasets or of transforms that keep the key (`SideFits`), with selected fields and reference
reads, and for every partition function that splits ranges: if reading the join returns,
then both sides can be read and the result is the inner join of what they read, each row as
often.  Missing: that it returns at all, see `C43_returns`, `C43_violated`,
`C43_violated_null`; transforms that change the key or number its field anew, see
`C43_violated_udf`. -/
theorem C43_partial {σ σ' : Sys} (h : Reach E s anyStep σ) (h' : Reach E s' anyStep σ') {sl sl' : Slot}
    (hsl : sl ∈ σ.slots) (hsl' : sl' ∈ σ'.slots) (hR : Smooth R ray) (hg : RowWise U g) {J : JoinView}
    (hk : KeyOf s J.key) (hk' : KeyOf s' J.key) (hl : SideFits s g U.keep J.key J.left)
    (hr : SideFits s' g U.keep J.key J.right) {partition : Option (KeyRange → List KeyRange)} (hp : Partitions partition)
    {nb : Option Err} {rows : List Row}
    (hread : joinRead E R U nb ray J partition sl.h σ.w sl'.h σ'.w {} none = .ok rows) :
    ∃ a b, inputRead E R U ray J.left sl.h σ.w = .ok a ∧ inputRead E R U ray J.right sl'.h σ'.w = .ok b ∧
      rows ~ innerJoin J.key J.outs a b := by
  obtain ⟨md, hok⟩ := reach_ok hk.distinct h
  obtain ⟨md', hok'⟩ := reach_ok hk'.distinct h'
  have hh := (hok.slots sl hsl).1
  have hh' := (hok'.slots sl' hsl').1
  obtain ⟨_, h1, e1, e2, e3, -⟩ := reload_eq hok.wok hh
  obtain ⟨_, h1', e1', e2', e3', -⟩ := reload_eq hok'.wok hh'
  unfold joinRead at hread
  rw [e1, e1'] at hread
  simp only [Option.isSome_none, Bool.false_or, Bool.false_eq_true, if_false] at hread
  unfold joinBlocks at hread
  cases hlr : joinKeyRange σ.w.fs h1 J.left.view J.key with
  | error e => rw [hlr] at hread; cases hread
  | ok lr =>
    rw [hlr] at hread
    simp only at hread
    cases hrr : joinKeyRange σ'.w.fs h1' J.right.view J.key with
    | error e => rw [hrr] at hread; cases hread
    | ok rr =>
      rw [hrr] at hread
      simp only at hread
      rw [e2, e2', hok.wok.schema, hok'.wok.schema] at hread
      -- the current snapshots exist
      have tgt : ∀ {s : Schema} {w : World} {md : Metadata} {h0 h1 : Handle} {x : JoinSide} {out : Option KeyRange},
          h1.md = md → h1.branch = h0.branch → x.view.Fits s g → x.view.keyId h1.md.schema J.key = (h1.md.schema.fidOf J.key).map some →
          joinKeyRange w.fs h1 x.view J.key = .ok out → ∃ snap, md.target h0.branch none = .ok snap := by
        intro s w md h0 h1 x out hm hb hx hid hj
        unfold joinKeyRange at hj
        split at hj
        · cases hj
        · rw [hid] at hj
          cases hf : h1.md.schema.fidOf J.key with
          | none => rw [hf] at hj; cases hj
          | some fid =>
            rw [hf] at hj
            simp only [Option.map_some] at hj
            cases hs : h1.snapshot none with
            | error e => rw [hs] at hj; cases hj
            | ok snap =>
              refine ⟨snap, ?_⟩
              unfold Handle.snapshot at hs
              unfold Metadata.target
              rw [hm, hb] at hs
              exact hs
      obtain ⟨snap, ht⟩ := tgt e2 e3 hl.fits (by rw [e2, hok.wok.schema]; exact hl.id) hlr
      obtain ⟨snap', ht'⟩ := tgt e2' e3' hr.fits (by rw [e2', hok'.wok.schema]; exact hr.id) hrr
      obtain ⟨a, ha1, ha2⟩ := inputRead_rows (E := E) hok.wok hh hR hg hl ht
      obtain ⟨b, hb1, hb2⟩ := inputRead_rows (E := E) hok'.wok hh' hR hg hr ht'
      refine ⟨a, b, ha1, hb1, ?_⟩
      cases hps : joinParts (fun k e => sideRead E R U σ.w.fs h1 ray J.left [k, 0] (some e))
          (fun k e => sideRead E R U σ'.w.fs h1' ray J.right [k, 1] (some e)) J.key J.outs
          (J.left.folded s) (J.right.folded s') 0 (joinRanges partition lr rr) with
      | error e => rw [hps] at hread; cases hread
      | ok parts =>
        rw [hps] at hread
        simp only at hread
        cases hbs : fromArrowRefs nb parts with
        | error e => rw [hbs] at hread; cases hread
        | ok bs =>
          rw [hbs] at hread
          simp only at hread
          cases hread
          rw [iterBatches_flatten, innerJoin_eq]
          refine (R.deliver_perm [] bs).trans ?_
          rw [fromArrowRefs_rows hbs, ← List.flatMap_def]
          refine (joinParts_rows (folded_key hk hl) (folded_key hk' hr)
            (sideRows_addressed (target_ok hok.wok ht).1 hl) (sideRows_addressed (target_ok hok'.wok ht').1 hr)
            (fun k ρ => sideRead_rows (E := E) hok.wok e2 e3 hR hg hk hl ht [k, 0] ρ)
            (fun k ρ => sideRead_rows (E := E) hok'.wok e2' e3' hR hg hk' hr ht' [k, 1] ρ) hps).trans ?_
          refine (join_parts ?_).trans (joinTables_perm (ha2.symm.filter _) hb2.symm)
          intro x hx y hy hv hnum hxy
          obtain ⟨ρ, k, rfl, hxk, l1, l2, hkn, l3, l4⟩ := joinKeyRange_keys hok.wok e2 e3 hk hl ht hlr hx hv hnum
          obtain ⟨ρ', k', rfl, hyk, r1, r2, -, r3, r4⟩ := joinKeyRange_keys hok'.wok e2' e3' hk' hr ht' hrr hy
            (by rw [← hxy]; exact hv) (by rw [← hxy]; exact hnum)
          have hkk : k' = k := by
            rw [hxk, hyk] at hxy
            cases hxy
            rfl
          subst hkk
          rw [hxk]
          have hin : InRange ⟨if ρ.min < ρ'.min then ρ'.min else ρ.min, if ρ'.max < ρ.max then ρ'.max else ρ.max, true⟩ k' := by
            rw [InRange.has]
            simp only [KeyRange.has, if_true, Bool.and_eq_true, decide_eq_true_eq]
            refine ⟨⟨⟨hkn, ?_, ?_⟩, ?_⟩, ?_⟩ <;> split <;> assumption
          simp only [joinRanges]
          cases partition with
          | none =>
            rw [InRange.has] at hin
            simp [hin]
          | some f =>
            obtain ⟨i, ⟨hi, h3⟩, h4⟩ := hp f rfl _ _ hin
            exact filter_one hi (InRange.has.mp h3) fun j hj hp => h4 j hj (InRange.has.mpr hp)

/-- C43, when the join returns: both inputs can be read, and the rows of each have the same columns;
every manifest lists a file with a key that is neither null nor NaN, no cell is nested, every output column comes from one side,
the record fields of a side read by reference are distinct fields and in the output if they are read,
and either Ray takes `None` as no rows or there is no partition function and some row of the left
matches a row of the right. -/
theorem C43_returns {σ σ' : Sys} (h : Reach E s anyStep σ) (h' : Reach E s' anyStep σ') {sl sl' : Slot}
    (hsl : sl ∈ σ.slots) (hsl' : sl' ∈ σ'.slots) (hR : Smooth R ray) (hg : RowWise U g) {J : JoinView}
    (hk : KeyOf s J.key) (hk' : KeyOf s' J.key) (hl : SideFits s g U.keep J.key J.left)
    (hr : SideFits s' g U.keep J.key J.right) {partition : Option (KeyRange → List KeyRange)}
    {a b : List Row} (ha : inputRead E R U ray J.left sl.h σ.w = .ok a)
    (hb : inputRead E R U ray J.right sl'.h σ'.w = .ok b)
    (hn : Keyed σ.w.fs J.key) (hn' : Keyed σ'.w.fs J.key) (hf : ∀ x ∈ a ++ b, ∀ c ∈ x, c.2.nested = false)
    (hu : ∀ x ∈ a, ∀ y ∈ a, x.cols = y.cols) (hu' : ∀ x ∈ b, ∀ y ∈ b, x.cols = y.cols)
    (hc : ∀ x ∈ a, ∀ y ∈ b, ∀ c ∈ J.outs, (x.cols ++ y.cols.filter (· ≠ J.key)).count c = 1)
    (hrec : Refers s J.outs J.left) (hrec' : Refers s' J.outs J.right)
    {nb : Option Err} (hm : nb = none ∨ (partition = none ∧
      ∃ x ∈ a, ∃ y ∈ b, x.val J.key ≠ .null ∧ x.val J.key ≠ .sc .nan ∧ x.val J.key = y.val J.key)) :
    ∃ rows, joinRead E R U nb ray J partition sl.h σ.w sl'.h σ'.w {} none = .ok rows := by
  obtain ⟨md, hok⟩ := reach_ok hk.distinct h
  obtain ⟨md', hok'⟩ := reach_ok hk'.distinct h'
  have hh := (hok.slots sl hsl).1
  have hh' := (hok'.slots sl' hsl').1
  obtain ⟨_, h1, e1, e2, e3, -⟩ := reload_eq hok.wok hh
  obtain ⟨_, h1', e1', e2', e3', -⟩ := reload_eq hok'.wok hh'
  obtain ⟨snap, ht⟩ := inputRead_target hok.wok hh hR hg hl ha
  obtain ⟨snap', ht'⟩ := inputRead_target hok'.wok hh' hR hg hr hb
  obtain ⟨a', ha1, ha2⟩ := inputRead_rows (E := E) hok.wok hh hR hg hl ht
  obtain ⟨b', hb1, hb2⟩ := inputRead_rows (E := E) hok'.wok hh' hR hg hr ht'
  cases ha.symm.trans ha1
  cases hb.symm.trans hb1
  obtain ⟨lr, hlr⟩ := joinKeyRange_ok hok.wok e2 e3 hk hl ht hn
  obtain ⟨rr, hrr⟩ := joinKeyRange_ok hok'.wok e2' e3' hk' hr ht' hn'
  obtain ⟨parts, bs, hps, hbs⟩ := joinParts_ok (k := 0) (ρs := joinRanges partition lr rr)
    (lread := fun k e => sideRead E R U σ.w.fs h1 ray J.left [k, 0] (some e))
    (rread := fun k e => sideRead E R U σ'.w.fs h1' ray J.right [k, 1] (some e))
    (sideRows_foldable hk (target_ok hok.wok ht).1 hl hrec) (sideRows_foldable hk' (target_ok hok'.wok ht').1 hr hrec')
    (fun x hx y hy => hu x (ha2.mem_iff.mpr hx) y (ha2.mem_iff.mpr hy))
    (fun x hx y hy => hu' x (hb2.mem_iff.mpr hx) y (hb2.mem_iff.mpr hy))
    (fun k ρ => sideRead_rows (E := E) hok.wok e2 e3 hR hg hk hl ht [k, 0] ρ)
    (fun k ρ => sideRead_rows (E := E) hok'.wok e2' e3' hR hg hk' hr ht' [k, 1] ρ)
    (fun x hx => hf x (List.mem_append.mpr ((List.mem_append.mp hx).imp (ha2.mem_iff.mpr) (hb2.mem_iff.mpr))))
    (fun x hx y hy => hc x (ha2.mem_iff.mpr hx) y (hb2.mem_iff.mpr hy)) nb (by
      refine hm.imp_right ?_
      rintro ⟨rfl, x, hx, y, hy, hv, hnan, hxy⟩
      have hnum : (x.val J.key).num = true := by simpa [Val.num] using hnan
      have hx' := ha2.mem_iff.mp hx
      have hy' := hb2.mem_iff.mp hy
      obtain ⟨ρ, k, rfl, hxk, l1, l2, hkn, l3, l4⟩ := joinKeyRange_keys hok.wok e2 e3 hk hl ht hlr hx' hv hnum
      obtain ⟨ρ', k', rfl, hyk, r1, r2, -, r3, r4⟩ := joinKeyRange_keys hok'.wok e2' e3' hk' hr ht' hrr hy'
        (by rw [← hxy]; exact hv) (by rw [← hxy]; exact hnum)
      have hkk : k' = k := by
        rw [hxk, hyk] at hxy
        cases hxy
        rfl
      subst hkk
      intro ρ0 h0
      simp only [joinRanges, List.mem_singleton] at h0
      subst h0
      refine ⟨⟨x, hx', ?_⟩, y, hy', ?_⟩ <;> simp only [hxk, hyk] <;>
      · simp only [KeyRange.has, if_true, Bool.and_eq_true, decide_eq_true_eq]
        refine ⟨⟨⟨hkn, ?_, ?_⟩, ?_⟩, ?_⟩ <;> split <;> assumption)
  unfold joinRead
  rw [e1, e1']
  simp only [Option.isSome_none, Bool.false_or, Bool.false_eq_true, if_false]
  unfold joinBlocks
  rw [hlr, hrr, e2, e2', hok.wok.schema, hok'.wok.schema]
  simp only
  rw [hps]
  simp only
  rw [hbs]
  exact ⟨_, rfl⟩

/-- The fields an input is read with: those asked for, and the key; all if none are asked for. -/
def withKey (key : String) (asked : Option (List String)) : Option (List String) :=
  asked.map fun fs => if key ∈ fs then fs else fs ++ [key]

/-- The columns an input gives to the output: those asked for, or all, without the key. -/
def giving (key : String) (names : List String) (asked : Option (List String)) : List String :=
  (asked.getD names).filter fun c => c ≠ key

/-- Fields can be asked for if one of them is not the key, and the input has them. -/
def CanAsk (key : String) (names : List String) (asked : Option (List String)) : Prop :=
  (∀ fs, asked = some fs → fs ≠ [] ∧ fs ≠ [key]) ∧ ∀ c ∈ giving key names asked, c ∈ names

theorem joinFields_eq (key : String) (asked : Option (List String)) :
    joinFields key asked =
      if ∀ fs, asked = some fs → fs ≠ [] ∧ fs ≠ [key] then .ok (withKey key asked) else .error .userInput := by
  cases asked with
  | none => simp [joinFields, withKey]
  | some fs =>
    simp only [joinFields, withKey, Option.some.injEq, forall_eq', Option.map_some, List.contains_eq_mem]
    by_cases h1 : fs = []
    · simp [h1]
    · by_cases h2 : fs = [key]
      · simp [h2]
      · simp [h1, h2]

theorem outFields_eq (s : Schema) (key : String) (v : View) (asked : Option (List String)) (b : Bool) :
    JoinSide.outFields s key ⟨v, withKey key asked, b⟩ =
      if ∀ c ∈ giving key (v.schemaNames s) asked, c ∈ v.schemaNames s then .ok (giving key (v.schemaNames s) asked)
      else .error .userInput := by
  have : ((withKey key asked).getD (v.schemaNames s)).filter (· ≠ key) = giving key (v.schemaNames s) asked := by
    unfold giving
    cases asked with
    | none => rfl
    | some fs =>
      simp only [withKey, Option.map_some, Option.getD_some]
      split
      · rfl
      · simp
  simp only [JoinSide.outFields, this, List.all_eq_true, List.contains_eq_mem, decide_eq_true_eq]

/-- C43, what `View.join` builds, and when: there is one key, it is a primary key of both
sources, and the fields asked for exist and are not just the key; the sides are read with the
key, and the output has the key and then the other fields of the left and of the right. -/
theorem C43_view {s s' : Schema} {left right : View} {keys : List String} {lf rf : Option (List String)}
    {lref rref same : Bool} {J : JoinView} :
    View.join s s' left right keys lf rf lref rref same = .ok J ↔
      ∃ key, keys = [key] ∧ key ∈ s.pks ∧ key ∈ s'.pks ∧ CanAsk key (left.schemaNames s) lf ∧
        CanAsk key (right.schemaNames s') rf ∧
        J = { key := key, left := ⟨left, withKey key lf, lref⟩, right := ⟨right, withKey key rf, rref⟩,
              outs := key :: giving key (left.schemaNames s) lf ++ giving key (right.schemaNames s') rf,
              same := same } := by
  constructor
  · intro h
    unfold View.join at h
    split at h
    · rename_i key
      refine ⟨key, rfl, ?_⟩
      split at h
      · cases h
      rename_i hc
      simp only [Bool.not_eq_true, Bool.not_eq_false', Bool.and_eq_true, List.contains_eq_mem, decide_eq_true_eq] at hc
      refine ⟨hc.1, hc.2, ?_⟩
      rw [joinFields_eq, joinFields_eq] at h
      split at h
      · cases h
      rename_i a ha
      split at ha <;> cases ha
      rename_i h1
      split at h
      · cases h
      rename_i b hb
      split at hb <;> cases hb
      rename_i h2
      simp only [outFields_eq] at h
      split at h
      · cases h
      rename_i c hc
      split at hc <;> cases hc
      rename_i h3
      split at h
      · cases h
      rename_i d hd
      split at hd <;> cases hd
      rename_i h4
      exact ⟨⟨h1, h3⟩, ⟨h2, h4⟩, (Except.ok.inj h).symm⟩
    · cases h
  · rintro ⟨key, rfl, h1, h2, ⟨h3, h4⟩, ⟨h5, h6⟩, rfl⟩
    unfold View.join
    simp only [List.contains_eq_mem, h1, h2, decide_true, Bool.and_self, Bool.not_true, Bool.false_eq_true, if_false]
    rw [joinFields_eq, joinFields_eq, if_pos h3, if_pos h5]
    simp only [outFields_eq]
    rw [if_pos h4, if_pos h6]

/-- A dataset as a side of a join, with the fields asked for. -/
theorem dataset_fits {s : Schema} {d : Source} {key : String} {asked : Option (List String)} {b : Bool} (hk : KeyOf s key)
    (hask : CanAsk key s.names asked) : SideFits s g U.keep key ⟨.dataset d, withKey key asked, b⟩ := by
  refine ⟨trivial, fun r r' hr => by cases List.mem_singleton.mp hr; rfl, rfl, ?_, ?_, fun _ => ⟨d, rfl⟩⟩
  · intro f hf c hc
    cases asked with
    | none => cases hf
    | some fs =>
      by_cases hck : c = key
      · rw [hck]; exact hk.name
      · refine hask.2 c ?_
        simp only [withKey, Option.map_some, Option.some.injEq] at hf
        simp only [giving, Option.getD_some, List.mem_filter, decide_eq_true_eq]
        refine ⟨?_, by simpa using hck⟩
        subst hf
        split at hc
        · exact hc
        · rcases List.mem_append.mp hc with hc | hc
          · exact hc
          · exact absurd (List.mem_singleton.mp hc) hck
  · intro f hf
    cases asked with
    | none => cases hf
    | some fs =>
      simp only [withKey, Option.map_some, Option.some.injEq] at hf
      subst hf
      split
      · assumption
      · simp

/-- C43 for a join of two datasets made by `View.join`: if reading it returns, then both
datasets can be read with the fields asked for and the key, and the result is their inner
join.  Missing: as in `C43_partial`. -/
theorem C43_datasets_partial {σ σ' : Sys} (h : Reach E s anyStep σ) (h' : Reach E s' anyStep σ') {sl sl' : Slot}
    (hsl : sl ∈ σ.slots) (hsl' : sl' ∈ σ'.slots) (hR : Smooth R ray) (hg : RowWise U g)
    (hs : ∀ k ∈ s.pks, KeyOf s k) (hs' : ∀ k ∈ s'.pks, KeyOf s' k) {d d' : Source} {keys : List String}
    {lf rf : Option (List String)} {lref rref same : Bool} {J : JoinView}
    (hJ : View.join s s' (.dataset d) (.dataset d') keys lf rf lref rref same = .ok J)
    {partition : Option (KeyRange → List KeyRange)} (hp : Partitions partition) {nb : Option Err} {rows : List Row}
    (hread : joinRead E R U nb ray J partition sl.h σ.w sl'.h σ'.w {} none = .ok rows) :
    ∃ key a b, keys = [key] ∧
      viewRead E R U ray (.dataset d) sl.h σ.w { fields := withKey key lf, refRead := lref } none = .ok a ∧
      viewRead E R U ray (.dataset d') sl'.h σ'.w { fields := withKey key rf, refRead := rref } none = .ok b ∧
      rows ~ innerJoin key (key :: giving key s.names lf ++ giving key s'.names rf) a b := by
  obtain ⟨key, rfl, h1, h2, h3, h4, rfl⟩ := C43_view.mp hJ
  obtain ⟨a, b, ha, hb, hr⟩ := C43_partial h h' hsl hsl' hR hg (hs key h1) (hs' key h2)
    (dataset_fits (hs key h1) h3) (dataset_fits (hs' key h2) h4) hp hread
  exact ⟨key, a, b, rfl, ha, hb, hr⟩

end

/-! ### Examples -/

namespace Demo

/-- A second table: orders of the first, and orders of others. -/
def oSchema : Schema := { fields := [⟨"id", 0, .int⟩, ⟨"qty", 1, .int⟩], pks := ["id"], recs := [] }

def orow (i q : Int) : Row := [("id", .sc (.int i)), ("qty", .sc (.int q))]

def orders : View := .dataset { loc := "/o".toList, schema := [], pks := ["id"], recs := [] }

def ordered : List Act :=
  [.call 0 (.mutate (.append [[orow 5 1, orow 2 2, orow 5 3]])), .call 0 (.mutate (.append [[orow 4 4, orow 9 5]]))]

/-- `src` joined with `orders`. -/
def sold : JoinView :=
  { key := "id", left := { view := src, fields := some ["txt", "id"] }, right := { view := orders },
    outs := ["id", "txt", "qty"] }

example : View.join schema oSchema src orders ["id"] (some ["txt"]) none false false false = .ok sold := rfl

/-- Split at 4. -/
def at4 (ρ : KeyRange) : List KeyRange := [⟨ρ.min, .int 4, false⟩, ⟨.int 4, ρ.max, ρ.includeMax⟩]

end Demo

theorem at4_partitions : Partitions (some at4) := by
  intro p hp ρ k hk
  cases hp
  by_cases h : k < .int 4
  · refine ⟨0, ⟨by simp [at4], ⟨hk.1.1, hk.1.2.1, by simp [at4]⟩, hk.2.1, Or.inl h⟩, fun j hj hin => ?_⟩
    match j, hj with
    | 0, _ => rfl
    | 1, _ => exact absurd hin.2.1 (Scalar.not_le.mpr h)
  · refine ⟨1, ⟨by simp [at4], ⟨hk.1.1, by simp [at4], hk.1.2.2⟩, Scalar.not_lt.mp h, hk.2.2⟩, fun j hj hin => ?_⟩
    match j, hj with
    | 0, _ =>
      rcases hin.2.2 with h' | ⟨h', -⟩
      · exact absurd h' h
      · cases h'
    | 1, _ => rfl

theorem schema_key : KeyOf schema "id" := ⟨by decide, by decide, by decide, by decide, by decide⟩

theorem oSchema_key : KeyOf oSchema "id" := ⟨by decide, by decide, by decide, by decide, by decide⟩

/-- The hypotheses of `C43_datasets_partial` for the example below. -/
example : View.join schema oSchema src orders ["id"] (some ["txt"]) none false false false = .ok sold ∧
    (∀ k ∈ schema.pks, KeyOf schema k) ∧ (∀ k ∈ oSchema.pks, KeyOf oSchema k) ∧ CanAsk "id" schema.names (some ["txt"]) := by
  refine ⟨rfl, fun k hk => ?_, fun k hk => ?_, fun fs h => ?_, by decide⟩
  · cases List.mem_singleton.mp hk; exact schema_key
  · cases List.mem_singleton.mp hk; exact oSchema_key
  · cases h; decide

theorem src_fits : SideFits schema rowFns udfs.keep "id" sold.left where
  fits := trivial
  kept := fun r r' hr => by cases List.mem_singleton.mp hr; rfl
  id := rfl
  cols := fun f hf => by cases hf; decide
  key := fun f hf => by cases hf; decide
  ref := fun h => by cases h

theorem orders_fits : SideFits oSchema rowFns udfs.keep "id" sold.right where
  fits := trivial
  kept := fun r r' hr => by cases List.mem_singleton.mp hr; rfl
  id := rfl
  cols := fun f hf => by cases hf
  key := fun f hf => by cases hf
  ref := fun h => by cases h

/-- The result of the example below. -/
def Demo.soldRows : List Row :=
  [(4, "b", 4), (5, "a", 1), (5, "a", 3), (2, "b", 2)].map fun (i, t, q) =>
    [("id", .sc (.int i)), ("txt", .sc (.str t)), ("qty", .sc (.int q))]

/-- Two systems with one handle each. -/
theorem slots_of {α : Type} {σ σ' : Sys} {f : Slot → Slot → α} {x : α}
    (h : σ.slots.map (fun sl => σ'.slots.map (f sl)) = [[x]]) : ∃ sl ∈ σ.slots, ∃ sl' ∈ σ'.slots, f sl sl' = x := by
  obtain ⟨sl, h1, h2⟩ := List.mem_map.mp (h ▸ List.mem_singleton.mpr rfl : [x] ∈ _)
  obtain ⟨sl', h3, h4⟩ := List.mem_map.mp (h2 ▸ List.mem_singleton.mpr rfl : x ∈ _)
  exact ⟨sl, h1, sl', h3, h4⟩

/-- Seven rows joined with five orders, in two parts: four orders match. -/
example : ∃ σ sl σ' sl', Reach env schema anyStep σ ∧ sl ∈ σ.slots ∧ Reach env oSchema anyStep σ' ∧ sl' ∈ σ'.slots ∧
    Smooth rayEnv {} ∧ RowWise udfs rowFns ∧ KeyOf schema sold.key ∧ KeyOf oSchema sold.key ∧
    SideFits schema rowFns udfs.keep sold.key sold.left ∧ SideFits oSchema rowFns udfs.keep sold.key sold.right ∧
    Partitions (some at4) ∧
    joinRead env rayEnv udfs (some .runtime) {} sold (some at4) sl.h σ.w sl'.h σ'.w {} none = .ok soldRows := by
  obtain ⟨sl, h1, sl', h3, h2⟩ := slots_of (σ := after env anyB schema seven) (σ' := after env anyB oSchema ordered)
    (f := fun sl sl' => joinRead env rayEnv udfs (some .runtime) {} sold (some at4) sl.h (after env anyB schema seven).w
        sl'.h (after env anyB oSchema ordered).w {} none)
    (x := .ok soldRows) (by decide +kernel)
  exact ⟨_, sl, _, sl', after_reach (fun _ _ _ => trivial) _, h1, after_reach (fun _ _ _ => trivial) _, h3,
    Or.inl rfl, udfs_rowWise, schema_key, oSchema_key, src_fits, orders_fits, at4_partitions, h2⟩

theorem keyed_of {fs : FS} {key : String} (h : (fs.all fun e => match e.2 with
    | .imanifest ms => ms.any fun m => (fileRows fs m.file).any fun r => r.val key ≠ .null ∧ r.val key ≠ .sc .nan
    | _ => true) = true) : Keyed fs key := by
  intro p ms hp
  unfold FS.imanifest at hp
  split at hp
  · rename_i rs hg
    cases hp
    have := List.all_eq_true.mp h _ (AMap.mem_of_get? hg)
    simp only [List.any_eq_true, decide_eq_true_eq] at this
    exact this
  · cases hp

/-- The two tables meet the conditions of `C43_returns`, without a partition function. -/
example : ∃ σ sl σ' sl' a b, Reach env schema anyStep σ ∧ sl ∈ σ.slots ∧ Reach env oSchema anyStep σ' ∧ sl' ∈ σ'.slots ∧
    inputRead env rayEnv udfs {} sold.left sl.h σ.w = .ok a ∧ inputRead env rayEnv udfs {} sold.right sl'.h σ'.w = .ok b ∧
    Keyed σ.w.fs sold.key ∧ Keyed σ'.w.fs sold.key ∧ (∀ x ∈ a ++ b, ∀ c ∈ x, c.2.nested = false) ∧
    (∀ x ∈ a, ∀ y ∈ a, x.cols = y.cols) ∧ (∀ x ∈ b, ∀ y ∈ b, x.cols = y.cols) ∧
    Refers schema sold.outs sold.left ∧ Refers oSchema sold.outs sold.right ∧
    (∀ x ∈ a, ∀ y ∈ b, ∀ c ∈ sold.outs, (x.cols ++ y.cols.filter (· ≠ sold.key)).count c = 1) ∧
    ∃ x ∈ a, ∃ y ∈ b, x.val sold.key ≠ .null ∧ x.val sold.key ≠ .sc .nan ∧ x.val sold.key = y.val sold.key := by
  obtain ⟨sl, h1, sl', h3, h2⟩ := slots_of (σ := after env anyB schema seven) (σ' := after env anyB oSchema ordered)
    (f := fun sl sl' => (inputRead env rayEnv udfs {} sold.left sl.h (after env anyB schema seven).w,
      inputRead env rayEnv udfs {} sold.right sl'.h (after env anyB oSchema ordered).w))
    (x := (.ok ([(6, "b"), (7, "a"), (1, "a"), (2, "b"), (3, "a"), (4, "b"), (5, "a")].map fun (i, t) =>
        [("txt", .sc (.str t)), ("id", .sc (.int i))]),
      .ok [orow 4 4, orow 9 5, orow 5 1, orow 2 2, orow 5 3])) (by decide +kernel)
  simp only [Prod.mk.injEq] at h2
  exact ⟨_, sl, _, sl', _, _, after_reach (fun _ _ _ => trivial) _, h1, after_reach (fun _ _ _ => trivial) _, h3,
    h2.1, h2.2, keyed_of (by decide +kernel), keyed_of (by decide +kernel), by decide +kernel, by decide +kernel,
    by decide +kernel, nofun, nofun, by decide +kernel, by decide +kernel⟩

/-- The first input read by reference. -/
example : Refers schema ["id", "img", "txt", "qty"] { view := src, refRead := true } := fun _ => by decide

/-- A filter on top of the first input, with its fields and all its rows but one. -/
example : SideFits schema rowFns udfs.keep "id"
    { view := .filter { fn := 1, out := [], recs := [] } src ["img", "id", "txt"], fields := some ["txt", "id"] } where
  fits := ⟨trivial, by decide⟩
  kept := by
    intro r r' hr
    simp only [View.rowsOn, src, List.map_cons, List.map_nil, List.mem_filter, List.mem_singleton] at hr
    rw [hr.1]
    exact select_val (by decide)
  id := rfl
  cols := fun f hf => by cases hf; decide
  key := fun f hf => by cases hf; decide
  ref := fun h => by cases h

/-! ### What is wrong with it -/

/-- Orders of other rows only. -/
def Demo.far : List Act := [.call 0 (.mutate (.append [[orow 10 1]]))]

/-- C43 is false in general: if no key is in the common range, the part of the join is `None`
(`ray/ops/join.py:118-121`), and the read raises what Ray raises for it instead of
returning no rows. -/
theorem C43_violated : ∃ σ sl σ' sl', Reach env schema anyStep σ ∧ sl ∈ σ.slots ∧ Reach env oSchema anyStep σ' ∧
    sl' ∈ σ'.slots ∧ KeyOf schema sold.key ∧ KeyOf oSchema sold.key ∧
    SideFits schema rowFns udfs.keep sold.key sold.left ∧ SideFits oSchema rowFns udfs.keep sold.key sold.right ∧
    (∃ a b, inputRead env rayEnv udfs {} sold.left sl.h σ.w = .ok a ∧
      inputRead env rayEnv udfs {} sold.right sl'.h σ'.w = .ok b ∧ innerJoin sold.key sold.outs a b = []) ∧
    joinRead env rayEnv udfs (some .runtime) {} sold none sl.h σ.w sl'.h σ'.w {} none = .error .runtime := by
  obtain ⟨sl, h1, sl', h3, h2⟩ := slots_of (σ := after env anyB schema seven) (σ' := after env anyB oSchema far)
    (f := fun sl sl' => (joinRead env rayEnv udfs (some .runtime) {} sold none sl.h (after env anyB schema seven).w
        sl'.h (after env anyB oSchema far).w {} none,
      inputRead env rayEnv udfs {} sold.left sl.h (after env anyB schema seven).w,
      inputRead env rayEnv udfs {} sold.right sl'.h (after env anyB oSchema far).w))
    (x := (.error .runtime,
      .ok ([(6, "b"), (7, "a"), (1, "a"), (2, "b"), (3, "a"), (4, "b"), (5, "a")].map fun (i, t) =>
        [("txt", .sc (.str t)), ("id", .sc (.int i))]),
      .ok [orow 10 1])) (by decide +kernel)
  simp only [Prod.mk.injEq] at h2
  exact ⟨_, sl, _, sl', after_reach (fun _ _ _ => trivial) _, h1, after_reach (fun _ _ _ => trivial) _, h3,
    schema_key, oSchema_key, src_fits, orders_fits, ⟨_, _, h2.2.1, h2.2.2, by decide +kernel⟩, h2.1⟩

/-- An order without a key. -/
def Demo.unkeyed : List Act := ordered ++ [.call 0 (.mutate (.append [[[("id", .null), ("qty", .sc (.int 6))]]]))]

/-- C43 is false for tables with a manifest without keys, whatever Ray does: `min` of a key
and `None` raises (`ray/ops/join.py:160-169`), although both inputs can be read. -/
theorem C43_violated_null : ∃ σ sl σ' sl', Reach env schema anyStep σ ∧ sl ∈ σ.slots ∧ Reach env oSchema anyStep σ' ∧
    sl' ∈ σ'.slots ∧ KeyOf schema sold.key ∧ KeyOf oSchema sold.key ∧
    SideFits schema rowFns udfs.keep sold.key sold.left ∧ SideFits oSchema rowFns udfs.keep sold.key sold.right ∧
    keysRead (inputRead env rayEnv udfs {} sold.left sl.h σ.w) =
      some ([6, 7, 1, 2, 3, 4, 5].map (fun n => Val.sc (.int n))) ∧
    keysRead (inputRead env rayEnv udfs {} sold.right sl'.h σ'.w) =
      some (.null :: [4, 9, 5, 2, 5].map (fun n => Val.sc (.int n))) ∧
    joinRead env rayEnv udfs none {} sold none sl.h σ.w sl'.h σ'.w {} none = .error (.other "TypeError") := by
  obtain ⟨sl, h1, sl', h3, h2⟩ := slots_of (σ := after env anyB schema seven) (σ' := after env anyB oSchema unkeyed)
    (f := fun sl sl' => (joinRead env rayEnv udfs none {} sold none sl.h (after env anyB schema seven).w
        sl'.h (after env anyB oSchema unkeyed).w {} none,
      keysRead (inputRead env rayEnv udfs {} sold.left sl.h (after env anyB schema seven).w),
      keysRead (inputRead env rayEnv udfs {} sold.right sl'.h (after env anyB oSchema unkeyed).w)))
    (x := (.error (.other "TypeError"), some ([6, 7, 1, 2, 3, 4, 5].map (fun n => Val.sc (.int n))),
      some (.null :: [4, 9, 5, 2, 5].map (fun n => Val.sc (.int n))))) (by decide +kernel)
  simp only [Prod.mk.injEq] at h2
  exact ⟨_, sl, _, sl', after_reach (fun _ _ _ => trivial) _, h1, after_reach (fun _ _ _ => trivial) _, h3,
    schema_key, oSchema_key, src_fits, orders_fits, h2.2.1, h2.2.2, h2.1⟩

namespace Demo

/-- Two keys. -/
def abSchema : Schema := { fields := [⟨"a", 0, .int⟩, ⟨"b", 1, .int⟩], pks := ["a", "b"], recs := [] }

def bcSchema : Schema := { fields := [⟨"b", 0, .int⟩, ⟨"c", 1, .int⟩], pks := ["b"], recs := [] }

/-- A map that puts `b` first; `map_batches` numbers the fields of its output from 0
(`core/views.py:142-144`). -/
def swapped : View :=
  .map { fn := 0, out := [.mk "b" true (some 0) .i64, .mk "a" true (some 1) .i64], recs := [] }
    (.dataset { loc := "/ab".toList, schema := [], pks := ["a", "b"], recs := [] }) ["a", "b"]

def bc : View := .dataset { loc := "/bc".toList, schema := [], pks := ["b"], recs := [] }

def swapFn : Nat → Row → List Row := fun _ r => [[("b", r.val "b"), ("a", r.val "a")]]

def swapU : UdfEnv where
  map := fun k rows => rows.flatMap (swapFn k)
  keep := fun _ _ => true

def swapJ : JoinView := { key := "b", left := { view := swapped }, right := { view := bc }, outs := ["b", "a", "c"] }

example : View.join abSchema bcSchema swapped bc ["b"] none none false false false = .ok swapJ := rfl

def ab1 : List Act := [.call 0 (.mutate (.append [[[("a", .sc (.int 1)), ("b", .sc (.int 10))]]]))]
def bc1 : List Act := [.call 0 (.mutate (.append [[[("b", .sc (.int 10)), ("c", .sc (.int 7))]]]))]

end Demo

/-- C43 is false for transforms that number the key anew: the range of the key is computed
from the statistics of another column, and rows are lost.  The transform keeps the key. -/
theorem C43_violated_udf : ∃ σ sl σ' sl', Reach env abSchema anyStep σ ∧ sl ∈ σ.slots ∧ Reach env bcSchema anyStep σ' ∧
    sl' ∈ σ'.slots ∧ KeyOf abSchema swapJ.key ∧ KeyOf bcSchema swapJ.key ∧ swapped.Fits abSchema swapFn ∧
    (∀ r, ∀ r' ∈ swapped.rowsOn abSchema swapFn swapU.keep [r], r'.val swapJ.key = r.val swapJ.key) ∧
    SideFits bcSchema swapFn swapU.keep swapJ.key swapJ.right ∧
    (∃ a b, inputRead env rayEnv swapU {} swapJ.left sl.h σ.w = .ok a ∧
      inputRead env rayEnv swapU {} swapJ.right sl'.h σ'.w = .ok b ∧
      innerJoin swapJ.key swapJ.outs a b = [[("b", .sc (.int 10)), ("a", .sc (.int 1)), ("c", .sc (.int 7))]]) ∧
    joinRead env rayEnv swapU none {} swapJ none sl.h σ.w sl'.h σ'.w {} none = .ok [] := by
  obtain ⟨sl, h1, sl', h3, h2⟩ := slots_of (σ := after env anyB abSchema ab1) (σ' := after env anyB bcSchema bc1)
    (f := fun sl sl' => (joinRead env rayEnv swapU none {} swapJ none sl.h (after env anyB abSchema ab1).w
        sl'.h (after env anyB bcSchema bc1).w {} none,
      inputRead env rayEnv swapU {} swapJ.left sl.h (after env anyB abSchema ab1).w,
      inputRead env rayEnv swapU {} swapJ.right sl'.h (after env anyB bcSchema bc1).w))
    (x := (.ok [], .ok [[("b", .sc (.int 10)), ("a", .sc (.int 1))]], .ok [[("b", .sc (.int 10)), ("c", .sc (.int 7))]]))
    (by decide +kernel)
  simp only [Prod.mk.injEq] at h2
  refine ⟨_, sl, _, sl', after_reach (fun _ _ _ => trivial) _, h1, after_reach (fun _ _ _ => trivial) _, h3,
    ⟨by decide, by decide, by decide, by decide, by decide⟩, ⟨by decide, by decide, by decide, by decide, by decide⟩,
    ⟨trivial, by decide, ?_⟩, ?_, ⟨trivial, ?_, rfl, ?_, ?_, ?_⟩, ⟨_, _, h2.2.1, h2.2.2, by decide +kernel⟩, h2.1⟩
  · intro r r' hr
    cases List.mem_singleton.mp hr
    show ∀ c ∈ ["b", "a"], c ∈ ["b", "a"]
    decide
  · intro r r' hr
    simp only [swapped, View.rowsOn, swapFn, List.map_cons, List.map_nil, List.flatMap_cons, List.flatMap_nil,
      List.append_nil, List.mem_singleton] at hr
    subst hr
    exact select_val (cs := ["a", "b"]) (c := "b") (by decide)
  · exact fun r r' hr => by cases List.mem_singleton.mp hr; rfl
  · exact fun f hf => by cases hf
  · exact fun f hf => by cases hf
  · exact fun h => by cases h

/-- `src` joined with itself. -/
def Demo.selfJ : JoinView :=
  { key := "id", left := { view := src, fields := some ["txt", "id"] },
    right := { view := src, fields := some ["img", "id"] }, outs := ["id", "txt", "img"], same := true }

example : View.join schema schema src src ["id"] (some ["txt"]) (some ["img"]) false false true = .ok selfJ := rfl

/-- C43 is false for versions: reading a join of a table with itself at a version is accepted
and reads the current snapshot (`ray/runners.py:76-83`, `transform/join.py:112-128`). -/
theorem C43_violated_version : ∃ σ sl, Reach env schema anyStep σ ∧ sl ∈ σ.slots ∧
    keysRead (rayRead env rayEnv {} sl.h σ.w {} (some (.id 1))) = some ([1, 2, 3, 4, 5].map (fun n => Val.sc (.int n))) ∧
    keysRead (joinRead env rayEnv udfs none {} selfJ none sl.h σ.w sl.h σ.w {} (some (.id 1))) =
      some ([6, 7, 1, 2, 3, 4, 5].map (fun n => Val.sc (.int n))) := by
  obtain ⟨sl, -, h1, h2⟩ := slot_of (σ := after env anyB schema seven) (i := 0)
    (f := fun sl => (keysRead (rayRead env rayEnv {} sl.h (after env anyB schema seven).w {} (some (.id 1))),
      keysRead (joinRead env rayEnv udfs none {} selfJ none sl.h (after env anyB schema seven).w sl.h
        (after env anyB schema seven).w {} (some (.id 1)))))
    (x := (some ([1, 2, 3, 4, 5].map (fun n => Val.sc (.int n))),
      some ([6, 7, 1, 2, 3, 4, 5].map (fun n => Val.sc (.int n))))) (by decide +kernel)
  simp only [Prod.mk.injEq] at h2
  exact ⟨_, sl, after_reach (fun _ _ _ => trivial) _, h1, h2.1, h2.2⟩

/-- C44 is false for joins: the filter is ignored (`transform/join.py:112-128`), rows on which
it is not true are returned. -/
theorem C44_violated_join : ∃ σ sl σ' sl', Reach env schema anyStep σ ∧ sl ∈ σ.slots ∧ Reach env oSchema anyStep σ' ∧
    sl' ∈ σ'.slots ∧
    keysRead (joinRead env rayEnv udfs none {} sold none sl.h σ.w sl'.h σ'.w { filter := some above2 } none) =
      some ([2, 4, 5, 5].map (fun n => Val.sc (.int n))) ∧
    above2.holds env.I [("id", .sc (.int 2))] = false := by
  obtain ⟨sl, h1, sl', h3, h2⟩ := slots_of (σ := after env anyB schema seven) (σ' := after env anyB oSchema ordered)
    (f := fun sl sl' => keysRead (joinRead env rayEnv udfs none {} sold none sl.h (after env anyB schema seven).w
        sl'.h (after env anyB oSchema ordered).w { filter := some above2 } none))
    (x := some ([2, 4, 5, 5].map (fun n => Val.sc (.int n)))) (by decide +kernel)
  exact ⟨_, sl, _, sl', after_reach (fun _ _ _ => trivial) _, h1, after_reach (fun _ _ _ => trivial) _, h3, h2,
    by decide +kernel⟩

end Space
