import Verif.MVLemmas

/-!
# The loop of a refresh
-/

set_option autoImplicit false

namespace Space

open List

/-- What a deletion of a change log says to delete. -/
def goneOf (X : Upstream) (fs : FS) (s : Schema) : Option RayChange → List Row → Prop
  | none, gone => gone = []
  | some d, gone => ∃ at_, readGone X fs s at_ d.data = .ok gone

/-- What an addition of a change log says to write. -/
def addedOf (X : Upstream) (fs : FS) (s : Schema) : Option RayChange → Option (List (List (List Row))) → Prop
  | none, added => added = none
  | some a, added => ∃ at_ src, readAdded X fs s at_ 0 a.data = .ok src ∧ added = some src

/-- The changes of snapshot `n`, whose parent is `p`, lead from the rows `V p` of the view
to the rows `V n`. -/
structure Leads (X : Upstream) (fs : FS) (s sm : Schema) (stream : Nat → List (Except Err RayChange)) (V : Nat → List Row)
    (p n : Nat) : Prop where
  lt : p < n
  set : KeysSet sm (V p)
  shape : ∃ D A : Option RayChange, stream n = D.toList.map .ok ++ A.toList.map .ok ∧
    (∀ d, D = some d → d.id = n ∧ d.type = .delete) ∧ (∀ a, A = some a → a.id = n ∧ a.type = .add) ∧
    ∀ gone added, goneOf X fs s D gone → addedOf X fs s A added → V n ~ Synced sm (V p) gone (syncRows added)

/-- Each snapshot of a chain leads to the next. -/
def LeadsAll (X : Upstream) (fs : FS) (s sm : Schema) (stream : Nat → List (Except Err RayChange)) (V : Nat → List Row) :
    Nat → List Nat → Prop
  | _, [] => True
  | p, n :: ids => Leads X fs s sm stream V p n ∧ LeadsAll X fs s sm stream V n ids

/-- The last snapshot of a chain that begins after `p`. -/
def lastOf (p : Nat) (ids : List Nat) : Nat := ids.foldl (fun _ n => n) p

theorem lastOf_append (p : Nat) (a b : List Nat) : lastOf p (a ++ b) = lastOf (lastOf p a) b := by
  simp [lastOf]

theorem LeadsAll.lt {X : Upstream} {fs : FS} {s sm : Schema} {stream : Nat → List (Except Err RayChange)}
    {V : Nat → List Row} : ∀ {p : Nat} {ids : List Nat}, LeadsAll X fs s sm stream V p ids → ∀ n ∈ ids, p < n
  | _, [], _, _, h => by cases h
  | p, m :: ids, h, n, hn => by
    have h1 := h.1.lt
    rcases List.mem_cons.mp hn with rfl | hn
    · exact h1
    · have := LeadsAll.lt h.2 n hn
      omega

/-- The transaction deleted no file it did not mean to. -/
def SyncDone.Safe (sm : Schema) (t : SyncDone) : Prop :=
  t.job = .succeeded → t.gone ≠ [] →
    DeleteSafe (fun r => some (decide (keyOf sm.pks r ∈ t.gone.map (keyOf sm.pks)))) (headLayout sm t.h t.w)

/-- How many transactions succeeded. -/
def succeeded (d : List SyncDone) : Nat := (d.filter (fun t => decide (t.job = .succeeded))).length

theorem succeeded_cons (t : SyncDone) (d : List SyncDone) :
    succeeded (t :: d) = (if t.job = .succeeded then 1 else 0) + succeeded d := by
  unfold succeeded
  by_cases h : t.job = .succeeded
  · simp [h]
    omega
  · simp [h]

/-- What a refresh along `ids` from snapshot `p` did, with `done` before. -/
structure Ran (sm : Schema) (stream : Nat → List (Except Err RayChange)) (V : Nat → List Row) (done : List SyncDone)
    (k p : Nat) (ids : List Nat) (res : Refreshed × (Handle × World)) (d : List SyncDone) (pre post : List Nat) : Prop where
  done : res.1.1 = done ++ d
  whole : ids = pre ++ post
  holds : Holding sm res.2.1 res.2.2 (k + succeeded d) (V (lastOf p pre))
  all : res.1.2 = none → (∀ t ∈ d, t.job ≠ .failed) → post = []
  count : (∀ n ∈ ids, stream n ≠ []) → (∀ t ∈ d, t.job ≠ .skipped) → succeeded d = pre.length

section
variable {F : Env} {X : Upstream} {fs : FS} {s sm : Schema} {sched : Nat → List Nat} {at_ : List Nat}
  {stream : Nat → List (Except Err RayChange)} {V : Nat → List Row}

theorem readGone_ne {at_ : List Nat} {data : List RayDataset} {gone : List Row} (h : readGone X fs s at_ data = .ok gone) :
    gone ≠ [] := by
  unfold readGone at h
  split at h
  · split at h
    · cases h
    · split at h
      · cases h
      · rename_i bs _ hne
        cases h
        intro h0
        rw [iterBatches_flatten] at h0
        refine hne ?_
        unfold iterBatches
        refine List.filter_eq_nil_iff.mpr fun b hb => ?_
        have := List.flatten_eq_nil_iff.mp h0 b hb
        simp [this]
  · cases h

/-- A transaction has begun and done nothing yet. -/
structure Idle (sm : Schema) (k : Nat) (rows : List Row) (st : RefreshState) (hw : Handle × World) : Prop where
  holds : Holding sm st.start.1 st.start.2 k rows
  enter : Txn.enter st.start = (.ok st.txn, hw)
  patches : st.patches = []
  previous : st.previous = none
  gone : st.gone = []

theorem Idle.now {k : Nat} {rows : List Row} {st : RefreshState} {hw : Handle × World} (h : Idle sm k rows st hw) :
    Holding sm hw.1 hw.2 k rows ∧ hw.2 = st.start.2 := by
  obtain ⟨t, h1, e1, e2, -, -⟩ := h.holds.enter
  have := h.enter
  rw [show st.start = (st.start.1, st.start.2) from rfl, e1] at this
  cases this
  exact ⟨e2, rfl⟩

/-- The changes that lead from snapshot `p` to the last of `pend` are written but not
committed. -/
structure Busy (F : Env) (sm : Schema) (V : Nat → List Row) (k p : Nat) (pend : List Nat) (st : RefreshState)
    (hw : Handle × World) : Prop where
  holds : Holding sm st.start.1 st.start.2 k (V p)
  set : KeysSet sm (V p)
  body : ∃ n sch added, Txn.enter st.start = (.ok st.txn, (hw.1, st.start.2)) ∧
    syncBody F hw.1 n sch st.gone added st.start.2 = (.ok (mergePatches st.patches), hw.2) ∧
    V (lastOf p pend) ~ Synced sm (V p) st.gone (syncRows added)
  patches : st.patches ≠ []
  nonempty : pend ≠ []
  previous : ∃ q, st.previous = some q ∧ q ≤ lastOf p pend

/-- Nothing more happens. -/
theorem Ran.stop {done d : List SyncDone} {k p : Nat} {ids : List Nat} {e : Option Err} {h : Handle} {w : World}
    (hh : Holding sm h w k (V p)) (hd : ∀ t ∈ d, t.job = .failed) (he : e = none → d ≠ []) :
    Ran sm stream V done k p ids ((done ++ d, e), (h, w)) d [] ids := by
  have h0 : succeeded d = 0 := by
    unfold succeeded
    rw [List.length_eq_zero_iff, List.filter_eq_nil_iff]
    intro t ht
    simp [hd t ht]
  refine ⟨rfl, rfl, ?_, fun h1 h2 => ?_, fun _ _ => by rw [h0]; rfl⟩
  · rw [h0]
    exact hh
  · cases d with
    | nil => exact absurd rfl (he h1)
    | cons t d => exact absurd (hd t (by simp)) (h2 t (by simp))

/-- A caught exception or one that escapes. -/
theorem Ran.error {done : List SyncDone} {k p : Nat} {ids : List Nat} {e : Err} {h : Handle} {w : World} {t : SyncDone}
    (hh : Holding sm h w k (V p)) (ht : t.job = .failed) :
    ∃ d pre post, Ran sm stream V done k p ids
      (if e.caught then ((done ++ [t], none), (h, w)) else ((done, some e), (h, w))) d pre post := by
  split
  · exact ⟨[t], [], ids, Ran.stop hh (by simpa using ht) (by simp)⟩
  · refine ⟨[], [], ids, ?_⟩
    have := Ran.stop (sm := sm) (stream := stream) (V := V) (done := done) (d := []) (k := k) (p := p) (ids := ids)
      (e := some e) (h := h) (w := w) hh (by simp) (by simp)
    simpa using this

/-- One more transaction before. -/
theorem Ran.cons {done d : List SyncDone} {k p : Nat} {pend ids pre post : List Nat} {t : SyncDone}
    {res : Refreshed × (Handle × World)}
    (h : Ran sm stream V (done ++ [t]) (if t.job = .succeeded then k + 1 else k) (lastOf p pend) ids res d pre post)
    (ht : t.job ≠ .failed) (hone : (∀ n ∈ pend ++ ids, stream n ≠ []) → pend.length = 1) :
    Ran sm stream V done k p (pend ++ ids) res (t :: d) (pend ++ pre) post := by
  refine ⟨by rw [h.done]; simp, by rw [h.whole]; simp, ?_, fun e hf => ?_, fun hne hsk => ?_⟩
  · have := h.holds
    rw [succeeded_cons, lastOf_append]
    have e : k + ((if t.job = .succeeded then 1 else 0) + succeeded d) =
        (if t.job = .succeeded then k + 1 else k) + succeeded d := by
      split <;> omega
    rw [e]
    exact this
  · exact h.all e (fun t ht => hf t (by simp [ht]))
  · rw [succeeded_cons, List.length_append, hone hne,
      h.count (fun n hn => hne n (by simp [hn])) (fun t ht => hsk t (by simp [ht]))]
    have : t.job = .succeeded := by
      have h5 := hsk t (by simp)
      cases hj : t.job with
      | succeeded => rfl
      | failed => exact absurd hj ht
      | skipped => exact absurd hj h5
    rw [if_pos this]

/-- The transactions finished so far. -/
def doneOf : Except Refreshed RefreshState → List SyncDone
  | .error r => r.1
  | .ok st => st.done

theorem refreshBoundary_done (id : Nat) (st : RefreshState) (hw : Handle × World) :
    ∃ d, doneOf (refreshBoundary id st hw).1 = st.done ++ d := by
  unfold refreshBoundary
  split
  · exact ⟨[], by simp [doneOf]⟩
  · split
    · exact ⟨[], by simp [doneOf]⟩
    · exact ⟨_, rfl⟩
    · split
      · exact ⟨_, rfl⟩
      · exact ⟨_, rfl⟩

/-- Finished transactions stay in the list. -/
theorem refreshLoop_done : ∀ (cs : List (Except Err RayChange)) (st : RefreshState) (hw : Handle × World),
    ∃ d, (refreshLoop F X fs s sched at_ cs st hw).1.1 = st.done ++ d
  | [], st, hw => by
    rw [refreshLoop]
    split
    · exact ⟨[], by simp⟩
    · split
      · exact ⟨[], by simp⟩
      · exact ⟨_, rfl⟩
  | .error e :: cs, st, hw => by
    rw [refreshLoop]
    exact ⟨[], by simp⟩
  | .ok c :: cs, st, hw => by
    rw [refreshLoop]
    split
    · rename_i r hw' h
      have := refreshBoundary_done c.id st hw
      rw [h] at this
      exact this
    · rename_i st' hw' h
      have := refreshBoundary_done c.id st hw
      rw [h] at this
      obtain ⟨d, hd⟩ := this
      simp only [doneOf] at hd
      split
      · split
        · exact ⟨d ++ [st'.finish .failed], by simp [hd]⟩
        · exact ⟨d, hd⟩
      · rename_i p gone w _
        obtain ⟨d', hd'⟩ := refreshLoop_done cs
          { st' with patches := st'.patches ++ [p], previous := some c.id, gone := st'.gone ++ gone } (hw'.1, w)
        exact ⟨d ++ d', by rw [hd']; simp [hd]⟩

/-- The end of a transaction with changes. -/
theorem Busy.commit (hk : KeySchema sm) {k p : Nat} {pend : List Nat} {st : RefreshState} {hw : Handle × World}
    (h : Busy F sm V k p pend st hw) : ∃ j h' w', st.txn.commit (mergePatches st.patches) hw = (.ok j, (h', w')) ∧
      j ≠ .failed ∧ ((st.finish j).Safe sm →
        Holding sm h' w' (if j = .succeeded then k + 1 else k) (V (lastOf p pend))) := by
  obtain ⟨n, sch, added, h1, h2, h3⟩ := h.body
  obtain ⟨j, h', w', c1, c2, c3⟩ := h.holds.sync hk h.set h1 h2
  exact ⟨j, h', w', c1, c2, fun hs => (c3 hs).perm h3.symm⟩

/-- Changes of another snapshot begin: it is as if a new loop began. -/
theorem loop_next {st : RefreshState} {hw : Handle × World} {c : RayChange} {cs : List (Except Err RayChange)} {q : Nat}
    (hp : st.previous = some q) (hq : q ≠ c.id) {j : Job} {hw1 hw2 : Handle × World} {t : Txn}
    (hc : st.txn.commit (mergePatches st.patches) hw = (.ok j, hw1)) (hj : j ≠ .failed)
    (he : Txn.enter hw1 = (.ok t, hw2)) :
    refreshLoop F X fs s sched at_ (.ok c :: cs) st hw =
      refreshLoop F X fs s sched at_ (.ok c :: cs)
        { done := st.done ++ [st.finish j], patches := [], previous := none, txn := t, start := hw1, gone := [] } hw2 := by
  have hb : refreshBoundary c.id st hw = (.ok ⟨st.done ++ [st.finish j], [], st.previous, t, hw1, []⟩, hw2) := by
    unfold refreshBoundary
    rw [if_neg (by simp [hp, hq]), hc]
    cases j with
    | failed => exact absurd rfl hj
    | succeeded => simp only [he]
    | skipped => simp only [he]
  rw [refreshLoop.eq_3, refreshLoop.eq_3, hb]
  simp only [refreshBoundary, true_or, if_true]
  rfl

theorem apply_delete {sch at' : List Nat} {h : Handle} {c : RayChange} {w : World} (hc : c.type = .delete) :
    applyChange F X fs s sch at' h c w =
      match readGone X fs s (0 :: at') c.data with
      | .error e => (.error e, w)
      | .ok keys =>
        match syncDelete F h keys w with
        | (.error e, w1) => (.error e, w1)
        | (.ok p, w1) => (.ok (p, keys), w1) := by
  unfold applyChange
  rw [hc]
  simp only [bind, M.andThen, M.lift]
  cases readGone X fs s (0 :: at') c.data with
  | error e => rfl
  | ok keys =>
    simp only
    cases hx : syncDelete F h keys w with
    | mk r w1 => cases r <;> rfl

theorem apply_add {sch at' : List Nat} {h : Handle} {c : RayChange} {w : World} (hc : c.type = .add) :
    applyChange F X fs s sch at' h c w =
      match readAdded X fs s (1 :: at') 0 c.data with
      | .error e => (.error e, w)
      | .ok src =>
        match rayAppendFromAll F h.md.schema X.ray.parallelism sch src w with
        | (.error e, w1) => (.error e, w1)
        | (.ok p, w1) => (.ok (p, []), w1) := by
  unfold applyChange
  rw [hc]
  simp only [bind, M.andThen, M.lift]
  cases readAdded X fs s (1 :: at') 0 c.data with
  | error e => rfl
  | ok keys =>
    simp only
    cases hx : rayAppendFromAll F h.md.schema X.ray.parallelism sch keys w with
    | mk r w1 => cases r <;> rfl

theorem merge_left (a : Option Patch) : mergePatches [a, none] = mergePatches [a] := by
  cases a <;> rfl

theorem merge_right (a : Option Patch) : mergePatches [none, a] = mergePatches [a] := by
  cases a <;> rfl

/-- The bodies of transactions, step by step. -/
theorem sync_del {h : Handle} {n : Nat} {sch : List Nat} {gone : List Row} {w w1 : World} {dp : Option Patch}
    (hg : gone ≠ []) (hd : syncDelete F h gone w = (.ok dp, w1)) :
    syncBody F h n sch gone none w = (.ok (mergePatches [dp]), w1) := by
  unfold syncBody
  simp [bind, M.andThen, hg, hd, pure, M.ret, merge_left]

theorem sync_add {h : Handle} {n : Nat} {sch : List Nat} {src : List (List (List Row))} {w w1 : World} {ap : Option Patch}
    (ha : rayAppendFromAll F h.md.schema n sch src w = (.ok ap, w1)) :
    syncBody F h n sch [] (some src) w = (.ok (mergePatches [ap]), w1) := by
  unfold syncBody
  simp [bind, M.andThen, ha, pure, M.ret, merge_right]

theorem sync_both {h : Handle} {n : Nat} {sch : List Nat} {gone : List Row} {src : List (List (List Row))}
    {w w1 w2 : World} {dp ap : Option Patch} (hg : gone ≠ []) (hd : syncDelete F h gone w = (.ok dp, w1))
    (ha : rayAppendFromAll F h.md.schema n sch src w1 = (.ok ap, w2)) :
    syncBody F h n sch gone (some src) w = (.ok (mergePatches [dp, ap]), w2) := by
  unfold syncBody
  simp [bind, M.andThen, hg, hd, ha, pure, M.ret]

theorem append_grows {h : Handle} {n k : Nat} {sch : List Nat} {src : List (List (List Row))} {w w1 : World}
    {r : Except Err (Option Patch)} {rows : List Row} (hh : Holding sm h w k rows)
    (ha : rayAppendFromAll F h.md.schema n sch src w = (r, w1)) : Grows w w1 := by
  have := syncAppend_post (E := F) (s := h.md.schema) hh.wok.fresh n sch (some src)
  simp only [syncAppend, ha] at this
  cases r with
  | ok p => exact this.1
  | error e => exact this

theorem delete_grows {h : Handle} {k : Nat} {gone : List Row} {w w1 : World} (hg : gone ≠ [])
    {r : Except Err (Option Patch)} {rows : List Row} (hh : Holding sm h w k rows)
    (hd : syncDelete F h gone w = (r, w1)) : Grows w w1 := by
  have := syncDelete_post (E := F) hh.wok.fresh hh.handle hg
  rw [hd] at this
  cases r with
  | ok p => exact this.1
  | error e => exact this

theorem synced_nil (rows : List Row) : Synced sm rows [] (syncRows none) = rows := by
  unfold Synced
  rw [List.filter_eq_self.mpr (by simp)]
  simp [syncRows]

/-- The loop, from a transaction that has begun, and from one with changes. -/
theorem loop_ran (hk : KeySchema sm) : ∀ ids : List Nat,
    (∀ p k st hw, LeadsAll X fs s sm stream V p ids → Idle sm k (V p) st hw →
      (∀ t ∈ (refreshLoop F X fs s sched at_ (ids.flatMap stream) st hw).1.1, t.Safe sm) →
      ∃ d pre post, Ran sm stream V st.done k p ids (refreshLoop F X fs s sched at_ (ids.flatMap stream) st hw) d pre post) ∧
    (∀ p k pend st hw, LeadsAll X fs s sm stream V (lastOf p pend) ids → Busy F sm V k p pend st hw →
      ((∀ n ∈ pend ++ ids, stream n ≠ []) → pend.length = 1) →
      (∀ t ∈ (refreshLoop F X fs s sched at_ (ids.flatMap stream) st hw).1.1, t.Safe sm) →
      ∃ d pre post, Ran sm stream V st.done k p (pend ++ ids)
        (refreshLoop F X fs s sched at_ (ids.flatMap stream) st hw) d pre post)
  | [] => by
    constructor
    · intro p k st hw _ hi _
      simp only [List.flatMap_nil]
      rw [refreshLoop, if_pos hi.patches]
      exact ⟨[], [], [], by simp, rfl, hi.now.1, fun _ _ => rfl, fun _ _ => rfl⟩
    · intro p k pend st hw _ hb hone hs
      simp only [List.flatMap_nil] at hs ⊢
      obtain ⟨j, h', w', c1, c2, c3⟩ := hb.commit hk
      rw [refreshLoop, if_neg hb.patches, c1] at hs ⊢
      simp only at hs ⊢
      refine ⟨[st.finish j], pend, [], ?_⟩
      have := Ran.cons (sm := sm) (stream := stream) (V := V) (done := st.done) (k := k) (p := p) (pend := pend) (ids := [])
        (t := st.finish j) (d := []) (pre := []) (post := []) (res := ((st.done ++ [st.finish j], none), (h', w')))
        ⟨by simp, rfl, c3 (hs _ (by simp)), fun _ _ => rfl, fun _ _ => rfl⟩ c2 hone
      simpa using this
  | n :: ids => by
    obtain ⟨ihI, ihB⟩ := loop_ran hk ids
    have hidle : ∀ p k st hw, LeadsAll X fs s sm stream V p (n :: ids) → Idle sm k (V p) st hw →
        (∀ t ∈ (refreshLoop F X fs s sched at_ ((n :: ids).flatMap stream) st hw).1.1, t.Safe sm) →
        ∃ d pre post, Ran sm stream V st.done k p (n :: ids)
          (refreshLoop F X fs s sched at_ ((n :: ids).flatMap stream) st hw) d pre post := by
      intro p k st hw hl hi hs
      obtain ⟨hl1, hl2⟩ := hl
      obtain ⟨D, A, e1, hD, hA, hstep⟩ := hl1.shape
      obtain ⟨hnow, hws⟩ := hi.now
      have hent : Txn.enter st.start = (.ok st.txn, (hw.1, st.start.2)) := by
        rw [hi.enter, ← hws]
      have hb0 : ∀ id, refreshBoundary id st hw = (.ok st, hw) := fun id => by
        simp [refreshBoundary, hi.previous]
      rw [List.flatMap_cons, e1] at hs ⊢
      have hgo : ∀ {dp : List (Option Patch)} {gone : List Row} {added : Option (List (List (List Row)))} {w2 : World}
          {m : Nat} {sch : List Nat}, goneOf X fs s D gone → addedOf X fs s A added → dp ≠ [] →
          syncBody F hw.1 m sch gone added st.start.2 = (.ok (mergePatches dp), w2) →
          (∀ t ∈ (refreshLoop F X fs s sched at_ (ids.flatMap stream)
            { st with patches := dp, previous := some n, gone := gone } (hw.1, w2)).1.1, t.Safe sm) →
          ∃ d pre post, Ran sm stream V st.done k p (n :: ids) (refreshLoop F X fs s sched at_ (ids.flatMap stream)
            { st with patches := dp, previous := some n, gone := gone } (hw.1, w2)) d pre post := by
        intro dp gone added w2 m sch hg ha hne hbody hs
        exact ihB p k [n] { st with patches := dp, previous := some n, gone := gone } (hw.1, w2) hl2
          ⟨hi.holds, hl1.set, ⟨m, sch, added, hent, hbody, hstep gone added hg ha⟩, hne, by simp,
            ⟨n, rfl, Nat.le_refl _⟩⟩ (fun _ => rfl) hs
      cases D with
      | none =>
        cases A with
        | none =>
          simp only [Option.toList_none, List.map_nil, List.append_nil, List.nil_append] at hs ⊢
          have hv : V p ~ V n := by
            have := (hstep [] none rfl rfl).symm
            rwa [synced_nil] at this
          obtain ⟨d, pre, post, hr⟩ := ihI n k st hw hl2 { hi with holds := hi.holds.perm hv } hs
          refine ⟨d, n :: pre, post, hr.done, by rw [hr.whole]; rfl, hr.holds, hr.all, fun h0 => ?_⟩
          exact absurd (by rw [e1]; rfl) (h0 n (by simp))
        | some a =>
          obtain ⟨ai, at1⟩ := hA a rfl
          simp only [Option.toList_none, Option.toList_some, List.map_nil, List.map_cons, List.nil_append,
            List.cons_append] at hs ⊢
          rw [refreshLoop, hb0] at hs ⊢
          simp only [apply_add at1] at hs ⊢
          cases hra : readAdded X fs s (1 :: a.id :: at_) 0 a.data with
          | error e =>
            simp only
            exact Ran.error hnow rfl
          | ok src =>
            simp only [hra] at hs ⊢
            cases hap : rayAppendFromAll F hw.1.md.schema X.ray.parallelism (sched a.id) src hw.2 with
            | mk r w1 =>
              have hg := append_grows hnow hap
              cases r with
              | error e =>
                simp only
                exact Ran.error (hnow.grows hg) rfl
              | ok ap =>
                rw [ai] at hap
                simp only [hap, hi.patches, hi.gone, List.nil_append, ai] at hs ⊢
                rw [hws] at hap
                exact hgo rfl ⟨_, src, hra, rfl⟩ (by simp) (sync_add hap) hs
      | some dl =>
        obtain ⟨di, dt⟩ := hD dl rfl
        simp only [Option.toList_some, List.map_nil, List.map_cons, List.nil_append, List.cons_append] at hs ⊢
        rw [refreshLoop, hb0] at hs ⊢
        simp only [apply_delete dt] at hs ⊢
        cases hrg : readGone X fs s (0 :: dl.id :: at_) dl.data with
        | error e =>
          simp only
          exact Ran.error hnow rfl
        | ok gone =>
          have hne := readGone_ne hrg
          simp only [hrg] at hs ⊢
          cases hde : syncDelete F hw.1 gone hw.2 with
          | mk r w1 =>
            have hg := delete_grows hne hnow hde
            cases r with
            | error e =>
              simp only
              exact Ran.error (hnow.grows hg) rfl
            | ok dp =>
              simp only [hde, hi.patches, hi.gone, List.nil_append, di] at hs ⊢
              cases A with
              | none =>
                simp only [Option.toList_none, List.map_nil, List.nil_append] at hs ⊢
                rw [hws] at hde
                exact hgo ⟨_, hrg⟩ rfl (by simp) (sync_del (n := 0) (sch := []) hne hde) hs
              | some a =>
                obtain ⟨ai, at1⟩ := hA a rfl
                simp only [Option.toList_some, List.map_nil, List.map_cons, List.cons_append, List.nil_append] at hs ⊢
                have hb1 : refreshBoundary a.id { st with patches := [dp], previous := some n, gone := gone } (hw.1, w1) =
                    (.ok { st with patches := [dp], previous := some n, gone := gone }, (hw.1, w1)) := by
                  simp [refreshBoundary, ai]
                rw [refreshLoop, hb1] at hs ⊢
                simp only [apply_add at1] at hs ⊢
                cases hra : readAdded X fs s (1 :: a.id :: at_) 0 a.data with
                | error e =>
                  simp only
                  exact Ran.error (hnow.grows hg) rfl
                | ok src =>
                  simp only [hra] at hs ⊢
                  cases hap : rayAppendFromAll F hw.1.md.schema X.ray.parallelism (sched a.id) src w1 with
                  | mk r w2 =>
                    have hg2 := append_grows (hnow.grows hg) hap
                    cases r with
                    | error e =>
                      simp only
                      exact Ran.error (hnow.grows (hg.trans hg2)) rfl
                    | ok ap =>
                      rw [ai] at hap
                      simp only [hap, List.append_nil, List.cons_append, List.nil_append, ai] at hs ⊢
                      rw [hws] at hde
                      exact hgo ⟨_, hrg⟩ ⟨_, src, hra, rfl⟩ (by simp) (sync_both hne hde hap) hs
    refine ⟨hidle, ?_⟩
    intro p k pend st hw hl hb hone hs
    by_cases h0 : stream n = []
    · have hl1 := hl.1
      obtain ⟨D, A, e1, hD, hA, hstep⟩ := hl1.shape
      obtain ⟨rfl, rfl⟩ : D = none ∧ A = none := by
        rw [h0] at e1
        cases D with
        | some d => cases e1
        | none =>
          cases A with
          | some a => cases e1
          | none => exact ⟨rfl, rfl⟩
      have hv : V n ~ V (lastOf p pend) := by
        have := hstep [] none rfl rfl
        rwa [synced_nil] at this
      have hlast : lastOf p (pend ++ [n]) = n := by rw [lastOf_append]; rfl
      rw [List.flatMap_cons, h0, List.nil_append] at hs ⊢
      obtain ⟨m, sch, added, b1, b2, b3⟩ := hb.body
      obtain ⟨q, q1, q2⟩ := hb.previous
      have := ihB p k (pend ++ [n]) st hw (by rw [hlast]; exact hl.2)
        ⟨hb.holds, hb.set, ⟨m, sch, added, b1, b2, by rw [hlast]; exact hv.trans b3⟩, hb.patches, by simp,
          ⟨q, q1, by rw [hlast]; have := hl1.lt; omega⟩⟩
        (fun h => absurd h0 (h n (by simp))) hs
      simpa using this
    · obtain ⟨D, A, e1, hD, hA, -⟩ := hl.1.shape
      obtain ⟨c, cs, hc, hid⟩ : ∃ c cs, stream n = .ok c :: cs ∧ c.id = n := by
        rw [e1] at h0 ⊢
        cases D with
        | some d => exact ⟨d, _, rfl, (hD d rfl).1⟩
        | none =>
          cases A with
          | some a => exact ⟨a, _, rfl, (hA a rfl).1⟩
          | none => exact absurd rfl h0
      obtain ⟨j, h', w', c1, c2, c3⟩ := hb.commit hk
      obtain ⟨q, q1, q2⟩ := hb.previous
      have hlt := hl.1.lt
      have hall : ∀ t h1, Txn.enter (h', w') = (.ok t, h1) →
          refreshLoop F X fs s sched at_ ((n :: ids).flatMap stream) st hw =
            refreshLoop F X fs s sched at_ ((n :: ids).flatMap stream)
              ⟨st.done ++ [st.finish j], [], none, t, (h', w'), []⟩ h1 := by
        intro t h1 he
        rw [List.flatMap_cons, hc, List.cons_append]
        exact loop_next q1 (by rw [hid]; omega) c1 c2 he
      -- the transaction is in the list
      have hsafe : (st.finish j).Safe sm := by
        cases he : Txn.enter (h', w') with
        | mk r h1 =>
          cases r with
          | ok t =>
            rw [hall t h1 he] at hs
            obtain ⟨d, hd⟩ := refreshLoop_done (F := F) (X := X) (fs := fs) (s := s) (sched := sched) (at_ := at_)
              ((n :: ids).flatMap stream) ⟨st.done ++ [st.finish j], [], none, t, (h', w'), []⟩ h1
            exact hs _ (by rw [hd]; simp)
          | error e =>
            have hbd : refreshBoundary c.id st hw = (.error (st.done ++ [st.finish j], some e), h1) := by
              unfold refreshBoundary
              rw [if_neg (by simp only [q1, hid, reduceCtorEq, Option.some.injEq, false_or]; omega), c1]
              cases j with
              | failed => exact absurd rfl c2
              | succeeded => simp only [he]
              | skipped => simp only [he]
            rw [List.flatMap_cons, hc, List.cons_append, refreshLoop, hbd] at hs
            exact hs _ (by simp)
      have hh := c3 hsafe
      obtain ⟨t, h1, t1, t2, -, -⟩ := hh.enter
      rw [hall t _ t1] at hs ⊢
      obtain ⟨d, pre, post, hr⟩ := hidle (lastOf p pend) _ _ _ hl
        ⟨hh, t1, rfl, rfl, rfl⟩ hs
      exact ⟨_, _, _, Ran.cons (t := st.finish j) hr c2 hone⟩

end

end Space
