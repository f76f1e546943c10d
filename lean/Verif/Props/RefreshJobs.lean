import Verif.RefreshJobs
import Verif.Props.Jobs
import Verif.Props.MV

/-!
# C77: what a refresh reports
-/

set_option autoImplicit false

namespace Space

open Demo

/-- What the result `r` says is what happened to branch `b` of a storage between `w` and `w'`: either it
reports nothing and nothing happened, or there is one more snapshot on the branch, and the four
statistics changed as reported. -/
def Says (b : String) (w w' : World) (r : JobResult) : Prop :=
  (r.state ≠ .succeeded → r.update = none ∧ w'.stored = w.stored) ∧
  (r.state = .succeeded → ∃ u md md' cur snap, r.update = some u ∧
    w.stored = some md ∧ md.target b none = .ok cur ∧ w'.stored = some md' ∧ md'.target b none = .ok snap ∧
    snap.parent = some cur.id ∧
    snap.stats.rows - cur.stats.rows = u.rows ∧ snap.stats.icb - cur.stats.icb = u.icb ∧
    snap.stats.iub - cur.stats.iub = u.iub ∧ snap.stats.rub - cur.stats.rub = u.rub)

/-- The results `rs` say, one after the other, all that happened between `w` and `w'`. -/
def SaysAll (b : String) : World → List JobResult → World → Prop
  | w, [], w' => w'.stored = w.stored
  | w, r :: rs, w' => ∃ w1, Says b w w1 r ∧ SaysAll b w1 rs w'

theorem SaysAll.quiet {b : String} : ∀ {rs : List JobResult} {w w1 w2 : World}, SaysAll b w rs w1 → w2.stored = w1.stored →
    SaysAll b w rs w2
  | [], _, _, _, h, e => e.trans h
  | _ :: _, _, _, _, ⟨w1, h1, h2⟩, e => ⟨w1, h1, h2.quiet e⟩

theorem SaysAll.snoc {b : String} {r : JobResult} : ∀ {rs : List JobResult} {w w1 w2 : World}, SaysAll b w rs w1 →
    Says b w1 w2 r → SaysAll b w (rs ++ [r]) w2
  | [], w, w1, w2, h, hr => by
    refine ⟨w2, ?_, rfl⟩
    have e : w1.stored = w.stored := h
    unfold Says at hr ⊢
    rwa [e] at hr
  | _ :: _, _, _, _, ⟨w1, h1, h2⟩, hr => ⟨w1, h1, h2.snoc hr⟩

section
variable {F : Env} {X : Upstream} {fs : FS} {s sm : Schema} {sched : Nat → List Nat} {at_ : List Nat}

/-- A storage and an object of it on branch `b`. -/
structure HeldOn (sm : Schema) (b : String) (hw : Handle × World) : Prop where
  wok : ∃ md, WOK sm hw.2 md
  handle : HandleOK sm hw.2 hw.1
  branch : hw.1.branch = b

theorem HeldOn.grows {b : String} {h : Handle} {w w' : World} (ho : HeldOn sm b (h, w)) (hg : Grows w w') :
    HeldOn sm b (h, w') ∧ w'.stored = w.stored := by
  obtain ⟨md, hm⟩ := ho.wok
  exact ⟨⟨⟨md, hm.grows hg⟩, ho.handle.mono hg.le, ho.branch⟩, by rw [(hm.grows hg).storedEq, hm.storedEq]⟩

theorem commitResult_says {b : String} {t : Txn} {p : Option Patch} {hw hw' : Handle × World} {x : Except Err JobResult}
    (ho : HeldOn sm b hw) (ht : t.branch = b) (hp : ∀ q, p = some q → PatchOK hw.2.fs sm q)
    (hc : t.commitResult p hw = (x, hw')) :
    HeldOn sm b hw' ∧ FSLe hw.2.fs hw'.2.fs ∧ match x with
      | .error _ => hw'.2.stored = hw.2.stored
      | .ok r => Says b hw.2 hw'.2 r := by
  obtain ⟨h, w⟩ := hw
  obtain ⟨h', w'⟩ := hw'
  obtain ⟨⟨md, hm⟩, hh, hb⟩ := ho
  have hpost := txnCommit_post (t := t) (p := p) hm hh hp
  have e := Txn.commitResult_state t p (h, w)
  rw [hc] at e
  cases x with
  | error x =>
    rw [← e] at hpost
    obtain ⟨h1, h2, h3, -⟩ := (hpost : Grows w w' ∧ HandleOK sm w' h' ∧ h'.branch = h.branch ∧ h'.md = md)
    exact ⟨⟨⟨md, hm.grows h1⟩, h2, h3.trans hb⟩, h1.le, by rw [(hm.grows h1).storedEq, hm.storedEq]⟩
  | ok r =>
    obtain ⟨h1, h2⟩ := Post.elim hpost e.symm
    have hu := Txn.commitResult_update hc
    rcases h2 with ⟨h2, h3, h4, h5, -⟩ | ⟨h2, -, q, g, cur, snap, rfl, -, -, hcs⟩
    · cases h3
      rcases hu with ⟨h6, -⟩ | ⟨-, h6⟩
      · exact absurd h6 h2
      · exact ⟨⟨⟨md, hm⟩, h4, h1.trans hb⟩, .refl _, fun _ => ⟨h6, rfl⟩, fun h => absurd h h2⟩
    · rcases hu with ⟨-, q', e', h6⟩ | ⟨h6, -⟩
      · cases e'
        rw [ht] at hcs
        refine ⟨⟨⟨_, hcs.wok⟩, hcs.handle, h1.trans hb⟩, hcs.le, fun h => absurd h2 h, fun _ => ⟨q.stats, md, h'.md, cur, snap,
          h6, hm.storedEq, target_head hcs.com.head hcs.com.curGet, hcs.wok.storedEq,
          target_head hcs.com.newHead hcs.com.newSnap, hcs.com.parent, ?_⟩⟩
        rw [hcs.com.stats]
        simp only [SStats.addIndex, SStats.addRecord]
        omega
      · exact absurd h2 h6

theorem enter_on {b : String} {hw hw' : Handle × World} {x : Except Err Txn} (ho : HeldOn sm b hw)
    (he : Txn.enter hw = (x, hw')) : HeldOn sm b hw' ∧ hw'.2 = hw.2 ∧ ∀ t, x = .ok t → t.branch = b := by
  obtain ⟨h, w⟩ := hw
  obtain ⟨h', w'⟩ := hw'
  obtain ⟨⟨md, hm⟩, hh, hb⟩ := ho
  have hpost := enter_post hm hh
  rw [he] at hpost
  cases x with
  | error x =>
    obtain ⟨rfl, h2, h3, h4⟩ := (hpost : w' = w ∧ h'.md = md ∧ h'.branch = h.branch ∧ HandleOK sm w h')
    exact ⟨⟨⟨md, hm⟩, h4, h3.trans hb⟩, rfl, fun _ h => by cases h⟩
  | ok t =>
    obtain ⟨h1, -, h3, h4, -, h5, -⟩ := Post.elim hpost rfl
    cases h1
    exact ⟨⟨⟨md, hm⟩, h4, h3.trans hb⟩, rfl, fun t' h => by cases h; exact h5.trans hb⟩

theorem joinOpt_ok {fs : FS} : ∀ {p q : Option Patch}, (∀ x, p = some x → PatchOK fs sm x) →
    (∀ x, q = some x → PatchOK fs sm x) → ∀ x, joinOpt p q = some x → PatchOK fs sm x
  | none, _, _, hq, x, h => hq x h
  | some _, none, hp, _, x, h => hp x h
  | some a, some b, hp, hq, x, h => by
    cases h
    obtain ⟨a1, a2, a3⟩ := hp a rfl
    obtain ⟨b1, b2, b3⟩ := hq b rfl
    refine ⟨fun q hq => ?_, fun q hq => ?_, fun cl hc => ?_⟩
    · rcases List.mem_append.mp hq with h | h
      · exact a1 q h
      · exact b1 q h
    · rcases List.mem_append.mp hq with h | h
      · exact a2 q h
      · exact b2 q h
    · exact mergeLogs_ok a3 b3 cl hc

theorem merge_ok {fs : FS} : ∀ {ps : List (Option Patch)}, (∀ p ∈ ps, ∀ x, p = some x → PatchOK fs sm x) →
    ∀ x, mergePatches ps = some x → PatchOK fs sm x
  | [], _, x, h => by cases h
  | p :: ps, hp, x, h => by
    rw [mergePatches_cons] at h
    exact joinOpt_ok (hp p List.mem_cons_self) (merge_ok fun q hq => hp q (List.mem_cons_of_mem _ hq)) x h

theorem applyChange_ok {h : Handle} {w : World} {c : RayChange} {sc : List Nat} (hn : sm.names.Nodup) (hf : w.Fresh)
    (hh : HandleOK sm w h) :
    Post (applyChange F X fs s sc at_ h c w)
      (fun r w' => Grows w w' ∧ ∀ q, r.1 = some q → PatchOK w'.fs sm q) (fun w' => Grows w w') := by
  unfold applyChange
  cases hc : c.type with
  | delete =>
    refine Post.bind (Q := fun gone w' => gone ≠ [] ∧ w = w')
      (Post.lift (fun a ha => ⟨readGone_ne ha, rfl⟩) (Grows.refl w)) ?_
    rintro gone w' ⟨hg, rfl⟩
    have := syncBody_ok (E := F) hf hh hn 0 [] gone none
    rw [syncBody_eq hh.schema, if_neg hg] at this
    simp only [Bind.bind, M.andThen, syncAppend, Pure.pure, M.ret] at this ⊢
    rcases hx : syncDelete F h gone w with ⟨x, w1⟩
    rw [hx] at this
    cases x with
    | error e => exact this
    | ok p =>
      obtain ⟨h1, -, h3⟩ := Post.elim this rfl
      refine ⟨h1, fun q hq => (h3 q ?_).1⟩
      rw [mergePatches_pair]
      cases p with
      | none => cases hq
      | some p => exact hq
  | add =>
    refine Post.bind (Q := fun _ w' => w = w') (Post.lift (fun a ha => rfl) (Grows.refl w)) ?_
    rintro src w' rfl
    have := syncBody_ok (E := F) hf hh hn X.ray.parallelism sc [] (some src)
    rw [syncBody_eq hh.schema, if_pos rfl] at this
    simp only [Bind.bind, M.andThen, syncAppend, Pure.pure, M.ret] at this ⊢
    rw [hh.schema]
    rcases hx : rayAppendFromAll F sm X.ray.parallelism sc src w with ⟨x, w1⟩
    rw [hx] at this
    cases x with
    | error e => exact this
    | ok p =>
      obtain ⟨h1, -, h3⟩ := Post.elim this rfl
      exact ⟨h1, fun q hq => (h3 q (by rw [mergePatches_pair]; exact hq)).1⟩

/-- What holds while a refresh goes on, `w0` being the storage of the view at its start. -/
structure Telling (sm : Schema) (b : String) (w0 : World) (v : RefreshVars) (hw : Handle × World) : Prop where
  held : HeldOn sm b hw
  says : SaysAll b w0 v.results hw.2
  branch : v.txn.branch = b
  patches : ∀ p ∈ v.patches, ∀ x, p = some x → PatchOK hw.2.fs sm x
  fine : ∀ r ∈ v.results, r.state ≠ .failed

/-- What holds at its end. -/
structure ToldAll (sm : Schema) (b : String) (w0 : World) (res : Returned × (Handle × World)) : Prop where
  held : HeldOn sm b res.2
  says : SaysAll b w0 res.1.1 res.2.2
  fine : ∀ r ∈ res.1.1.dropLast, r.state ≠ .failed
  raised : ∀ e, res.1.2 = some e → ∀ r ∈ res.1.1, r.state ≠ .failed

theorem boundary_telling {b : String} {w0 : World} {id : Nat} {v : RefreshVars} {hw hw' : Handle × World}
    {x : Except Returned RefreshVars} (ht : Telling sm b w0 v hw) (hb : boundaryResult id v hw = (x, hw')) :
    match x with
    | .error r => ToldAll sm b w0 (r, hw')
    | .ok v => Telling sm b w0 v hw' := by
  unfold boundaryResult at hb
  split at hb
  · cases hb; exact ht
  · rcases hc : v.txn.commitResult (mergePatches v.patches) hw with ⟨y, hw1⟩
    rw [hc] at hb
    obtain ⟨h1, h2, h3⟩ := commitResult_says ht.held ht.branch (merge_ok ht.patches) hc
    cases y with
    | error e =>
      cases hb
      exact ⟨h1, ht.says.quiet h3, fun r hr => ht.fine r (List.dropLast_subset _ hr), fun _ _ => ht.fine⟩
    | ok r =>
      dsimp only at hb h3
      have hs := ht.says.snoc h3
      split at hb
      · cases hb
        exact ⟨h1, hs, fun r hr => ht.fine r (by simpa using hr), fun _ h => by cases h⟩
      · rename_i hf
        have hfine : ∀ r' ∈ v.results ++ [r], r'.state ≠ .failed := by
          intro r' hr
          rcases List.mem_append.mp hr with hr | hr
          · exact ht.fine r' hr
          · cases List.mem_singleton.mp hr; exact hf
        rcases he : Txn.enter hw1 with ⟨z, hw2⟩
        rw [he] at hb
        obtain ⟨g1, g2, g3⟩ := enter_on h1 he
        cases z with
        | error e =>
          cases hb
          exact ⟨g1, by rw [g2]; exact hs, fun r hr => hfine r (List.dropLast_subset _ hr), fun _ _ => hfine⟩
        | ok t =>
          cases hb
          exact ⟨g1, by rw [g2]; exact hs, g3 t rfl, by simp, hfine⟩

theorem loop_told (hn : sm.names.Nodup) {b : String} {w0 : World} : ∀ (cs : List (Except Err RayChange)) {v : RefreshVars}
    {hw : Handle × World}, Telling sm b w0 v hw → ToldAll sm b w0 (resultLoop F X fs s sched at_ cs v hw)
  | [], v, hw, ht => by
    rw [resultLoop]
    split
    · exact ⟨ht.held, ht.says, fun r hr => ht.fine r (List.dropLast_subset _ hr), fun _ h => by cases h⟩
    · rcases hc : v.txn.commitResult (mergePatches v.patches) hw with ⟨y, hw1⟩
      obtain ⟨h1, h2, h3⟩ := commitResult_says ht.held ht.branch (merge_ok ht.patches) hc
      cases y with
      | error e => exact ⟨h1, ht.says.quiet h3, fun r hr => ht.fine r (List.dropLast_subset _ hr), fun _ _ => ht.fine⟩
      | ok r => exact ⟨h1, ht.says.snoc h3, fun r hr => ht.fine r (by simpa using hr), fun _ h => by cases h⟩
  | .error e :: cs, v, hw, ht => by
    rw [resultLoop]
    exact ⟨ht.held, ht.says, fun r hr => ht.fine r (List.dropLast_subset _ hr), fun _ _ => ht.fine⟩
  | .ok c :: cs, v, hw, ht => by
    rw [resultLoop]
    rcases hb : boundaryResult c.id v hw with ⟨x, hw1⟩
    have h1 := boundary_telling ht hb
    cases x with
    | error r => exact h1
    | ok v1 =>
      obtain ⟨h, w⟩ := hw1
      dsimp only at h1 ⊢
      obtain ⟨md, hm⟩ := h1.held.wok
      have hp := applyChange_ok (F := F) (X := X) (fs := fs) (s := s) (at_ := c.id :: at_) (c := c) (sc := sched c.id)
        hn hm.fresh h1.held.handle
      rcases ha : applyChange F X fs s (sched c.id) (c.id :: at_) h c w with ⟨y, w1⟩
      rw [ha] at hp
      cases y with
      | error e =>
        obtain ⟨g1, g2⟩ := h1.held.grows hp
        dsimp only
        split
        · refine ⟨g1, (h1.says.quiet g2).snoc ⟨fun _ => ⟨rfl, rfl⟩, fun h => by cases h⟩, fun r hr => h1.fine r (by simpa using hr),
            fun _ h => by cases h⟩
        · exact ⟨g1, h1.says.quiet g2, fun r hr => h1.fine r (List.dropLast_subset _ hr), fun _ _ => h1.fine⟩
      | ok y =>
        obtain ⟨p, gone⟩ := y
        obtain ⟨hg, hp⟩ := Post.elim hp rfl
        obtain ⟨g1, g2⟩ := h1.held.grows hg
        dsimp only
        refine loop_told hn cs ⟨g1, h1.says.quiet g2, h1.branch, fun q hq x hx => ?_, h1.fine⟩
        rcases List.mem_append.mp hq with hq | hq
        · exact (h1.patches q hq x hx).mono hg.le
        · cases List.mem_singleton.mp hq
          exact hp x hx

theorem returned_told (hn : sm.names.Nodup) {src : Handle} {ws : World} {batch : Nat} {target : Option Version}
    {hw : Handle × World} (ho : HeldOn sm hw.1.branch hw) :
    ToldAll sm hw.1.branch hw.2 (refreshReturned F X src ws batch target sched at_ hw) := by
  unfold refreshReturned
  have quit : ∀ {e : Err} {hw' : Handle × World}, HeldOn sm hw.1.branch hw' → hw'.2 = hw.2 →
      ToldAll sm hw.1.branch hw.2 (([], some e), hw') := by
    intro e hw' h1 h2
    exact ⟨h1, by rw [SaysAll, h2], by simp, by simp⟩
  split
  · exact quit ho rfl
  · rcases he : Txn.enter hw with ⟨z, hw2⟩
    obtain ⟨g1, g2, g3⟩ := enter_on ho he
    cases z with
    | error e => exact quit g1 g2
    | ok t =>
      dsimp only
      rcases reload (src, ws) with ⟨y, src', ws'⟩
      cases y with
      | error e => exact quit g1 g2
      | ok _ =>
        dsimp only
        split
        · exact quit g1 g2
        · exact loop_told hn _ ⟨g1, by rw [SaysAll, g2], g3 t rfl, by simp, by simp⟩

end

section
variable {E F : Env} {X : Upstream} {sm : Schema} {τ : Sys} {sl : Slot} {src : Handle} {ws w' : World} {batch : Nat}
  {target : Option Version} {sched : Nat → List Nat} {at_ : List Nat} {rs : List JobResult} {h' : Handle}

/-- C77 for calls that return.  The storage of the view has come about by any steps, and the refresh
runs on any object of it, from any source.  The results it returns say, one after the other, all that
happened to the storage: each result that succeeded stands for one new snapshot on the branch of the
object and reports how its statistics differ from those of its parent; the others stand for nothing.
Only the last result can be a failure.  For calls that raise see `C77_violated`. -/
theorem C77_partial (hn : sm.names.Nodup) (hr : Reach E sm anyStep τ) (hsl : sl ∈ τ.slots)
    (hc : refreshResults F X src ws batch target sched at_ (sl.h, τ.w) = (.ok rs, (h', w'))) :
    SaysAll sl.h.branch τ.w rs w' ∧ ∀ r ∈ rs.dropLast, r.state ≠ .failed := by
  obtain ⟨md, hok⟩ := reach_ok hn hr
  have ht := returned_told (F := F) (X := X) (src := src) (ws := ws) (batch := batch) (target := target) (sched := sched)
    (at_ := at_) hn (hw := (sl.h, τ.w)) ⟨⟨md, hok.wok⟩, hok.slot hsl, rfl⟩
  unfold refreshResults at hc
  rcases hx : refreshReturned F X src ws batch target sched at_ (sl.h, τ.w) with ⟨⟨a, e⟩, hw⟩
  rw [hx] at hc ht
  cases e with
  | some e => cases hc
  | none => cases hc; exact ⟨ht.says, ht.fine⟩

/-- C77 for calls that raise: they leave snapshots behind only in the same way, by transactions that
succeeded, of which the caller gets no result. -/
theorem C77_raised (hn : sm.names.Nodup) (hr : Reach E sm anyStep τ) (hsl : sl ∈ τ.slots) {e : Err}
    (hc : refreshResults F X src ws batch target sched at_ (sl.h, τ.w) = (.error e, (h', w'))) :
    ∃ rs, SaysAll sl.h.branch τ.w rs w' ∧ ∀ r ∈ rs, r.state ≠ .failed := by
  obtain ⟨md, hok⟩ := reach_ok hn hr
  have ht := returned_told (F := F) (X := X) (src := src) (ws := ws) (batch := batch) (target := target) (sched := sched)
    (at_ := at_) hn (hw := (sl.h, τ.w)) ⟨⟨md, hok.wok⟩, hok.slot hsl, rfl⟩
  unfold refreshResults at hc
  rcases hx : refreshReturned F X src ws batch target sched at_ (sl.h, τ.w) with ⟨⟨a, e⟩, hw⟩
  rw [hx] at hc ht
  cases e with
  | some e => cases hc; exact ⟨a, ht.says, ht.raised e rfl⟩
  | none => cases hc

/-- A number reported, zero if there is no report. -/
def JobResult.num (f : SStats → Int) (r : JobResult) : Int := (r.update.map f).getD 0

theorem SaysAll.sum {b : String} : ∀ {rs : List JobResult} {w w' : World} {md : Metadata} {cur : Snapshot},
    SaysAll b w rs w' → w.stored = some md → md.target b none = .ok cur →
    ∃ md' snap, w'.stored = some md' ∧ md'.target b none = .ok snap ∧
      snap.stats.rows - cur.stats.rows = (rs.map (·.num (·.rows))).sum ∧
      snap.stats.icb - cur.stats.icb = (rs.map (·.num (·.icb))).sum ∧
      snap.stats.iub - cur.stats.iub = (rs.map (·.num (·.iub))).sum ∧
      snap.stats.rub - cur.stats.rub = (rs.map (·.num (·.rub))).sum
  | [], w, w', md, cur, h, h1, h2 => ⟨md, cur, (show w'.stored = w.stored from h).trans h1, h2, by simp⟩
  | r :: rs, w, w', md, cur, ⟨w1, hr, h⟩, h1, h2 => by
    by_cases hs : r.state = .succeeded
    · obtain ⟨u, md0, md1, cur0, snap, e1, e2, e3, e4, e5, -, e6, e7, e8, e9⟩ := hr.2 hs
      rw [h1] at e2
      cases e2
      rw [h2] at e3
      cases e3
      obtain ⟨md', snap', g1, g2, g3⟩ := h.sum e4 e5
      refine ⟨md', snap', g1, g2, ?_⟩
      simp only [List.map_cons, List.sum_cons, JobResult.num, e1, Option.map_some, Option.getD_some] at g3 ⊢
      omega
    · obtain ⟨e1, e2⟩ := hr.1 hs
      obtain ⟨md', snap', g1, g2, g3⟩ := h.sum (e2.trans h1) h2
      refine ⟨md', snap', g1, g2, ?_⟩
      simp only [List.map_cons, List.sum_cons, JobResult.num, e1, Option.map_none, Option.getD_none] at g3 ⊢
      omega

/-- C77, the sum: the numbers a refresh reports add up to the change of the statistics of the storage
of the view. -/
theorem C77_sum (hn : sm.names.Nodup) (hr : Reach E sm anyStep τ) (hsl : sl ∈ τ.slots) {cur : Snapshot}
    (hh : HeadAt τ sl.h.branch cur)
    (hc : refreshResults F X src ws batch target sched at_ (sl.h, τ.w) = (.ok rs, (h', w'))) :
    ∃ snap, HeadAt ⟨w', τ.slots⟩ sl.h.branch snap ∧
      snap.stats.rows - cur.stats.rows = (rs.map (·.num (·.rows))).sum ∧
      snap.stats.icb - cur.stats.icb = (rs.map (·.num (·.icb))).sum ∧
      snap.stats.iub - cur.stats.iub = (rs.map (·.num (·.iub))).sum ∧
      snap.stats.rub - cur.stats.rub = (rs.map (·.num (·.rub))).sum := by
  obtain ⟨md, h1, h2⟩ := hh
  obtain ⟨md', snap, h3, h4, h5⟩ := (C77_partial hn hr hsl hc).1.sum h1 h2
  exact ⟨snap, ⟨md', h3, h4⟩, h5⟩

end

/-! ### Examples, and where it fails -/

namespace Demo

/-- A function that leaves out a column for key 9. -/
def pickyFns : UdfEnv where
  map := fun k rows => (udfs.map k rows).map fun r => if r.val "id" = .sc (.int 9) then r.select ["id"] else r
  keep := udfs.keep

def picky : Upstream := { up with U := pickyFns }

/-- Three commits. -/
def nine : List Act := [.call 0 (.mutate (.append [[row 2 "a" [1]]])), .call 0 (.mutate (.append [[row 3 "a" [1]]])),
  .call 0 (.mutate (.append [[row 9 "a" [1]]]))]

/-- The number of rows in the statistics of main. -/
def rowsAt (w : World) : Option Int :=
  w.stored.bind fun md => (md.target mainBranch none).toOption.map (·.stats.rows)

end Demo

theorem view_started : ∃ τ slm, Reach env mvSchema anyStep τ ∧ slm ∈ τ.slots ∧ (slm.h, τ.w) = start mvSchema :=
  ⟨begun mvSchema, ⟨(start mvSchema).1, .idle⟩, ⟨_, begun_started _, .refl _⟩, by simp [begun], rfl⟩

/-- A new view is refreshed over four commits of its source: appends, a delete and an upsert.  The four
results add up to the seven rows the view then has. -/
example : ∃ (τ : Sys) (slm sl : Slot) (rs : List JobResult) (h' : Handle) (w' : World),
    Reach env mvSchema anyStep τ ∧ slm ∈ τ.slots ∧ sl ∈ src2.slots ∧
    refreshResults env up sl.h src2.w 2 none sched [] (slm.h, τ.w) = (.ok rs, (h', w')) ∧
    rs.map (·.state) = [.succeeded, .succeeded, .succeeded, .succeeded] ∧
    rs.map (·.num (·.rows)) = [6, 3, -3, 1] ∧ rowsAt τ.w = some 0 ∧ rowsAt w' = some 7 := by
  obtain ⟨sl, -, h0, h⟩ := slot_of (σ := src2) (i := 0)
    (f := fun sl =>
      let r := refreshResults env up sl.h src2.w 2 none sched [] (start mvSchema)
      decide (r.1.toOption.map (·.map (·.state)) = some [.succeeded, .succeeded, .succeeded, .succeeded] ∧
        r.1.toOption.map (·.map (·.num (·.rows))) = some [6, 3, -3, 1] ∧ rowsAt r.2.2 = some 7))
    (x := true) (by decide +kernel)
  simp only [decide_eq_true_eq] at h
  generalize hr : refreshResults env up sl.h src2.w 2 none sched [] (start mvSchema) = r at h
  obtain ⟨x, h', w'⟩ := r
  cases x with
  | error e => cases h.1
  | ok rs =>
    simp only [Except.toOption, Option.map_some, Option.some.injEq] at h
    obtain ⟨τ, slm, g1, g2, g3⟩ := view_started
    refine ⟨τ, slm, sl, rs, h', w', g1, g2, h0, by rw [g3]; exact hr, h.1, h.2.1, ?_, h.2.2⟩
    rw [show τ.w = (start mvSchema).2 from congrArg Prod.snd g3]
    decide +kernel

/-- C77 is false of calls that raise: a function of the view fails on the third commit of the source;
the refresh raises and returns no result, but the view has the rows of the first two. -/
theorem C77_violated : ∃ τ slm σ sl e h' w', Reach env mvSchema anyStep τ ∧ slm ∈ τ.slots ∧
    Reach env schema anyStep σ ∧ sl ∈ σ.slots ∧
    refreshResults env picky sl.h σ.w 2 none sched [] (slm.h, τ.w) = (.error e, (h', w')) ∧
    rowsAt τ.w = some 0 ∧ rowsAt w' = some 3 ∧ w'.stored ≠ τ.w.stored := by
  obtain ⟨sl, -, h1, h⟩ := slot_of (σ := after env anyB schema nine) (i := 0)
    (f := fun sl =>
      let r := refreshResults env picky sl.h (after env anyB schema nine).w 2 none sched [] (start mvSchema)
      decide (r.1.toOption = none ∧ rowsAt r.2.2 = some 3))
    (x := true) (by decide +kernel)
  simp only [decide_eq_true_eq] at h
  have h0 : rowsAt (start mvSchema).2 = some 0 := by decide +kernel
  have hs : Reach env schema anyStep (after env anyB schema nine) := after_reach (fun _ _ _ => trivial) _
  generalize after env anyB schema nine = σ at *
  generalize hr : refreshResults env picky sl.h σ.w 2 none sched [] (start mvSchema) = r at h
  obtain ⟨x, h', w'⟩ := r
  cases x with
  | ok rs => cases h.1
  | error e =>
    obtain ⟨τ, slm, g1, g2, g3⟩ := view_started
    rw [← show τ.w = (start mvSchema).2 from congrArg Prod.snd g3] at h0
    refine ⟨τ, slm, σ, sl, e, h', w', g1, g2, hs, h1, by rw [g3]; exact hr, h0, h.2, fun hc => ?_⟩
    have h3 : rowsAt w' = some 3 := h.2
    unfold rowsAt at h0 h3
    rw [hc] at h3
    have := h0.symm.trans h3
    cases this

end Space
