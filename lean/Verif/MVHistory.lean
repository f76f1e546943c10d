import Verif.MVSource

/-!
# Histories of a materialized view and its source
-/

namespace Space
open List

/-- Commits of faithful histories log what they change. -/
theorem logged_of {E : Env} {s : Schema} (hk : KeySchema s) {σ : Sys} (h : Reach E s (faithful E s) σ) {md : Metadata}
    (hmd : σ.w.stored = some md) {n p : Nat} {cur snap : Snapshot} (hl : Live md n) (hs : md.snaps.get? n = some snap)
    (hp : snap.parent = some p) (hcur : md.snaps.get? p = some cur) : Logged σ.w.fs s cur snap [] := by
  refine chain_invariant hk.names (P := faithful E s) (fun h => ⟨h.1.1, h.2.1⟩)
    (Good := fun fs cur snap => Logged fs s cur snap []) ?_ ?_ h hmd hl hs hp hcur
  · intro fs fs' cur snap hf h1 h2 h3
    exact h3.mono hf h1 h2
  · intro σ σ' ev i m sl sl' w h1 w1 p cur snap hp hl hl'
    have := hp.1.2 i m sl hl hl'.slot
    rw [hl'.layout] at this
    obtain ⟨lost, h4, h5⟩ := hl'.succ.logged hk.names (fun files hm => hp.2.2 i files (hm ▸ hl)) (fun _ _ => this)
    rw [h5 this] at h4
    exact h4

variable {E F : Env} {s sm : Schema} {X : Upstream} {g : Nat → Row → List Row}

/-- The commits of a chain of the source lead from the rows of the view at its beginning to
those at its end. -/
theorem leadsAll_of (hX : Refreshable X g s sm) (hk : KeySchema s) (hkm : KeySchema sm) {σ : Sys}
    (h : Reach E s (faithful E s) σ) {md : Metadata} (hmd : σ.w.stored = some md) (batch : Nat) {a n : Nat}
    {ids : List Nat} (hids : Commits md a n ids) (hl : Live md n)
    (hu : ∀ k snap, Anc md n k → Anc md k a → md.snaps.get? k = some snap →
      (keysOf s (snapRows σ.w.fs s snap)).Nodup ∧ KeysSet s (snapRows σ.w.fs s snap)) :
    LeadsAll X σ.w.fs s sm (rayStream σ.w.fs md X.ray batch) (viewAt X g σ.w.fs s sm md) a ids := by
  obtain ⟨md', hok⟩ := reach_ok hk.names (h.imp anyStep_of)
  have := stored_of hok hmd
  subst this
  induction hids with
  | here => trivial
  | @next p n ids snap hc hs hp ih =>
    obtain ⟨cur, hcur⟩ := Option.isSome_iff_exists.mp (hok.wok.ok.parents _ _ _ hs hp).2
    have h1 := ih (.parent hl hs hp) (fun k sn a1 a2 a3 => hu k sn (Anc.trans (.parent .self hs hp) a1) a2 a3)
    refine h1.snoc ?_
    rw [hc.last]
    obtain ⟨h2, h3⟩ := hu p cur (.parent .self hs hp) hc.anc hcur
    exact leads_of hX hk hkm hok.wok.schema hok.wok.ok hcur hs hp (logged_of hk h hmd hl hs hp hcur) h2 h3 batch

/-- A refresh, whatever becomes of it: the storage of the view has the rows of the view on
some snapshot on the way, and on the last if no exception and no FAILED is reported. -/
theorem refresh_ran (hX : Refreshable X g s sm) (hk : KeySchema s) (hkm : KeySchema sm) {σ : Sys}
    (h : Reach E s (faithful E s) σ) {md : Metadata} (hmd : σ.w.stored = some md) {sl : Slot} (hsl : sl ∈ σ.slots)
    {hm : Handle} {wm : World} {k : Nat} (hh : Holding sm hm wm k (viewAt X g σ.w.fs s sm md k)) {batch : Nat}
    {target : Option Version} {sched : Nat → List Nat} {at_ : List Nat}
    (hc : ∀ last, refreshEnd sl.h target = .ok last → k < last → Anc md last k → Live md last ∧
      ∀ k' snap, Anc md last k' → Anc md k' k → md.snaps.get? k' = some snap →
        (keysOf s (snapRows σ.w.fs s snap)).Nodup ∧ KeysSet s (snapRows σ.w.fs s snap))
    (hsafe : ∀ t ∈ (refreshRun F X sl.h σ.w batch target sched at_ (hm, wm)).1.1, t.Safe sm) :
    let res := refreshRun F X sl.h σ.w batch target sched at_ (hm, wm)
    ((∃ e, res.1 = ([], some e)) ∧ Holding sm res.2.1 res.2.2 k (viewAt X g σ.w.fs s sm md k)) ∨
    ∃ last ids d pre post, refreshEnd sl.h target = .ok last ∧ k < last ∧ Commits md k last ids ∧
      Ran sm (rayStream σ.w.fs md X.ray batch) (viewAt X g σ.w.fs s sm md) [] k k ids res d pre post := by
  obtain ⟨md', hok⟩ := reach_ok hk.names (h.imp anyStep_of)
  have := stored_of hok hmd
  subst this
  dsimp only
  unfold refreshRun at hsafe ⊢
  cases hend : refreshEnd sl.h target with
  | error e => exact .inl ⟨⟨e, rfl⟩, hh⟩
  | ok last =>
    obtain ⟨t, h1, he, hh1, -, -⟩ := hh.enter
    obtain ⟨b, src, hrl, rfl, -⟩ := reload_eq hok.wok (hok.slot hsl)
    simp only [hend, he, hrl, hh.current] at hsafe ⊢
    cases hid : orderedIds src.md k last with
    | error e => exact .inl ⟨⟨e, rfl⟩, hh1⟩
    | ok ids =>
      obtain ⟨hlt, hcom⟩ := (orderedIds_ok hok.wok.ok).mp hid
      simp only [hid] at hsafe ⊢
      rw [hok.wok.schema] at hsafe ⊢
      obtain ⟨hl, hu⟩ := hc last hend hlt hcom.anc
      have hall := leadsAll_of hX hk hkm h hmd batch hcom hl hu
      obtain ⟨d, pre, post, hr⟩ := (loop_ran (F := F) hkm ids).1 k k _ _ hall ⟨hh, he, rfl, rfl, rfl⟩ hsafe
      exact .inr ⟨last, ids, d, pre, post, rfl, hlt, hcom, hr⟩

/-- The source, from snapshot `k` to snapshot `last` which a refresh goes along: `last` is
on the main branch, ids follow one another, each commit records a change, and at each
snapshot keys are set and not shared. -/
structure InStep (fs : FS) (s : Schema) (md : Metadata) (k last : Nat) : Prop where
  main : Anc md md.current last
  line : ∀ n snap, Anc md last n → k < n → md.snaps.get? n = some snap → snap.parent = some (n - 1)
  changes : ∀ n snap cl, Anc md last n → k < n → md.snaps.get? n = some snap → logOf fs snap = some cl →
    cl.deleted ≠ [] ∨ cl.added ≠ []
  keys : ∀ n snap, Anc md last n → k ≤ n → md.snaps.get? n = some snap →
    (keysOf s (snapRows fs s snap)).Nodup ∧ KeysSet s (snapRows fs s snap)

/-- Nothing in the way of a refresh `res` from snapshot `k`: the source is steady up to the
snapshot `last` refreshed to, and each transaction changes the view's storage and loses no
file of it. -/
structure Undisturbed (fs : FS) (s sm : Schema) (md : Metadata) (k : Nat) (last : Except Err Nat)
    (res : Refreshed × (Handle × World)) : Prop where
  source : ∀ n, last = .ok n → k < n → InStep fs s md k n
  safe : ∀ t ∈ res.1.1, t.Safe sm
  changes : ∀ t ∈ res.1.1, t.job ≠ .skipped

/-- Histories of a source and of a materialized view, which has one object `h` at a time:
the view's storage is created; any step of the source; the view is loaded anew; it is
refreshed with any object of the source, to any version, whatever becomes of it. -/
inductive MVReach (E F : Env) (X : Upstream) (s sm : Schema) : Sys → Handle → World → Prop where
  | create {σ w0 h w} : Reach E s (faithful E s) σ → w0.Empty → Space.create sm w0 = (.ok h, w) →
      MVReach E F X s sm σ h w
  | source {σ σ' ev h w} : MVReach E F X s sm σ h w → faithful E s σ ev → Step E s σ ev σ' →
      MVReach E F X s sm σ' h w
  | load {σ h w h'} : MVReach E F X s sm σ h w → Space.load w = .ok h' → MVReach E F X s sm σ h' w
  | refresh {σ h w md sl batch target sched at_ res} : MVReach E F X s sm σ h w → σ.w.stored = some md →
      sl ∈ σ.slots → refreshRun F X sl.h σ.w batch target sched at_ (h, w) = res →
      Undisturbed σ.w.fs s sm md h.md.current (refreshEnd sl.h target) res →
      MVReach E F X s sm σ res.2.1 res.2.2

theorem MVReach.reach {σ : Sys} {h : Handle} {w : World} (hr : MVReach E F X s sm σ h w) :
    Reach E s (faithful E s) σ := by
  induction hr with
  | create h1 => exact h1
  | source _ hp hs ih => exact ih.step hp hs
  | load _ _ ih => exact ih
  | refresh _ _ _ _ _ ih => exact ih

theorem anc_le {fs : FS} {md : Metadata} (hok : MdOK fs md) {a n : Nat} (h : Anc md n a) : a ≤ n := by
  induction h with
  | self => exact Nat.le_refl _
  | parent _ hs hp ih => exact Nat.le_trans (Nat.le_of_lt (hok.parents _ _ _ hs hp).1) ih

/-- Along ids that follow one another. -/
theorem Commits.count {md : Metadata} {a n : Nat} {ids : List Nat} (h : Commits md a n ids) :
    (∀ m snap, Anc md n m → a < m → md.snaps.get? m = some snap → snap.parent = some (m - 1)) →
    (∀ m ∈ ids, a < m) → ∀ pre post, ids = pre ++ post → lastOf a pre = a + pre.length ∧ Anc md n (lastOf a pre) := by
  induction h with
  | here =>
    intro _ _ pre post hp
    obtain ⟨rfl, -⟩ := List.append_eq_nil_iff.mp hp.symm
    exact ⟨rfl, .self⟩
  | @next p n ids snap hc hs hp ih =>
    intro hl hlt pre post heq
    have ih := ih (fun m sn a1 a2 a3 => hl m sn (Anc.trans (.parent .self hs hp) a1) a2 a3)
      (fun m hm => hlt m (List.mem_append_left _ hm))
    rcases List.eq_nil_or_concat post with rfl | ⟨post, x, rfl⟩
    · rw [List.append_nil] at heq
      subst heq
      obtain ⟨h1, -⟩ := ih ids [] (by simp)
      have h2 := hl n snap .self (hlt n (by simp)) hs
      rw [hp] at h2
      cases h2
      have h3 := hc.last
      rw [lastOf_append]
      refine ⟨?_, .self⟩
      have := hlt n (by simp)
      simp only [lastOf, List.foldl_cons, List.foldl_nil, List.length_append, List.length_cons, List.length_nil]
      rw [h3] at h1
      omega
    · rw [List.concat_eq_append, ← List.append_assoc] at heq
      obtain ⟨h1, -⟩ := List.append_inj' heq rfl
      obtain ⟨h2, h3⟩ := ih pre post h1
      exact ⟨h2, Anc.trans (.parent .self hs hp) h3⟩

theorem viewAt_mono {fs fs' : FS} {md md' : Metadata} (hf : FSLe fs fs') (hok : MdOK fs md) (hs : md.schema = s) {n : Nat}
    (hn : md'.snaps.get? n = md.snaps.get? n) : viewAt X g fs' s sm md' n = viewAt X g fs s sm md n := by
  unfold viewAt
  rw [hn]
  cases h : md.snaps.get? n with
  | none => rfl
  | some snap => simp only [snapRows_mono hf (hs ▸ hok.snaps _ _ h)]

theorem rayStream_ne {fs : FS} {md : Metadata} {n : Nat} {batch : Nat} {ray : RayOpts}
    (h : ∀ snap cl, md.snaps.get? n = some snap → logOf fs snap = some cl → cl.deleted ≠ [] ∨ cl.added ≠ []) :
    rayStream fs md ray batch n ≠ [] := by
  unfold rayStream
  cases hs : md.snaps.get? n with
  | none => simp
  | some snap =>
    cases hl : snap.log.bind fs.log with
    | none => simp [hl]
    | some cl =>
      simp only [hl]
      rcases h snap cl hs hl with h | h
      · simp [h]
      · simp only [h, if_false]
        cases addShards ray.parallelism cl.added <;> simp

/-- What a refresh leaves, and how far it got. -/
theorem refresh_result (hX : Refreshable X g s sm) (hk : KeySchema s) (hkm : KeySchema sm) {σ : Sys}
    (h : Reach E s (faithful E s) σ) {md : Metadata} (hmd : σ.w.stored = some md) {sl : Slot} (hsl : sl ∈ σ.slots)
    {hm : Handle} {wm : World} {k : Nat} (hh : Holding sm hm wm k (viewAt X g σ.w.fs s sm md k)) {batch : Nat}
    {target : Option Version} {sched : Nat → List Nat} {at_ : List Nat} {res : Refreshed × (Handle × World)}
    (hres : refreshRun F X sl.h σ.w batch target sched at_ (hm, wm) = res)
    (hu : Undisturbed σ.w.fs s sm md k (refreshEnd sl.h target) res) (hkc : k ≤ md.current) :
    ∃ k', k' ≤ md.current ∧ Holding sm res.2.1 res.2.2 k' (viewAt X g σ.w.fs s sm md k') ∧
      (res.1.2 = none → (∀ t ∈ res.1.1, t.job ≠ .failed) → refreshEnd sl.h target = .ok k' ∧ k < k') := by
  obtain ⟨md', hok⟩ := reach_ok hk.names (h.imp anyStep_of)
  have := stored_of hok hmd
  subst this
  have key := refresh_ran (F := F) hX hk hkm h hmd hsl hh (batch := batch) (target := target) (sched := sched) (at_ := at_)
    (fun last h1 h2 h3 => by
      have hst := hu.source last h1 h2
      refine ⟨hst.main.live .main, fun k' snap a1 a2 a3 => ?_⟩
      exact hst.keys k' snap a1 (anc_le hok.wok.ok a2) a3)
    (by rw [hres]; exact hu.safe)
  rw [hres] at key
  rcases key with ⟨⟨e, he⟩, hh'⟩ | ⟨last, ids, d, pre, post, h1, h2, h3, hr⟩
  · refine ⟨k, hkc, hh', fun h => ?_⟩
    rw [he] at h
    cases h
  · have hst := hu.source last h1 h2
    have hd : res.1.1 = d := by simpa using hr.done
    have hmem : ∀ m ∈ ids, k < m ∧ Anc md last m := by
      clear hr
      clear hu hst h1 h2 hres
      induction h3 with
      | here => intro m hm; cases hm
      | @next p n ids snap hc hs hp ih =>
        intro m hm
        rcases List.mem_append.mp hm with hm | hm
        · exact ⟨(ih m hm).1, Anc.trans (.parent .self hs hp) (ih m hm).2⟩
        · rw [List.mem_singleton] at hm
          subst hm
          have := anc_le hok.wok.ok hc.anc
          have := (hok.wok.ok.parents _ _ _ hs hp).1
          exact ⟨by omega, .self⟩
    have hcount := hr.count
      (fun n hn => rayStream_ne (fun snap cl a b => hst.changes n snap cl (hmem n hn).2 (hmem n hn).1 a b))
      (fun t ht => hu.changes t (hd ▸ ht))
    obtain ⟨h4, h5⟩ := h3.count hst.line (fun m hm => (hmem m hm).1) pre post hr.whole
    have hh' := hr.holds
    rw [hcount, ← h4] at hh'
    refine ⟨lastOf k pre, ?_, hh', ?_⟩
    · exact Nat.le_trans (anc_le hok.wok.ok h5) (anc_le hok.wok.ok hst.main)
    · intro h6 h7
      have := hr.all h6 (hd ▸ h7)
      have hw := hr.whole
      rw [this, List.append_nil] at hw
      rw [← hw, h3.last]
      exact ⟨h1, h2⟩

theorem Change.current_le {σ : Sys} {ev : Event} {fs fs' : FS} {md md' : Metadata} (hok : MdOK fs md)
    (h : Change σ ev fs' md md') : md.current ≤ md'.current := by
  cases h with
  | same eq => rw [eq]; exact Nat.le_refl _
  | commit b p n cur snap com new =>
    by_cases hb : b = mainBranch
    · have := com.newHead
      rw [hb] at this
      cases this
      exact Nat.le_trans (Live.main.le hok) (Nat.le_of_lt new)
    · have : (Except.ok md'.current : Except Err Nat) = .ok md.current := com.otherHead (Ne.symm hb)
      rw [Except.ok.inj this]
      exact Nat.le_refl _
  | addRef name kind n can eq => rw [eq]; exact Nat.le_refl _
  | removeRef name kind n was eq => rw [eq]; exact Nat.le_refl _

/-- In these histories the storage of the view always has the rows of the view on the
snapshot of the source whose id is that of its own current snapshot. -/
theorem MVReach.holding (hX : Refreshable X g s sm) (hk : KeySchema s) (hkm : KeySchema sm) {σ : Sys} {h : Handle}
    {w : World} (hr : MVReach E F X s sm σ h w) : ∃ md k, σ.w.stored = some md ∧ k ≤ md.current ∧
      Holding sm h w k (viewAt X g σ.w.fs s sm md k) := by
  induction hr with
  | @create σ w0 h w h1 h2 h3 =>
    obtain ⟨md, hok⟩ := reach_ok hk.names (h1.imp anyStep_of)
    refine ⟨md, 0, hok.wok.storedEq, Nat.zero_le _, ?_⟩
    obtain ⟨h4, h5, h6, -, h7⟩ := create_ok h2 h3
    refine ⟨h4, h5, h6, ?_, by rw [h7]; rfl, by rw [h7], ⟨{ id := 0 }, by rw [h7]; rfl, ?_⟩⟩
    · have hne : AMap.get? (AMap.set w0.fs (.metadata w0.next)
          (.mdata { schema := sm, current := 0, snaps := [(0, { id := 0 })], refs := [] })) .entryPoint = none := by
        rw [AMap.get?_set_ne _ _ (by simp)]; exact h2.noEntry
      simp only [Space.create, createHead, createTail, Bind.bind, M.andThen, fresh, putFile, M.modify, M.get,
        World.put, hne, Pure.pure, M.ret, Prod.mk.injEq, Except.ok.injEq] at h3
      obtain ⟨rfl, rfl⟩ := h3
      rfl
    · have : X.view.rowsOn s g X.U.keep [] = [] := by
        refine List.eq_nil_iff_forall_not_mem.mpr fun r hr => ?_
        obtain ⟨r0, h, -⟩ := rowsOn_mem hr
        cases h
      simp [viewAt, hok.wok.ok.zero, snapRows, physRows, this]
  | @source σ σ' ev h w hr hp hs ih =>
    obtain ⟨md, k, h1, h2, h3⟩ := ih
    obtain ⟨md0, hok⟩ := reach_ok hk.names (hr.reach.imp anyStep_of)
    have := stored_of hok h1
    subst this
    obtain ⟨md', hok', hle, hch, -⟩ := commit_step hk.names (hr.reach.imp fun _ _ h => h.1.1) hok hp.1.1 hs
    refine ⟨md', k, hok'.wok.storedEq, Nat.le_trans h2 (hch.current_le hok.wok.ok), ?_⟩
    rw [viewAt_mono hle hok.wok.ok hok.wok.schema (hch.keep (Nat.le_trans h2 (Live.main.le hok.wok.ok)))]
    exact h3
  | @load σ h w h' hr hl ih =>
    obtain ⟨md, k, h1, h2, h3⟩ := ih
    obtain ⟨h4, e1, e2, e3, e4⟩ := load_eq h3.wok
    rw [hl] at e1
    cases e1
    refine ⟨md, k, h1, h2, h3.same e4 e2 (e3.trans h3.branch.symm) (.inr ?_)⟩
    unfold Space.load at hl
    split at hl
    · cases hl
    · cases hl
      rw [← e2, h3.branch]
      rfl
  | @refresh σ h w md sl batch target sched at_ res hr hmd hsl hres hu ih =>
    obtain ⟨md1, k, h1, h2, h3⟩ := ih
    have := h1.symm.trans hmd
    cases this
    rw [h3.current] at hu
    obtain ⟨k', h4, h5, -⟩ := refresh_result hX hk hkm hr.reach hmd hsl h3 hres hu h2
    exact ⟨md, k', hmd, h4, h5⟩

end Space
