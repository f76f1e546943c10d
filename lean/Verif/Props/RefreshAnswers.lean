import Verif.Props.Serial

/-!
# C60 for refreshes: when a transaction of a refresh succeeds
-/

set_option autoImplicit false

namespace Space

open Demo
open List (Perm)
open scoped List

section
variable {E : Env} {s : Schema} {w : World}

/-- A transaction of a refresh that deletes nothing, or keys of which one is there, comes to its commit. -/
theorem syncBody_total (hk : KeySchema s) (hlast : s.writeNames = s.names) {h : Handle} {cur : Snapshot}
    (hf : w.Fresh) (hh : HandleOK s w h) (hs : h.snapshot none = .ok cur) {n : Nat} (hn : n ≠ 0) (sched : List Nat)
    {gone : List Row} {added : Option (List (List (List Row)))} (ht : ∀ r ∈ (added.getD []).flatten.flatten, Takes s r)
    (hc : ∀ r ∈ gone, ∀ k ∈ s.pks, k ∈ r.cols ∧ ∃ v, r.val k = .sc v) (hnd : (gone.map (keyOf s.pks)).Nodup)
    (hset : KeysSet s (physRows w.fs cur.index))
    (hrows : ∀ q ∈ cur.index, ∀ m ∈ entriesOf w.fs q, fileRows w.fs m.file ≠ [])
    (hhit : gone ≠ [] → ∃ r ∈ physRows w.fs cur.index, keyOf s.pks r ∈ gone.map (keyOf s.pks)) :
    Total (syncBody E h n sched gone added w)
      (fun p _ => p.isSome = decide (gone ≠ [] ∨ (added.getD []).flatten.flatten ≠ [])) := by
  rw [syncBody_eq hh.schema]
  refine Post.bind (Q := fun dp w1 => w1.Fresh ∧ dp.isSome = decide (gone ≠ [])) ?_ ?_
  · by_cases h0 : gone = []
    · subst h0
      exact Post.pure ⟨hf, rfl⟩
    · rw [if_neg h0]
      obtain ⟨e, he⟩ := primaryKeyFilter_total hk.some h0 (fun r hr k hkm => (hc r hr k hkm).1)
        (fun r hr k hkm => (hc r hr k hkm).2) hnd
      obtain ⟨hke, hsem, -, -, -⟩ := primaryKeyFilter_sem he E.I
      have hfit := hk.fits hke
      obtain ⟨mf, hmf⟩ := hfit.filter
      have hman := (snapshot_manifests hh hs).manifests
      have hmod : ∃ q ∈ cur.index, hasMod E.I e w.fs mf q = true := by
        obtain ⟨x, hx, hkx⟩ := hhit h0
        obtain ⟨d, hd, hdx⟩ := List.mem_map.mp hkx
        have ht : e.truth E.I x = some true := (hsem x).mpr ⟨d, hd, hdx, hset.num x hx⟩
        obtain ⟨q, hq, hx⟩ := List.mem_flatMap.mp hx
        obtain ⟨m, hm, hx⟩ := List.mem_flatMap.mp hx
        exact ⟨q, hq, List.any_eq_true.mpr ⟨m, hm, modEntry_of_true hfit.prune hmf ((hman q hq).entry hm) hx ht⟩⟩
      have hdel : Total (syncDelete E h gone w) (fun p _ => p.isSome = true) := by
        unfold syncDelete
        rw [hh.schema, he]
        refine Post.bind (Q := fun a b => a = some e ∧ w = b) ⟨rfl, rfl⟩ ?_
        rintro _ b ⟨rfl, hb⟩
        subst hb
        rcases deleteBody_total (E := E) hk hlast hf hh hs hmf hset hrows with ⟨hv, -⟩ | ⟨-, h⟩
        · obtain ⟨q, hq, hm⟩ := hmod
          obtain ⟨m, hm, hmod⟩ := List.any_eq_true.mp hm
          obtain ⟨n, hx, -⟩ := mods_visited hq hm hmod
          rw [hv] at hx
          cases hx
        · exact h.imp (fun p _ hp => hp.mpr hmod) (fun _ h => h)
      refine (hdel.and (syncDelete_post (E := E) hf hh h0)).imp ?_ (fun _ h => h)
      rintro dp w1 ⟨h1, -, h2, -⟩
      exact ⟨h2, by rw [h1]; simp [h0]⟩
  · rintro dp w1 ⟨hf1, hdp⟩
    have happ : Total (syncAppend E s n sched added w1)
        (fun p _ => p.isSome = decide ((added.getD []).flatten.flatten ≠ [])) := by
      cases added with
      | none => exact Post.pure rfl
      | some sources => exact rayAppendFromAll_total hk hlast hf1 (fun h => absurd h hn) sched ht
    refine Post.bind happ ?_
    intro ap w2 hap
    refine Post.pure ?_
    rw [merge_two]
    cases dp <;> cases ap <;> simp_all
end

/-- A transaction of a refresh succeeds in any state, on a branch that exists, with rows to append that fit, if the keys it
deletes are distinct and one of them is there, or if it deletes none and appends some row. -/
theorem C60_refresh_succeeds {E : Env} {s : Schema} (hk : KeySchema s) (hlast : s.writeNames = s.names)
    {σ : Sys} (hr : Reach E s anyStep σ) {i : Nat} {sl : Slot} (hsl : σ.slots[i]? = some sl)
    (hi : sl.phase = .idle) (hb : branchIn sl.h.branch σ) {n : Nat} (hn : n ≠ 0) (sched : List Nat) {gone : List Row}
    {added : Option (List (List (List Row)))} (ht : ∀ r ∈ (added.getD []).flatten.flatten, Takes s r)
    (hc : ∀ r ∈ gone, ∀ k ∈ s.pks, k ∈ r.cols ∧ ∃ v, r.val k = .sc v) (hd : (keysOf s gone).Nodup)
    (hset : KeysSet s (headLayout s sl.h σ.w).flatten.flatten)
    (hfull : ∀ man ∈ headLayout s sl.h σ.w, ∀ file ∈ man, file ≠ [])
    (hhit : gone ≠ [] → ∃ r ∈ (headLayout s sl.h σ.w).flatten.flatten, s.pks.map r.val ∈ keysOf s gone) :
    ∃ σ', Step E s σ (.call i (.mutate (.sync n sched gone added))
      (.job (if gone = [] ∧ (added.getD []).flatten.flatten = [] then .skipped else .succeeded))) σ' := by
  obtain ⟨md, hok⟩ := reach_ok hk.names hr
  have hh := (hok.slots _ (List.mem_of_getElem? hsl)).1
  have hob := (branchIn_iff hok).mp hb
  obtain ⟨cur, hid, hget, -⟩ := hob.head hok.wok.ok
  have htar := target_head hid hget
  have hlay : headLayout s sl.h σ.w = layout σ.w.fs s cur := by
    simp [headLayout, headOf, hok.wok.storedEq, htar, Except.toOption]
  rw [hlay] at hset hfull hhit
  rw [layout_flatten] at hset hhit
  have hset' : KeysSet s (physRows σ.w.fs cur.index) := by
    intro x hx k hkk
    have := hset _ (List.mem_map_of_mem hx) k hkk
    rw [deref_val] at this
    simpa [hk.plain k hkk] using this
  have hfull' : ∀ q ∈ cur.index, ∀ m ∈ entriesOf σ.w.fs q, fileRows σ.w.fs m.file ≠ [] := by
    intro q hq m hm h0
    exact hfull _ (mem_layout hq) _ (List.mem_map.mpr ⟨m, hm, rfl⟩) (by rw [h0]; rfl)
  obtain ⟨p, h2, w2, hp, he⟩ := exec_total (E := E) (m := .sync n sched gone added)
    (R := fun p => p.isSome = decide (gone ≠ [] ∨ (added.getD []).flatten.flatten ≠ []))
    hk.names hok.wok hh trivial hob (by
      intro h1 e1 e2 hh1
      simp only [Mutation.body]
      refine syncBody_total hk hlast hok.wok.fresh hh1 (cur := cur) ?_ hn sched ht hc hd hset' hfull' ?_
      · rw [handle_snapshot, e1, e2]; exact htar
      · intro h0
        obtain ⟨r, hr, hkr⟩ := hhit h0
        obtain ⟨x, hx, rfl⟩ := List.mem_map.mp hr
        exact ⟨x, hx, by rw [← keyOf_deref hk σ.w.fs.records x]; exact hkr⟩)
  refine call_of_exec hsl hi trivial (h' := h2) (w' := w2) ?_
  rw [he, hp]
  by_cases h1 : gone = [] <;> by_cases h2 : (added.getD []).flatten.flatten = [] <;> simp [h1, h2]

/-- C60 for the answers of whole transactions of a refresh, after runs as in `C60_partial`: if none of the keys to delete
is null, the rows to append fit, no row is lost, and there is nothing to delete or something of it is there, the transaction succeeds
exactly if it has an effect on the table in memory.  Missing: keys to delete of which none is there
(`C60_violated_refresh`). -/
theorem C60_refresh_partial {E : Env} {s : Schema} (hk : KeySchema s) (hlast : s.writeNames = s.names)
    {tr : List (String × Call)} {σ : Sys} (h : History E s (tame E s) tr σ) (hfill : Filled σ.w) :
    ∃ ds m, ds.map (fun d => (d.on, d.call)) = tr ∧ Mem.new.deeds E.I s σ.w.fs ds = some m ∧
      ∀ i sl n sched gone added r σ', σ.slots[i]? = some sl → branchIn sl.h.branch σ → n ≠ 0 →
        (∀ r ∈ (added.getD []).flatten.flatten, Takes s r) →
        (∀ r ∈ gone, ∀ k ∈ s.pks, k ∈ r.cols ∧ ∃ v, r.val k = .sc v) →
        (gone ≠ [] → DeleteSafe (fun r => some (decide (s.pks.map r.val ∈ keysOf s gone))) (headLayout s sl.h σ.w) ∧
          ∃ r ∈ (headLayout s sl.h σ.w).flatten.flatten, s.pks.map r.val ∈ keysOf s gone) →
        Step E s σ (.call i (.mutate (.sync n sched gone added)) r) σ' →
        (r = .job .succeeded ↔
          ∃ num, m.next ≤ num ∧ (m.deed E.I s σ.w.fs ⟨sl.h.branch, .mutate (.sync n sched gone added), num⟩).isSome) := by
  obtain ⟨ds, m, md, h1, h2, hs⟩ := h.holds hk hlast
  refine ⟨ds, m, h1, h2, fun i sl n sched gone added r σ' hsl hb hn ht hc hgone hst => ?_⟩
  have hrc : Reach E s calm σ := h.reach fun _ _ h => h.1
  have htame : Tame E s sl.h σ.w (.sync n sched gone added) := ⟨fun r hr => (ht r hr).keys, fun h0 => (hgone h0).1⟩
  constructor
  · rintro rfl
    have hcalm : calm σ (.call i (.mutate (.sync n sched gone added)) (.job .succeeded)) := by
      refine ⟨⟨trivial, ?_⟩, ?_⟩
      · intro h; cases h
      · rintro j b r (h | h) <;> cases h
    obtain ⟨num, m', md', h3, -⟩ := hs.lands hk hlast hrc hcalm hst (Or.inl rfl) hsl htame
    have h4 : m.deed E.I s σ.w.fs ⟨sl.h.branch, .mutate (.sync n sched gone added), num⟩ = some m' := h3
    refine ⟨num, ?_, by rw [h4]; rfl⟩
    simp only [Mem.deed] at h4
    split at h4
    · split at h4
      · rename_i h5; exact h5.1
      · cases h4
    · cases h4
  · rintro ⟨num, -, he⟩
    have hra : Reach E s anyStep σ := Reach.imp anyStep_of hrc
    have hidle := (call_run hsl hst).1
    have hok := hs.ok
    have hob := (branchIn_iff hok).mp hb
    obtain ⟨cur, hid, hget, -⟩ := hob.head hok.wok.ok
    have htar := target_head hid hget
    have hlay : headLayout s sl.h σ.w = layout σ.w.fs s cur := by
      simp [headLayout, headOf, hok.wok.storedEq, htar, Except.toOption]
    obtain ⟨old, ho1, ho2, ho3⟩ := hs.head hid hget
    simp only [Mem.deed, ho1, Option.bind_some, effect, effect.sync] at he
    have hset : KeysSet s (snapRows σ.w.fs s cur) := (keysSet_written hk).mp (ho3.perm ho2.symm)
    have hfull := hfill.layout (hs.snapOK hget)
    rw [← hlay] at hfull
    split at he
    · rename_i hx
      split at hx
      · rename_i hx1
        obtain ⟨σ'', hst'⟩ := C60_refresh_succeeds hk hlast hra hsl hidle hb hn sched ht hc hx1.1
          (by rw [hlay, layout_flatten]; exact hset) hfull (fun h0 => (hgone h0).2)
        rw [call_unique hsl hst hst', if_neg]
        rintro ⟨h3, h4⟩
        obtain ⟨r, -, hr⟩ := hx1.2 h4
        rw [h3] at hr
        cases hr
      · cases hx
    · cases he

/-- What is needed of a run and of a transaction of a refresh after it, decided; and how that ends. -/
def Demo.refreshing (gone : List Row) (mu : Mutation) (x : List (String × Call) × Sys) : Bool × Bool × Bool × Option Result :=
  (sameTrace x.1 [("main", .mutate (.append [[row 1 "a" [1], row 2 "b" [2]]]))], filledB x.2.w,
    (x.2.slots[0]?).any (fun sl => idleB sl.phase && sl.h.branch == "main" &&
      safeB (fun r => some (decide (schema.pks.map r.val ∈ keysOf schema gone))) (headLayout schema sl.h x.2.w) &&
      ((headLayout schema sl.h x.2.w).flatten.flatten.any (fun r => decide (schema.pks.map r.val ∈ keysOf schema gone)) ==
        decide (gone.length = 2))),
    (x.2.slots[0]?).map (fun sl => (exec env (.mutate mu) sl.h x.2.w).1))

theorem Demo.refreshing_of {gone : List Row} {mu : Mutation} {res : Result}
    (h : (story env (tameB env schema) [.call 0 (.mutate (.append [[row 1 "a" [1], row 2 "b" [2]]]))] (begun schema)).map
      (refreshing gone mu) = some (true, true, true, some res)) (ha : ∀ fs : FS, (Call.mutate mu).Admissible schema fs) :
    ∃ σ sl σ', History env schema (tame env schema) [("main", .mutate (.append [[row 1 "a" [1], row 2 "b" [2]]]))] σ ∧
      Filled σ.w ∧ σ.slots[0]? = some sl ∧ sl.h.branch = "main" ∧
      DeleteSafe (fun r => some (decide (schema.pks.map r.val ∈ keysOf schema gone))) (headLayout schema sl.h σ.w) ∧
      (gone.length = 2 → ∃ r ∈ (headLayout schema sl.h σ.w).flatten.flatten, schema.pks.map r.val ∈ keysOf schema gone) ∧
      Step env schema σ (.call 0 (.mutate mu) res) σ' := by
  obtain ⟨⟨tr, σ⟩, h1, h2⟩ := Option.map_eq_some_iff.mp h
  simp only [refreshing, Prod.mk.injEq] at h2
  obtain ⟨h3, h4, h5, h6⟩ := h2
  obtain ⟨⟨hd, ph⟩, h7, h8⟩ := Option.map_eq_some_iff.mp h6
  rw [h7] at h5
  simp only [Option.any_some, Bool.and_eq_true, beq_iff_eq] at h5
  obtain ⟨⟨⟨h9, h10⟩, h11⟩, h12⟩ := h5
  have htr := sameTrace_eq h3
  subst htr
  have hidle : ph = .idle := by cases ph <;> first | rfl | cases h9
  subst hidle
  refine ⟨σ, _, _, by simpa using story_history tameB_tame (.start (begun_started schema)) h1, filledB_filled h4, h7, h10,
    safeB_safe h11, fun hl => ?_, calling_step (ha _) (by rw [h7, Option.map_some, h8]; rfl)⟩
  rw [hl] at h12
  obtain ⟨r, hr, hx⟩ := List.any_eq_true.mp (h12.trans (by decide))
  exact ⟨r, hr, by simpa using hx⟩

/-- A transaction of a refresh that meets the conditions of `C60_refresh_partial`: of the keys it deletes one is there. -/
example : ∃ tr σ sl σ', History env schema (tame env schema) tr σ ∧ Filled σ.w ∧ σ.slots[0]? = some sl ∧
    branchIn sl.h.branch σ ∧
    (∀ r ∈ ((some [[[row 5 "e" []]], [[row 6 "f" []]]]).getD ([] : List (List (List Row)))).flatten.flatten, Takes schema r) ∧
    (∀ r ∈ [row 2 "" [], row 9 "" []], ∀ k ∈ schema.pks, k ∈ r.cols ∧ ∃ v, r.val k = .sc v) ∧
    DeleteSafe (fun r => some (decide (schema.pks.map r.val ∈ keysOf schema [row 2 "" [], row 9 "" []])))
      (headLayout schema sl.h σ.w) ∧
    (∃ r ∈ (headLayout schema sl.h σ.w).flatten.flatten, schema.pks.map r.val ∈ keysOf schema [row 2 "" [], row 9 "" []]) ∧
    Step env schema σ (.call 0 (.mutate (.sync 2 [1, 0] [row 2 "" [], row 9 "" []]
      (some [[[row 5 "e" []]], [[row 6 "f" []]]]))) (.job .succeeded)) σ' := by
  obtain ⟨σ, sl, σ', h1, h2, h3, h4, h5, h6, h7⟩ := refreshing_of (gone := [row 2 "" [], row 9 "" []])
    (mu := .sync 2 [1, 0] [row 2 "" [], row 9 "" []] (some [[[row 5 "e" []]], [[row 6 "f" []]]])) (res := .job .succeeded)
    (by decide +kernel) (fun _ => trivial)
  refine ⟨_, σ, sl, σ', h1, h2, h3, Or.inl h4, ?_, ?_, h5, h6 rfl, h7⟩
  · intro r hr
    have : r = row 5 "e" [] ∨ r = row 6 "f" [] := by simpa using hr
    rcases this with rfl | rfl <;> exact takes _ _ _
  · intro r hr k hk
    have : k = "id" := by simpa [schema] using hk
    subst this
    have : r = row 2 "" [] ∨ r = row 9 "" [] := by simpa using hr
    rcases this with rfl | rfl <;> exact ⟨by decide, _, rfl⟩

/-- C60 is false of transactions of a refresh that delete keys of which none is there: where no file can have them the
transaction fails and its rows are not added, though it has an effect in memory. -/
theorem C60_violated_refresh : ∃ tr σ sl σ', History env schema (tame env schema) tr σ ∧ Filled σ.w ∧
    σ.slots[0]? = some sl ∧ branchIn sl.h.branch σ ∧
    DeleteSafe (fun r => some (decide (schema.pks.map r.val ∈ keysOf schema [row 9 "" []]))) (headLayout schema sl.h σ.w) ∧
    Step env schema σ (.call 0 (.mutate (.sync 2 [1, 0] [row 9 "" []] (some [[[row 5 "e" []]]]))) (.job .failed)) σ' ∧
    ∀ ds m, ds.map (fun d => (d.on, d.call)) = tr → Mem.new.deeds env.I schema σ.w.fs ds = some m →
      ∃ num, m.next ≤ num ∧ (m.deed env.I schema σ.w.fs
        ⟨sl.h.branch, .mutate (.sync 2 [1, 0] [row 9 "" []] (some [[[row 5 "e" []]]])), num⟩).isSome := by
  obtain ⟨σ, sl, σ', h1, h2, h3, h4, h5, -, h7⟩ := refreshing_of (gone := [row 9 "" []])
    (mu := .sync 2 [1, 0] [row 9 "" []] (some [[[row 5 "e" []]]])) (res := .job .failed)
    (by decide +kernel) (fun _ => trivial)
  refine ⟨_, σ, sl, σ', h1, h2, h3, Or.inl h4, h5, h7, fun ds m hd hm => ⟨m.next, Nat.le_refl _, ?_⟩⟩
  rw [h4]
  match ds, hd with
  | [⟨_, _, n1⟩], hd =>
    simp only [List.map_cons, List.map_nil, List.cons.injEq, Prod.mk.injEq, and_true] at hd
    obtain ⟨rfl, rfl⟩ := hd
    obtain ⟨m1, e1, hm⟩ := deeds_cons hm
    cases hm
    obtain ⟨old, new, -, -, -, e5⟩ := deed_mutate e1
    simp [Mem.deed, e5, effect, effect.sync]

end Space
