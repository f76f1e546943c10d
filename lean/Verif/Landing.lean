import Verif.RowEffects

/-!
# Mutations that take effect in interleaved executions
-/

namespace Space

/-- Tidy steps that remove no reference while a mutation on the branch of that name
is under way. -/
def calm (σ : Sys) (ev : Event) : Prop :=
  tidy σ ev ∧ ∀ j b r, ev = .call j (.removeBranch b) r ∨ ev = .call j (.removeTag b) r →
    ∀ sl ∈ σ.slots, sl.phase ≠ .idle → sl.h.branch ≠ b

/-- Handle `i` commits the mutation `m` in this step: a whole call, or the commit of a
mutation that was started and computed earlier. -/
def Lands (σ : Sys) (ev : Event) (i : Nat) (m : Mutation) : Prop :=
  ev = .call i (.mutate m) (.job .succeeded) ∨
    (ev = .commit i (.ok .succeeded) ∧ ∃ sl t p, σ.slots[i]? = some sl ∧ sl.phase = .ready t m p)

/-- The transaction of a slot. -/
def Phase.txn : Phase → Option Txn
  | .idle => none
  | .begun t _ => some t
  | .ready t _ _ => some t
  | .checked t _ _ => some t

/-- During a mutation its branch stays, advances only, and the snapshot it started from
is not replaced. -/
def Steady (md : Metadata) (sl : Slot) : Prop :=
  ∀ t, sl.phase.txn = some t → sl.h.branch = t.branch ∧ ∃ n, md.currentId t.branch = .ok n ∧ t.start ≤ n ∧
    md.snaps.get? t.start = sl.h.md.snaps.get? t.start

theorem Change.steady {fs0 : FS} {σ : Sys} {ev : Event} {fs' : FS} {md md' : Metadata} (hok : MdOK fs0 md)
    (h : Change σ ev fs' md md') {sl : Slot} (hs : Steady md sl)
    (hk : sl.phase ≠ .idle → ∀ j r, ev ≠ .call j (.removeBranch sl.h.branch) r ∧
      ev ≠ .call j (.removeTag sl.h.branch) r) : Steady md' sl := by
  intro t ht
  obtain ⟨hb, n, h1, h2, h3⟩ := hs t ht
  have hni : sl.phase ≠ .idle := by
    intro hc
    rw [hc] at ht
    cases ht
  have hle : n ≤ md.maxRefId := Live.le hok (currentId_live h1)
  have hkeep : md'.snaps.get? t.start = md.snaps.get? t.start := h.keep (by omega)
  refine ⟨hb, ?_⟩
  rw [hkeep]
  cases h with
  | same eq => subst eq; exact ⟨n, h1, h2, h3⟩
  | commit b p k cur snap com new =>
    by_cases hbb : t.branch = b
    · subst hbb
      exact ⟨k, com.newHead, by omega, h3⟩
    · exact ⟨n, by rw [com.otherHead hbb]; exact h1, h2, h3⟩
  | addRef name kind k can eq =>
    subst eq
    refine ⟨n, ?_, h2, h3⟩
    unfold Metadata.currentId Metadata.lookupRef at h1 ⊢
    split at h1
    · rename_i hm
      rw [if_pos hm]
      exact h1
    · rename_i hm
      rw [if_neg hm]
      simp only at h1 ⊢
      rw [AMap.get?_set_ne]
      · exact h1
      · intro he
        rw [he, can.unused] at h1
        cases h1
  | removeRef name kind k was eq call =>
    subst eq
    refine ⟨n, ?_, h2, h3⟩
    have hne : name ≠ t.branch := by
      rintro rfl
      rw [← hb] at call
      obtain ⟨i, r, ⟨-, hc⟩ | ⟨-, hc⟩⟩ := call
      · exact (hk hni i r).2 hc
      · exact (hk hni i r).1 hc
    unfold Metadata.currentId Metadata.lookupRef at h1 ⊢
    split at h1
    · rename_i hm
      rw [if_pos hm]
      exact h1
    · rename_i hm
      rw [if_neg hm]
      simp only at h1 ⊢
      rw [AMap.get?_erase_ne _ (fun he => hne he.symm)]
      exact h1

/-- What holds in calm histories. -/
def Calm (E : Env) (s : Schema) (σ : Sys) : Prop :=
  ∃ md, SysOK E s σ md ∧ ∀ sl ∈ σ.slots, Steady md sl

theorem Calm.step {E : Env} {s : Schema} (hn : s.names.Nodup) {σ σ' : Sys} {ev : Event}
    (h : Calm E s σ) (hp : calm σ ev) (hs : Step E s σ ev σ') : Calm E s σ' := by
  obtain ⟨md, hok, hst⟩ := h
  obtain ⟨md', hok', -, hch, hq, -⟩ := step_full hn hok hs
  refine ⟨md', hok', ?_⟩
  have hc := hch hp.1
  have old : ∀ sl ∈ σ.slots, Steady md' sl := by
    intro sl hsl
    refine hc.steady hok.wok.ok (hst sl hsl) fun hni j r => ⟨?_, ?_⟩
    · intro he
      exact hp.2 j _ r (Or.inl he) sl hsl hni rfl
    · intro he
      exact hp.2 j _ r (Or.inr he) sl hsl hni rfl
  have idle : ∀ x : Handle, Steady md' ⟨x, .idle⟩ := by
    intro x t ht
    cases ht
  have set : ∀ (slots : List Slot) (i : Nat) (x : Slot), (∀ sl ∈ slots, Steady md' sl) → Steady md' x →
      ∀ sl ∈ slots.set i x, Steady md' sl := by
    intro slots i x h1 h2 sl hsl
    rcases List.mem_or_eq_of_mem_set hsl with h | rfl
    · exact h1 sl h
    · exact h2
  cases hs with
  | load =>
    intro sl hsl
    rcases List.mem_append.mp hsl with hsl | hsl
    · exact old sl hsl
    · simp only [List.mem_singleton] at hsl
      subst hsl
      exact idle _
  | call => exact set _ _ _ old (idle _)
  | @begin w slots i h m t h' w' hi he =>
    refine set _ _ _ old ?_
    have e := hq .begin
    subst e
    have := enter_post hok.wok (hok.slot (List.mem_of_getElem? hi))
    simp only at this
    rw [he] at this
    obtain ⟨a1, a2, a3, a4, a5, a6, a7, a8⟩ := this
    intro t' ht
    cases ht
    exact ⟨a3.trans a6.symm, _, by rw [a6]; exact a7, Nat.le_refl _, by simp only at a2 ⊢; rw [a2]⟩
  | beginFail => exact set _ _ _ old (idle _)
  | @compute w slots i h t m p w' hi hadm hb =>
    refine set _ _ _ old ?_
    have := old _ (List.mem_of_getElem? hi)
    exact this
  | computeFail => exact set _ _ _ old (idle _)
  | commit => exact set _ _ _ old (idle _)
  | check => exact absurd hp.1.1 id
  | write => exact absurd hp.1.1 id
  | external => exact old
  | orphans => exact old

theorem calm_ok {E : Env} {s : Schema} (hn : s.names.Nodup) {σ : Sys} (hr : Reach E s calm σ) :
    Calm E s σ := by
  obtain ⟨σ0, h0, h⟩ := hr
  obtain ⟨md0, h1⟩ := started_ok (E := E) h0
  refine Run.invariant (I := Calm E s) (fun h hp hs => h.step hn hp hs) ⟨md0, h1, ?_⟩ h
  obtain ⟨w0, x, -, -, hsl⟩ := h0
  rw [hsl]
  intro sl hm
  simp only [List.mem_singleton] at hm
  subst hm
  intro t ht
  cases ht

theorem snapRows_mono' {fs fs' : FS} {s : Schema} {snap : Snapshot} (hf : FSLe fs fs')
    (h : SnapOK fs s snap) : snapRows fs' s snap = snapRows fs s snap := snapRows_mono hf h

/-- A mutation that takes effect: handle `sl` before and `sl'` after. -/
structure Landing (E : Env) (s : Schema) (m : Mutation) (i : Nat) (σ σ' : Sys) (sl sl' : Slot)
    (w : World) (h1 : Handle) (w1 : World) (p : Patch) (cur snap : Snapshot) : Prop where
  slot : σ.slots[i]? = some sl
  slot' : σ'.slots[i]? = some sl'
  branch : sl'.h.branch = sl.h.branch
  succ : Success E s m sl.h σ.w w sl'.h σ'.w h1 w1 p cur snap

/-- A whole call, in any history. -/
theorem landed_call {E : Env} {s : Schema} (hn : s.names.Nodup) {σ σ' : Sys} {i : Nat} {m : Mutation}
    (hr : Reach E s anyStep σ) (hs : Step E s σ (.call i (.mutate m) (.job .succeeded)) σ') :
    ∃ sl sl' w h1 w1 p cur snap, Landing E s m i σ σ' sl sl' w h1 w1 p cur snap := by
  obtain ⟨md, hok⟩ := reach_ok hn hr
  cases hs with
  | @call w slots i h c r h' w' hi hadm hrun =>
    obtain ⟨h1, w1, p, cur, snap, hsucc⟩ := success_of hn hok.wok (hok.slot (List.mem_of_getElem? hi)) hadm hrun
    obtain ⟨hlt, -⟩ := List.getElem?_eq_some_iff.mp hi
    exact ⟨⟨h, .idle⟩, ⟨h', .idle⟩, w, h1, w1, p, cur, snap, hi, List.getElem?_set_self hlt, hsucc.branch, hsucc⟩

/-- A whole call or the commit of a mutation started earlier, in calm histories. -/
theorem landed {E : Env} {s : Schema} (hn : s.names.Nodup) {σ σ' : Sys} {ev : Event} {i : Nat} {m : Mutation}
    (hr : Reach E s calm σ) (hs : Step E s σ ev σ') (hl : Lands σ ev i m) :
    ∃ sl sl' w h1 w1 p cur snap, Landing E s m i σ σ' sl sl' w h1 w1 p cur snap := by
  rcases hl with rfl | ⟨rfl, sl, t, p, hsl, hph⟩
  · exact landed_call hn (hr.imp anyStep_of) hs
  obtain ⟨md, hok, hst⟩ := calm_ok hn hr
  cases hs with
  | @commit w slots _ h t' m' p' r h' w' hi hrun =>
    simp only at hsl
    rw [hi] at hsl
    cases hsl
    cases hph
    have hmem := List.mem_of_getElem? hi
    obtain ⟨hh, hb, hcur, hpok, w0, w1, hadm, hf0, hh0, hbody, hle⟩ := hok.slots _ hmem
    simp only at hh hb hcur hpok hh0 hbody hle
    have hpost := txnCommit_post (t := t) (p := p) hok.wok hh hpok
    simp only at hpost
    rw [hrun] at hpost
    obtain ⟨hbr, hx⟩ := hpost
    rcases hx with ⟨hx, -⟩ | ⟨-, hstart, q, h2, cur, snap, rfl, -, -, hstep⟩
    · exact absurd rfl hx
    obtain ⟨-, n, -, -, hsame⟩ := hst _ hmem t rfl
    simp only at hsame
    have com := hstep.com
    have hid : cur.id = t.start := by
      have := com.head
      rw [hstart] at this
      exact (Except.ok.inj this).symm
    have hget : h.md.snaps.get? t.start = some cur := by rw [← hsame, ← hid]; exact com.curGet
    obtain ⟨hlt, -⟩ := List.getElem?_eq_some_iff.mp hi
    refine ⟨⟨h, .ready t m (some q)⟩, ⟨h', .idle⟩, w0, h, w1, q, cur, snap, hi, List.getElem?_set_self hlt, hbr, ?_⟩
    have hbp := Post.elim (body_post (E := E) hf0 hh0 hn m hadm) hbody
    have ht : md.target h.branch none = .ok cur := by rw [hb]; exact target_head com.head com.curGet
    have ht' : h'.md.target h'.branch none = .ok snap := by
      rw [hbr, hb]; exact target_head com.newHead com.newSnap
    have hle0 : FSLe w0.fs w.fs := hbp.1.le.trans hle
    have hcur0 : SnapOK w0.fs s cur := by
      rw [← hh0.schema]
      exact hh0.ok.snaps _ _ hget
    have hsnap := (target_ok hstep.wok ht').1
    refine ⟨hle0, by simp [headOf, hok.wok.storedEq, ht, Except.toOption],
      by simp [headOf, hstep.wok.storedEq, ht', Except.toOption], ?_, ?_, hcur0, hsnap, hf0, hh0, hh0.schema,
      ?_, hbody, hbp.1, hle.trans hstep.le, (hbp.2.2 q rfl).1, com.index, com.recs, com.del, com.stats, com.log, com.parent,
      ⟨_, hstep.wok⟩, hstep.handle, hbr, hadm⟩
    · have := tableRead_full (E := E) hok.wok hh
      rw [this, ht]
      simp only
      rw [snapRows_mono hle0 hcur0]
    · rw [tableRead_full hstep.wok hstep.handle, ht']
    · simp [Handle.snapshot, hb, hcur, Metadata.snapshot, hget]

/-- Handle `i` commits the mutation `m` in a step from `σ` to `σ'`: by a whole call, in
any history at all; or by the commit of a mutation that was started and computed
before, other handles doing anything in between, in calm histories. -/
inductive Done (E : Env) (s : Schema) (i : Nat) (m : Mutation) (σ σ' : Sys) : Prop where
  | call : Reach E s anyStep σ → Step E s σ (.call i (.mutate m) (.job .succeeded)) σ' → Done E s i m σ σ'
  | commit {sl : Slot} {t : Txn} {p : Option Patch} : Reach E s calm σ → σ.slots[i]? = some sl →
      sl.phase = .ready t m p → Step E s σ (.commit i (.ok .succeeded)) σ' → Done E s i m σ σ'

/-- Every handle on branch `b` reads `rows`. -/
def Reads (E : Env) (σ : Sys) (b : String) (rows : List Row) : Prop :=
  ∀ sl ∈ σ.slots, sl.h.branch = b → tableRead E sl.h σ.w {} none = .ok rows

theorem Done.reach {E : Env} {s : Schema} {i : Nat} {m : Mutation} {σ σ' : Sys} (h : Done E s i m σ σ') :
    Reach E s anyStep σ ∧ ∃ ev, Step E s σ ev σ' := by
  cases h with
  | call h1 h2 => exact ⟨h1, _, h2⟩
  | commit h1 _ _ h2 => exact ⟨h1.imp anyStep_of, _, h2⟩

theorem Done.landing {E : Env} {s : Schema} (hn : s.names.Nodup) {i : Nat} {m : Mutation} {σ σ' : Sys}
    (h : Done E s i m σ σ') :
    ∃ sl sl' w h1 w1 p cur snap, Landing E s m i σ σ' sl sl' w h1 w1 p cur snap ∧
      Reads E σ sl.h.branch ((snapRows w.fs s cur).map (·.select s.writeNames)) ∧
      Reads E σ' sl.h.branch ((snapRows σ'.w.fs s snap).map (·.select s.writeNames)) := by
  have key : ∃ sl sl' w h1 w1 p cur snap, Landing E s m i σ σ' sl sl' w h1 w1 p cur snap := by
    cases h with
    | call h1 h2 => exact landed_call hn h1 h2
    | commit h1 h2 h3 h4 => exact landed hn h1 h4 (Or.inr ⟨rfl, _, _, _, h2, h3⟩)
  obtain ⟨hr, ev, hs⟩ := h.reach
  obtain ⟨md, hok⟩ := reach_ok hn hr
  obtain ⟨md', hok', -⟩ := step_full hn hok hs
  obtain ⟨sl, sl', w, h1, w1, p, cur, snap, hl⟩ := key
  refine ⟨sl, sl', w, h1, w1, p, cur, snap, hl, ?_, ?_⟩
  · intro a ha hb
    rw [← hl.succ.before]
    exact tableRead_agree hok.wok (hok.slots _ (List.mem_of_getElem? hl.slot)).1 hok.wok (hok.slots _ ha).1
      (FSLe.refl _) (by rw [hb])
  · intro a ha hb
    rw [← hl.succ.after]
    exact tableRead_agree hok'.wok (hok'.slots _ (List.mem_of_getElem? hl.slot')).1 hok'.wok (hok'.slots _ ha).1
      (FSLe.refl _) (by rw [hb, hl.branch])

/-- The rows of the head of the branch of a handle, by manifest and file. -/
def headLayout (s : Schema) (h : Handle) (w : World) : List (List (List Row)) :=
  match headOf h w with
  | some cur => layout w.fs s cur
  | none => []

theorem layout_mono {fs fs' : FS} {s : Schema} {cur : Snapshot} (hf : FSLe fs fs') (hok : SnapOK fs s cur) :
    layout fs' s cur = layout fs s cur := by
  unfold layout
  refine List.map_congr_left fun q hq => ?_
  obtain ⟨rows, h1, h2, h3⟩ := hok.manifests q hq
  rw [entriesOf_mono hf (hok.manifests q hq)]
  refine List.map_congr_left fun m hm => ?_
  have hm' := h3 m (by simpa [entriesOf, h1] using hm)
  rw [fileRows_mono hf hm']
  refine map_deref_mono hf.lookLe fun r hr => ?_
  obtain ⟨g, g1, g2, g3, g4⟩ := hm'
  exact (g4 r (by simpa [fileRows, g1] using hr)).2

/-- The layout of the rows before the commit. -/
theorem Landing.layout {E : Env} {s : Schema} {m : Mutation} {i : Nat} {σ σ' : Sys} {sl sl' : Slot}
    {w : World} {h1 : Handle} {w1 : World} {p : Patch} {cur snap : Snapshot}
    (hl : Landing E s m i σ σ' sl sl' w h1 w1 p cur snap) :
    headLayout s sl.h σ.w = Space.layout w.fs s cur := by
  unfold headLayout
  rw [hl.succ.head]
  exact layout_mono hl.succ.earlier hl.succ.curOK

/-- A calm step keeps the stored snapshots, or adds the result of a mutation. -/
theorem snaps_step {E : Env} {s : Schema} (hn : s.names.Nodup) {σ σ' : Sys} {ev : Event} {md : Metadata}
    (hr : Reach E s calm σ) (hmd : σ.w.stored = some md) (hp : calm σ ev) (hs : Step E s σ ev σ') :
    ∃ md', σ'.w.stored = some md' ∧ FSLe σ.w.fs σ'.w.fs ∧
      (md'.snaps = md.snaps ∨ ∃ i m n k sl sl' w h1 w1 p cur snap, Lands σ ev i m ∧
        Landing E s m i σ σ' sl sl' w h1 w1 p cur snap ∧ md.snaps.get? k = some cur ∧
        md'.snaps = md.snaps.set n snap) := by
  obtain ⟨md0, hok⟩ := reach_ok hn (hr.imp anyStep_of)
  have := hok.wok.storedEq.symm.trans hmd
  cases this
  obtain ⟨md', hok', hle, hch, -, -⟩ := step_full hn hok hs
  refine ⟨md', hok'.wok.storedEq, hle, ?_⟩
  cases hch hp.1 with
  | same eq => exact Or.inl (by rw [eq])
  | addRef name kind k can eq => exact Or.inl (by rw [eq])
  | removeRef name kind k was eq => exact Or.inl (by rw [eq])
  | commit b q n cur snap com new hc =>
    refine Or.inr ?_
    obtain ⟨i, sl, hsl, hb, hev⟩ := hc
    obtain ⟨m, hl⟩ : ∃ m, Lands σ ev i m := by
      rcases hev with ⟨m, rfl⟩ | rfl
      · exact ⟨m, Or.inl rfl⟩
      · cases hs with
        | commit hi hrun => exact ⟨_, Or.inr ⟨rfl, _, _, _, hi, rfl⟩⟩
    obtain ⟨sl0, sl', w, h1, w1, p, cur', snap', hl'⟩ := landed hn hr hs hl
    have := hl'.slot
    rw [hsl] at this
    cases this
    have hcur : cur' = cur := by
      have := hl'.succ.head
      simp only [headOf, hok.wok.storedEq, Option.bind_some, hb, target_head com.head com.curGet,
        Except.toOption, Option.some.injEq] at this
      exact this.symm
    have hsnap : snap' = snap := by
      have := hl'.succ.head'
      simp only [headOf, hok'.wok.storedEq, Option.bind_some, hl'.branch, hb, target_head com.newHead com.newSnap,
        Except.toOption, Option.some.injEq] at this
      exact this.symm
    subst hcur
    subst hsnap
    exact ⟨i, m, n, _, _, sl', w, h1, w1, p, cur', snap', hl, hl', com.curGet, com.snaps⟩

end Space
