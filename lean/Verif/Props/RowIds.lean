import Verif.RowIds
import Verif.Props.Stats
import Verif.Props.Records

/-!
# C52: row ids of record addresses
-/

set_option autoImplicit false

namespace Space

open Demo

/-- Calm steps in which mutations that take effect have batches of at most `B` rows, and
user record files of at most `R` records. -/
def sized (B R : Nat) (σ : Sys) (ev : Event) : Prop :=
  calm σ ev ∧ ∀ i m sl, Lands σ ev i m → σ.slots[i]? = some sl → m.Sized B R σ.w.fs

/-- C52: let every value of a record column count at least `b` bytes.  If batches have at
most `B` rows and a record file of at most the size limit has room for another batch below
`R`, then in every history, in every version ever stored, every address in a record column
has a row id below `R`. -/
theorem C52 {E : Env} {s : Schema} (hn : s.names.Nodup) {b B R : Nat}
    (hsize : ∀ col, b * col.length ≤ E.columnBytes col) (hfit : ∀ n, b * n ≤ E.recMax → n + B ≤ R)
    {σ : Sys} (h : Reach E s (sized B R) σ) {md : Metadata} (hmd : σ.w.stored = some md) {n : Nat}
    {snap : Snapshot} (hsn : md.snaps.get? n = some snap) :
    ∀ r ∈ physRows σ.w.fs snap.index, ∀ c ∈ s.recs, ∀ p i, (c, Val.addr p i) ∈ r → i < R := by
  have := snaps_invariant (E := E) hn (P := sized B R) (fun h => h.1)
    (Good := fun fs snap => ∀ r ∈ physRows fs snap.index, Below s R r)
    (fun {fs fs' snap} hf hok hg => by rw [physRows_mono hf hok.manifests]; exact hg)
    (fun fs r hr => by simp [physRows] at hr)
    (fun hp hlands hl hcur => hl.succ.below ⟨hsize, hfit⟩ hn (hp.2 _ _ _ hlands hl.slot) hcur)
    h hmd hsn
  exact fun r hr c hc p i hm => this r hr c p i hc hm

/-- C52 with numbers: 4 bytes per value at least (Arrow's offsets), a size limit of at most
2^32 bytes, and batches of at most 2^30 rows keep row ids below 2^31. -/
theorem C52_int32 {E : Env} {s : Schema} (hn : s.names.Nodup)
    (hsize : ∀ col, 4 * col.length ≤ E.columnBytes col) (hmax : E.recMax ≤ 2 ^ 32)
    {σ : Sys} (h : Reach E s (sized (2 ^ 30) (2 ^ 31)) σ) {md : Metadata} (hmd : σ.w.stored = some md) {n : Nat}
    {snap : Snapshot} (hsn : md.snaps.get? n = some snap) :
    ∀ r ∈ physRows σ.w.fs snap.index, ∀ c ∈ s.recs, ∀ p i, (c, Val.addr p i) ∈ r → i < 2 ^ 31 :=
  C52 hn hsize (fun n hb => by omega) h hmd hsn

/-- The condition on the batch size is needed: one batch gives row ids up to its size,
whatever the size limit. -/
example : ∃ σ σ' : Sys, Done env schema 0 (.append [[row 1 "a" [1], row 2 "b" [2], row 3 "c" [3], row 4 "d" [4]]]) σ σ' ∧
    σ'.slots.map (fun sl => (headOf sl.h σ'.w).map (fun c => (physRows σ'.w.fs c.index).map (fun r => match r.val "img" with
      | .addr _ i => i
      | _ => 0))) = [some [0, 1, 2, 3]] := by
  let σ := after env anyB schema []
  let m : Mutation := .append [[row 1 "a" [1], row 2 "b" [2], row 3 "c" [3], row 4 "d" [4]]]
  obtain ⟨e, hst⟩ := doing_step (E := env) (s := schema) (σ := σ) (a := .call 0 (.mutate m))
    (o := .res (.job .succeeded)) (by decide +kernel)
  exact ⟨σ, _, .call (after_reach (fun _ _ _ => trivial) _) hst, by decide +kernel⟩

/-- Decides `sized`, for histories without user record files. -/
def Demo.sizedB (B : Nat) (σ : Sys) (ev : Event) : Bool :=
  calmB σ ev && landsB (fun _ m => match m with
    | .append ts => ts.all (fun t => decide (t.length ≤ B))
    | .insert d => decide (d.length ≤ B)
    | .upsert d => decide (d.length ≤ B)
    | .rayAppend _ _ d => decide (d.length ≤ B)
    | .rayAppendFrom _ _ ss => ss.all (fun src => src.all (fun t => decide (t.length ≤ B)))
    | .rayInsert _ _ _ d => decide (d.length ≤ B)
    | .appendArrayRecord _ _ => false
    | .sync _ _ _ _ => false
    | _ => true) σ ev

theorem Demo.sizedB_sized {B R : Nat} (σ : Sys) (ev : Event) (h : sizedB B σ ev = true) : sized B R σ ev := by
  simp only [sizedB, Bool.and_eq_true] at h
  refine ⟨calmB_calm _ _ h.1, fun i m sl hl hsl => ?_⟩
  have := landsB_lands h.2 hl hsl
  cases m with
  | append ts => simpa [Mutation.Sized] using this
  | insert d => simpa [Mutation.Sized] using this
  | upsert d => simpa [Mutation.Sized] using this
  | rayAppend n sched d => simpa [Mutation.Sized] using this
  | rayAppendFrom n sched ss => simpa [Mutation.Sized] using this
  | rayInsert mode n sched d => simpa [Mutation.Sized] using this
  | appendArrayRecord fn files => cases this
  | sync n sched gone added => cases this
  | _ => trivial

/-- Batches of at most 3 rows, one byte per value, and a limit of 2 bytes per record file keep
row ids below 5; the row ids of the last version are 0 to 3 of one file and 0 of another. -/
example : ∃ σ, Reach env schema (sized 3 5) σ ∧ (∀ col, 1 * col.length ≤ env.columnBytes col) ∧
    (∀ n, 1 * n ≤ env.recMax → n + 3 ≤ 5) ∧
    σ.slots.map (fun sl => (headOf sl.h σ.w).map (fun c => (physRows σ.w.fs c.index).map (fun r => match r.val "img" with
      | .addr _ i => i
      | _ => 0))) = [some [0, 1, 2, 3, 0]] := by
  let σ := after env (sizedB 3) schema [.call 0 (.mutate (.append [[row 1 "a" [1]], [row 2 "b" [2], row 3 "c" [3], row 4 "d" [4]]])),
    .call 0 (.mutate (.rayInsert .insert 2 [] [row 5 "e" [5]]))]
  exact ⟨σ, after_reach sizedB_sized _, by simp [env], by intro n h; simp [env] at h; omega, by decide +kernel⟩

end Space
