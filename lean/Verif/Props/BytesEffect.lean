import Verif.BytesEffect
import Verif.Props.StatsEffect

/-!
# C36: by how much each mutation gets the byte counts wrong
-/

set_option autoImplicit false

namespace Space

open Demo List

/-- The snapshot at the head of branch `b`. -/
def HeadAt (σ : Sys) (b : String) (snap : Snapshot) : Prop :=
  ∃ md, σ.w.stored = some md ∧ md.target b none = .ok snap

theorem headAt_of {σ : Sys} {h : Handle} {snap : Snapshot} (hh : headOf h σ.w = some snap) :
    HeadAt σ h.branch snap := by
  unfold headOf at hh
  cases hm : σ.w.stored with
  | none => rw [hm] at hh; cases hh
  | some md =>
    rw [hm] at hh
    simp only [Option.bind_some] at hh
    cases ht : md.target h.branch none with
    | error e => rw [ht] at hh; cases hh
    | ok x =>
      rw [ht] at hh
      cases hh
      exact ⟨md, hm, ht⟩

/-- How much the statistics of a snapshot count beyond the sizes of the files it lists. -/
def excess (fs : FS) (k : Size) (snap : Snapshot) : Int :=
  k.stat snap.stats - ((snap.index.flatMap (entriesOf fs)).map k.entry).sum

/-- C36, one step, whatever the layout: what every mutation adds to the error of the compressed
and of the uncompressed byte count.  Appends, inserts and loads add none; deletes, upserts and
refreshes add the error given by what the delete does with each listed file. -/
theorem C36_effect {E : Env} {s : Schema} (hn : s.names.Nodup) {i : Nat} {m : Mutation} {σ σ' : Sys}
    (h : Done E s i m σ σ') :
    ∃ sl cur snap, σ.slots[i]? = some sl ∧ HeadAt σ sl.h.branch cur ∧ HeadAt σ' sl.h.branch snap ∧
      ∀ k, m.DriftsBy E.I s σ.w.fs cur.index k (excess σ'.w.fs k snap - excess σ.w.fs k cur) := by
  obtain ⟨sl, sl', w, h1, w1, p, cur, snap, hl, -⟩ := h.landing hn
  refine ⟨sl, cur, snap, hl.slot, headAt_of hl.succ.head, hl.branch ▸ headAt_of hl.succ.head', fun k => ?_⟩
  obtain ⟨d, hd, hm⟩ := hl.succ.drift hn k
  have hc : cur.index.flatMap (entriesOf σ.w.fs) = cur.index.flatMap (entriesOf w.fs) :=
    entries_mono hl.succ.earlier hl.succ.curOK.manifests
  have : excess σ'.w.fs k snap - excess σ.w.fs k cur = d := by
    unfold excess
    rw [hc]
    unfold Drifted Size.sum snapEntries at hd
    omega
  rw [this]
  exact hm.mono hl.succ.earlier hl.succ.curOK

/-- The excess of the compressed byte count at the head of main. -/
def Demo.mainExcess (σ : Sys) : Option Int :=
  σ.w.stored.bind (fun md => match md.target mainBranch none with
    | .error _ => none
    | .ok snap => some (excess σ.w.fs .compressed snap))

/-- A delete of rows 5 and 6, which are alone in their files.  A file of four bytes in the first
manifest is not looked into and lost: eight bytes are counted, none is listed. -/
example : ∃ σ σ', Done env schema 0 (.delete (idIs "gt" 4)) σ σ' ∧ mainExcess σ = some 0 ∧ mainExcess σ' = some 8 := by
  let as : List Act := [.call 0 (.mutate (.append [[row 1 "a" [1], row 2 "b" [2], row 3 "c" [3], row 4 "d" [4]],
    [row 5 "e" [5]]])), .call 0 (.mutate (.append [[row 6 "a" [1]]]))]
  obtain ⟨e, hst⟩ := doing_step (E := env) (s := schema) (σ := after env soloB schema as)
    (a := .call 0 (.mutate (.delete (idIs "gt" 4)))) (o := .res (.job .succeeded)) (by decide +kernel)
  have hr : Reach env schema solo (after env soloB schema as) := after_reach soloB_solo _
  exact ⟨_, _, .call (hr.imp (fun _ _ _ => trivial)) hst, by decide +kernel, by decide +kernel⟩

/-- A delete of the Ray runner. -/
example : ∃ σ σ', Done env schema 0 (.rayDelete (idIn 3 6)) σ σ' ∧ mainExcess σ = some 0 ∧ mainExcess σ' = some 4 := by
  let as : List Act := [.call 0 (.mutate (.append [[row 1 "a" [1], row 2 "b" [2], row 3 "c" [3], row 4 "d" [4]],
    [row 5 "e" [5]]])), .call 0 (.mutate (.append [[row 6 "a" [1]]]))]
  obtain ⟨e, hst⟩ := doing_step (E := env) (s := schema) (σ := after env soloB schema as)
    (a := .call 0 (.mutate (.rayDelete (idIn 3 6)))) (o := .res (.job .succeeded)) (by decide +kernel)
  have hr : Reach env schema solo (after env soloB schema as) := after_reach soloB_solo _
  exact ⟨_, _, .call (hr.imp (fun _ _ _ => trivial)) hst, by decide +kernel, by decide +kernel⟩

/-- The fates of two files in two manifests, of which the second is looked into in vain: one
byte too few. -/
example : localDrift [[⟨.index 1, 2, true, true, false⟩], [⟨.index 2, 1, true, false, false⟩]] = -1 := by decide

end Space
