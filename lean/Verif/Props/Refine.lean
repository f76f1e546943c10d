import Verif.RefineStep

/-!
# C51: one handle refines a table of versions in memory
-/

set_option autoImplicit false

namespace Space

open Demo
open List (Perm)
open scoped List

/-- Calls, one after the other, on the handle that created the table; `P` says which
calls may be made.  No empty Parquet file is there at the start.  Each call is listed with its result. -/
inductive Session (E : Env) (s : Schema) (P : Handle → World → Call → Prop) : List (Call × Result) → Sys → Prop
  | start {σ : Sys} (h0 : Started s σ) (hf : Filled σ.w) : Session E s P [] σ
  | call {tr : List (Call × Result)} {σ σ' : Sys} {sl : Slot} {c : Call} {r : Result} (h : Session E s P tr σ)
      (hsl : σ.slots[0]? = some sl) (hp : P sl.h σ.w c) (hst : Step E s σ (.call 0 c r) σ') :
      Session E s P (tr ++ [(c, r)]) σ'

/-- Answers that results mean, one by one. -/
def Agree : List Ans → List Result → Prop
  | [], [] => True
  | a :: as, r :: rs => a.means r ∧ Agree as rs
  | _, _ => False

/-- A read of the table and a read of the memory: rows up to their order, or no such
version. -/
def SameRead (x : Except Err (List Row)) (y : Option (List Row)) : Prop :=
  (∃ rows rows', x = .ok rows ∧ y = some rows' ∧ rows ~ rows') ∨ ((∃ e, x = .error e) ∧ y = none)

theorem Mem.calls_snoc (I : Interp) (s : Schema) : ∀ (m : Mem) (cs : List Call) (c : Call),
    m.calls I s (cs ++ [c]) =
      ((m.calls I s cs).1 ++ [((m.calls I s cs).2.call I s c).1], ((m.calls I s cs).2.call I s c).2)
  | m, [], c => rfl
  | m, d :: cs, c => by
    simp only [List.cons_append, Mem.calls]
    rw [Mem.calls_snoc I s _ cs c]

theorem Agree.snoc : ∀ {as : List Ans} {rs : List Result} {a : Ans} {r : Result}, Agree as rs → a.means r →
    Agree (as ++ [a]) (rs ++ [r])
  | [], [], _, _, _, h => ⟨h, trivial⟩
  | _ :: _, _ :: _, _, _, h, h' => ⟨h.1, h.2.snoc h'⟩
  | [], _ :: _, _, _, h, _ => h.elim
  | _ :: _, [], _, _, h, _ => h.elim

theorem Session.reach {E : Env} {s : Schema} {P : Handle → World → Call → Prop} {tr : List (Call × Result)} {σ : Sys}
    (h : Session E s P tr σ) : Reach E s anyStep σ := by
  induction h with
  | start h0 _ => exact ⟨_, h0, .refl _⟩
  | call h _ _ hst ih =>
    obtain ⟨σ0, h0, hr⟩ := ih
    exact ⟨σ0, h0, hr.trans (.step (.refl _) trivial hst)⟩

theorem Session.filled {E : Env} {s : Schema} (hn : s.names.Nodup) {P : Handle → World → Call → Prop}
    {tr : List (Call × Result)} {σ : Sys} (h : Session E s P tr σ) : Filled σ.w := by
  induction h with
  | start _ hf => exact hf
  | call h _ _ hst ih =>
    obtain ⟨md, hok⟩ := reach_ok hn h.reach
    exact step_filled hn hok hst (by simp [Event.slot]) ih

theorem Session.sim {E : Env} {s : Schema} (hk : KeySchema s) (hlast : s.writeNames = s.names)
    {tr : List (Call × Result)} {σ : Sys} (h : Session E s (Fine E s) tr σ) :
    ∃ hd, Sim E s (Mem.new.calls E.I s (tr.map (·.1))).2 σ hd ∧
      Agree (Mem.new.calls E.I s (tr.map (·.1))).1 (tr.map (·.2)) := by
  induction h with
  | start h0 _ =>
    obtain ⟨hd, hs⟩ := Sim.new (E := E) h0
    exact ⟨hd, hs, trivial⟩
  | call h hsl hp hst ih =>
    obtain ⟨hd, hs, ha⟩ := ih
    rw [hs.slot] at hsl
    cases hsl
    obtain ⟨h', h1, h2⟩ := hs.step hk hlast h.reach (h.filled hk.names) hp hst
    rw [List.map_append, List.map_append]
    simp only [List.map_cons, List.map_nil]
    rw [Mem.calls_snoc]
    exact ⟨h', h1, ha.snoc h2⟩

/-- C51 for schemas with record columns last and calls that are `Fine`: in every
sequence of appends, inserts, upserts, deletes, tag and branch calls on one handle the
results are what the table in memory answers, and every read, of any version, by any
filter and columns that fit, returns the rows the table in memory has, up to their
order, or fails where there is no such version.  Missing: deletes by filters that are null on some row,
and deletes and upserts on layouts where files get lost (`C51_violated`). -/
theorem C51_partial {E : Env} {s : Schema} (hk : KeySchema s) (hlast : s.writeNames = s.names)
    {tr : List (Call × Result)} {σ : Sys} (h : Session E s (Fine E s) tr σ) :
    Agree (Mem.new.calls E.I s (tr.map (·.1))).1 (tr.map (·.2)) ∧
      ∀ sl ∈ σ.slots, ∀ o v, ReadFits s o →
        SameRead (tableRead E sl.h σ.w o v) ((Mem.new.calls E.I s (tr.map (·.1))).2.read E.I s o v) := by
  obtain ⟨hd, hs, ha⟩ := h.sim hk hlast
  refine ⟨ha, fun sl hsl o v ho => ?_⟩
  rw [hs.slots] at hsl
  simp only [List.mem_singleton] at hsl
  subst hsl
  exact hs.read hlast ho v

/-- Every call that is `Fine` can be made. -/
theorem C51_runs {E : Env} {s : Schema} (hk : KeySchema s) (hlast : s.writeNames = s.names)
    {tr : List (Call × Result)} {σ : Sys} (h : Session E s (Fine E s) tr σ) :
    ∃ sl, σ.slots = [sl] ∧ ∀ c, Fine E s sl.h σ.w c → ∃ r σ', Session E s (Fine E s) (tr ++ [(c, r)]) σ' := by
  obtain ⟨hd, hs, -⟩ := h.sim hk hlast
  refine ⟨_, hs.slots, fun c hc => ?_⟩
  have hadm : c.Admissible s σ.w.fs := by
    cases c with
    | mutate m => cases m <;> first | trivial | exact hc.elim
    | _ => trivial
  exact ⟨_, _, .call h hs.slot hc (.call (h' := (exec E c hd σ.w).2.1) (w' := (exec E c hd σ.w).2.2)
    (w := σ.w) (slots := σ.slots) hs.slot hadm rfl)⟩

/-- Which deletes agree: after a session of calls that are `Fine`, a delete by a filter that fits and is null
on no row leaves what the table in memory has if and only if a file with a row to go and a row to stay is there, or
each manifest with a row to go has only rows to go. -/
theorem C51_delete {E : Env} {s : Schema} (hk : KeySchema s) (hlast : s.writeNames = s.names)
    {tr : List (Call × Result)} {σ σ' : Sys} (h : Session E s (Fine E s) tr σ) {sl : Slot} (hsl : sl ∈ σ.slots)
    {e : Expr} (he : FilterFits s e)
    (hnn : ∀ r ∈ (headLayout s sl.h σ.w).flatten.flatten, e.truth E.I r ≠ none) {r : Result}
    (hst : Step E s σ (.call 0 (.mutate (.delete e)) r) σ') :
    (∀ sl' ∈ σ'.slots, SameRead (tableRead E sl'.h σ'.w {} none)
      ((Mem.new.calls E.I s (tr.map (·.1) ++ [.mutate (.delete e)])).2.read E.I s {} none)) ↔
    Spared (e.truth E.I) (headLayout s sl.h σ.w) := by
  obtain ⟨hd, hs, -⟩ := h.sim hk hlast
  rw [hs.slots] at hsl
  simp only [List.mem_singleton] at hsl
  subst hsl
  constructor
  · intro hread
    rw [Mem.calls_snoc] at hread
    exact hs.delete_spared hk hlast h.reach (h.filled hk.names) he hnn hst hread
  · intro hsp sl' hsl'
    have := (C51_partial hk hlast (.call h hs.slot (show Fine E s hd σ.w (.mutate (.delete e)) from ⟨he, hsp, hnn⟩) hst)).2
      sl' hsl' {} none ⟨by simp, by simp, rfl⟩
    simpa using this

/-- Which upserts agree: after a session of calls that are `Fine`, an upsert of rows that fit, with
different keys, leaves what the table in memory has if and only if a file with a row to be replaced and a row to stay is
there, or each manifest with a row to be replaced has only such rows. -/
theorem C51_upsert {E : Env} {s : Schema} (hk : KeySchema s) (hlast : s.writeNames = s.names)
    {tr : List (Call × Result)} {σ σ' : Sys} (h : Session E s (Fine E s) tr σ) {sl : Slot} (hsl : sl ∈ σ.slots)
    {rows : List Row} (hfit : ∀ r ∈ rows, Takes s r) (hnil : rows ≠ []) (hd : (rows.map (fun r => s.pks.map r.val)).Nodup)
    {r : Result} (hst : Step E s σ (.call 0 (.mutate (.upsert rows)) r) σ') :
    (∀ sl' ∈ σ'.slots, SameRead (tableRead E sl'.h σ'.w {} none)
      ((Mem.new.calls E.I s (tr.map (·.1) ++ [.mutate (.upsert rows)])).2.read E.I s {} none)) ↔
    Spared (fun r => some (decide (s.pks.map r.val ∈ rows.map (fun r => s.pks.map r.val)))) (headLayout s sl.h σ.w) := by
  obtain ⟨hd', hs, -⟩ := h.sim hk hlast
  rw [hs.slots] at hsl
  simp only [List.mem_singleton] at hsl
  subst hsl
  constructor
  · intro hread
    rw [Mem.calls_snoc] at hread
    exact hs.upsert_spared hk hlast h.reach (h.filled hk.names) hfit hnil hd hst hread
  · intro hsp sl' hsl'
    have := (C51_partial hk hlast (.call h hs.slot (show Fine E s hd' σ.w (.mutate (.upsert rows)) from ⟨hfit, hsp⟩) hst)).2
      sl' hsl' {} none ⟨by simp, by simp, rfl⟩
    simpa using this

/-! ## Examples -/

/-- Decides `Takes`. -/
def Demo.takesB (s : Schema) (r : Row) : Bool :=
  s.names.all (fun c => r.cols.contains c) &&
  s.fields.all (fun f => if s.recs.contains f.name then (match r.val f.name with | .sc (.bytes _) => true | _ => false)
    else f.ty.accepts (r.val f.name)) &&
  s.pks.all (fun k => match r.val k with | .sc v => v != .nan | _ => false)

theorem Demo.takesB_takes {s : Schema} {r : Row} (h : takesB s r = true) : Takes s r := by
  simp only [takesB, Bool.and_eq_true, List.all_eq_true] at h
  obtain ⟨⟨h1, h2⟩, h3⟩ := h
  refine ⟨fun c hc => by simpa using h1 c hc, fun f hf hr => ?_, fun f hf hr => ?_, fun k hk => ?_⟩
  · have := h2 f hf
    rwa [if_neg (by simpa using hr)] at this
  · have := h2 f hf
    rw [if_pos (by simpa using hr)] at this
    split at this
    · exact ⟨_, by assumption⟩
    · cases this
  · have := h3 k hk
    split at this
    · exact ⟨_, by assumption, by simpa using this⟩
    · cases this

/-- Decides `Spared`. -/
def Demo.sparedB (truth : Row → Option Bool) (lay : List (List (List Row))) : Bool :=
  lay.any (fun man => man.any fun file => file.any (fun r => truth r == some true) && file.any (fun r => truth r == some false)) ||
  lay.all (fun man => !(man.any fun file => file.any fun r => truth r == some true) ||
    man.all fun file => file.all fun r => truth r == some true)

theorem Demo.sparedB_spared {truth : Row → Option Bool} {lay : List (List (List Row))} (h : sparedB truth lay = true) :
    Spared truth lay := by
  simp only [sparedB, Bool.or_eq_true, List.any_eq_true, List.all_eq_true, Bool.and_eq_true, beq_iff_eq,
    Bool.not_eq_true', List.any_eq_false] at h
  rcases h with ⟨man, hm, file, hf, ⟨r, hr, h1⟩, x, hx, h2⟩ | h
  · exact Or.inl ⟨man, hm, file, hf, ⟨r, hr, h1⟩, x, hx, h2⟩
  · refine Or.inr fun man hm ⟨file, hf, r, hr, h1⟩ => ?_
    rcases h man hm with h2 | h2
    · exact absurd ⟨r, hr, h1⟩ (h2 file hf)
    · exact h2

/-- Decides `Fine`. -/
def Demo.fineB (E : Env) (s : Schema) (h : Handle) (w : World) : Call → Bool
  | .mutate (.append tables) => tables.all (fun t => t.all (takesB s))
  | .mutate (.insert rows) => rows.all (takesB s)
  | .mutate (.upsert rows) => rows.all (takesB s) &&
      sparedB (fun r => some (decide (s.pks.map r.val ∈ rows.map (fun r => s.pks.map r.val)))) (headLayout s h w)
  | .mutate (.delete e) => fitsB s e && sparedB (e.truth E.I) (headLayout s h w) &&
      (headLayout s h w).flatten.flatten.all (fun r => e.truth E.I r != none)
  | .mutate _ => false
  | _ => true

theorem Demo.fineB_fine {E : Env} {s : Schema} {h : Handle} {w : World} {c : Call} (hc : fineB E s h w c = true) :
    Fine E s h w c := by
  cases c with
  | mutate m =>
    cases m with
    | append tables =>
      simp only [fineB, List.all_eq_true] at hc
      exact fun t ht r hr => takesB_takes (hc t ht r hr)
    | insert rows =>
      simp only [fineB, List.all_eq_true] at hc
      exact fun r hr => takesB_takes (hc r hr)
    | upsert rows =>
      simp only [fineB, List.all_eq_true, Bool.and_eq_true] at hc
      exact ⟨fun r hr => takesB_takes (hc.1 r hr), sparedB_spared hc.2⟩
    | delete e =>
      simp only [fineB, List.all_eq_true, Bool.and_eq_true] at hc
      exact ⟨fitsB_fits hc.1.1, sparedB_spared hc.1.2, fun r hr => by simpa using hc.2 r hr⟩
    | _ => cases hc
  | _ => trivial

/-- Calls on one handle while `ok` accepts them: the results, and the system. -/
def Demo.talk (E : Env) (ok : Handle → World → Call → Bool) : List Call → Handle × World →
    Option (List Result × Handle × World)
  | [], st => some ([], st)
  | c :: cs, st =>
    if ok st.1 st.2 c && plainCall c then
      match exec E c st.1 st.2 with
      | (r, h', w') => (talk E ok cs (h', w')).map (fun x => (r :: x.1, x.2))
    else none

theorem Demo.talk_session {E : Env} {s : Schema} {P : Handle → World → Call → Prop}
    {ok : Handle → World → Call → Bool} (hok : ∀ h w c, ok h w c = true → P h w c) :
    ∀ {cs : List Call} {tr : List (Call × Result)} {h h' : Handle} {w w' : World} {rs : List Result},
      Session E s P tr ⟨w, [⟨h, .idle⟩]⟩ → talk E ok cs (h, w) = some (rs, h', w') →
      Session E s P (tr ++ cs.zip rs) ⟨w', [⟨h', .idle⟩]⟩
  | [], tr, h, h', w, w', rs, hs, ht => by
    simp only [talk, Option.some.injEq, Prod.mk.injEq] at ht
    obtain ⟨rfl, rfl, rfl⟩ := ht
    simpa using hs
  | c :: cs, tr, h, h', w, w', rs, hs, ht => by
    simp only [talk] at ht
    split at ht
    · rename_i hc
      simp only [Bool.and_eq_true] at hc
      obtain ⟨⟨rs', h2, w2⟩, h3, h4⟩ := Option.map_eq_some_iff.mp ht
      simp only [Prod.mk.injEq] at h4
      obtain ⟨rfl, rfl, rfl⟩ := h4
      have hst : Session E s P (tr ++ [(c, (exec E c h w).1)])
          ⟨(exec E c h w).2.2, [⟨(exec E c h w).2.1, .idle⟩]⟩ :=
        .call hs rfl (hok _ _ _ hc.1) (.call (w := w) (slots := [⟨h, .idle⟩]) rfl (plainCall_adm hc.2 _ _) rfl)
      have := talk_session hok hst h3
      simpa using this
    · cases ht

/-- The calls of the example. -/
def Demo.chat : List Call :=
  [.mutate (.append [[row 1 "a" [1], row 2 "b" [2]], [], [row 3 "c" []]]),
   .addTag "v1" none,
   .mutate (.insert [row 2 "x" []]),
   .mutate (.insert [row 4 "d" [4], row 5 "e" [5]]),
   .addBranch "dev",
   .setBranch "dev",
   .mutate (.upsert [row 2 "B" [20], row 6 "f" []]),
   .addTag "v1" none,
   .setBranch "main",
   .mutate (.delete (idIs "gt" 4)),
   .mutate (.delete (idIs "gt" 100)),
   .removeBranch "dev",
   .mutate (.upsert [row 3 "C" [], row 3 "D" []]),
   .mutate (.append [[], []])]

/-- What they answer. -/
example : (Mem.new.calls env.I schema chat).1 =
    [.done, .done, .refused, .done, .done, .done, .done, .refused, .done, .done, .vain, .done, .refused, .skipped] := by
  decide +kernel

/-- A session of fourteen calls to which C51 applies. -/
example : ∃ rs σ, Session env schema (Fine env schema) (chat.zip rs) σ ∧ rs.length = chat.length := by
  cases h : talk env (fineB env schema) chat (start schema) with
  | none =>
    have : (talk env (fineB env schema) chat (start schema)).isSome = true := by decide +kernel
    rw [h] at this
    cases this
  | some x =>
    obtain ⟨rs, h', w'⟩ := x
    refine ⟨rs, _, talk_session (tr := []) (fun _ _ _ => fineB_fine) (.start (begun_started schema) begun_filled) h, ?_⟩
    have : (talk env (fineB env schema) chat (start schema)).map (fun x => x.1.length) = some chat.length := by
      decide +kernel
    rw [h] at this
    simpa using this

/-- The rows at the end, on `main` and at the tag. -/
example : (Mem.new.calls env.I schema chat).2.read env.I schema {} none =
      some [row 1 "a" [1], row 2 "b" [2], row 3 "c" [], row 4 "d" [4]] ∧
    (Mem.new.calls env.I schema chat).2.read env.I schema { filter := some (idIs "gt" 1), fields := some ["txt"] }
        (some (.name "v1")) = some [[("txt", .sc (.str "b"))], [("txt", .sc (.str "c"))]] ∧
    (Mem.new.calls env.I schema chat).2.read env.I schema {} (some (.name "dev")) = none := by
  refine ⟨?_, ?_, ?_⟩ <;> decide +kernel

/-- Two sessions and a delete and an upsert after each that meet the hypotheses of `C51_delete` and `C51_upsert`; after
the first the layout spares the rows, after the second it does not. -/
example : ∀ b : Bool, ∃ tr σ sl, Session env schema (Fine env schema) tr σ ∧ sl ∈ σ.slots ∧
    FilterFits schema (idIs "gt" 4) ∧
    (∀ r ∈ (headLayout schema sl.h σ.w).flatten.flatten, (idIs "gt" 4).truth env.I r ≠ none) ∧
    (∃ r σ', Step env schema σ (.call 0 (.mutate (.delete (idIs "gt" 4))) r) σ') ∧
    sparedB ((idIs "gt" 4).truth env.I) (headLayout schema sl.h σ.w) = b ∧
    (∀ r ∈ [row 5 "E" []], Takes schema r) ∧
    (∃ r σ', Step env schema σ (.call 0 (.mutate (.upsert [row 5 "E" []])) r) σ') ∧
    sparedB (fun r => some (decide (schema.pks.map r.val ∈ [row 5 "E" []].map (fun r => schema.pks.map r.val))))
      (headLayout schema sl.h σ.w) = b := by
  intro b
  have hfit : FilterFits schema (idIs "gt" 4) := fitsB_fits (by decide +kernel)
  have htake : ∀ r ∈ [row 5 "E" []], Takes schema r := by
    intro r hr
    simp only [List.mem_singleton] at hr
    subst hr
    exact takesB_takes (by decide +kernel)
  suffices hx : ∃ cs, (talk env (fineB env schema) cs (start schema)).map (fun x =>
      ((headLayout schema x.2.1 x.2.2).flatten.flatten.all (fun r => (idIs "gt" 4).truth env.I r != none),
        sparedB ((idIs "gt" 4).truth env.I) (headLayout schema x.2.1 x.2.2),
        sparedB (fun r => some (decide (schema.pks.map r.val ∈ [row 5 "E" []].map (fun r => schema.pks.map r.val))))
          (headLayout schema x.2.1 x.2.2))) = some (true, b, b) by
    obtain ⟨cs, hx⟩ := hx
    obtain ⟨⟨rs, h, w⟩, hx, hy⟩ := Option.map_eq_some_iff.mp hx
    simp only [Prod.mk.injEq, List.all_eq_true] at hy
    exact ⟨_, _, _, talk_session (tr := []) (fun _ _ _ => fineB_fine) (.start (begun_started schema) begun_filled) hx,
      List.mem_singleton.mpr rfl, hfit, fun r hr => by simpa using hy.1 r hr,
      ⟨_, _, .call (w := w) (slots := [⟨h, .idle⟩]) rfl trivial rfl⟩, hy.2.1, htake,
      ⟨_, _, .call (w := w) (slots := [⟨h, .idle⟩]) rfl trivial rfl⟩, hy.2.2⟩
  cases b with
  | true => exact ⟨[.mutate (.append [[row 1 "a" [1], row 2 "b" [2], row 5 "e" [5]], [row 3 "c" [3]]])], by decide +kernel⟩
  | false => exact ⟨[.mutate (.append [[row 1 "a" [1], row 2 "b" [2], row 3 "c" [3], row 4 "d" [4]], [row 5 "e" [5]]])],
      by decide +kernel⟩

/-- Sessions after which the table and the memory disagree, although the rows fit the
schema and have keys and the filters fit the schema. -/
def Demo.Differ (E : Env) (s : Schema) (P : Handle → World → Call → Prop) (cs : List Call) (rows rows' : List Row) : Prop :=
  ∃ tr σ, Session E s P tr σ ∧ tr.map (·.1) = cs ∧ (∀ sl ∈ σ.slots, tableRead E sl.h σ.w {} none = .ok rows) ∧
    (Mem.new.calls E.I s cs).2.read E.I s {} none = some rows' ∧ ¬ rows ~ rows'

theorem Demo.differ_of {E : Env} {s : Schema} {P : Handle → World → Call → Prop}
    {ok : Handle → World → Call → Bool} (hok : ∀ h w c, ok h w c = true → P h w c) {cs : List Call}
    {rows rows' : List Row} {rs : List Result}
    (h1 : (talk E ok cs (start s)).map (fun x => (x.1, decide (tableRead E x.2.1 x.2.2 {} none = .ok rows))) = some (rs, true))
    (h2 : rs.length = cs.length)
    (h3 : (Mem.new.calls E.I s cs).2.read E.I s {} none = some rows') (h4 : rows.length ≠ rows'.length) :
    Differ E s P cs rows rows' := by
  obtain ⟨⟨rs', h', w'⟩, ha, hb⟩ := Option.map_eq_some_iff.mp h1
  simp only [Prod.mk.injEq, decide_eq_true_eq] at hb
  obtain ⟨rfl, hb⟩ := hb
  refine ⟨_, _, talk_session (tr := []) hok (.start (begun_started s) begun_filled) ha, ?_, ?_, h3, fun hp => h4 hp.length_eq⟩
  · rw [List.nil_append, List.map_fst_zip (by omega)]
  · intro sl hsl
    simp only [List.mem_singleton] at hsl
    subst hsl
    exact hb

/-- Rows fit the schema and have keys; filters fit the schema. -/
def Fitting (s : Schema) (_ : Handle) (_ : World) : Call → Prop
  | .mutate (.append tables) => ∀ t ∈ tables, ∀ r ∈ t, Takes s r
  | .mutate (.insert rows) => ∀ r ∈ rows, Takes s r
  | .mutate (.upsert rows) => ∀ r ∈ rows, Takes s r
  | .mutate (.delete e) => FilterFits s e
  | .mutate _ => False
  | _ => True

/-- Decides `Fitting`. -/
def Demo.fittingB (s : Schema) (_ : Handle) (_ : World) : Call → Bool
  | .mutate (.append tables) => tables.all (fun t => t.all (takesB s))
  | .mutate (.insert rows) => rows.all (takesB s)
  | .mutate (.upsert rows) => rows.all (takesB s)
  | .mutate (.delete e) => fitsB s e
  | .mutate _ => false
  | _ => true

theorem Demo.fittingB_fitting {s : Schema} (h : Handle) (w : World) (c : Call) (hc : fittingB s h w c = true) :
    Fitting s h w c := by
  cases c with
  | mutate m =>
    cases m with
    | append tables =>
      simp only [fittingB, List.all_eq_true] at hc
      exact fun t ht r hr => takesB_takes (hc t ht r hr)
    | insert rows =>
      simp only [fittingB, List.all_eq_true] at hc
      exact fun r hr => takesB_takes (hc r hr)
    | upsert rows =>
      simp only [fittingB, List.all_eq_true] at hc
      exact fun r hr => takesB_takes (hc r hr)
    | delete e => exact fitsB_fits hc
    | _ => cases hc
  | _ => trivial

/-- C51 is false: a delete of one row of five empties the table (the file without a
matching row goes with its manifest); an upsert does the same; and a delete takes a row
along on which its filter is null. -/
theorem C51_violated :
    Differ env schema (Fitting schema)
      [.mutate (.append [[row 1 "a" [1], row 2 "b" [2], row 3 "c" [3], row 4 "d" [4]], [row 5 "e" [5]]]),
        .mutate (.delete (idIs "gt" 4))] []
      [row 1 "a" [1], row 2 "b" [2], row 3 "c" [3], row 4 "d" [4]] ∧
    Differ env schema (Fitting schema)
      [.mutate (.append [[row 1 "a" [1], row 2 "b" [2], row 3 "c" [3], row 4 "d" [4]], [row 5 "e" [5]]]),
        .mutate (.upsert [row 5 "E" []])] [row 5 "E" []]
      [row 1 "a" [1], row 2 "b" [2], row 3 "c" [3], row 4 "d" [4], row 5 "E" []] ∧
    Differ env schema (Fitting schema)
      [.mutate (.append [[row 1 "a" [1], rowNull 2 [2], row 3 "c" [3]]]),
        .mutate (.delete (.bin "equal" (.sel "txt") (.lit (.str "a"))))] [row 3 "c" [3]]
      [rowNull 2 [2], row 3 "c" [3]] :=
  ⟨differ_of (rs := [.job .succeeded, .job .succeeded]) fittingB_fitting (by decide +kernel) rfl (by decide +kernel) (by decide),
   differ_of (rs := [.job .succeeded, .job .succeeded]) fittingB_fitting (by decide +kernel) rfl (by decide +kernel) (by decide),
   differ_of (rs := [.job .succeeded, .job .succeeded]) fittingB_fitting (by decide +kernel) rfl (by decide +kernel) (by decide)⟩

end Space
