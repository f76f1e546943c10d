import Verif.SourceLemmas
import Verif.Props.Serializers

/-!
# C64: a random access source gives the rows of the table
-/

set_option autoImplicit false

namespace Space

open Demo
open scoped List

/-! ## What is expected -/

/-- A cell as the user gets it: as stored, or through the deserialiser of its field. -/
def decode (deser : Bool) (sers : AMap String (FieldSer Val)) (f : String) (v : Val) : Except Err Val :=
  if deser then
    match sers.get? f with
    | some s => s.de v
    | none => .error .userInput
  else .ok v

/-- What the user gets for the values of the feature fields: of a single field its value, of
several fields a dictionary. -/
def valueOrDict {α : Type} (m : AMap String α) : Item α :=
  if h : m.length = 1 then .one (m[0]).2 else .dict m

theorem ofDict_eq {α : Type} : (Item.ofDict : AMap String α → Item α) = valueOrDict := by
  funext m
  match m with
  | [] => rfl
  | [_] => rfl
  | _ :: _ :: _ => simp [Item.ofDict, valueOrDict]

/-- A row in the given fields. -/
def rowItem (de : String → Val → Except Err Val) (fields : List String) (r : Row) : Except Err (Item Val) :=
  (fields.mapM (fun f => (de f (r.val f)).map (Prod.mk f))).map valueOrDict

/-- Some rows in the given fields, by column. -/
def rowsItem (de : String → Val → Except Err Val) (fields : List String) (rows : List Row) : Except Err (Item (List Val)) :=
  (fields.mapM (fun f => (rows.mapM (fun r => de f (r.val f))).map (Prod.mk f))).map valueOrDict

/-- All features from one open table. -/
def fromTable (loc : String) (h : Handle) (w : World) (sers : AMap String (FieldSer Val)) (fields : List String) :
    AMap String Feature :=
  fields.map (fun f => (f, ⟨loc, h, w, sers⟩))

/-! ## The parts of the model against these -/

theorem deserEach_eq {S sers : AMap String (FieldSer Val)} {g : String → Val} : ∀ {fields : List String},
    (∀ f ∈ fields, AMap.get? S f = sers.get? f ∧ ∃ x, sers.get? f = some x) →
    deserEach S (fields.map (fun f => (f, g f))) =
      fields.mapM (fun f => (decode true sers f (g f)).map (Prod.mk f))
  | [], _ => rfl
  | f :: fields, h => by
    obtain ⟨h1, x, h2⟩ := h f List.mem_cons_self
    have ih := deserEach_eq (g := g) fun f hf => h f (List.mem_cons_of_mem _ hf)
    simp only [List.map_cons, deserEach, h1, h2, ih, List.mapM_cons, decode]
    cases x.de (g f) with
    | error e => rfl
    | ok v =>
      simp only [Except.map, if_true]
      cases List.mapM (m := Except Err) _ fields <;> rfl

theorem mapCol_eq {V : Type} (f : V → Except Err V) : ∀ l : List V, mapCol f l = l.mapM f
  | [] => rfl
  | v :: vs => by
    simp only [mapCol, List.mapM_cons, mapCol_eq f vs]
    cases f v with
    | error e => rfl
    | ok b => cases vs.mapM f <;> rfl

theorem mapM_map_ok {α β γ : Type} (f : β → Except Err γ) (g : α → β) : ∀ l : List α,
    (l.map g).mapM f = l.mapM (fun a => f (g a))
  | [] => rfl
  | a :: l => by simp only [List.map_cons, List.mapM_cons, mapM_map_ok f g l]

theorem dictDeserialize_eq {S sers : AMap String (FieldSer Val)} {g : String → Row → Val} {picks : List Row}
    {fields : List String} (hnd : fields.Nodup)
    (h : ∀ f ∈ fields, AMap.get? S f = sers.get? f ∧ ∃ x, sers.get? f = some x) :
    dictDeserialize S (fields.map (fun f => (f, picks.map (g f)))) =
      fields.mapM (fun f => (picks.mapM (fun r => decode true sers f (g f r))).map (Prod.mk f)) := by
  unfold dictDeserialize
  suffices ∀ (fields : List String) (out : AMap String (List Val)), fields.Nodup → (∀ f ∈ fields, f ∉ out.keys) →
      (∀ f ∈ fields, AMap.get? S f = sers.get? f ∧ ∃ x, sers.get? f = some x) →
      processDict S false (fields.map (fun f => (f, picks.map (g f)))) out =
        (fields.mapM (fun f => (picks.mapM (fun r => decode true sers f (g f r))).map (Prod.mk f))).map (out ++ ·) by
    rw [this fields [] hnd (fun _ _ => by simp [AMap.keys]) h]
    cases List.mapM (m := Except Err) _ fields <;> rfl
  intro fields
  induction fields with
  | nil => intro out _ _ _; simp [processDict, Except.map, pure, Except.pure]
  | cons f fields ih =>
    intro out hnd hout h
    obtain ⟨h1, x, h2⟩ := h f List.mem_cons_self
    have hnd' := List.nodup_cons.mp hnd
    simp only [List.map_cons, processDict, h1, h2, List.mapM_cons, decode, if_true, Bool.false_eq_true, if_false,
      mapCol_eq, mapM_map_ok]
    cases hp : List.mapM (fun r => x.de (g f r)) picks with
    | error e => rfl
    | ok col =>
      simp only [Except.map]
      rw [AMap.set_new _ _ _ (hout f List.mem_cons_self), ih _ hnd'.2 ?_ fun g hg => h g (List.mem_cons_of_mem _ hg)]
      · simp only [decode, if_true, Except.map]
        cases List.mapM (m := Except Err) _ fields with
        | error e => rfl
        | ok m => simp [bind, Except.bind, pure, Except.pure]
      · intro g hg
        simp only [AMap.keys, List.map_append, List.map_cons, List.map_nil, List.mem_append, List.mem_singleton, not_or]
        refine ⟨hout g (List.mem_cons_of_mem _ hg), fun e => ?_⟩
        subst e
        exact hnd'.1 hg

theorem mapM_pure_pair {α : Type} {g : String → α} : ∀ (fields : List String),
    fields.mapM (m := Except Err) (fun f => (Except.ok (g f) : Except Err α).map (Prod.mk f)) = .ok (fields.map (fun f => (f, g f)))
  | [] => rfl
  | f :: fields => by simp only [List.mapM_cons, mapM_pure_pair fields]; rfl

/-! ## Opening -/

theorem readAddresses_eq {E : Env} {s : Schema} {w : World} {md : Metadata} {h : Handle} {loc : String}
    {sers : AMap String (FieldSer Val)} (hw : WOK s w md) (hh : HandleOK s w h) {fields : List String}
    (hc : ∀ f ∈ fields, f ∈ s.names ∧ f ∈ s.recs) {snap : Snapshot} (ht : md.target h.branch none = .ok snap) :
    (physRows w.fs snap.index = [] → readAddresses E ⟨loc, h, w, sers⟩ fields = .error .userInput) ∧
    (physRows w.fs snap.index ≠ [] → ∃ t, readAddresses E ⟨loc, h, w, sers⟩ fields =
        .ok ⟨(physRows w.fs snap.index).length, t⟩ ∧ ColsOf (physRows w.fs snap.index) fields t) ∧
    AddrsIn w.fs (physRows w.fs snap.index) fields := by
  have ha : AddrsIn w.fs (physRows w.fs snap.index) fields := fun f hf r hr =>
    (physRows_ok (target_ok hw ht).1.manifests r hr).addrVal (hc f hf).2 (hc f hf).1
  have hr := tableRead_refs (E := E) hw hh (fields := fields) (fun f hf => (hc f hf).1) none
  rw [ht] at hr
  simp only at hr
  refine ⟨fun h0 => ?_, fun hne => ?_, ha⟩
  · simp only [readAddresses, hr, h0, List.map_nil]
  · have hrec : ∀ f ∈ fields, f ∈ h.md.schema.recs := fun f hf => by rw [hh.schema]; exact (hc f hf).2
    obtain ⟨t, h1, h2⟩ := addrColumns_eq (rows := (physRows w.fs snap.index).map (·.select fields)) hrec
      (fun f hf r hr => by
        obtain ⟨r0, hr0, rfl⟩ := List.mem_map.mp hr
        obtain ⟨p, i, rs, h3, -⟩ := ha f hf r0 hr0
        exact ⟨p, i, (select_val hf).trans h3⟩)
    refine ⟨t, ?_, h2.select⟩
    cases hp : physRows w.fs snap.index with
    | nil => exact absurd hp hne
    | cons r rows =>
      rw [hp] at hr h1
      simp only [readAddresses, hr, List.map_cons] at h1 ⊢
      simp [h1]

/-- What opening on the current version of a table gives. -/
structure OpenedOn (E : Env) (s : Schema) (σ : Sys) (sl : Slot) (fields : List String) (phys rows : List Row) : Prop where
  rows : rows = phys.map (fun r => (deref σ.w.fs.records s r).select s.writeNames)
  addrs : AddrsIn σ.w.fs phys fields
  none_ : phys = [] → ∀ loc sers, readAddresses E ⟨loc, sl.h, σ.w, sers⟩ fields = .error .userInput
  some_ : phys ≠ [] → ∀ loc sers, ∃ t, readAddresses E ⟨loc, sl.h, σ.w, sers⟩ fields = .ok ⟨phys.length, t⟩ ∧
    ColsOf phys fields t
  stored : ∃ (md : Metadata) (n : Nat) (snap : Snapshot), σ.w.stored = some md ∧ md.snaps.get? n = some snap ∧
    phys = physRows σ.w.fs snap.index

theorem openedOn {E : Env} {s : Schema} (hn : s.names.Nodup) {P : Sys → Event → Prop} {σ : Sys} {sl : Slot}
    (h : Reach E s P σ) (hsl : sl ∈ σ.slots) {fields : List String} (hc : ∀ f ∈ fields, f ∈ s.names ∧ f ∈ s.recs)
    {rows : List Row} (hr : tableRead E sl.h σ.w {} none = .ok rows) :
    ∃ phys, OpenedOn E s σ sl fields phys rows := by
  obtain ⟨md, hok⟩ := reach_ok hn h
  have hh := (hok.slots sl hsl).1
  rw [tableRead_full hok.wok hh] at hr
  cases ht : md.target sl.h.branch none with
  | error e => rw [ht] at hr; cases hr
  | ok snap =>
    rw [ht] at hr
    simp only [Except.ok.injEq] at hr
    have key := fun loc sers => readAddresses_eq (E := E) (loc := loc) (sers := sers) hok.wok hh hc ht
    obtain ⟨n, hsn⟩ := (target_ok hok.wok ht).2
    refine ⟨physRows σ.w.fs snap.index, ?_, (key "" []).2.2, fun h0 loc sers => (key loc sers).1 h0,
      fun h0 loc sers => (key loc sers).2.1 h0, md, n, snap, hok.wok.storedEq, hsn, rfl⟩
    rw [← hr, snapRows, List.map_map]
    rfl

theorem mem_writeNames {s : Schema} {f : String} (h : f ∈ s.names ∧ f ∈ s.recs) : f ∈ s.writeNames := by
  obtain ⟨x, hx, rfl⟩ := List.mem_map.mp h.1
  exact List.mem_append_right _ (List.mem_map_of_mem (List.mem_filter.mpr ⟨hx, by simpa [Schema.isRec] using h.2⟩))

/-- The cells of a full read. -/
theorem full_val {L : Look} {s : Schema} {r : Row} {f : String} (h : f ∈ s.names ∧ f ∈ s.recs) :
    ((deref L s r).select s.writeNames).val f = derefVal L (r.val f) := by
  rw [select_val (mem_writeNames h), deref_val, if_pos (by simpa using h.2)]

/-- **C64** (opening).  Opening a source on a table without rows raises, in any mode; so does
asking to deserialise a field without a serializer. -/
theorem C64_refused {E : Env} {s : Schema} (hn : s.names.Nodup) {P : Sys → Event → Prop} {σ : Sys} {sl : Slot}
    (h : Reach E s P σ) (hsl : sl ∈ σ.slots) {fields : List String} (hc : ∀ f ∈ fields, f ∈ s.names ∧ f ∈ s.recs)
    {rows : List Row} (hr : tableRead E sl.h σ.w {} none = .ok rows) {deser : Bool}
    {sers : AMap String (FieldSer Val)}
    (hbad : rows = [] ∨ fields = [] ∨ deser = true ∧ ∃ f ∈ fields, sers.get? f = none) (loc : String)
    (group : List (Path × Nat) → List (Path × List Nat)) (useArray : Bool) :
    openSource E group (fromTable loc sl.h σ.w sers fields) none deser useArray = .error .userInput := by
  obtain ⟨phys, ho⟩ := openedOn hn h hsl hc hr
  unfold openSource
  by_cases hd : deser = true ∧ ∃ f ∈ fields, sers.get? f = none
  · simp only [hd.1, if_true, fromTable, serializersFor_missing (ft := ⟨loc, sl.h, σ.w, sers⟩) hd.2]
  · have hsers : ∃ S, (if deser = true then serializersFor (fromTable loc sl.h σ.w sers fields) else .ok []) = .ok S := by
      split
      · rename_i hd'
        obtain ⟨S, h1, -⟩ := serializersFor_same (ft := ⟨loc, sl.h, σ.w, sers⟩) (fields := fields) fun f hf => by
          cases hx : sers.get? f with
          | none => exact absurd ⟨hd', f, hf, hx⟩ hd
          | some x => exact ⟨x, rfl⟩
        exact ⟨S, h1⟩
      · exact ⟨_, rfl⟩
    obtain ⟨S, hS⟩ := hsers
    rw [hS]
    simp only
    have : sourceAddresses E (fromTable loc sl.h σ.w sers fields) none = .error .userInput := by
      by_cases h0 : fields = []
      · subst h0; rfl
      · have h1 : phys = [] := by
          rcases hbad with h1 | h1 | h1
          · have := ho.rows
            rw [h1] at this
            exact List.map_eq_nil_iff.mp this.symm
          · exact absurd h1 h0
          · exact absurd h1 hd
        unfold sourceAddresses
        simp only [fromTable, storagesOf_same (ft := ⟨loc, sl.h, σ.w, sers⟩) h0]
        rw [show AMap.keys (fields.map fun f => (f, (⟨loc, sl.h, σ.w, sers⟩ : Feature))) = fields by
          simp [AMap.keys, Function.comp_def]]
        exact ho.none_ h1 loc sers
    rw [this]

/-- Opening succeeds otherwise. -/
theorem open_ok {E : Env} {s : Schema} {σ : Sys} {sl : Slot} {fields : List String} {phys rows : List Row}
    (ho : OpenedOn E s σ sl fields phys rows) (hf : fields ≠ []) (hne : phys ≠ []) {deser : Bool}
    {sers : AMap String (FieldSer Val)} (hser : deser = true → ∀ f ∈ fields, ∃ x, sers.get? f = some x) (loc : String) :
    ∃ S t, (if deser then serializersFor (fromTable loc sl.h σ.w sers fields) else .ok []) = .ok S ∧
      (deser = true → ∀ f ∈ fields, AMap.get? S f = sers.get? f) ∧ (deser = false → S = []) ∧
      sourceAddresses E (fromTable loc sl.h σ.w sers fields) none = .ok ⟨phys.length, t⟩ ∧ ColsOf phys fields t := by
  have hS : ∃ S, (if deser = true then serializersFor (fromTable loc sl.h σ.w sers fields) else .ok []) = .ok S ∧
      (deser = true → ∀ f ∈ fields, AMap.get? S f = sers.get? f) ∧ (deser = false → S = []) := by
    cases deser with
    | false => exact ⟨[], rfl, nofun, fun _ => rfl⟩
    | true =>
      obtain ⟨S, h1, h2⟩ := serializersFor_same (ft := ⟨loc, sl.h, σ.w, sers⟩) (fields := fields) (hser rfl)
      exact ⟨S, h1, fun _ => h2, nofun⟩
  obtain ⟨S, h1, h2, h3⟩ := hS
  obtain ⟨t, h4, h5⟩ := ho.some_ hne loc sers
  refine ⟨S, t, h1, h2, h3, ?_, h5⟩
  unfold sourceAddresses
  simp only [fromTable, storagesOf_same (ft := ⟨loc, sl.h, σ.w, sers⟩) hf]
  rw [show AMap.keys (fields.map fun f => (f, (⟨loc, sl.h, σ.w, sers⟩ : Feature))) = fields by
    simp [AMap.keys, Function.comp_def]]
  exact h4

theorem decode_false {sers : AMap String (FieldSer Val)} : decode false sers = fun _ v => .ok v := rfl

theorem getElem?_map_inv {α β : Type} {f : α → β} {l : List α} {k : Nat} :
    (l.map f)[k]? = (l[k]?).map f := by simp

/-- **C64** (Arrow mode).  A source on record fields of the current version of a table, opened
without the ArrayRecord source or on several fields, has one element for each row of a full read;
its `k`-th element is row `k` of that read, in these fields and deserialised if asked for; there is
none beyond; iterating gives the rows one after the other; a list of indexes gives their rows, by
column, in the order asked for.  This stays so whatever is done to the table after opening. -/
theorem C64_arrow {E : Env} {s : Schema} (hn : s.names.Nodup) {P Q : Sys → Event → Prop} {σ σ' : Sys} {sl : Slot}
    (h : Reach E s P σ) (hsl : sl ∈ σ.slots) {fields : List String} (hf : fields ≠ []) (hnd : fields.Nodup)
    (hc : ∀ f ∈ fields, f ∈ s.names ∧ f ∈ s.recs)
    {rows : List Row} (hr : tableRead E sl.h σ.w {} none = .ok rows) (hne : rows ≠ [])
    {deser useArray : Bool} {sers : AMap String (FieldSer Val)}
    (hser : deser = true → ∀ f ∈ fields, ∃ x, sers.get? f = some x)
    (hmode : useArray = false ∨ fields.length ≠ 1) (loc : String)
    (group : List (Path × Nat) → List (Path × List Nat)) :
    ∃ src, openSource E group (fromTable loc sl.h σ.w sers fields) none deser useArray = .ok src ∧
      src.len = rows.length ∧
      (Run E s Q σ σ' →
        (∀ k r, rows[k]? = some r → src.get (fun _ => σ'.w.fs) k = rowItem (decode deser sers) fields r) ∧
        (∀ k, rows.length ≤ k → src.get (fun _ => σ'.w.fs) k = .error (.other "IndexError")) ∧
        src.toList (fun _ => σ'.w.fs) = rows.mapM (rowItem (decode deser sers) fields) ∧
        ∀ ks picks, ks.map (rows[·]?) = picks.map some →
          src.getMany (fun _ => σ'.w.fs) ks = rowsItem (decode deser sers) fields picks) := by
  obtain ⟨phys, ho⟩ := openedOn hn h hsl hc hr
  have hpne : phys ≠ [] := by
    intro h0
    apply hne
    rw [ho.rows, h0]
    rfl
  obtain ⟨S, t, h1, h2, h3, h4, h5⟩ := open_ok ho hf hpne hser loc
  have hlen : rows.length = phys.length := by rw [ho.rows]; simp
  have hopen : openSource E group (fromTable loc sl.h σ.w sers fields) none deser useArray =
      .ok (.arrow ⟨phys.length, t⟩ (fields.map (fun f => (f, loc))) (if deser then some S else none)) := by
    unfold openSource
    rw [h1]
    simp only [h4]
    have : ((fromTable loc sl.h σ.w sers fields).map fun x => (x.1, x.2.location)) = fields.map (fun f => (f, loc)) := by
      simp [fromTable, Function.comp_def]
    split
    · rename_i f ft e1
      rcases hmode with hm | hm
      · cases hm
      · have := congrArg List.length e1
        simp [fromTable] at this
        exact absurd this hm
    · rw [this]
  refine ⟨_, hopen, hlen.symm, fun hrun => ?_⟩
  obtain ⟨md, hok⟩ := reach_ok hn h
  obtain ⟨-, -, hle⟩ := run_ok hn hok hrun
  have ha' := ho.addrs.mono hle
  have hval : ∀ f ∈ fields, ∀ r ∈ phys, derefVal σ'.w.fs.records (r.val f) =
      ((deref σ.w.fs.records s r).select s.writeNames).val f := fun f hf r hr => by
    rw [full_val (hc f hf)]
    exact derefVal_mono hle.lookLe (ho.addrs f hf r hr)
  have hin : ∀ k r, rows[k]? = some r →
      RSource.get (fun _ => σ'.w.fs) (.arrow ⟨phys.length, t⟩ (fields.map (fun f => (f, loc)))
        (if deser then some S else none)) k = rowItem (decode deser sers) fields r := by
    intro k r hk
    rw [ho.rows, List.getElem?_map] at hk
    obtain ⟨r0, hk0, rfl⟩ := Option.map_eq_some_iff.mp hk
    have hg := featuresGet_in (loc := loc) h5 ha' hk0
    have hgv : fields.map (fun f => (f, derefVal σ'.w.fs.records (r0.val f))) =
        fields.map (fun f => (f, ((deref σ.w.fs.records s r0).select s.writeNames).val f)) :=
      List.map_congr_left fun f hff => by rw [hval f hff r0 (List.mem_of_getElem? hk0)]
    unfold RSource.get
    simp only [hg, hgv, rowItem, ← ofDict_eq]
    cases deser with
    | false =>
      simp only [Bool.false_eq_true, if_false, decode_false]
      rw [mapM_pure_pair]
      rfl
    | true =>
      simp only [if_true]
      rw [deserEach_eq fun f hff => ⟨h2 rfl f hff, hser rfl f hff⟩]
  refine ⟨hin, fun k hk => ?_, ?_, fun ks picks hp => ?_⟩
  · have : phys[k]? = none := List.getElem?_eq_none (hlen ▸ hk)
    unfold RSource.get
    simp only [featuresGet_out h5 hf this]
  · unfold RSource.toList
    have hl : ∀ so, RSource.len (.arrow ⟨phys.length, t⟩ (fields.map (fun f => (f, loc))) so) = rows.length :=
      fun _ => hlen.symm
    rw [hl]
    have key : ∀ (n : Nat) (xs : List Row), xs = rows.drop n →
        RSource.items (fun _ => σ'.w.fs) (.arrow ⟨phys.length, t⟩ (fields.map (fun f => (f, loc)))
          (if deser then some S else none)) (List.range' n xs.length) = xs.mapM (rowItem (decode deser sers) fields) := by
      intro n xs
      induction xs generalizing n with
      | nil => intro _; rfl
      | cons x xs ih =>
        intro e
        have hx : rows[n]? = some x := by
          have := congrArg (·[0]?) e
          simpa using this.symm
        have ht : xs = rows.drop (n + 1) := by
          have := congrArg List.tail e
          simpa using this
        simp only [List.length_cons, List.range'_succ, RSource.items, hin n x hx, ih (n + 1) ht, List.mapM_cons]
        cases rowItem (decode deser sers) fields x with
        | error e => rfl
        | ok v => cases xs.mapM (rowItem (decode deser sers) fields) <;> rfl
    rw [List.range_eq_range']
    exact key 0 rows rfl
  · obtain ⟨p0, hp0, hp1⟩ : ∃ p0 : List Row, ks.map (phys[·]?) = p0.map some ∧
        picks = p0.map (fun r => (deref σ.w.fs.records s r).select s.writeNames) := by
      clear h4 hopen
      induction ks generalizing picks with
      | nil =>
        cases picks with
        | nil => exact ⟨[], rfl, rfl⟩
        | cons _ _ => cases hp
      | cons k ks ih =>
        cases picks with
        | nil => cases hp
        | cons r picks =>
          simp only [List.map_cons, List.cons.injEq] at hp
          obtain ⟨p0, e1, e2⟩ := ih picks hp.2
          have := hp.1
          rw [ho.rows, List.getElem?_map] at this
          obtain ⟨r0, e3, e4⟩ := Option.map_eq_some_iff.mp this
          exact ⟨r0 :: p0, by simp [e1, e3], by simp [e2, e4]⟩
    have hmem : ∀ r ∈ p0, r ∈ phys := by
      intro r hr
      have : some r ∈ ks.map (phys[·]?) := by rw [hp0]; exact List.mem_map_of_mem hr
      obtain ⟨k, -, hk⟩ := List.mem_map.mp this
      exact List.mem_of_getElem? hk
    have hg := featuresGetMany_in (loc := loc) h5 ha' hp0
    have hgv : fields.map (fun f => (f, p0.map (fun r => derefVal σ'.w.fs.records (r.val f)))) =
        fields.map (fun f => (f, picks.map (fun r => r.val f))) :=
      List.map_congr_left fun f hff => by
        rw [hp1, List.map_map, Prod.mk.injEq]
        exact ⟨rfl, List.map_congr_left fun r hr => hval f hff r (hmem r hr)⟩
    unfold RSource.getMany
    simp only [hg, hgv, rowsItem, ← ofDict_eq]
    cases deser with
    | false =>
      simp only [Bool.false_eq_true, if_false, decode_false]
      have : ∀ (f : String) (l : List Row), l.mapM (m := Except Err) (fun r => Except.ok (r.val f)) = .ok (l.map (·.val f)) := by
        intro f l
        induction l with
        | nil => rfl
        | cons r l ih => simp only [List.mapM_cons, ih]; rfl
      simp only [this]
      rw [mapM_pure_pair]
      rfl
    | true =>
      simp only [if_true]
      rw [dictDeserialize_eq (g := fun f r => r.val f) hnd fun f hff => ⟨h2 rfl f hff, hser rfl f hff⟩]

theorem length_le_of_subset {α : Type} [DecidableEq α] : ∀ {a b : List α}, a.Nodup → (∀ x ∈ a, x ∈ b) → a.length ≤ b.length
  | [], _, _, _ => Nat.zero_le _
  | x :: a, b, hn, h => by
    have hn' := List.nodup_cons.mp hn
    have h1 := length_le_of_subset (b := b.erase x) hn'.2 fun y hy =>
      (List.mem_erase_of_ne fun (e : y = x) => hn'.1 (e ▸ hy)).mpr (h y (List.mem_cons_of_mem _ hy))
    have h2 := List.length_erase_of_mem (h x List.mem_cons_self)
    have h3 := List.length_pos_of_mem (h x List.mem_cons_self)
    simp only [List.length_cons]
    omega

/-- The elements of a source in ArrayRecord mode: `elems` in order, deserialised if asked for, and
nothing beyond. -/
structure Elements (src : RSource) (de : Val → Except Err Val) (disk : String → FS) (elems : List Val) : Prop where
  get : ∀ k v, elems[k]? = some v → src.get disk k = (de v).map .one
  out : ∀ k, elems.length ≤ k → src.get disk k = .error (.other "IndexError")
  many : ∀ (ks : List Nat) (vs : List Val), ks.map (elems[·]?) = vs.map some → src.getMany disk ks = (vs.mapM de).map .one

/-- **C64** (ArrayRecord mode, partial).  A source on one record field of the current version of a
table, opened with the ArrayRecord source (the default): its elements are cells of that field in a
full read, each cell occurs, and there are at most as many as rows.  If no two rows share a record
(`C63_partial`), they are the cells of the full read in some order.  This stays so whatever is done to
the table after opening.  Missing: the order of the rows (`C64_violated_order`) and, where rows share
records, their number (`C64_violated_count`). -/
theorem C64_array_partial {E : Env} {s : Schema} (hn : s.names.Nodup) {P Q : Sys → Event → Prop} {σ : Sys} {sl : Slot}
    (h : Reach E s P σ) (hsl : sl ∈ σ.slots) {f : String} (hc : f ∈ s.names ∧ f ∈ s.recs)
    {rows : List Row} (hr : tableRead E sl.h σ.w {} none = .ok rows) (hne : rows ≠ [])
    {deser : Bool} {sers : AMap String (FieldSer Val)}
    (hser : deser = true → ∃ x, sers.get? f = some x) (loc : String)
    {group : List (Path × Nat) → List (Path × List Nat)} (hg : ∀ l, Grouped l (group l)) :
    ∃ src elems, openSource E group (fromTable loc sl.h σ.w sers [f]) none deser true = .ok src ∧
      src.len = elems.length ∧ elems.length ≤ rows.length ∧ (∀ v, v ∈ elems ↔ v ∈ rows.map (·.val f)) ∧
      (Reach E s (single E s) σ → elems ~ rows.map (·.val f)) ∧
      ∀ σ', Run E s Q σ σ' → Elements src (decode deser sers f) (fun _ => σ'.w.fs) elems := by
  have hcf : ∀ g ∈ [f], g ∈ s.names ∧ g ∈ s.recs := by simpa using hc
  obtain ⟨phys, ho⟩ := openedOn hn h hsl hcf hr
  have hpne : phys ≠ [] := by
    intro h0
    apply hne
    rw [ho.rows, h0]
    rfl
  obtain ⟨S, t, h1, h2, h3, h4, h5⟩ := open_ok ho (by simp) hpne (sers := sers) (deser := deser)
    (fun hd g hg => by simp only [List.mem_singleton] at hg; subst hg; exact hser hd) loc
  obtain ⟨col, h6, h7⟩ := h5 f (by simp)
  have hopen : openSource E group (fromTable loc sl.h σ.w sers [f]) none deser true =
      .ok (.array loc (buildFileInstructions (group col)) (AMap.get? S f)) := by
    unfold openSource
    rw [h1, h4]
    simp only [fromTable, List.map_cons, List.map_nil, h6]
  obtain ⟨e1, e2⟩ := C32_partial (hg col)
  have hcol : ∀ a ∈ col, AddrVal σ.w.fs.records (.addr a.1 a.2) := by
    intro a ha
    have : Val.addr a.1 a.2 ∈ phys.map (·.val f) := by rw [← h7]; exact List.mem_map_of_mem (f := fun a : Path × Nat => Val.addr a.1 a.2) ha
    obtain ⟨r, hr, he⟩ := List.mem_map.mp this
    rw [← he]
    exact ho.addrs f (by simp) r hr
  have hcells : rows.map (·.val f) = col.map (fun a => derefVal σ.w.fs.records (.addr a.1 a.2)) := by
    have : col.map (fun a => derefVal σ.w.fs.records (.addr a.1 a.2)) =
        (col.map (fun a => Val.addr a.1 a.2)).map (derefVal σ.w.fs.records) := by rw [List.map_map]; rfl
    rw [this, h7, ho.rows, List.map_map, List.map_map]
    exact List.map_congr_left fun r _ => full_val hc
  refine ⟨_, (exposed (buildFileInstructions (group col))).map (fun a => derefVal σ.w.fs.records (.addr a.1 a.2)), hopen,
    by simp [RSource.len], ?_, ?_, ?_, ?_⟩
  · have hl : rows.length = col.length := by
      have := congrArg List.length hcells
      simpa using this
    rw [List.length_map, hl]
    exact length_le_of_subset e1 fun a ha => (e2 a).mp ha
  · intro v
    rw [hcells]
    simp only [List.mem_map]
    exact exists_congr fun a => and_congr_left fun _ => e2 a
  · intro hs
    rw [hcells]
    refine List.Perm.map _ (C32_distinct_partial (hg col) ?_)
    obtain ⟨md, n, snap, hst, hsn, hph⟩ := ho.stored
    have := C63_partial hn hs hst hsn f (by
      obtain ⟨x, hx, rfl⟩ := List.mem_map.mp hc.1
      exact List.mem_map_of_mem (List.mem_filter.mpr ⟨hx, by simpa [Schema.isRec] using hc.2⟩))
    rw [← hph, ← h7] at this
    exact List.Pairwise.of_map _ (fun a b hab he => hab (by rw [he])) this
  · intro σ' hrun
    obtain ⟨md, hok⟩ := reach_ok hn h
    obtain ⟨-, -, hle⟩ := run_ok hn hok hrun
    have hser' : ∀ v, maybeDeser (AMap.get? S f) v = decode deser sers f v := by
      intro v
      cases deser with
      | false => rw [h3 rfl]; rfl
      | true =>
        obtain ⟨x, hx⟩ := hser rfl
        simp only [h2 rfl f (by simp), hx, maybeDeser, decode, if_true]
    have hget : ∀ k v, ((exposed (buildFileInstructions (group col))).map
        (fun a => derefVal σ.w.fs.records (.addr a.1 a.2)))[k]? = some v →
        ∃ b, arrayGet σ'.w.fs (buildFileInstructions (group col)) k = .ok b ∧ v = .sc (.bytes b) := by
      intro k v hk
      rw [List.getElem?_map] at hk
      obtain ⟨a, ha, rfl⟩ := Option.map_eq_some_iff.mp hk
      have hav := hcol a ((e2 a).mp (List.mem_of_getElem? ha))
      obtain ⟨b, hb1, hb2⟩ := recordAt_val (hav.mono hle.lookLe)
      refine ⟨b, (C32_get _ _ _ _).mpr (by rw [ha]; exact hb1), ?_⟩
      rw [← hb2]
      exact (derefVal_mono hle.lookLe hav).symm
    refine ⟨fun k v hk => ?_, fun k hk => ?_, fun ks => ?_⟩
    · obtain ⟨b, hb, rfl⟩ := hget k v hk
      simp only [RSource.get, hb, hser']
    · have : (exposed (buildFileInstructions (group col)))[k]? = none :=
        List.getElem?_eq_none (by simpa using hk)
      simp only [RSource.get, arrayGet, this]
    · simp only [RSource.getMany]
      induction ks with
      | nil =>
        intro vs hvs
        cases vs with
        | nil => rfl
        | cons _ _ => cases hvs
      | cons k ks ih =>
        intro vs hvs
        cases vs with
        | nil => cases hvs
        | cons v vs =>
          simp only [List.map_cons, List.cons.injEq] at hvs
          obtain ⟨b, hb, rfl⟩ := hget k v hvs.1
          have ih := ih vs hvs.2
          simp only [arrayGetMany, hb, hser', List.mapM_cons]
          cases decode deser sers f (.sc (.bytes b)) with
          | error e => rfl
          | ok x =>
            simp only
            revert ih
            cases arrayGetMany σ'.w.fs (buildFileInstructions (group col)) (AMap.get? S f) ks with
            | error e =>
              cases vs.mapM (decode deser sers f) with
              | error e' => intro ih; cases ih; rfl
              | ok _ => intro ih; cases ih
            | ok l =>
              cases vs.mapM (decode deser sers f) with
              | error e' => intro ih; cases ih
              | ok _ => intro ih; cases ih; rfl

/-- The record of a feature field at row `k` of a table of addresses, in the storage at a location. -/
def featureCell (disk : String → FS) (a : Addresses) (k : Nat) (f loc : String) : Option Val :=
  ((AMap.get? a.cols f).bind (·[k]?)).bind fun ad => (recordAt (disk loc) ad).map fun b => .sc (.bytes b)

theorem featuresGet_iff {disk : String → FS} {a : Addresses} {k : Nat} : ∀ {feats : List (String × String)} {m : AMap String Val},
    featuresGet disk a.cols k feats = .ok m ↔
      m.map (fun x => (x.1, some x.2)) = feats.map (fun x => (x.1, featureCell disk a k x.1 x.2))
  | [], m => by cases m <;> simp [featuresGet]
  | (f, loc) :: feats, m => by
    have ih := fun m => featuresGet_iff (disk := disk) (a := a) (k := k) (feats := feats) (m := m)
    simp only [featuresGet, List.map_cons]
    cases hc : AMap.get? a.cols f with
    | none => cases m <;> simp [featureCell, hc]
    | some col =>
      simp only
      cases hg : arrowGet (disk loc) [(f, col)] k with
      | error e =>
        simp only [reduceCtorEq, false_iff]
        cases m with
        | nil => simp
        | cons y m =>
          simp only [List.map_cons, List.cons.injEq, not_and, Prod.mk.injEq]
          rintro ⟨-, h2⟩
          simp only [featureCell, hc, Option.bind_some] at h2
          cases hk : col[k]? with
          | none => rw [hk] at h2; cases h2
          | some ad =>
            rw [hk] at h2
            simp only [Option.bind_some] at h2
            obtain ⟨b, hb, -⟩ := Option.map_eq_some_iff.mp h2.symm
            rw [(C32_arrow (disk loc) [(f, col)] k [(f, b)]).mpr (by simp [hk, hb])] at hg
            cases hg
      | ok m0 =>
        have h0 := (C32_arrow _ _ _ _).mp hg
        obtain ⟨b, rfl, hb⟩ : ∃ b, m0 = [(f, b)] ∧ (col[k]?).bind (recordAt (disk loc)) = some b := by
          rcases m0 with _ | ⟨⟨g, b⟩, _ | ⟨y, m0⟩⟩
          · cases h0
          · simp only [List.map_cons, List.map_nil, List.cons.injEq, and_true, Prod.mk.injEq] at h0
            exact ⟨b, by rw [h0.1], h0.2.symm⟩
          · simp at h0
        have hcell : featureCell disk a k f loc = some (.sc (.bytes b)) := by
          simp only [featureCell, hc, Option.bind_some]
          cases hk : col[k]? with
          | none => rw [hk] at hb; cases hb
          | some ad =>
            rw [hk] at hb
            simp only [Option.bind_some] at hb ⊢
            rw [hb]
            rfl
        rw [hcell]
        simp only [List.map_cons, List.map_nil, List.cons_append, List.nil_append]
        cases hr : featuresGet disk a.cols k feats with
        | error e =>
          simp only [reduceCtorEq, false_iff]
          cases m with
          | nil => simp
          | cons y m =>
            simp only [List.map_cons, List.cons.injEq, not_and]
            intro _ h2
            rw [(ih m).mpr h2] at hr
            cases hr
        | ok m' =>
          simp only [Except.ok.injEq]
          have hm' := (ih m').mp hr
          constructor
          · rintro rfl
            simp [hm']
          · intro h2
            cases m with
            | nil => cases h2
            | cons y m =>
              simp only [List.map_cons, List.cons.injEq, Prod.mk.injEq, Option.some.injEq] at h2
              rw [(ih m).mpr h2.2] at hr
              cases hr
              rw [← h2.1.1, ← h2.1.2]

theorem featuresGetMany_eq {disk : String → FS} {a : Addresses} {ks : List Nat} : ∀ {feats : List (String × String)},
    (∀ x ∈ feats, (AMap.get? a.cols x.1).isSome ∧ ∀ k ∈ ks, (featureCell disk a k x.1 x.2).isSome) →
    ∃ m, featuresGetMany disk a.cols ks feats = .ok m ∧ m.map (fun x => (x.1, x.2.map some)) =
      feats.map (fun x => (x.1, ks.map (featureCell disk a · x.1 x.2)))
  | [], _ => ⟨[], rfl, rfl⟩
  | (f, loc) :: feats, h => by
    obtain ⟨m', h1, h2⟩ := featuresGetMany_eq (disk := disk) (a := a) (ks := ks) (feats := feats)
      fun x hx => h x (List.mem_cons_of_mem _ hx)
    have hf := h (f, loc) List.mem_cons_self
    unfold featuresGetMany
    cases hc : AMap.get? a.cols f with
    | none => rw [hc] at hf; cases hf.1
    | some col =>
      have hcell : ∀ k ∈ ks, ∃ ad b, col[k]? = some ad ∧ recordAt (disk loc) ad = some b := by
        intro k hk
        have := hf.2 k hk
        simp only [featureCell, hc, Option.bind_some] at this
        cases h3 : col[k]? with
        | none => rw [h3] at this; cases this
        | some ad =>
          rw [h3] at this
          simp only [Option.bind_some, Option.isSome_map] at this
          obtain ⟨b, hb⟩ := Option.isSome_iff_exists.mp this
          exact ⟨ad, b, rfl, hb⟩
      obtain ⟨m, g1, g2, g3⟩ := C32_arrow_many (disk loc) [(f, col)] ks (by
        intro x hx
        cases List.mem_singleton.mp hx
        exact hcell)
      obtain ⟨vs, rfl⟩ : ∃ vs, m = [(f, vs)] := by
        rcases m with _ | ⟨⟨g, vs⟩, _ | ⟨y, m⟩⟩
        · cases g2
        · cases g2; exact ⟨vs, rfl⟩
        · cases g2
      obtain ⟨g4, g5⟩ := g3 0 f vs rfl
      refine ⟨[(f, vs)] ++ m', by dsimp only; rw [g1, h1], ?_⟩
      simp only [List.cons_append, List.nil_append, List.map_cons, h2, List.cons.injEq, Prod.mk.injEq, true_and, and_true]
      refine List.ext_getElem? fun i => ?_
      simp only [List.getElem?_map]
      cases hi : ks[i]? with
      | none =>
        rw [List.getElem?_eq_none_iff.mpr (by rw [g4]; exact List.getElem?_eq_none_iff.mp hi)]
        rfl
      | some k =>
        obtain ⟨col', ad, b, q1, q2, q3, q4⟩ := g5 i k hi
        cases q1
        rw [q4]
        simp [featureCell, hc, q2, q3]

/-- **C64** (given addresses).  A source opened on a table of addresses, with feature fields from any
storages, has as many elements as the table rows; element `k` exists exactly if each address of row
`k` does, and it is the records at these addresses, each in the storage of its field.  Several
elements at once are, for each field, the records at the addresses of these rows, in the storage of
the field. -/
theorem C64_external {E : Env} {group : List (Path × Nat) → List (Path × List Nat)} {feats : AMap String Feature}
    {a : Addresses} {useArray : Bool} (hmode : useArray = false ∨ feats.length ≠ 1) :
    ∃ src, openSource E group feats (some a) false useArray = .ok src ∧ src.len = a.rows ∧
      (∀ (disk : String → FS) k it, src.get disk k = .ok it ↔ ∃ m, it = valueOrDict m ∧
        m.map (fun x => (x.1, some x.2)) = feats.map (fun x => (x.1, featureCell disk a k x.1 x.2.location))) ∧
      ∀ (disk : String → FS) ks,
        (∀ x ∈ feats, (AMap.get? a.cols x.1).isSome ∧ ∀ k ∈ ks, (featureCell disk a k x.1 x.2.location).isSome) →
        ∃ m, src.getMany disk ks = .ok (valueOrDict m) ∧ m.map (fun x => (x.1, x.2.map some)) =
          feats.map (fun x => (x.1, ks.map (featureCell disk a · x.1 x.2.location))) := by
  refine ⟨.arrow a (feats.map (fun x => (x.1, x.2.location))) none, ?_, rfl, fun disk k it => ?_, fun disk ks hks => ?_⟩
  · unfold openSource
    simp only [Bool.false_eq_true, if_false, sourceAddresses]
    split
    · rcases hmode with h | h
      · cases h
      · exact absurd rfl h
    · rfl
  · rw [← ofDict_eq]
    have key := fun m => featuresGet_iff (disk := disk) (a := a) (k := k) (feats := feats.map (fun x => (x.1, x.2.location))) (m := m)
    simp only [List.map_map, Function.comp_def] at key
    unfold RSource.get
    cases hg : featuresGet disk a.cols k (feats.map (fun x => (x.1, x.2.location))) with
    | error e =>
      simp only [hg, reduceCtorEq, false_iff]
      rintro ⟨m, -, h2⟩
      rw [(key m).mpr h2] at hg
      cases hg
    | ok m =>
      simp only [hg, Except.ok.injEq]
      constructor
      · rintro rfl
        exact ⟨m, rfl, (key m).mp hg⟩
      · rintro ⟨m', rfl, h2⟩
        rw [(key m').mpr h2] at hg
        cases hg
        rfl
  · obtain ⟨m, h1, h2⟩ := featuresGetMany_eq (disk := disk) (a := a) (ks := ks)
      (feats := feats.map (fun x => (x.1, x.2.location))) (by
        intro x hx
        obtain ⟨y, hy, rfl⟩ := List.mem_map.mp hx
        exact hks y hy)
    refine ⟨m, ?_, by rw [h2, List.map_map]; rfl⟩
    rw [← ofDict_eq]
    unfold RSource.getMany
    simp only [h1]

/-- Two fields from two storages. -/
example : ((openSource env (groupRows · []) [("a", ⟨"x", (start schema).1, (start schema).2, []⟩),
      ("b", ⟨"y", (start schema).1, (start schema).2, []⟩)]
      (some ⟨2, [("b", [(.record "b" 0, 1), (.record "b" 0, 0)]), ("a", [(.record "a" 0, 0), (.record "a" 0, 2)])]⟩) false true).toOption.bind
      fun src => (src.toList (fun loc => if loc = "x" then [(.record "a" 0, .records [[1], [2], [3]])]
        else [(.record "b" 0, .records [[4], [5]])])).toOption) =
    some [.dict [("a", .sc (.bytes [1])), ("b", .sc (.bytes [5]))], .dict [("a", .sc (.bytes [3])), ("b", .sc (.bytes [4]))]] := by
  decide +kernel

/-- The same two fields, read together. -/
example : ((openSource env (groupRows · []) [("a", ⟨"x", (start schema).1, (start schema).2, []⟩),
      ("b", ⟨"y", (start schema).1, (start schema).2, []⟩)]
      (some ⟨2, [("b", [(.record "b" 0, 1), (.record "b" 0, 0)]), ("a", [(.record "a" 0, 0), (.record "a" 0, 2)])]⟩) false true).toOption.bind
      fun src => (src.getMany (fun loc => if loc = "x" then [(.record "a" 0, .records [[1], [2], [3]])]
        else [(.record "b" 0, .records [[4], [5]])]) [1, 0, 1]).toOption) =
    some (.dict [("a", [.sc (.bytes [3]), .sc (.bytes [1]), .sc (.bytes [3])]),
      ("b", [.sc (.bytes [4]), .sc (.bytes [5]), .sc (.bytes [4])])]) := by
  decide +kernel

/-! ## Counterexamples and a concrete case -/

/-- Large record files. -/
def Demo.envBig : Env := { env with recMax := 100 }

/-- Records of one file are exposed by row id. -/
theorem exposed_increasing {groups : List (Path × List Nat)} (hn : (groups.map Prod.fst).Nodup) :
    (exposed (buildFileInstructions groups)).Pairwise (fun a b => a.1 = b.1 → a.2 < b.2) := by
  rw [exposed_build, List.pairwise_flatMap]
  refine ⟨fun g _ => ?_, ?_⟩
  · rw [List.pairwise_map]
    refine (squeeze_lt (sorted_mergeSort_le g.2)).imp ?_
    intro a b h _
    exact h
  · have := List.pairwise_map.mp hn
    refine this.imp fun {a b} hab x hx y hy he => ?_
    obtain ⟨i, -, rfl⟩ := List.mem_map.mp hx
    obtain ⟨j, -, rfl⟩ := List.mem_map.mp hy
    exact absurd he hab

/-- A source in ArrayRecord mode opened on given addresses. -/
theorem open_array {E : Env} {h : Handle} {w : World} {n : Nat} {f : String} {col : List (Path × Nat)}
    (ha : sourceAddresses E (fromTable "" h w [] [f]) none = .ok ⟨n, [(f, col)]⟩)
    (group : List (Path × Nat) → List (Path × List Nat)) :
    openSource E group (fromTable "" h w [] [f]) none false true =
      .ok (.array "" (buildFileInstructions (group col)) none) := by
  unfold openSource
  rw [if_neg (by simp), ha]
  simp [fromTable, AMap.get?]

/-- **C64 is violated** (order): after a delete in the first of two files, row 0 of a read is not
element 0 of the source that is the default, however Arrow orders its groups. -/
theorem C64_violated_order : ∃ (σ : Sys) (sl : Slot) (rows : List Row), Reach envBig schema (single envBig schema) σ ∧
    sl ∈ σ.slots ∧ tableRead envBig sl.h σ.w {} none = .ok rows ∧
    ∀ group : List (Path × Nat) → List (Path × List Nat), (∀ l, Grouped l (group l)) →
      ∃ src, openSource envBig group (fromTable "" sl.h σ.w [] ["img"]) none false true = .ok src ∧
        ∃ r, rows[0]? = some r ∧ src.get (fun _ => σ.w.fs) 0 ≠ .ok (.one (r.val "img")) := by
  let σ := after envBig (singleB envBig) schema [.call 0 (.mutate (.append
      [[row 1 "a" [1], row 2 "b" [2], row 3 "c" [3], row 4 "d" [4]], [row 5 "e" [5], row 6 "f" [6]]])),
    .call 0 (.mutate (.delete (idIs "lt" 2)))]
  let rows := [row 5 "e" [5], row 6 "f" [6], row 2 "b" [2], row 3 "c" [3], row 4 "d" [4]]
  let p : Path := .record "img" 2
  let col := [(p, 4), (p, 5), (p, 1), (p, 2), (p, 3)]
  obtain ⟨sl, -, h1, h2⟩ := slot_of (σ := σ) (i := 0)
    (f := fun sl => (tableRead envBig sl.h σ.w {} none, sourceAddresses envBig (fromTable "" sl.h σ.w [] ["img"]) none,
      σ.w.fs.records p))
    (x := (.ok rows, .ok ⟨5, [("img", col)]⟩, some [[1], [2], [3], [4], [5], [6]]))
    (by decide +kernel)
  simp only [Prod.mk.injEq] at h2
  refine ⟨σ, sl, rows, after_reach singleB_single _, h1, h2.1, fun group hg => ⟨_, open_array h2.2.1 group, _, rfl, ?_⟩⟩
  intro hget
  obtain ⟨-, e2⟩ := C32_partial (hg col)
  have e3 := exposed_increasing (hg col).files
  cases hx : exposed (buildFileInstructions (group col)) with
  | nil => rw [hx] at e2; have := (e2 (p, 4)).mpr (by simp [col]); cases this
  | cons a l =>
    rw [hx] at e2 e3
    have ha : a ∈ col := (e2 a).mp List.mem_cons_self
    have h1 : (p, 1) ∈ a :: l := (e2 (p, 1)).mpr (by simp [col])
    have h4 : a = (p, 4) := by
      simp only [RSource.get, arrayGet, hx, List.getElem?_cons_zero] at hget
      simp only [col, List.mem_cons, List.not_mem_nil, or_false] at ha
      rcases ha with rfl | rfl | rfl | rfl | rfl
      · rfl
      all_goals
        simp only [h2.2.2] at hget
        revert hget
        decide
    subst h4
    have h1 : (p, 1) ∈ l := by simpa using h1
    have := (List.pairwise_cons.mp e3).1 _ h1 rfl
    omega

/-- **C64 is violated** (number): after a Ray delete that brings rows back twice, the source has fewer
elements than the table rows, however Arrow orders its groups. -/
theorem C64_violated_count : ∃ (σ : Sys) (sl : Slot) (rows : List Row), Reach env schema calm σ ∧ sl ∈ σ.slots ∧
    tableRead env sl.h σ.w {} none = .ok rows ∧
    ∀ group : List (Path × Nat) → List (Path × List Nat), (∀ l, Grouped l (group l)) →
      ∃ src, openSource env group (fromTable "" sl.h σ.w [] ["img"]) none false true = .ok src ∧
        src.len < rows.length := by
  let σ := after env calmB schema [.call 0 (.mutate (.append [[row 1 "a" [1], row 2 "b" [2], row 3 "c" [3], row 4 "d" [4]],
    [row 5 "e" [5], row 6 "f" [6]]])), .call 0 (.mutate (.rayDelete (idIn 3 6)))]
  let rows := [row 5 "e" [5], row 6 "f" [6], row 1 "a" [1], row 2 "b" [2], row 3 "c" [3], row 1 "a" [1], row 2 "b" [2],
    row 3 "c" [3], row 4 "d" [4], row 6 "f" [6]]
  let p : Path := .record "img" 2
  let q : Path := .record "img" 4
  let col := [(q, 0), (q, 1), (p, 0), (p, 1), (p, 2), (p, 0), (p, 1), (p, 2), (p, 3), (q, 1)]
  obtain ⟨sl, -, h1, h2⟩ := slot_of (σ := σ) (i := 0)
    (f := fun sl => (tableRead env sl.h σ.w {} none, sourceAddresses env (fromTable "" sl.h σ.w [] ["img"]) none))
    (x := (.ok rows, .ok ⟨10, [("img", col)]⟩)) (by decide +kernel)
  simp only [Prod.mk.injEq] at h2
  refine ⟨σ, sl, rows, after_reach calmB_calm _, h1, h2.1, fun group hg => ⟨_, open_array h2.2 group, ?_⟩⟩
  obtain ⟨e1, e2⟩ := C32_partial (hg col)
  have : (exposed (buildFileInstructions (group col))).length ≤ [(q, 0), (q, 1), (p, 0), (p, 1), (p, 2), (p, 3)].length :=
    length_le_of_subset e1 fun a ha => by
      have := (e2 a).mp ha
      simp only [col, List.mem_cons, List.not_mem_nil, or_false] at this ⊢
      rcases this with h | h | h | h | h | h | h | h | h | h <;> simp [h]
  simp only [RSource.len]
  exact Nat.lt_of_le_of_lt this (by decide)

/-- A deserialiser that raises on empty records. -/
def Demo.firstByte : FieldSer Val :=
  ⟨.ok, fun v => match v with
    | .sc (.bytes (b :: _)) => .ok (.sc (.int b))
    | _ => .error .userInput⟩

/-- A table to which the theorems about sources apply, with what a source on it gives. -/
example : ∃ σ sl, Reach env schema (single env schema) σ ∧ sl ∈ σ.slots ∧
    (tableRead env sl.h σ.w {} none).toOption.map List.length = some 4 ∧
    ((openSource env (groupRows · []) (fromTable "here" sl.h σ.w [("img", firstByte)] ["img"]) none true false).toOption.bind
      fun src => (src.toList (fun _ => σ.w.fs)).toOption) =
        some [.one (.sc (.int 1)), .one (.sc (.int 3)), .one (.sc (.int 4)), .one (.sc (.int 7))] := by
  let σ := after env (singleB env) schema [.call 0 (.mutate (.append [[row 1 "a" [1]],
      [row 2 "b" [2], row 3 "c" [3], row 4 "d" [4]]])), .call 0 (.mutate (.upsert [row 2 "B" [7]]))]
  obtain ⟨sl, -, h1, h2⟩ := slot_of (σ := σ) (i := 0) (f := fun sl =>
      ((tableRead env sl.h σ.w {} none).toOption.map List.length,
      ((openSource env (groupRows · []) (fromTable "here" sl.h σ.w [("img", firstByte)] ["img"]) none true false).toOption.bind
      fun src => (src.toList (fun _ => σ.w.fs)).toOption)))
    (x := (some 4, some [.one (.sc (.int 1)), .one (.sc (.int 3)), .one (.sc (.int 4)), .one (.sc (.int 7))]))
    (by decide +kernel)
  simp only [Prod.mk.injEq] at h2
  exact ⟨σ, sl, after_reach singleB_single _, h1, h2.1, h2.2⟩

end Space
