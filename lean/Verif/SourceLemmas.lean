import Verif.Source
import Verif.Props.Access
import Verif.Props.Distinct

/-!
# Random access data sources: lemmas
-/

set_option autoImplicit false

namespace Space

/-- Address columns of rows. -/
def ColsOf (phys : List Row) (fields : List String) (t : AddrTable) : Prop :=
  ∀ f ∈ fields, ∃ col, t.get? f = some col ∧ col.map (fun a => Val.addr a.1 a.2) = phys.map (·.val f)

theorem addrColumn_eq {f : String} : ∀ {rows : List Row}, (∀ r ∈ rows, ∃ p i, r.val f = .addr p i) →
    ∃ col, addrColumn f rows = .ok col ∧ col.map (fun a => Val.addr a.1 a.2) = rows.map (·.val f)
  | [], _ => ⟨[], rfl, rfl⟩
  | r :: rows, h => by
    obtain ⟨p, i, hv⟩ := h r List.mem_cons_self
    obtain ⟨col, h1, h2⟩ := addrColumn_eq fun r hr => h r (List.mem_cons_of_mem _ hr)
    exact ⟨(p, i) :: col, by simp [addrColumn, hv, h1], by simp [hv, h2]⟩

theorem addrColumns_eq {recs : List String} {rows : List Row} : ∀ {fields : List String}, (∀ f ∈ fields, f ∈ recs) →
    (∀ f ∈ fields, ∀ r ∈ rows, ∃ p i, r.val f = .addr p i) →
    ∃ t, addrColumns recs rows fields = .ok t ∧ ColsOf rows fields t
  | [], _, _ => ⟨[], rfl, nofun⟩
  | f :: fields, hr, h => by
    obtain ⟨col, h1, h2⟩ := addrColumn_eq (h f List.mem_cons_self)
    obtain ⟨t, h3, h4⟩ := addrColumns_eq (fun f hf => hr f (List.mem_cons_of_mem _ hf))
      fun f hf => h f (List.mem_cons_of_mem _ hf)
    refine ⟨(f, col) :: t, ?_, ?_⟩
    · simp [addrColumns, hr f List.mem_cons_self, h1, h3]
    · intro g hg
      by_cases hgf : g = f
      · subst hgf
        exact ⟨col, by simp [AMap.get?], h2⟩
      · have := h4 g ((List.mem_cons.mp hg).resolve_left hgf)
        rwa [show AMap.get? ((f, col) :: t) g = AMap.get? t g by simp [AMap.get?, Ne.symm hgf]]

theorem ColsOf.select {phys : List Row} {fields : List String} {t : AddrTable}
    (h : ColsOf (phys.map (·.select fields)) fields t) : ColsOf phys fields t := by
  intro f hf
  obtain ⟨col, h1, h2⟩ := h f hf
  refine ⟨col, h1, h2.trans ?_⟩
  rw [List.map_map]
  exact List.map_congr_left fun r _ => select_val hf

section
variable {fs : FS} {phys : List Row} {fields : List String} {t : AddrTable} {loc : String}

/-- Every address of the fields exists. -/
def AddrsIn (fs : FS) (phys : List Row) (fields : List String) : Prop :=
  ∀ f ∈ fields, ∀ r ∈ phys, AddrVal fs.records (r.val f)

theorem AddrsIn.mono {fs' : FS} (h : AddrsIn fs phys fields) (hf : FSLe fs fs') : AddrsIn fs' phys fields :=
  fun f hff r hr => (h f hff r hr).mono hf.lookLe

/-- The record at an address of a row. -/
theorem recordAt_val {a : Path × Nat} (h : AddrVal fs.records (.addr a.1 a.2)) :
    ∃ b, recordAt fs a = some b ∧ derefVal fs.records (.addr a.1 a.2) = .sc (.bytes b) := by
  obtain ⟨p, i, rs, h1, h2, h3⟩ := h
  cases h1
  exact ⟨rs[a.2], by simp [recordAt, h2, h3], by simp [derefVal, h2, h3, Val.ofRecord]⟩

theorem ColsOf.at {f : String} {col : List (Path × Nat)} (h : col.map (fun a => Val.addr a.1 a.2) = phys.map (·.val f))
    (k : Nat) : (col[k]?).map (fun a => Val.addr a.1 a.2) = (phys[k]?).map (·.val f) := by
  have := congrArg (·[k]?) h
  simpa using this

theorem featuresGet_in (hc : ColsOf phys fields t) (ha : AddrsIn fs phys fields) {k : Nat} {r : Row}
    (hk : phys[k]? = some r) : featuresGet (fun _ => fs) t k (fields.map (fun f => (f, loc))) =
      .ok (fields.map (fun f => (f, derefVal fs.records (r.val f)))) := by
  induction fields with
  | nil => rfl
  | cons f fields ih =>
    have ih := ih (fun g hg => hc g (List.mem_cons_of_mem _ hg)) fun g hg => ha g (List.mem_cons_of_mem _ hg)
    obtain ⟨col, h1, h2⟩ := hc f List.mem_cons_self
    have h3 := ColsOf.at h2 k
    rw [hk] at h3
    cases hck : col[k]? with
    | none => rw [hck] at h3; cases h3
    | some a =>
      rw [hck] at h3
      simp only [Option.map_some, Option.some.injEq] at h3
      have h4 := ha f List.mem_cons_self r (List.mem_of_getElem? hk)
      rw [← h3] at h4
      obtain ⟨b, h5, h6⟩ := recordAt_val h4
      have h7 : arrowGet fs [(f, col)] k = .ok [(f, b)] := (C32_arrow fs _ k _).mpr (by simp [hck, h5])
      simp only [List.map_cons, featuresGet, h1, h7, ih]
      simp [← h3, h6]

theorem featuresGet_out (hc : ColsOf phys fields t) (hne : fields ≠ []) {k : Nat} (hk : phys[k]? = none) :
    featuresGet (fun _ => fs) t k (fields.map (fun f => (f, loc))) = .error (.other "IndexError") := by
  cases fields with
  | nil => exact absurd rfl hne
  | cons f fields =>
    obtain ⟨col, h1, h2⟩ := hc f List.mem_cons_self
    have h3 := ColsOf.at h2 k
    rw [hk] at h3
    have hck : col[k]? = none := by
      cases hck : col[k]? with
      | none => rfl
      | some a => rw [hck] at h3; cases h3
    simp only [List.map_cons, featuresGet, h1, arrowGet, hck]

theorem featuresGetMany_in (hc : ColsOf phys fields t) (ha : AddrsIn fs phys fields) {ks : List Nat} {picks : List Row}
    (hk : ks.map (phys[·]?) = picks.map some) :
    featuresGetMany (fun _ => fs) t ks (fields.map (fun f => (f, loc))) =
      .ok (fields.map (fun f => (f, picks.map (fun r => derefVal fs.records (r.val f))))) := by
  induction fields with
  | nil => rfl
  | cons f fields ih =>
    have ih := ih (fun g hg => hc g (List.mem_cons_of_mem _ hg)) fun g hg => ha g (List.mem_cons_of_mem _ hg)
    obtain ⟨col, h1, h2⟩ := hc f List.mem_cons_self
    have hpk : ∀ (ks : List Nat) (picks : List Row), ks.map (phys[·]?) = picks.map some →
        (∀ r ∈ picks, r ∈ phys) ∧
        ∃ as, takeAddrs col ks = .ok as ∧ as.map (fun a => Val.addr a.1 a.2) = picks.map (·.val f) := by
      intro ks
      induction ks with
      | nil =>
        intro picks h
        cases picks with
        | nil => exact ⟨nofun, [], rfl, rfl⟩
        | cons _ _ => cases h
      | cons k ks ihk =>
        intro picks h
        cases picks with
        | nil => cases h
        | cons r picks =>
          simp only [List.map_cons, List.cons.injEq] at h
          obtain ⟨h5, as, h6, h7⟩ := ihk picks h.2
          have h3 := ColsOf.at h2 k
          rw [h.1] at h3
          cases hck : col[k]? with
          | none => rw [hck] at h3; cases h3
          | some a =>
            rw [hck] at h3
            simp only [Option.map_some, Option.some.injEq] at h3
            refine ⟨?_, a :: as, by simp [takeAddrs, hck, h6], by simp [h7, h3]⟩
            intro x hx
            rcases List.mem_cons.mp hx with rfl | hx
            · exact List.mem_of_getElem? h.1
            · exact h5 x hx
    obtain ⟨h3, as, h4, h5⟩ := hpk ks picks hk
    have h6 : readRecordColumn fs (as.map (fun a => .addr a.1 a.2)) =
        .ok (picks.map (fun r => derefVal fs.records (r.val f))) := by
      rw [readRecordColumn_eq, h5, List.map_map]
      · rfl
      · rw [h5]
        intro v hv
        obtain ⟨r, hr, rfl⟩ := List.mem_map.mp hv
        exact ha f List.mem_cons_self r (h3 r hr)
    have h7 : arrowGetMany fs [(f, col)] ks = .ok [(f, picks.map (fun r => derefVal fs.records (r.val f)))] := by
      simp only [arrowGetMany, h4, h6]
    simp only [List.map_cons, featuresGetMany, h1, h7, ih]
    rfl

end

theorem storagesOf_same {ft : Feature} : ∀ {fields : List String}, fields ≠ [] →
    storagesOf (fields.map (fun f => (f, ft))) = [(ft.location, ft)] := by
  have key : ∀ (fields : List String), (fields.map (fun f => (f, ft))).foldl
      (fun (m : AMap String Feature) x => m.set x.2.location x.2) [(ft.location, ft)] = [(ft.location, ft)] := by
    intro fields
    induction fields with
    | nil => rfl
    | cons f fields ih =>
      simp only [List.map_cons, List.foldl_cons]
      rw [show AMap.set [(ft.location, ft)] ft.location ft = [(ft.location, ft)] by simp [AMap.set]]
      exact ih
  intro fields hne
  cases fields with
  | nil => exact absurd rfl hne
  | cons f fields => exact key fields

theorem serializersFor_same {ft : Feature} : ∀ {fields : List String}, (∀ f ∈ fields, ∃ x, ft.sers.get? f = some x) →
    ∃ S, serializersFor (fields.map (fun f => (f, ft))) = .ok S ∧ ∀ f ∈ fields, AMap.get? S f = ft.sers.get? f
  | [], _ => ⟨[], rfl, nofun⟩
  | f :: fields, h => by
    obtain ⟨x, hx⟩ := h f List.mem_cons_self
    obtain ⟨S, h1, h2⟩ := serializersFor_same fun g hg => h g (List.mem_cons_of_mem _ hg)
    refine ⟨(f, x) :: S, by simp [serializersFor, hx, h1], fun g hg => ?_⟩
    by_cases hgf : g = f
    · subst hgf
      simp [AMap.get?, hx]
    · have := h2 g ((List.mem_cons.mp hg).resolve_left hgf)
      rw [← this]
      simp [AMap.get?, Ne.symm hgf]

theorem serializersFor_missing {ft : Feature} : ∀ {fields : List String}, (∃ f ∈ fields, ft.sers.get? f = none) →
    serializersFor (fields.map (fun f => (f, ft))) = .error .userInput
  | [], h => by obtain ⟨f, hf, -⟩ := h; cases hf
  | f :: fields, h => by
    simp only [List.map_cons, serializersFor]
    cases hx : ft.sers.get? f with
    | none => rfl
    | some x =>
      obtain ⟨g, hg, hn⟩ := h
      rcases List.mem_cons.mp hg with rfl | hg
      · rw [hx] at hn; cases hn
      · simp only [serializersFor_missing ⟨g, hg, hn⟩]

end Space
