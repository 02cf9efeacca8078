import Verif.Props.Quaternion
import Verif.Props.Storage
import Verif.Props.Product
/-
C18, C19 for the operations that divide: `/` by a number, `revm`, `revcm` and `/` by a multivector.
-/

namespace TClifford
open Finset MV

section general
variable {T : Type} [DivisionRing T] [DecidableEq T] {S S' : Type} [CoeffStorage S T] [LawfulStorage S T] [CoeffStorage S' T]
  [LawfulStorage S' T] {A : ClAlg}

/-- Both computations fail in the same way, or both succeed with the same coefficients. -/
def SameOutcome (x : Res (MV A S)) (y : Res (MV A S')) : Prop := (∃ e, x = .error e ∧ y = .error e) ∨ CorrR x y

/-- Only the non-zero coefficients of a multivector are visited. -/
structure Tight (A : ClAlg) (S : Type) {T : Type} [DivisionRing T] [DecidableEq T] [CoeffStorage S T] [LawfulStorage S T] : Prop where
  enum : ∀ a : MV A S, a.Valid → a.isZero = true → a.coeffEnumerate = []
  zero : ∀ (a : MV A S) (f : T → Res T), a.Valid → a.isZero = true → CoeffStorage.coeffMapMut (T := T) a.coeffs f = .ok a.coeffs
  fail : ∀ (a : MV A S) (f : T → Res T) (e : Err), a.Valid → a.isZero = false → (∀ x, f x = .error e) →
    CoeffStorage.coeffMapMut (T := T) a.coeffs f = .error e

theorem enum_nil_of {a : MV A S} (ha : a.Valid) (hz : a.isZero = true) (hn : ∀ p ∈ a.coeffEnumerate, p.2 ≠ 0) : a.coeffEnumerate = [] := by
  rw [List.eq_nil_iff_forall_not_mem]
  intro p hp
  have h := LawfulStorage.enum_mem ha hp
  exact hn p hp (h.2.trans ((isZero_iff ha).mp hz _ h.1))

omit [LawfulStorage S T] in
theorem enum_ne_nil {a : MV A S} (h : a.isZero = false) : a.coeffEnumerate ≠ [] := by
  intro hc
  have : a.isZero = true := by unfold isZero; rw [hc]; rfl
  rw [h] at this; exact absurd this (by simp)

theorem tight_array : Tight A (ArrayStorage T) where
  enum a ha hz := enum_nil_of ha hz fun p hp => (ArrayStorage.mem_enum.mp hp).2.2
  zero a f ha hz := by
    have : ArrayStorage.coeffEnumerate a.coeffs = [] := enum_nil_of ha hz fun p hp => (ArrayStorage.mem_enum.mp hp).2.2
    show ArrayStorage.coeffMapMut a.coeffs f = _
    unfold ArrayStorage.coeffMapMut
    rw [this]; rfl
  fail a f e ha hz hf := by
    have hne : ArrayStorage.coeffEnumerate a.coeffs ≠ [] := enum_ne_nil hz
    show ArrayStorage.coeffMapMut a.coeffs f = _
    unfold ArrayStorage.coeffMapMut
    rcases hl : ArrayStorage.coeffEnumerate a.coeffs with _ | ⟨p, ps⟩
    · exact absurd hl hne
    · rw [List.foldlM_cons, hf]; rfl

theorem tight_sparse [HashOrder T] : Tight A (SparseStorage T) := by
  have hn : ∀ a : MV A (SparseStorage T), a.Valid → ∀ p ∈ a.coeffEnumerate, p.2 ≠ 0 := fun a ha p hp =>
    (ha.2.2.2.2 p ((HashOrder.perm _).mem_iff.mp hp)).2
  have he : ∀ a : MV A (SparseStorage T), a.Valid → a.isZero = true → a.coeffs.coeffs.entries = [] := fun a ha hz => by
    have h : a.coeffs.coeffs.iter = [] := enum_nil_of ha hz (hn a ha)
    exact List.perm_nil.mp (h ▸ (HashOrder.perm _).symm)
  refine ⟨fun a ha hz => enum_nil_of ha hz (hn a ha), fun a f ha hz => ?_, fun a f e ha hz hf => ?_⟩
  · show SparseStorage.coeffMapMut a.coeffs f = _
    have := he a ha hz
    unfold SparseStorage.coeffMapMut
    rw [this]
    obtain ⟨⟨d, l, ⟨en⟩⟩⟩ := a
    simp only at this
    subst this
    rfl
  · show SparseStorage.coeffMapMut a.coeffs f = _
    unfold SparseStorage.coeffMapMut
    rcases hl : a.coeffs.coeffs.entries with _ | ⟨p, ps⟩
    · refine absurd ?_ (enum_ne_nil hz)
      show HashOrder.order a.coeffs.coeffs.entries = []
      rw [hl]
      exact List.perm_nil.mp (HashOrder.perm _)
    · rw [List.mapM_cons, hf]; rfl

variable {a b : MV A S} {a' b' : MV A S'} (hS : Tight A S) (hS' : Tight A S')

theorem corr_isZero (ha : Corr a a') : a.isZero = a'.isZero := by
  rw [Bool.eq_iff_iff, isZero_iff ha.1, isZero_iff ha.2.1]
  exact forall₂_congr fun i hi => by rw [ha.val hi]

include hS hS' in
theorem same_sdiv (ha : Corr a a') (t : T) : SameOutcome (a.sdiv t) (a'.sdiv t) := by
  by_cases ht : t = 0
  · subst ht
    cases hz : a.isZero with
    | false => exact .inl ⟨_, C52_div_zero ha.1 hz, C52_div_zero ha.2.1 (corr_isZero ha ▸ hz)⟩
    | true =>
      refine .inr ?_
      unfold sdiv
      rw [hS.enum a ha.1 hz, hS'.enum a' ha.2.1 (corr_isZero ha ▸ hz)]
      refine .of_denotes (f := fun _ => 0) (g := fun _ => 0) ?_ ?_ fun _ _ => rfl
      · exact (default_denotes ha.1.supp).bind fun u hu hz => ⟨u, rfl, hu, hz⟩
      · exact (default_denotes ha.2.1.supp).bind fun u hu hz => ⟨u, rfl, hu, hz⟩
  · exact .inr (.of_denotes (sdiv_denotes ha.1 ht) (sdiv_denotes ha.2.1 ht) fun i hi => by rw [ha.val hi])

include hS hS' in
theorem same_revm (hA : A.WF) (ha : Corr a a') : SameOutcome a.revm a'.revm := by
  obtain ⟨u, v, hu, hv, hc⟩ := corr_rev ha
  have hm : a.mag2 = a'.mag2 := by
    rw [mag2_ok hA ha.1, mag2_ok hA ha.2.1]
    congr 1
    exact geo_congr (fun _ _ => rfl) (fun i hi => by rw [ha.val hi]) (fun i hi => ha.val hi) (Nat.two_pow_pos _)
  unfold revm
  rw [hu, hv, ← hm, mag2_ok hA ha.1]
  exact same_sdiv hS hS' hc _

theorem corr_cmag2 (hA : A.WF) {conj : T → T} (h0 : conj 0 = 0) (ha : Corr a a') : a.cmag2 conj = a'.cmag2 conj := by
  rw [cmag2_ok hA ha.1 h0, cmag2_ok hA ha.2.1 h0]
  congr 1
  exact geo_congr (fun _ _ => rfl) (fun i hi => by rw [ha.val hi]) (fun i hi => ha.val hi) (Nat.two_pow_pos _)

include hS hS' in
theorem same_revcm (hA : A.WF) {conj : T → T} (h0 : conj 0 = 0) (ha : Corr a a') : SameOutcome (a.revcm conj) (a'.revcm conj) := by
  obtain ⟨u, v, hu, hv, hc⟩ : CorrR (a.revc conj) (a'.revc conj) :=
    .of_denotes (revc_denotes ha.1 h0) (revc_denotes ha.2.1 h0) fun i hi => by rw [ha.val hi]
  unfold revcm
  rw [hu, hv, ← corr_cmag2 hA h0 ha, cmag2_ok hA ha.1 h0]
  exact same_sdiv hS hS' hc _

include hS hS' in
theorem same_div (hA : A.WF) (ha : Corr a a') (hb : Corr b b') : SameOutcome (a.div b) (a'.div b') := by
  obtain ⟨c, hc, hcf, e⟩ := div_step (a := a) hA hb.1
  obtain ⟨c', hc', hcf', e'⟩ := div_step (a := a') hA hb.2.1
  have hcj : ∀ i < 2 ^ A.dim, cj A.dim b.val i = cj A.dim b'.val i := by
    intro i hi
    show sg (par A.dim i) • (rsg A.dim i • b.val i) = sg (par A.dim i) • (rsg A.dim i • b'.val i)
    rw [hb.val hi]
  have hn : geo A.sigma A.dim b'.val (cj A.dim b'.val) 0 = geo A.sigma A.dim b.val (cj A.dim b.val) 0 :=
    (geo_congr (fun _ _ => rfl) (fun i hi => hb.val hi) hcj (Nat.two_pow_pos _)).symm
  rw [hn] at e'
  have hcc : Corr c c' := ⟨hc, hc', fun i hi => by rw [hc.get hi, hc'.get hi, hcf i hi, hcf' i hi, hcj i hi]⟩
  rw [e, e']
  by_cases h0 : geo A.sigma A.dim b.val (cj A.dim b.val) 0 = 0
  · rw [h0]
    cases hz : c.isZero with
    | false =>
      have hf : ∀ x : T, fdiv x 0 = .error .nonFinite := fun x => if_pos rfl
      rw [hS.fail c _ _ hc hz hf, hS'.fail c' _ _ hc' (corr_isZero hcc ▸ hz) hf]
      exact .inl ⟨_, rfl, rfl⟩
    | true =>
      rw [hS.zero c _ hc hz, hS'.zero c' _ hc' (corr_isZero hcc ▸ hz)]
      exact .inr (corr_mul hA ha hcc)
  · obtain ⟨s, hs, hsv, hsf⟩ := LawfulStorage.mapMut_ok (T := T) (f := fun x => fdiv x (geo A.sigma A.dim b.val (cj A.dim b.val) 0))
      (g := fun x => x / geo A.sigma A.dim b.val (cj A.dim b.val) 0) hc (fun x => by simp [fdiv, h0]) (zero_div _)
      (fun x hx => div_ne_zero hx h0)
    obtain ⟨s', hs', hsv', hsf'⟩ := LawfulStorage.mapMut_ok (T := T) (f := fun x => fdiv x (geo A.sigma A.dim b.val (cj A.dim b.val) 0))
      (g := fun x => x / geo A.sigma A.dim b.val (cj A.dim b.val) 0) hc' (fun x => by simp [fdiv, h0]) (zero_div _)
      (fun x hx => div_ne_zero hx h0)
    rw [hs, hs']
    have hv : MV.Valid (⟨s⟩ : MV A S) := hsv
    have hv' : MV.Valid (⟨s'⟩ : MV A S') := hsv'
    have hss : Corr (⟨s⟩ : MV A S) (⟨s'⟩ : MV A S') := ⟨hv, hv', fun i hi => by
      rw [hv.get hi, hv'.get hi]
      have h1 : MV.val (⟨s⟩ : MV A S) i = c.val i / geo A.sigma A.dim b.val (cj A.dim b.val) 0 := hsf i
      have h2 : MV.val (⟨s'⟩ : MV A S') i = c'.val i / geo A.sigma A.dim b.val (cj A.dim b.val) 0 := hsf' i
      rw [h1, h2, hcc.val hi]⟩
    exact .inr (corr_mul hA ha hss)

end general

/-! ### C18 -/

section c18
variable {T : Type} [DivisionRing T] [DecidableEq T] [HashOrder T] {A : ClAlg} {a b : MV A (ArrayStorage T)} {s r : MV A (SparseStorage T)}

/-- **C18, division.** The operations that divide give the same coefficients on dense and sparse operands, or are not finite on
both: dividing by a number, `revm`, `revcm` and dividing by a multivector.  Dividing by zero is included. -/
theorem C18_division (hA : A.WF) (ha : Corr a s) (hb : Corr b r) :
    (∀ t : T, SameOutcome (a.sdiv t) (s.sdiv t)) ∧ SameOutcome a.revm s.revm ∧
    (∀ conj : T → T, conj 0 = 0 → SameOutcome (a.revcm conj) (s.revcm conj) ∧ a.cmag2 conj = s.cmag2 conj) ∧
    SameOutcome (a.div b) (s.div r) := by
  refine ⟨same_sdiv tight_array tight_sparse ha, same_revm tight_array tight_sparse hA ha, fun conj h0 =>
    ⟨same_revcm tight_array tight_sparse hA h0 ha, corr_cmag2 hA h0 ha⟩, same_div tight_array tight_sparse hA ha hb⟩

end c18

/-! ### C19 -/

section c19
variable {T : Type} [DivisionRing T] [DecidableEq T] {A : ClAlg}

/-- Both computations fail in the same way, or both succeed, with equal coefficients. -/
def SameRE (x y : Res (MV A (SparseStorage T))) : Prop := (∃ e, x = .error e ∧ y = .error e) ∨ SameR x y

/-- **C19, division.** The operations that divide do not depend on the iteration order of the hash maps. -/
theorem C19_division (hA : A.WF) (o o' : HashOrder T) {a a' b b' : MV A (SparseStorage T)}
    (ha : ValidO o a) (ha' : ValidO o' a') (hb : ValidO o b) (hb' : ValidO o' b')
    (haa : SameCoeffs a a') (hbb : SameCoeffs b b') :
    (∀ t : T, SameRE (letI := o; a.sdiv t) (letI := o'; a'.sdiv t)) ∧
    SameRE (letI := o; a.revm) (letI := o'; a'.revm) ∧
    (∀ conj : T → T, conj 0 = 0 → SameRE (letI := o; a.revcm conj) (letI := o'; a'.revcm conj) ∧
      (letI := o; a.cmag2 conj) = (letI := o'; a'.cmag2 conj)) ∧
    SameRE (letI := o; a.div b) (letI := o'; a'.div b') := by
  have c1 : CorrO o o' a a' := .mk' ha ha' haa
  have c2 : CorrO o o' b b' := .mk' hb hb' hbb
  have hx : ∀ {x y : Res (MV A (SparseStorage T))}, @SameOutcome T _ _ (SparseStorage T) (SparseStorage T)
      (@SparseStorage.instCoeffStorage T _ _ _ _ o) (@SparseStorage.instLawfulStorage T _ _ _ _ _ o)
      (@SparseStorage.instCoeffStorage T _ _ _ _ o') (@SparseStorage.instLawfulStorage T _ _ _ _ _ o') A x y → SameRE x y :=
    fun h => h.imp id CorrRO.same
  have t : @Tight A (SparseStorage T) T _ _ (@SparseStorage.instCoeffStorage T _ _ _ _ o) (@SparseStorage.instLawfulStorage T _ _ _ _ _ o) :=
    letI := o; tight_sparse
  have t' : @Tight A (SparseStorage T) T _ _ (@SparseStorage.instCoeffStorage T _ _ _ _ o') (@SparseStorage.instLawfulStorage T _ _ _ _ _ o') :=
    letI := o'; tight_sparse
  refine ⟨fun u => hx (@same_sdiv T _ _ _ _ (@SparseStorage.instCoeffStorage T _ _ _ _ o)
      (@SparseStorage.instLawfulStorage T _ _ _ _ _ o) (@SparseStorage.instCoeffStorage T _ _ _ _ o')
      (@SparseStorage.instLawfulStorage T _ _ _ _ _ o') A _ _ t t' c1 u),
    hx (@same_revm T _ _ _ _ (@SparseStorage.instCoeffStorage T _ _ _ _ o)
      (@SparseStorage.instLawfulStorage T _ _ _ _ _ o) (@SparseStorage.instCoeffStorage T _ _ _ _ o')
      (@SparseStorage.instLawfulStorage T _ _ _ _ _ o') A _ _ t t' hA c1),
    fun conj h0 => ⟨hx (@same_revcm T _ _ _ _ (@SparseStorage.instCoeffStorage T _ _ _ _ o)
      (@SparseStorage.instLawfulStorage T _ _ _ _ _ o) (@SparseStorage.instCoeffStorage T _ _ _ _ o')
      (@SparseStorage.instLawfulStorage T _ _ _ _ _ o') A _ _ t t' hA conj h0 c1),
      @corr_cmag2 T _ _ _ _ (@SparseStorage.instCoeffStorage T _ _ _ _ o)
      (@SparseStorage.instLawfulStorage T _ _ _ _ _ o) (@SparseStorage.instCoeffStorage T _ _ _ _ o')
      (@SparseStorage.instLawfulStorage T _ _ _ _ _ o') A _ _ hA conj h0 c1⟩,
    hx (@same_div T _ _ _ _ (@SparseStorage.instCoeffStorage T _ _ _ _ o)
      (@SparseStorage.instLawfulStorage T _ _ _ _ _ o) (@SparseStorage.instCoeffStorage T _ _ _ _ o')
      (@SparseStorage.instLawfulStorage T _ _ _ _ _ o') A _ _ _ _ t t' hA c1 c2)⟩

/-- The quaternions. -/
def Ex.Hq : ClAlg := (declareAlgebra [.minus, .minus] []).get rfl
theorem Ex.Hq_wf : Ex.Hq.WF := declareAlgebra_wf (sig := [.minus, .minus]) (names := []) rfl

/-- Quaternions with given coefficients, dense and sparse. -/
def Ex.divD (c : List ℚ) : MV Ex.Hq (ArrayStorage ℚ) := ⟨⟨2, ⟨4, fun i => c.getD i 0⟩⟩⟩
def Ex.divS (l : List (Nat × ℚ)) : MV Ex.Hq (SparseStorage ℚ) := ⟨⟨2, 4, ⟨l⟩⟩⟩

example : letI : HashOrder ℚ := Ex.revOrder
    SameOutcome ((Ex.divD [1, 2, 3, 4]).div (Ex.divD [2, 0, 0, -1])) ((Ex.divS [(3, 4), (0, 1), (1, 2), (2, 3)]).div (Ex.divS [(3, -1), (0, 2)])) :=
  letI : HashOrder ℚ := Ex.revOrder
  (C18_division (T := ℚ) Ex.Hq_wf
    ⟨⟨by decide, rfl, rfl⟩, ⟨by decide, rfl, rfl, by decide, by decide⟩, fun i hi => by
      have hi : i < 4 := hi
      interval_cases i <;> rfl⟩
    ⟨⟨by decide, rfl, rfl⟩, ⟨by decide, rfl, rfl, by decide, by decide⟩, fun i hi => by
      have hi : i < 4 := hi
      interval_cases i <;> rfl⟩).2.2.2

example : SameRE (letI : HashOrder ℚ := Ex.revOrder; (Ex.divS [(3, 4), (0, 1), (1, 2), (2, 3)]).div (Ex.divS [(3, -1), (0, 2)]))
    (letI : HashOrder ℚ := Ex.idOrder; (Ex.divS [(0, 1), (1, 2), (2, 3), (3, 4)]).div (Ex.divS [(3, -1), (0, 2)])) :=
  (C19_division Ex.Hq_wf Ex.revOrder Ex.idOrder ⟨by decide, rfl, rfl, by decide, by decide⟩ ⟨by decide, rfl, rfl, by decide, by decide⟩
    ⟨by decide, rfl, rfl, by decide, by decide⟩ ⟨by decide, rfl, rfl, by decide, by decide⟩
    (by intro i hi; have hi : i < 4 := hi; interval_cases i <;> rfl) (fun _ _ => rfl)).2.2.2

end c19

end TClifford
