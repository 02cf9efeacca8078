import Verif.Props.Storage
import Verif.Props.ComplexExamples
import Verif.Model.Quaternion
import Mathlib.Algebra.Quaternion
import Mathlib.Algebra.Order.Ring.Rat
import Mathlib.Analysis.SpecialFunctions.Pow.Real
import Mathlib.Analysis.Complex.Norm
/-
Division in the algebras `[-]` and `[-,-]`, and quaternions: C44, C45.
-/

set_option linter.unusedSectionVars false

namespace TClifford

open MV Finset
open scoped Quaternion

/-! ### The two division algebras -/

/-- Coefficients of `b.rev().flip()`. -/
def cj {T : Type} [Ring T] (n : Nat) (f : Nat → T) : Nat → T := flp n (fun i => rsg n i • f i)

section small
variable {T : Type} [CommRing T]

theorem cj_zero (f : Nat → T) (n : Nat) : cj n f 0 = f 0 := by
  have h1 : par n 0 = false := by
    induction n with
    | zero => rfl
    | succ n ih => simp [par, ih]
  have h2 : rsg n 0 = 1 := by
    induction n with
    | zero => rfl
    | succ n ih => simp [rsg, ih]
  simp [cj, flp, h1, h2]

theorem cj_one (f : Nat → T) : cj 1 f 1 = -f 1 := by
  have h1 : par 1 1 = true := by decide
  have h2 : rsg 1 1 = 1 := by decide
  simp [cj, flp, h1, h2]

theorem cj_two (f : Nat → T) : cj 2 f 1 = -f 1 ∧ cj 2 f 2 = -f 2 ∧ cj 2 f 3 = -f 3 := by
  have h1 : par 2 1 = true ∧ par 2 2 = true ∧ par 2 3 = false := by decide
  have h2 : rsg 2 1 = 1 ∧ rsg 2 2 = 1 ∧ rsg 2 3 = -1 := by decide
  simp [cj, flp, h1, h2]

theorem geo_neg_one (f g : Nat → T) : geo (fun _ => -1) 1 f g 0 = f 0 * g 0 - f 1 * g 1 ∧
    geo (fun _ => -1) 1 f g 1 = f 0 * g 1 + f 1 * g 0 := by
  have h1 : bsgn (fun _ => -1) 1 1 1 = -1 := by decide
  simp [geo, Finset.sum_range_succ, h1]
  ring

theorem geo_neg_two (f g : Nat → T) :
    geo (fun _ => -1) 2 f g 0 = f 0 * g 0 - f 1 * g 1 - f 2 * g 2 - f 3 * g 3 ∧
    geo (fun _ => -1) 2 f g 1 = f 0 * g 1 + f 1 * g 0 - f 2 * g 3 + f 3 * g 2 ∧
    geo (fun _ => -1) 2 f g 2 = f 0 * g 2 + f 2 * g 0 + f 1 * g 3 - f 3 * g 1 ∧
    geo (fun _ => -1) 2 f g 3 = f 0 * g 3 + f 3 * g 0 - f 1 * g 2 + f 2 * g 1 := by
  have h1 : ∀ i ∈ Finset.range 4, ∀ k ∈ Finset.range 4, bsgn (fun _ => -1) 2 i k =
      if i = 0 ∨ k = 0 then 1 else if i = k then -1 else
      if (i, k) = (1, 2) ∨ (i, k) = (2, 3) ∨ (i, k) = (3, 1) then -1 else 1 := by decide
  simp only [Finset.mem_range] at h1
  refine ⟨?_, ?_, ?_, ?_⟩ <;> simp [geo, Finset.sum_range_succ, h1] <;> ring

end small

section division
variable {sig : List Sym} {names : List String} {A : ClAlg}

/-- The algebras that implement `DivisionAlgebra` have one or two generators, all squaring to -1. -/
theorem division_cases (hA : declareAlgebra sig names = some A) (hd : implDivision sig = true) :
    A.WF ∧ (A.dim = 1 ∨ A.dim = 2) ∧ ∀ i < A.dim, A.sigma i = -1 := by
  have hdim : A.dim = sig.length := (declareAlgebra_eq hA).2.2.1
  refine ⟨declareAlgebra_wf hA, ?_, ?_⟩
  · rcases (by simpa [implDivision, implComplex, implQuaternionic] using hd : sig = [.minus] ∨ sig = [.minus, .minus]) with rfl | rfl
    · exact .inl hdim
    · exact .inr hdim
  · intro i hi
    rw [declareAlgebra_sigma hA (by omega)]
    rcases (by simpa [implDivision, implComplex, implQuaternionic] using hd : sig = [.minus] ∨ sig = [.minus, .minus]) with rfl | rfl
    · have : i = 0 := by simp at hdim; omega
      subst this; rfl
    · have : i = 0 ∨ i = 1 := by simp at hdim; omega
      rcases this with rfl | rfl <;> rfl

/-- In these algebras `f * conj f` and `conj f * f` are both the sum of the squares of the coefficients. -/
theorem geo_cj {T : Type} [CommRing T] {n : Nat} (hn : n = 1 ∨ n = 2) {σ : Nat → ℤ} (hσ : ∀ i < n, σ i = -1) (f : Nat → T) {k : Nat}
    (hk : k < 2 ^ n) :
    geo σ n f (cj n f) k = single 0 (∑ i ∈ range (2 ^ n), f i * f i) k ∧
    geo σ n (cj n f) f k = single 0 (∑ i ∈ range (2 ^ n), f i * f i) k := by
  rw [geo_congr (τ := fun _ => -1) hσ (fun _ _ => rfl) (fun _ _ => rfl) hk,
    geo_congr (f := cj n f) (τ := fun _ => -1) hσ (fun _ _ => rfl) (fun _ _ => rfl) hk]
  rcases hn with rfl | rfl
  · obtain ⟨h0, h1⟩ := geo_neg_one f (cj 1 f)
    obtain ⟨h0', h1'⟩ := geo_neg_one (cj 1 f) f
    have hk : k = 0 ∨ k = 1 := by omega
    rcases hk with rfl | rfl <;> constructor <;>
      simp [h0, h1, h0', h1', cj_zero, cj_one, single, Finset.sum_range_succ] <;> ring
  · obtain ⟨h0, h1, h2, h3⟩ := geo_neg_two f (cj 2 f)
    obtain ⟨h0', h1', h2', h3'⟩ := geo_neg_two (cj 2 f) f
    have hk : k = 0 ∨ k = 1 ∨ k = 2 ∨ k = 3 := by omega
    rcases hk with rfl | rfl | rfl | rfl <;> constructor <;>
      simp [h0, h1, h2, h3, h0', h1', h2', h3', cj_zero, cj_two, single, Finset.sum_range_succ] <;> ring

theorem conj_denotes {T : Type} [Ring T] [DecidableEq T] {S : Type} [CoeffStorage S T] [LawfulStorage S T] {b : MV A S}
    (hb : b.Valid) : Denotes (do let r ← b.rev; r.flip) (cj A.dim b.val) := (rev_denotes hb).flip

variable {T : Type} [Field T] [DecidableEq T] {S : Type} [CoeffStorage S T] [LawfulStorage S T]

theorem div_denotes (hA : A.WF) {a b : MV A S} (ha : a.Valid) (hb : b.Valid)
    (hn : geo A.sigma A.dim b.val (cj A.dim b.val) 0 ≠ 0) :
    Denotes (a.div b) (geo A.sigma A.dim a.val
      (fun i => cj A.dim b.val i / geo A.sigma A.dim b.val (cj A.dim b.val) 0)) := by
  unfold MV.div
  obtain ⟨r, hr, hrv, hrf⟩ := rev_denotes hb
  obtain ⟨c, hc, hcv, hcf⟩ := flip_denotes hrv
  have hcf' : ∀ i < 2 ^ A.dim, c.val i = cj A.dim b.val i := by
    intro i hi
    rw [hcf i hi]
    unfold cj flp
    rw [hrf i hi]
  obtain ⟨p, hp, hpv, hpf⟩ := mul_denotes hA hb hcv
  have hp0 : p.val 0 = geo A.sigma A.dim b.val (cj A.dim b.val) 0 := by
    rw [hpf 0 (Nat.two_pow_pos _)]
    exact geo_congr (fun _ _ => rfl) (fun _ _ => rfl) hcf' (Nat.two_pow_pos _)
  rw [← hp0] at hn ⊢
  obtain ⟨s, hs, hsv, hsf⟩ := LawfulStorage.mapMut_ok (T := T) (f := fun c => fdiv c (p.val 0)) (g := fun c => c / p.val 0) hcv
    (fun x => by simp [fdiv, hn]) (zero_div _) (fun x hx => div_ne_zero hx hn)
  have hsv' : MV.Valid (⟨s⟩ : MV A S) := hsv
  obtain ⟨q, hq, hqv, hqf⟩ := mul_denotes hA ha hsv'
  refine ⟨q, ?_, hqv, ?_⟩
  · have e0 : p.getByIdx 0 = .ok (p.val 0) := hpv.get (Nat.two_pow_pos _)
    simp only [hr, hc, hp, e0, hs, hq, bind, Except.bind]
  · intro k hk
    rw [hqf k hk]
    exact geo_congr (fun _ _ => rfl) (fun _ _ => rfl) (fun i hi => by
      rw [← hcf' i hi]; exact hsf i) hk

/-- The scalar part of `b * b.rev().flip()`. -/
def normProg (b : MV A S) : Res T := do
  let r ← b.rev
  let c ← r.flip
  let p ← b.naiveMulImpl c
  p.scalarPart

theorem normProg_ok (hA : A.WF) {b : MV A S} (hb : b.Valid) :
    normProg b = .ok (geo A.sigma A.dim b.val (cj A.dim b.val) 0) := by
  have h := ((Denotes.of_valid hb).mul hA (conj_denotes hb)).scalarPart
  have e : normProg b = ((do let u ← Except.ok b; let v ← (do let r ← b.rev; r.flip); u.naiveMulImpl v) >>= fun u => u.scalarPart) := by
    unfold normProg
    rcases b.rev with _ | r
    · rfl
    · show (r.flip >>= _) = ((r.flip >>= fun v => b.naiveMulImpl v) >>= _)
      rcases r.flip with _ | c <;> rfl
  rw [e]
  exact h

/-- **C44, the norm.** In the algebras `[-]` and `[-,-]`, `b * b.rev().flip()` is the scalar `Σ bᵢ²`. -/
theorem C44_norm (hA : declareAlgebra sig names = some A) (hd : implDivision sig = true) {b : MV A S} (hb : b.Valid)
    {c : Nat → T} (hc : ∀ i < 2 ^ A.dim, b.getByIdx i = .ok (c i)) :
    (do let r ← b.rev; let c ← r.flip; let p ← b.naiveMulImpl c; p.scalarPart) = .ok (∑ i ∈ range (2 ^ A.dim), c i * c i) ∧
    (do let x ← (do let r ← b.rev; r.flip); b.naiveMulImpl x) ≈ᵣ fromScalar (∑ i ∈ range (2 ^ A.dim), c i * c i) := by
  obtain ⟨hw, hdim, hσ⟩ := division_cases hA hd
  have hs : ∑ i ∈ range (2 ^ A.dim), c i * c i = ∑ i ∈ range (2 ^ A.dim), b.val i * b.val i := by
    refine Finset.sum_congr rfl fun i hi => ?_
    have := hc i (mem_range.mp hi)
    rw [hb.get (mem_range.mp hi)] at this
    injection this with this
    rw [this]
  rw [hs]
  refine ⟨?_, ?_⟩
  · have := normProg_ok hw hb
    rw [(geo_cj hdim hσ b.val (Nat.two_pow_pos _)).1] at this
    exact this
  · exact Agree.of_denotes ((Denotes.of_valid hb).mul hw (conj_denotes hb)) (fromScalar_denotes hb.supp _)
      (fun k hk => (geo_cj hdim hσ b.val hk).1)

theorem div_facts (hA : declareAlgebra sig names = some A) (hd : implDivision sig = true) {a b : MV A S} (ha : a.Valid)
    (hb : b.Valid) (h0 : ∑ i ∈ range (2 ^ A.dim), b.val i * b.val i ≠ 0) :
    (do let q ← a.div b; q.naiveMulImpl b) ≈ᵣ .ok a ∧
    (do let p ← a.naiveMulImpl b; p.div b) ≈ᵣ .ok a ∧
    (do let o ← one (T := T); let q ← o.div b; b.naiveMulImpl q) ≈ᵣ one ∧
    (do let o ← one (T := T); let q ← o.div b; q.naiveMulImpl b) ≈ᵣ one := by
  obtain ⟨hw, hdim, hσ⟩ := division_cases hA hd
  have hN := (geo_cj hdim hσ b.val (Nat.two_pow_pos _)).1
  rw [single, if_pos rfl] at hN
  set N := ∑ i ∈ range (2 ^ A.dim), b.val i * b.val i with hNdef
  have hn : geo A.sigma A.dim b.val (cj A.dim b.val) 0 ≠ 0 := by rw [hN]; exact h0
  have hdiv : ∀ {x : MV A S} (hx : x.Valid), Denotes (x.div b) (geo A.sigma A.dim x.val (fun i => N⁻¹ * cj A.dim b.val i)) := by
    intro x hx
    refine (div_denotes hw hx hb hn).congr (fun k hk => ?_)
    refine geo_congr (fun _ _ => rfl) (fun _ _ => rfl) (fun i hi => ?_) hk
    rw [hN, div_eq_mul_inv, mul_comm]
  have hl : ∀ k < 2 ^ A.dim, geo A.sigma A.dim (fun i => N⁻¹ * cj A.dim b.val i) b.val k = single 0 1 k := by
    intro k hk
    rw [geo_smul_left, (geo_cj hdim hσ b.val hk).2]
    unfold single
    split
    · exact inv_mul_cancel₀ h0
    · rw [mul_zero]
  have hr : ∀ k < 2 ^ A.dim, geo A.sigma A.dim b.val (fun i => N⁻¹ * cj A.dim b.val i) k = single 0 1 k := by
    intro k hk
    have e : geo A.sigma A.dim b.val (fun i => N⁻¹ * cj A.dim b.val i) k = N⁻¹ * geo A.sigma A.dim b.val (cj A.dim b.val) k := by
      rw [← geo_smul_left]
      rw [← geo_smul_mid]
      exact geo_congr (fun _ _ => rfl) (fun i _ => mul_comm _ _) (fun _ _ => rfl) hk
    rw [e, (geo_cj hdim hσ b.val hk).1]
    unfold single
    split
    · exact inv_mul_cancel₀ h0
    · rw [mul_zero]
  obtain ⟨o, ho, hov, hof⟩ := one_denotes (A := A) (S := S) (T := T) hb.supp
  refine ⟨?_, ?_, ?_, ?_⟩
  · refine Agree.of_denotes (.mul hw (hdiv ha) (.of_valid hb)) (.of_valid ha) (fun k hk => ?_)
    rw [geo_assoc, geo_congr (fun _ _ => rfl) (fun _ _ => rfl) hl hk, geo_one_right _ _ _ hk]
  · obtain ⟨p, hp, hpv, hpf⟩ := mul_denotes hw ha hb
    rw [hp]
    refine Agree.of_denotes (hdiv hpv) (.of_valid ha) (fun k hk => ?_)
    rw [geo_congr (fun _ _ => rfl) hpf (fun _ _ => rfl) hk, geo_assoc, geo_congr (fun _ _ => rfl) (fun _ _ => rfl) hr hk,
      geo_one_right _ _ _ hk]
  · rw [ho]
    refine Agree.of_denotes (.mul hw (.of_valid hb) (hdiv hov)) (.of_valid hov) (fun k hk => ?_)
    rw [hof k hk, ← hr k hk]
    refine geo_congr (fun _ _ => rfl) (fun _ _ => rfl) (fun i hi => ?_) hk
    rw [geo_congr (fun _ _ => rfl) hof (fun _ _ => rfl) hi, geo_one_left]
  · rw [ho]
    refine Agree.of_denotes (.mul hw (hdiv hov) (.of_valid hb)) (.of_valid hov) (fun k hk => ?_)
    rw [hof k hk, ← hl k hk]
    refine geo_congr (fun _ _ => rfl) (fun i hi => ?_) (fun _ _ => rfl) hk
    rw [geo_congr (fun _ _ => rfl) hof (fun _ _ => rfl) hi, geo_one_left]

/-- **C44.** In the algebras `[-]` and `[-,-]`, over a field: if the scalar part of `b * b.rev().flip()` is not zero, then
`(a / b) * b == a`, `(a * b) / b == a`, `b * (one() / b) == one()` and `(one() / b) * b == one()`. -/
theorem C44_div (hA : declareAlgebra sig names = some A) (hd : implDivision sig = true) {a b : MV A S} (ha : a.Valid)
    (hb : b.Valid) {n : T} (hn : (do let r ← b.rev; let c ← r.flip; let p ← b.naiveMulImpl c; p.scalarPart) = .ok n)
    (h0 : n ≠ 0) :
    (do let q ← a.div b; q.naiveMulImpl b) ≈ᵣ .ok a ∧
    (do let p ← a.naiveMulImpl b; p.div b) ≈ᵣ .ok a ∧
    (do let o ← one (T := T); let q ← o.div b; b.naiveMulImpl q) ≈ᵣ one ∧
    (do let o ← one (T := T); let q ← o.div b; q.naiveMulImpl b) ≈ᵣ one := by
  refine div_facts hA hd ha hb ?_
  have h := (C44_norm hA hd hb (fun i hi => hb.get hi)).1
  rw [h] at hn
  injection hn with hn
  rwa [hn]

/-- **C44, ordered fields.** Over an ordered field every non-zero `b` can be divided by. -/
theorem C44_div_ordered [LinearOrder T] [IsStrictOrderedRing T] (hA : declareAlgebra sig names = some A)
    (hd : implDivision sig = true) {a b : MV A S} (ha : a.Valid) (hb : b.Valid) (h0 : b.isZero = false) :
    (do let q ← a.div b; q.naiveMulImpl b) ≈ᵣ .ok a ∧
    (do let p ← a.naiveMulImpl b; p.div b) ≈ᵣ .ok a ∧
    (do let o ← one (T := T); let q ← o.div b; b.naiveMulImpl q) ≈ᵣ one ∧
    (do let o ← one (T := T); let q ← o.div b; q.naiveMulImpl b) ≈ᵣ one := by
  refine div_facts hA hd ha hb ?_
  intro hs
  rw [Finset.sum_eq_zero_iff_of_nonneg (fun _ _ => mul_self_nonneg _)] at hs
  have : b.isZero = true := (isZero_iff hb).mpr (fun i hi => mul_self_eq_zero.mp (hs i (mem_range.mpr hi)))
  rw [this] at h0
  exact absurd h0 (by decide)

theorem isZero_val {b : MV A S} (hb : b.Valid) (h0 : b.isZero = true) (i : Nat) : b.val i = 0 := by
  by_cases hi : i < 2 ^ A.dim
  · exact (isZero_iff hb).mp h0 i hi
  · exact hb.val_oob (by omega)

/-- Division, given what happens when the coefficients of the divisor's conjugate are divided. -/
theorem div_step {T : Type} [DivisionRing T] [DecidableEq T] {S : Type} [CoeffStorage S T] [LawfulStorage S T] (hA : A.WF)
    {a b : MV A S} (hb : b.Valid) : ∃ c : MV A S, c.Valid ∧ (∀ i < 2 ^ A.dim, c.val i = cj A.dim b.val i) ∧
    a.div b = (CoeffStorage.coeffMapMut (T := T) c.coeffs
      (fun x => fdiv x (geo A.sigma A.dim b.val (cj A.dim b.val) 0)) >>= fun s => a.naiveMulImpl ⟨s⟩) := by
  obtain ⟨r, hr, hrv, hrf⟩ := rev_denotes hb
  obtain ⟨c, hc, hcv, hcf⟩ := flip_denotes hrv
  have hcf' : ∀ i < 2 ^ A.dim, c.val i = cj A.dim b.val i := by
    intro i hi
    rw [hcf i hi]
    unfold cj flp
    rw [hrf i hi]
  obtain ⟨p, hp, hpv, hpf⟩ := mul_denotes hA hb hcv
  have hp0 : p.val 0 = geo A.sigma A.dim b.val (cj A.dim b.val) 0 := by
    rw [hpf 0 (Nat.two_pow_pos _)]
    exact geo_congr (fun _ _ => rfl) (fun _ _ => rfl) hcf' (Nat.two_pow_pos _)
  refine ⟨c, hcv, hcf', ?_⟩
  have e0 : p.getByIdx 0 = .ok (p.val 0) := hpv.get (Nat.two_pow_pos _)
  unfold MV.div
  simp only [hr, hc, hp, e0, ← hp0, bind, Except.bind]

theorem cj_eq_zero {T : Type} [Ring T] {n : Nat} {f : Nat → T} (h : ∀ i, f i = 0) (i : Nat) : cj n f i = 0 := by
  show sg (par n i) • (rsg n i • f i) = 0
  rw [h i, smul_zero, smul_zero]

/-- Dividing by zero, when zero has no coefficients to divide. -/
theorem div_zero_of_mapMut (hA : A.WF) {a b : MV A S} (ha : a.Valid) (hb : b.Valid) (h0 : b.isZero = true)
    (hm : ∀ (c : MV A S) (f : T → Res T), c.Valid → (∀ i, c.val i = 0) → CoeffStorage.coeffMapMut (T := T) c.coeffs f = .ok c.coeffs) :
    a.div b ≈ᵣ MV.default (T := T) := by
  obtain ⟨c, hcv, hcf, e⟩ := div_step (a := a) hA hb
  have hc0 : ∀ i, c.val i = 0 := by
    intro i
    by_cases hi : i < 2 ^ A.dim
    · rw [hcf i hi]; exact cj_eq_zero (isZero_val hb h0) i
    · exact hcv.val_oob (by omega)
  rw [e, hm c _ hcv hc0]
  refine Agree.of_denotes (mul_denotes hA ha hcv) (default_denotes hb.supp) (fun k hk => ?_)
  rw [geo_congr (fun _ _ => rfl) (fun _ _ => rfl) (fun i _ => hc0 i) hk, geo_zero_right]

/-- **C44, division by zero.** With dense and with sparse storage dividing by zero gives zero: only non-zero coefficients of
the divisor's conjugate are divided by its norm, and there are none. -/
theorem C44_div_by_zero (hA : declareAlgebra sig names = some A) :
    (∀ a b : MV A (ArrayStorage T), a.Valid → b.Valid → b.isZero = true → a.div b ≈ᵣ MV.default (T := T)) ∧
    (∀ [HashOrder T] (a b : MV A (SparseStorage T)), a.Valid → b.Valid → b.isZero = true → a.div b ≈ᵣ MV.default (T := T)) := by
  have hw := declareAlgebra_wf hA
  constructor
  · intro a b ha hb h0
    refine div_zero_of_mapMut hw ha hb h0 ?_
    intro c f hc hc0
    have : ArrayStorage.coeffEnumerate c.coeffs = [] := by
      rw [List.eq_nil_iff_forall_not_mem]
      intro p hp
      have := ArrayStorage.mem_enum.mp hp
      have h2 := LawfulStorage.enum_mem hc hp
      have h3 := hc0 p.1
      simp_all [MV.val]
    show ArrayStorage.coeffMapMut c.coeffs f = _
    unfold ArrayStorage.coeffMapMut
    rw [this]; rfl
  · intro _ a b ha hb h0
    refine div_zero_of_mapMut hw ha hb h0 ?_
    intro c f hc hc0
    have : c.coeffs.coeffs.entries = [] := by
      rw [List.eq_nil_iff_forall_not_mem]
      intro p hp
      have h2 := SparseStorage.get_of_mem hc hp
      have h3 := hc0 p.1
      have h4 := hc.2.2.2.2 p hp
      have h5 : c.val p.1 = SparseStorage.getByIdx c.coeffs p.1 := rfl
      rw [h5, h2] at h3
      simp_all
    show SparseStorage.coeffMapMut c.coeffs f = _
    unfold SparseStorage.coeffMapMut
    rw [this]
    obtain ⟨⟨d, l, ⟨en⟩⟩⟩ := c
    simp only at this
    subst this
    rfl

/-- **C44, division by zero.** With quaternion storage the result of dividing by anything of norm zero is not finite. -/
theorem C44_div_by_zero_quaternion (hA : declareAlgebra sig names = some A) {a b : MV A (QStorage T)} (hb : b.Valid)
    (h0 : (do let r ← b.rev; let c ← r.flip; let p ← b.naiveMulImpl c; p.scalarPart) = .ok (0 : T)) :
    a.div b = .error .nonFinite := by
  have hw := declareAlgebra_wf hA
  obtain ⟨c, hcv, hcf, e⟩ := div_step (a := a) hw hb
  have := normProg_ok hw hb
  have h0 : normProg b = .ok (0 : T) := h0
  rw [this] at h0
  injection h0 with h0
  rw [e, h0]
  have hf : ∀ x : T, fdiv x (0 : T) = .error .nonFinite := fun x => if_pos rfl
  show (QStorage.coeffMapMut c.coeffs (fun x => fdiv x 0) >>= _) = _
  unfold QStorage.coeffMapMut
  simp only [hf, bind, Except.bind]

end division

/-! ### Quaternions -/

/-- **C45.** `QuaternionAlgebra` is what `declare_algebra!(pub QuaternionAlgebra, [-,-], ["I", "J"])` declares. -/
theorem C45_algebra : declareAlgebra [.minus, .minus] ["I", "J"] = some QuaternionAlgebra := rfl

theorem quat_wf : QuaternionAlgebra.WF := declareAlgebra_wf C45_algebra

theorem quat_sigma : ∀ i < QuaternionAlgebra.dim, QuaternionAlgebra.sigma i = -1 := by decide

section quat
variable {T : Type} [CommRing T] [DecidableEq T]

theorem quat_valid (a : Quat T) : MV.Valid (T := T) a := rfl

/-- The Hamilton quaternion (of Mathlib) that a `Quaternion<T>` stands for: `I ↦ i`, `J ↦ j`, and the stored blade `J ∧ I`
is `-k`. -/
def toH (a : Quat T) : Quaternion T := ⟨a.coeffs.c0, a.coeffs.c1, a.coeffs.c2, -a.coeffs.c3⟩

theorem toH_re (a : Quat T) : (toH a).re = a.coeffs.c0 := rfl
theorem toH_imI (a : Quat T) : (toH a).imI = a.coeffs.c1 := rfl
theorem toH_imJ (a : Quat T) : (toH a).imJ = a.coeffs.c2 := rfl
theorem toH_imK (a : Quat T) : (toH a).imK = -a.coeffs.c3 := rfl

theorem toH_inj {a b : Quat T} (h : toH a = toH b) : a = b := by
  obtain ⟨⟨a0, a1, a2, a3⟩⟩ := a
  obtain ⟨⟨b0, b1, b2, b3⟩⟩ := b
  have h0 := congrArg QuaternionAlgebra.re h
  have h1 := congrArg QuaternionAlgebra.imI h
  have h2 := congrArg QuaternionAlgebra.imJ h
  have h3 := neg_injective (congrArg QuaternionAlgebra.imK h)
  simp only [toH_re, toH_imI, toH_imJ] at h0 h1 h2 h3
  subst h0 h1 h2 h3
  rfl

/-- The computation succeeds and its result stands for `q`. -/
def IsH (x : Res (Quat T)) (q : Quaternion T) : Prop := ∃ u, x = .ok u ∧ toH u = q

theorem IsH.of_denotes {x : Res (Quat T)} {f : Nat → T} (h : Denotes x f) {q : Quaternion T}
    (hq : q = ⟨f 0, f 1, f 2, -f 3⟩) : IsH x q := by
  obtain ⟨u, hu, -, huf⟩ := h
  refine ⟨u, hu, ?_⟩
  have h0 : u.coeffs.c0 = f 0 := huf 0 (by decide)
  have h1 : u.coeffs.c1 = f 1 := huf 1 (by decide)
  have h2 : u.coeffs.c2 = f 2 := huf 2 (by decide)
  have h3 : u.coeffs.c3 = f 3 := huf 3 (by decide)
  rw [hq, toH, h0, h1, h2, h3]

/-- **C45.** `Quaternion<T>` is Hamilton's quaternion algebra: the coefficients are in bijection with Mathlib's quaternions,
and the constructors, sum, difference, negation, product and conjugation correspond. -/
theorem C45_hamilton_algebra :
    Function.Bijective (toH (T := T)) ∧
    IsH (T := T) (MV.default (T := T)) 0 ∧ IsH (T := T) (MV.one (T := T)) 1 ∧
    toH (Quat.i (T := T)) = ⟨0, 1, 0, 0⟩ ∧ toH (Quat.j (T := T)) = ⟨0, 0, 1, 0⟩ ∧ toH (Quat.k (T := T)) = ⟨0, 0, 0, 1⟩ ∧
    (∀ a b : Quat T, IsH (a.add b) (toH a + toH b)) ∧ (∀ a b : Quat T, IsH (a.sub b) (toH a - toH b)) ∧
    (∀ a : Quat T, IsH a.neg (-toH a)) ∧ (∀ (a : Quat T) (t : T), IsH (a.smul t) (t • toH a)) ∧
    (∀ a b : Quat T, IsH (a.naiveMulImpl b) (toH a * toH b)) ∧
    (∀ a : Quat T, toH a.conj = star (toH a)) ∧
    (∀ a b : Quat T, a.beq b = true ↔ toH a = toH b) := by
  have hsupp : LawfulStorage.Supp (S := QStorage T) (T := T) QuaternionAlgebra.dim := rfl
  refine ⟨⟨?_, ?_⟩, ?_, ?_, ?_, ?_, ?_, ?_, ?_, ?_, ?_, ?_, ?_, ?_⟩
  · exact fun _ _ h => toH_inj h
  · rintro ⟨x, y, z, w⟩
    exact ⟨⟨⟨x, y, z, -w⟩⟩, _root_.QuaternionAlgebra.ext rfl rfl rfl (neg_neg w)⟩
  · exact IsH.of_denotes (default_denotes hsupp) (by ext <;> simp)
  · exact IsH.of_denotes (one_denotes hsupp) (by ext <;> simp [single])
  · exact _root_.QuaternionAlgebra.ext rfl rfl rfl neg_zero
  · exact _root_.QuaternionAlgebra.ext rfl rfl rfl neg_zero
  · exact _root_.QuaternionAlgebra.ext rfl rfl rfl (neg_neg 1)
  · intro a b
    refine IsH.of_denotes (add_denotes (quat_valid a) (quat_valid b)) ?_
    ext <;> simp [toH_re, toH_imI, toH_imJ, toH_imK, MV.val, LawfulStorage.val, QStorage.getByIdx]
    ring
  · intro a b
    refine IsH.of_denotes (sub_denotes (quat_valid a) (quat_valid b)) ?_
    ext <;> simp [toH_re, toH_imI, toH_imJ, toH_imK, MV.val, LawfulStorage.val, QStorage.getByIdx]
    ring
  · intro a
    refine IsH.of_denotes (neg_denotes (quat_valid a)) ?_
    ext <;> simp [toH_re, toH_imI, toH_imJ, toH_imK, MV.val, LawfulStorage.val, QStorage.getByIdx]
  · intro a t
    refine IsH.of_denotes (smul_denotes (quat_valid a) t) ?_
    ext <;> simp [toH_re, toH_imI, toH_imJ, toH_imK, MV.val, LawfulStorage.val, QStorage.getByIdx, mul_comm]
  · intro a b
    obtain ⟨h0, h1, h2, h3⟩ := geo_neg_two a.val b.val
    have hm : Denotes (a.naiveMulImpl b) (geo (fun _ => -1) 2 a.val b.val) :=
      (mul_denotes quat_wf (quat_valid a) (quat_valid b)).congr
        (fun k hk => geo_congr quat_sigma (fun _ _ => rfl) (fun _ _ => rfl) hk)
    refine IsH.of_denotes hm ?_
    rw [h0, h1, h2, h3]
    ext <;> simp [toH_re, toH_imI, toH_imJ, toH_imK, MV.val, LawfulStorage.val, QStorage.getByIdx] <;> ring
  · intro a
    ext <;> simp [toH_re, toH_imI, toH_imJ, toH_imK, Quat.conj]
  · intro a b
    rw [beq_iff (quat_valid a) (quat_valid b)]
    have : (∀ i < 2 ^ QuaternionAlgebra.dim, a.val i = b.val i) ↔ a.val 0 = b.val 0 ∧ a.val 1 = b.val 1 ∧ a.val 2 = b.val 2 ∧ a.val 3 = b.val 3 := by
      constructor
      · intro h; exact ⟨h 0 (by decide), h 1 (by decide), h 2 (by decide), h 3 (by decide)⟩
      · rintro ⟨h0, h1, h2, h3⟩ i hi
        have hi : i < 4 := hi
        interval_cases i <;> assumption
    rw [this]
    constructor
    · rintro ⟨h0, h1, h2, h3⟩
      ext
      · exact h0
      · exact h1
      · exact h2
      · exact congrArg Neg.neg h3
    · intro h
      rw [toH_inj h]
      exact ⟨rfl, rfl, rfl, rfl⟩

theorem quat_val (a : Quat T) : a.val 0 = a.coeffs.c0 ∧ a.val 1 = a.coeffs.c1 ∧ a.val 2 = a.coeffs.c2 ∧
    a.val 3 = a.coeffs.c3 := ⟨rfl, rfl, rfl, rfl⟩

theorem quat_denotes {x : Quat T} {f : Nat → T} (h0 : x.coeffs.c0 = f 0) (h1 : x.coeffs.c1 = f 1) (h2 : x.coeffs.c2 = f 2)
    (h3 : x.coeffs.c3 = f 3) : Denotes (.ok x) f := by
  refine ⟨x, rfl, quat_valid x, ?_⟩
  intro i hi
  have hi : i < 4 := hi
  interval_cases i <;> assumption

theorem quat_mul_denotes {a b : Quat T} : Denotes (a.naiveMulImpl b) (geo (fun _ => -1) 2 a.val b.val) :=
  (mul_denotes quat_wf (quat_valid a) (quat_valid b)).congr
    (fun _ hk => geo_congr quat_sigma (fun _ _ => rfl) (fun _ _ => rfl) hk)

/-- Two quaternion computations that stand for the same Hamilton quaternion are `==`. -/
theorem IsH.agree {x y : Res (Quat T)} {p q : Quaternion T} (hx : IsH x p) (hy : IsH y q) (h : p = q) : x ≈ᵣ y := by
  obtain ⟨u, rfl, hu⟩ := hx
  obtain ⟨v, rfl, hv⟩ := hy
  refine ⟨u, v, rfl, rfl, quat_valid u, quat_valid v, ?_⟩
  rw [(C45_hamilton_algebra (T := T)).2.2.2.2.2.2.2.2.2.2.2.2 u v, hu, hv, h]

theorem IsH.bind {x : Res (Quat T)} {p q : Quaternion T} (hx : IsH x p) {k : Quat T → Res (Quat T)}
    (hk : ∀ u, toH u = p → IsH (k u) q) : IsH (x >>= k) q := by
  obtain ⟨u, rfl, hu⟩ := hx
  exact hk u hu

/-- **C45, Hamilton's relations.** `i*i == j*j == k*k == -1`, `i*j == k`, `(i*j)*k == -1`. -/
theorem C45_hamilton :
    (Quat.i (T := T)).naiveMulImpl Quat.i ≈ᵣ (do let o ← one (T := T); o.neg) ∧
    (Quat.j (T := T)).naiveMulImpl Quat.j ≈ᵣ (do let o ← one (T := T); o.neg) ∧
    (Quat.k (T := T)).naiveMulImpl Quat.k ≈ᵣ (do let o ← one (T := T); o.neg) ∧
    (Quat.i (T := T)).naiveMulImpl Quat.j ≈ᵣ .ok Quat.k ∧
    (do let p ← (Quat.i (T := T)).naiveMulImpl Quat.j; p.naiveMulImpl Quat.k) ≈ᵣ (do let o ← one (T := T); o.neg) := by
  obtain ⟨-, -, h1, hi, hj, hk, -, -, hneg, -, hmul, -⟩ := C45_hamilton_algebra (T := T)
  have hm1 : IsH (T := T) (do let o ← one (T := T); o.neg) (-1) := h1.bind (fun u hu => hu ▸ hneg u)
  refine ⟨(hmul _ _).agree hm1 ?_, (hmul _ _).agree hm1 ?_, (hmul _ _).agree hm1 ?_, (hmul _ _).agree ⟨_, rfl, rfl⟩ ?_,
    IsH.agree ((hmul _ _).bind (q := toH Quat.i * toH Quat.j * toH Quat.k) (fun u hu => by rw [← hu]; exact hmul u _)) hm1 ?_⟩ <;>
    ext <;> simp [toH_re, toH_imI, toH_imJ, toH_imK, Quat.i, Quat.j, Quat.k]

/-- **C45.** `a.conj() == a.rev().flip()`; conjugation is an involution that reverses products. -/
theorem C45_conj (a b : Quat T) :
    .ok a.conj ≈ᵣ (do let r ← a.rev; r.flip) ∧ a.conj.conj = a ∧
    (do let p ← a.naiveMulImpl b; return Quat.conj p) ≈ᵣ b.conj.naiveMulImpl a.conj := by
  obtain ⟨-, -, -, -, -, -, -, -, -, -, hmul, hconj, -⟩ := C45_hamilton_algebra (T := T)
  refine ⟨?_, ?_, ?_⟩
  · refine Agree.of_denotes (quat_denotes (f := cj 2 a.val) ?_ ?_ ?_ ?_) (conj_denotes (quat_valid a)) (fun _ _ => rfl)
    · rw [cj_zero]; rfl
    · rw [(cj_two _).1]; rfl
    · rw [(cj_two _).2.1]; rfl
    · rw [(cj_two _).2.2]; rfl
  · apply toH_inj
    rw [hconj, hconj, star_star]
  · refine IsH.agree ((hmul a b).bind (q := star (toH a * toH b)) fun u hu => ⟨_, rfl, ?_⟩) (hmul _ _) ?_
    · rw [hconj, hu]
    · rw [hconj, hconj, star_mul]

/-- **C45, the storage.** Converted to dense storage, quaternions give the same results for every operation and query. -/
theorem C45_storage {a b : Quat T} {a' b' : MV QuaternionAlgebra (ArrayStorage T)} (ha : Corr a a') (hb : Corr b b') :
    CorrR (.ok a) (a.toStorageType (S' := ArrayStorage T)) ∧ CorrR (a'.toStorageType (S' := QStorage T)) (.ok a') ∧
    CorrR (a.add b) (a'.add b') ∧ CorrR (a.sub b) (a'.sub b') ∧ CorrR a.neg a'.neg ∧
    (∀ t, CorrR (a.smul t) (a'.smul t)) ∧ CorrR (a.naiveMulImpl b) (a'.naiveMulImpl b') ∧
    CorrR a.rev a'.rev ∧ CorrR a.flip a'.flip ∧ (∀ mask, CorrR (a.flipSubspace mask) (a'.flipSubspace mask)) ∧
    CorrR a.dual a'.dual ∧ CorrR a.undual a'.undual ∧ (∀ n, CorrR (a.pow n) (a'.pow n)) ∧
    (∀ k < 2 ^ 32, CorrR (a.gradeExtract k) (a'.gradeExtract k)) ∧
    (∀ i v, Corr (a.setByIdx i v) (a'.setByIdx i v)) ∧
    a.scalarPart = a'.scalarPart ∧ a.vsdot b = a'.vsdot b' ∧ a.vdot b = a'.vdot b' ∧ a.mag2 = a'.mag2 ∧
    a.isZero = a'.isZero ∧ a.beq b = a'.beq b' ∧ a.extractVector = a'.extractVector :=
  ⟨.of_denotes (.of_valid ha.1) (toStorageType_denotes ha.1 ha.2.1.supp) (fun _ _ => rfl),
    .of_denotes (toStorageType_denotes ha.2.1 ha.1.supp) (.of_valid ha.2.1) (fun _ _ => rfl),
    corr_add ha hb, corr_sub ha hb, corr_neg ha, corr_smul ha, corr_mul quat_wf ha hb,
    corr_rev ha, corr_flip ha, corr_flipSubspace ha, corr_dual quat_wf ha, corr_undual quat_wf ha, corr_pow quat_wf ha,
    fun _ hk => corr_gradeExtract ha hk, corr_set ha, corr_scalars quat_wf ha hb⟩

/-- **C45, the norm.** If the coefficient norm satisfies `|c|² = c²` (real coefficients), the square of the quaternion norm
is the scalar part of `a * conj(a)` and is multiplicative.
Missing for the full claim: complex and quaternionic coefficients, for which it is false, see `C45_norm_complex_false`. -/
theorem C45_norm_mul_partial {norm : T → T} (hnorm : ∀ c, norm c * norm c = c * c) (a b : Quat T) :
    (do let p ← a.naiveMulImpl a.conj; p.scalarPart) = .ok (a.norm2 norm) ∧
    (do let p ← a.naiveMulImpl b; return Quat.norm2 norm p) = (.ok (a.norm2 norm * b.norm2 norm) : Res T) := by
  obtain ⟨-, -, -, -, -, -, -, -, -, -, hmul, hconj, -⟩ := C45_hamilton_algebra (T := T)
  have hN : ∀ a : Quat T, a.norm2 norm = Quaternion.normSq (toH a) := by
    intro a
    simp [Quat.norm2, hnorm, Quaternion.normSq_def', toH_re, toH_imI, toH_imJ, toH_imK]
    ring
  refine ⟨?_, ?_⟩
  · obtain ⟨u, hu, huq⟩ := hmul a a.conj
    rw [hu]
    show u.scalarPart = _
    rw [scalarPart_ok (quat_valid u), hN, Quaternion.normSq_def, ← hconj, ← huq]
    rfl
  · obtain ⟨u, hu, huq⟩ := hmul a b
    rw [hu]
    show Except.ok (u.norm2 norm) = _
    rw [hN, hN, hN, huq, map_mul]

end quat

/-- **C45, the norm of real quaternions.** `(a*b).norm() = a.norm() * b.norm()`, and only zero has norm zero. -/
theorem C45_norm_real [DecidableEq ℝ] (a b : Quat ℝ) :
    (do let p ← a.naiveMulImpl b; return Quat.norm (fun c => |c|) p) =
      (.ok (a.norm (fun c => |c|) * b.norm (fun c => |c|)) : Res ℝ) ∧
    (a.norm (fun c => |c|) = 0 ↔ a.isZero = true) := by
  have h0 : ∀ a : Quat ℝ, a.norm2 (fun c => |c|) =
      a.coeffs.c0 * a.coeffs.c0 + a.coeffs.c1 * a.coeffs.c1 + a.coeffs.c2 * a.coeffs.c2 + a.coeffs.c3 * a.coeffs.c3 := by
    intro a
    simp [Quat.norm2]
  have hpos : ∀ a : Quat ℝ, 0 ≤ a.norm2 (fun c => |c|) := by
    intro a
    rw [h0]
    have h (x : ℝ) := mul_self_nonneg x
    linarith [h a.coeffs.c0, h a.coeffs.c1, h a.coeffs.c2, h a.coeffs.c3]
  constructor
  · obtain ⟨u, hu, -⟩ := (mul_denotes quat_wf (quat_valid a) (quat_valid b))
    have h := (C45_norm_mul_partial (norm := fun c : ℝ => |c|) (fun c => abs_mul_abs_self c) a b).2
    rw [hu] at h ⊢
    have h : Quat.norm2 (fun c => |c|) u = a.norm2 (fun c => |c|) * b.norm2 (fun c => |c|) := by
      injection h
    show Except.ok (Real.sqrt (Quat.norm2 (fun c => |c|) u)) = _
    rw [h, Real.sqrt_mul (hpos a)]
    rfl
  · rw [isZero_iff (quat_valid a), Quat.norm, Real.sqrt_eq_zero (hpos a), h0]
    constructor
    · intro h i hi
      have hi : i < 4 := hi
      have h' (x : ℝ) := mul_self_nonneg x
      have h0' := h' a.coeffs.c0
      have h1' := h' a.coeffs.c1
      have h2' := h' a.coeffs.c2
      have h3' := h' a.coeffs.c3
      interval_cases i
      · exact mul_self_eq_zero.mp (show a.coeffs.c0 * a.coeffs.c0 = 0 by linarith)
      · exact mul_self_eq_zero.mp (show a.coeffs.c1 * a.coeffs.c1 = 0 by linarith)
      · exact mul_self_eq_zero.mp (show a.coeffs.c2 * a.coeffs.c2 = 0 by linarith)
      · exact mul_self_eq_zero.mp (show a.coeffs.c3 * a.coeffs.c3 = 0 by linarith)
    · intro h
      have h0 : a.coeffs.c0 = 0 := h 0 (by decide)
      have h1 : a.coeffs.c1 = 0 := h 1 (by decide)
      have h2 : a.coeffs.c2 = 0 := h 2 (by decide)
      have h3 : a.coeffs.c3 = 0 := h 3 (by decide)
      simp [h0, h1, h2, h3]

/-- **C45 does not hold for complex coefficients.** `Quaternion<Complex64>::norm` is not multiplicative:
`(1 + i I) * (1 - i I) == 0` while both factors have norm `√2`. -/
theorem C45_norm_complex_false [DecidableEq ℂ] : ∃ a b : Quat ℂ,
    (do let p ← a.naiveMulImpl b; return Quat.norm (fun c => ‖c‖) p) = (.ok 0 : Res ℝ) ∧
    a.norm (fun c => ‖c‖) = Real.sqrt 2 ∧ b.norm (fun c => ‖c‖) = Real.sqrt 2 := by
  refine ⟨⟨⟨1, Complex.I, 0, 0⟩⟩, ⟨⟨1, -Complex.I, 0, 0⟩⟩, ?_, ?_, ?_⟩
  · set a : Quat ℂ := ⟨⟨1, Complex.I, 0, 0⟩⟩ with ha
    set b : Quat ℂ := ⟨⟨1, -Complex.I, 0, 0⟩⟩ with hb
    obtain ⟨u, hu, -, huf⟩ := quat_mul_denotes (a := a) (b := b)
    obtain ⟨h0, h1, h2, h3⟩ := geo_neg_two a.val b.val
    obtain ⟨a0, a1, a2, a3⟩ := quat_val a
    obtain ⟨b0, b1, b2, b3⟩ := quat_val b
    have e0 : u.coeffs.c0 = 0 := by rw [← (quat_val u).1, huf 0 (by decide), h0, a0, a1, a2, a3, b0, b1, b2, b3]; simp [ha, hb]
    have e1 : u.coeffs.c1 = 0 := by rw [← (quat_val u).2.1, huf 1 (by decide), h1, a0, a1, a2, a3, b0, b1, b2, b3]; simp [ha, hb]
    have e2 : u.coeffs.c2 = 0 := by rw [← (quat_val u).2.2.1, huf 2 (by decide), h2, a0, a1, a2, a3, b0, b1, b2, b3]; simp [ha, hb]
    have e3 : u.coeffs.c3 = 0 := by rw [← (quat_val u).2.2.2, huf 3 (by decide), h3, a0, a1, a2, a3, b0, b1, b2, b3]; simp [ha, hb]
    rw [hu]
    show Except.ok (Quat.norm (fun c => ‖c‖) u) = _
    simp [Quat.norm, Quat.norm2, e0, e1, e2, e3]
  · norm_num [Quat.norm, Quat.norm2]
  · norm_num [Quat.norm, Quat.norm2]

/-! ### Concrete instances -/

/-- **C45, other algebras.** The quaternion storage can be named with any algebra, but no multivector of another dimension than 2 can
be made: the constructors panic. -/
theorem C45_dimension {A : ClAlg} {T : Type} [Ring T] [DecidableEq T] (hd : A.dim ≠ 2) (l : List (Nat × T)) (v : List T) (t : T) (i : Nat) :
    MV.default (A := A) (S := QStorage T) (T := T) = .error .panic ∧ one (A := A) (S := QStorage T) (T := T) = .error .panic ∧
    fromIndexedIter (A := A) (S := QStorage T) l = .error .panic ∧ fromVector (A := A) (S := QStorage T) v = .error .panic ∧
    fromScalar (A := A) (S := QStorage T) t = .error .panic ∧ basisVec (A := A) (S := QStorage T) (T := T) i = .error .panic := by
  have h : MV.default (A := A) (S := QStorage T) (T := T) = .error .panic := by
    show (QStorage.new A.dim >>= _) = _
    unfold QStorage.new
    rw [if_pos hd]
    rfl
  refine ⟨h, ?_, ?_, ?_, ?_, ?_⟩
  · unfold one fromScalar; rw [h]; rfl
  · unfold fromIndexedIter; rw [h]; rfl
  · unfold fromVector; rw [h]; rfl
  · unfold fromScalar; rw [h]; rfl
  · unfold basisVec; rw [h]; rfl

example := C45_dimension (A := Ex.E) (T := ℚ) (by decide) [(0, 1), (3, 2)] [1, 2, 3] 5 1

namespace Ex

/-- `declare_algebra!(Cx, [-])`. -/
def Cx : ClAlg := (declareAlgebra [.minus] []).get rfl

theorem Cx_decl : declareAlgebra [.minus] [] = some Cx := rfl

def cxA : MV Cx (ArrayStorage ℚ) := ⟨⟨1, ⟨2, fun i => i + 3⟩⟩⟩
def cxB : MV Cx (ArrayStorage ℚ) := ⟨⟨1, ⟨2, fun i => 1 - 2 * i⟩⟩⟩
theorem cxA_valid : cxA.Valid := ⟨by decide, rfl, rfl⟩
theorem cxB_valid : cxB.Valid := ⟨by decide, rfl, rfl⟩

def qA : Quat ℚ := ⟨⟨1, 2, -3, 1 / 2⟩⟩
def qB : Quat ℚ := ⟨⟨0, 1, 5, -2⟩⟩

example : (do let q ← cxA.div cxB; q.naiveMulImpl cxB) ≈ᵣ .ok cxA :=
  (C44_div_ordered Cx_decl rfl cxA_valid cxB_valid (by decide +kernel)).1

example : (do let q ← qA.div qB; q.naiveMulImpl qB) ≈ᵣ .ok qA :=
  (C44_div_ordered C45_algebra rfl (quat_valid qA) (quat_valid qB) (by decide +kernel)).1

/-- A non-zero norm over a finite field. -/
example : (do let q ← MV.div (⟨⟨1, 2, 1, 0⟩⟩ : Quat (ZMod 5)) ⟨⟨3, 1, 4, 1⟩⟩; q.naiveMulImpl ⟨⟨3, 1, 4, 1⟩⟩) ≈ᵣ
    .ok (⟨⟨1, 2, 1, 0⟩⟩ : Quat (ZMod 5)) :=
  (C44_div (n := (2 : ZMod 5)) C45_algebra rfl (quat_valid _) (quat_valid _) (by decide +kernel) (by decide)).1

example : (do let r ← qA.rev; let c ← r.flip; let p ← qA.naiveMulImpl c; p.scalarPart) = .ok (57 / 4) := by
  rw [(C44_norm C45_algebra rfl (quat_valid qA) (fun _ _ => rfl)).1]
  decide +kernel

/-- Over a field with a square root of `-1` there are non-zero quaternions of norm zero. -/
example : MV.div (⟨⟨1, 2, 1, 0⟩⟩ : Quat (ZMod 5)) ⟨⟨1, 2, 0, 0⟩⟩ = .error .nonFinite :=
  C44_div_by_zero_quaternion C45_algebra (quat_valid _) (by decide +kernel)

example : cxA.div ⟨⟨1, ⟨2, fun _ => 0⟩⟩⟩ ≈ᵣ MV.default (T := ℚ) :=
  (C44_div_by_zero Cx_decl).1 _ _ cxA_valid ⟨by decide, rfl, rfl⟩ (by decide +kernel)

/-- The dense multivector with the coefficients of `qA`. -/
def qA' : MV QuaternionAlgebra (ArrayStorage ℚ) :=
  ⟨⟨2, ⟨4, fun i => if i = 0 then 1 else if i = 1 then 2 else if i = 2 then -3 else 1 / 2⟩⟩⟩

theorem qA_corr : Corr qA qA' := by
  refine ⟨quat_valid qA, ⟨by decide, rfl, rfl⟩, ?_⟩
  intro i hi
  have hi : i < 4 := hi
  interval_cases i <;> rfl

example : (do let p ← qA.naiveMulImpl qB; return Quat.conj p) ≈ᵣ qB.conj.naiveMulImpl qA.conj := (C45_conj qA qB).2.2
/-- `|(1 + 2i)(3j)| = |1 + 2i| |3j|` -/
example := C45_norm_real ⟨⟨1, 2, 0, 0⟩⟩ ⟨⟨0, 0, 3, 0⟩⟩

example : CorrR (qA.naiveMulImpl qA) (qA'.naiveMulImpl qA') := (C45_storage qA_corr qA_corr).2.2.2.2.2.2.1

example : (do let p ← qA.naiveMulImpl qB; return Quat.norm2 (fun c => |c|) p) = (.ok ((57 / 4) * 30) : Res ℚ) := by
  rw [(C45_norm_mul_partial (norm := fun c : ℚ => |c|) (fun c => abs_mul_abs_self c) qA qB).2]
  congr 1
  norm_num [Quat.norm2, qA, qB]

end Ex

end TClifford
