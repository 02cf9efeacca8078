import Verif.Props.FFT
import Verif.Proofs.GA
import Verif.Props.ComplexExamples
import Mathlib.Analysis.SpecialFunctions.Trigonometric.Basic
import Mathlib.Analysis.Complex.Basic
/-
C39: powers of the half-spin matrices; `irrep_test` of the crate with real and complex numbers.
-/

set_option linter.unusedSectionVars false

namespace TClifford

open Finset MV

/-- `let mut actual = Array2::eye(n); for _ in 0..k { actual = actual.dot(&x); }`, tests/unit.rs:757-760. -/
def eyeDot {K : Type} [Zero K] [One K] [Add K] [Mul K] (n : Nat) (x : Arr2 K) (k : Nat) : Res (Arr2 K) :=
  (List.range k).foldlM (fun (m : Arr2 K) _ => m.dot x) ⟨n, n, fun i j => if i = j then 1 else 0⟩

section
variable {A : ClAlg} {K : Type} [Field K] [DecidableEq K] [ImagUnit K] {T : Type} [Ring T] [DecidableEq T] [IntoComplex T K]

/-- The blocks of a product whose right factor is even. -/
theorem halfSpin_block [LawfulInto T K] (h2 : (2 : K) ≠ 0) (hA : A.WF) (hn : A.projDim = 0) (h0 : 0 < A.dim)
    {f g : Nat → T} (hg : ∀ k < 2 ^ A.dim, countOnes k % 2 = 1 → g k = 0) {q : Nat} (hq : q < 2) :
    MEq (2 ^ (A.half - 1)) (2 ^ (A.half - 1)) (fun i j => ctr A.half A.dim (cx (K := K) A (geo A.sigma A.dim f g)) (nth q i) (nth q j))
      (mm (A.half - 1) (fun i j => ctr A.half A.dim (cx (K := K) A f) (nth q i) (nth q j))
        (fun i j => ctr A.half A.dim (cx (K := K) A g) (nth q i) (nth q j))) := by
  have hnn : A.nn = A.dim := by have := hA.dims; unfold ClAlg.nn; omega
  have hle : A.dim ≤ 2 * A.half := by rw [← hnn]; exact half_ge A
  have hh : A.half = A.half - 1 + 1 := by unfold ClAlg.half; omega
  have hp : 2 ^ A.half = 2 * 2 ^ (A.half - 1) := by
    conv_lhs => rw [hh, pow_succ]
    ring
  intro i hi j hj
  have hi' : nth q i < 2 ^ A.half := by rw [hp]; exact nth_lt_two_mul.mpr hi
  have hj' : nth q j < 2 ^ A.half := by rw [hp]; exact nth_lt_two_mul.mpr hj
  beta_reduce
  rw [ctr_congr (y := geo (fun _ => 1) A.dim (cx (K := K) A f) (cx A g)) (fun k hk => by
    rw [cx_geo hA _ _ hk]
    refine geo_congr (fun i hi => ?_) (fun _ _ => rfl) (fun _ _ => rfl) hk
    rw [hA.sigma_complexification hi, if_pos (by omega)])]
  rw [ctr_geo (half_le hA) hle _ _ _ hi' _ hj']
  unfold mm
  rw [hp]
  refine sum_pairs _ _ (fun k hk hkq => ?_)
  rw [ctr_even h2 hle (fun l hl hlo => cx_eq_zero (hg l hl hlo)) (by rw [hp]; exact hk) hj' (by rw [countOnes_nth hq]; exact hkq),
    mul_zero]

/-- What the products are. -/
theorem halfSpin_pow [LawfulInto T K] (h2 : (2 : K) ≠ 0) (hA : A.WF) (hd : A.dim < 63) (hn : A.projDim = 0) (h0 : 0 < A.dim)
    {a : MV A (ArrayStorage T)} (ha : a.Valid) (hae : ∀ k < 2 ^ A.dim, countOnes k % 2 = 1 → a.val k = 0) (k : Nat) :
    IsM (do let p ← halfSpin K (.ok a); eyeDot (2 ^ ((A.dim - 1) / 2)) p.1 k) (A.half - 1)
      (fun i j => ctr A.half A.dim (cx A (a.ga ^ k).fn) (nth 0 i) (nth 0 j)) ∧
    IsM (do let p ← halfSpin K (.ok a); eyeDot (2 ^ ((A.dim - 1) / 2)) p.2 k) (A.half - 1)
      (fun i j => ctr A.half A.dim (cx A (a.ga ^ k).fn) (nth 1 i) (nth 1 j)) := by
  have hnn : A.nn = A.dim := by have := hA.dims; unfold ClAlg.nn; omega
  have hh : A.half = A.half - 1 + 1 := by unfold ClAlg.half; omega
  have hh' : A.half - 1 = (A.dim - 1) / 2 := by unfold ClAlg.half; omega
  have hp : 2 ^ A.half = 2 * 2 ^ (A.half - 1) := by
    conv_lhs => rw [hh, pow_succ]
    ring
  rw [← hh']
  obtain ⟨a1, a2⟩ := halfSpin_spec (K := K) hA hd hn h0 (.of_valid ha)
  have hmul : ∀ (x y : GA A.sigma A.dim T), ∀ l < 2 ^ A.dim, (x * y).fn l = geo A.sigma A.dim x.fn y.fn l := fun x y l hl => by
    have := GA.of_mul (σ := A.sigma) (n := A.dim) x.fn y.fn
    rw [GA.of_fn, GA.of_fn] at this
    rw [← this, GA.fn_of _ hl]
  have key : ∀ q < 2, ∀ x : Arr2 K, IsM (.ok x) (A.half - 1) (fun i j => ctr A.half A.dim (cx A a.val) (nth q i) (nth q j)) → ∀ k,
      IsM (eyeDot (2 ^ (A.half - 1)) x k) (A.half - 1) (fun i j => ctr A.half A.dim (cx A (a.ga ^ k).fn) (nth q i) (nth q j)) := by
    intro q hq x hx k
    induction k with
    | zero =>
      refine ⟨_, rfl, rfl, rfl, fun i hi j hj => ?_⟩
      show (if i = j then (1 : K) else 0) = ctr A.half A.dim (cx A (a.ga ^ 0).fn) (nth q i) (nth q j)
      rw [ctr_congr (y := single 0 1) (fun l hl => by
        rw [← cx_single (T := T)]
        apply cx_congr
        rw [pow_zero]
        exact GA.fn_of _ hl), ctr_one A.half A.dim _ (by rw [hp]; exact nth_lt_two_mul.mpr hi) _ (by rw [hp]; exact nth_lt_two_mul.mpr hj)]
      unfold idm
      by_cases h : i = j
      · rw [if_pos h, if_pos (by rw [h])]
      · rw [if_neg h, if_neg (fun hc => h (nth_injective hc))]
    | succ k ih =>
      have e : eyeDot (2 ^ (A.half - 1)) x (k + 1) = (do let m ← eyeDot (2 ^ (A.half - 1)) x k; let y ← (.ok x : Res (Arr2 K)); m.dot y) := by
        unfold eyeDot
        rw [List.range_succ, List.foldlM_append]
        simp only [List.foldlM_cons, List.foldlM_nil, bind_pure]
        rfl
      rw [e]
      obtain ⟨r, r1, r2, r3, r4⟩ := ih.dot hx
      refine ⟨r, r1, r2, r3, r4.trans ((halfSpin_block (K := K) h2 hA hn h0 hae hq).symm.trans fun i hi j hj => ?_)⟩
      refine congrFun (congrFun (ctr_congr fun l hl => cx_congr ?_) _) _
      rw [pow_succ, hmul _ _ l hl]
      exact geo_congr (fun _ _ => rfl) (fun _ _ => rfl) (fun i hi => (ga_val hi a).symm) hl
  cases hs : halfSpin K (.ok a) with
  | error e => rw [hs] at a1; obtain ⟨r, r1, -⟩ := a1; exact absurd r1 (by intro h; cases h)
  | ok p =>
    rw [hs] at a1 a2
    exact ⟨key 0 (by norm_num) p.1 a1 k, key 1 (by norm_num) p.2 a2 k⟩

/-- **C39.** For an even multivector `a`, the matrices of `a.pow(k)` are the products of `k` times the matrix of `a`. -/
theorem C39_half_spin_pow [LawfulInto T K] (h2 : (2 : K) ≠ 0) (hA : A.WF) (hd : A.dim < 63) (hn : A.projDim = 0) (h0 : 0 < A.dim)
    {a : MV A (ArrayStorage T)} (ha : a.Valid) (hae : ∀ k < 2 ^ A.dim, countOnes k % 2 = 1 → a.val k = 0) (k : Nat) :
    Same2 (do let p ← halfSpin K (.ok a); eyeDot (2 ^ ((A.dim - 1) / 2)) p.1 k) (do let p ← halfSpin K (a.pow k); return p.1) ∧
    Same2 (do let p ← halfSpin K (.ok a); eyeDot (2 ^ ((A.dim - 1) / 2)) p.2 k) (do let p ← halfSpin K (a.pow k); return p.2) := by
  obtain ⟨p1, p2⟩ := halfSpin_spec (K := K) hA hd hn h0 (is_pow hA ha k).denotes
  obtain ⟨q1, q2⟩ := halfSpin_pow (K := K) h2 hA hd hn h0 ha hae k
  exact ⟨q1.same p1 (MEq.rfl' _), q2.same p2 (MEq.rfl' _)⟩

end

section
variable {A : ClAlg}

/-- **C87.** `irrep_test`, tests/unit.rs:747-778, with real numbers, the exact exponential, and any number of steps: for an even `b` with
`b * b == -1` (a unit blade of two vectors in the test), the `k`-th power of each half-spin matrix of `cos(π/k) + b sin(π/k)`
is minus the identity matrix. -/
theorem C87_irrep (hA : A.WF) (hd : A.dim < 63) (hn : A.projDim = 0) (h0 : 0 < A.dim) {b : MV A (ArrayStorage ℝ)} (hb : b.Valid)
    (hbe : ∀ k < 2 ^ A.dim, countOnes k % 2 = 1 → b.val k = 0) (hsq : b.naiveMulImpl b ≈ᵣ fromScalar (-1 : ℝ)) {k : Nat} (hk : k ≠ 0) :
    let R : Res (MV A (ArrayStorage ℝ)) := do
      let s ← b.smul (Real.sin (Real.pi / k))
      let c ← fromScalar (Real.cos (Real.pi / k))
      s.add c
    let N := 2 ^ ((A.dim - 1) / 2)
    Same2 (do let p ← halfSpin ℂ R; eyeDot N p.1 k) (.ok ⟨N, N, fun i j => if i = j then -1 else 0⟩) ∧
    Same2 (do let p ← halfSpin ℂ R; eyeDot N p.2 k) (.ok ⟨N, N, fun i j => if i = j then -1 else 0⟩) := by
  intro R N
  have hnn : A.nn = A.dim := by have := hA.dims; unfold ClAlg.nn; omega
  have hh : A.half = A.half - 1 + 1 := by unfold ClAlg.half; omega
  have hh' : A.half - 1 = (A.dim - 1) / 2 := by unfold ClAlg.half; omega
  have hp : 2 ^ A.half = 2 * 2 ^ (A.half - 1) := by
    conv_lhs => rw [hh, pow_succ]
    ring
  have hS : A.dim ≤ 63 := by omega
  have h00 := Nat.two_pow_pos A.dim
  obtain ⟨s, es, hs, hsv⟩ := smul_denotes hb (Real.sin (Real.pi / k))
  obtain ⟨c, ec, hc, hcv⟩ := fromScalar_denotes (A := A) (S := ArrayStorage ℝ) hS (Real.cos (Real.pi / k))
  obtain ⟨r, er, hr, hrv'⟩ := add_denotes hs hc
  have hrv : ∀ l < 2 ^ A.dim, r.val l = b.val l * Real.sin (Real.pi / k) + single 0 (Real.cos (Real.pi / k)) l := fun l hl => by
    rw [hrv' l hl]
    beta_reduce
    rw [hsv l hl, hcv l hl]
  have eR : R = .ok r := by
    show (do let s ← b.smul _; let c ← fromScalar _; s.add c) = _
    rw [es]
    show (do let c ← (fromScalar _ : Res (MV A (ArrayStorage ℝ))); s.add c) = _
    rw [ec]
    exact er
  have hre : ∀ l < 2 ^ A.dim, countOnes l % 2 = 1 → r.val l = 0 := fun l hl ho => by
    rw [hrv l hl, hbe l hl ho, zero_mul, zero_add]
    refine if_neg ?_
    rintro rfl
    exact absurd ho (by decide)
  have hbb : b.ga * b.ga = -1 := by
    obtain ⟨u, v, hu, hv, huV, hvV, huv⟩ := hsq
    obtain ⟨u', hu', -, hmu⟩ := mul_denotes hA hb hb
    obtain ⟨v', hv', -, hmv⟩ := fromScalar_denotes (A := A) (S := ArrayStorage ℝ) hS (-1 : ℝ)
    rw [hu] at hu'
    rw [hv] at hv'
    cases hu'; cases hv'
    rw [ga, ← GA.of_mul, GA.one_def, ← GA.of_neg]
    refine GA.of_congr fun l hl => ?_
    rw [← hmu l hl, (beq_iff huV hvV).mp huv l hl, hmv l hl]
    unfold single
    split <;> simp
  have hrot : ∀ θ : ℝ, ∀ m : Nat, (Real.cos θ • (1 : GA A.sigma A.dim ℝ) + Real.sin θ • b.ga) ^ m = Real.cos (m * θ) • 1 + Real.sin (m * θ) • b.ga := by
    intro θ m
    induction m with
    | zero => simp
    | succ m ih =>
      rw [pow_succ, ih, Nat.cast_succ, add_mul (m : ℝ), one_mul, Real.cos_add, Real.sin_add]
      simp only [add_mul, mul_add, smul_mul_assoc, mul_smul_comm, hbb, one_mul, mul_one]
      module
  have hrg : r.ga ^ k = -1 := by
    have e : r.ga = Real.cos (Real.pi / k) • (1 : GA A.sigma A.dim ℝ) + Real.sin (Real.pi / k) • b.ga := by
      rw [ga, ga, GA.one_def, ← GA.of_smul, ← GA.of_smul, ← GA.of_add]
      refine GA.of_congr fun l hl => ?_
      rw [hrv l hl]
      unfold single
      split <;> simp <;> ring
    rw [e, hrot, show (k : ℝ) * (Real.pi / k) = Real.pi by field_simp, Real.cos_pi, Real.sin_pi]
    simp
  have hm : ∀ q, MEq (2 ^ (A.half - 1)) (2 ^ (A.half - 1)) (fun i j => ctr A.half A.dim (cx (K := ℂ) A (r.ga ^ k).fn) (nth q i) (nth q j))
      (fun i j => if i = j then -1 else 0) := by
    intro q i hi j hj
    beta_reduce
    rw [ctr_congr (y := fun l => (single 0 1 : Nat → ℂ) l * (-1)) (fun l hl => by
      rw [← cx_single (T := ℝ) (A := A)]
      have : (r.ga ^ k).fn l = -(single 0 1 : Nat → ℝ) l := by
        rw [hrg, GA.one_def, ← GA.of_neg, GA.fn_of _ hl]
      unfold cx
      rw [this]
      show _ * (((-(single 0 1 : Nat → ℝ) l : ℝ)) : ℂ) = _ * (((single 0 1 : Nat → ℝ) l : ℝ) : ℂ) * -1
      push_cast
      ring), ctr_smul]
    show ctr A.half A.dim (single 0 1) (nth q i) (nth q j) * -1 = _
    rw [ctr_one A.half A.dim _ (by rw [hp]; exact nth_lt_two_mul.mpr hi) _ (by rw [hp]; exact nth_lt_two_mul.mpr hj)]
    unfold idm
    by_cases h : i = j
    · rw [if_pos h, if_pos (by rw [h])]; ring
    · rw [if_neg h, if_neg (fun hc => h (nth_injective hc))]; ring
  obtain ⟨q1, q2⟩ := halfSpin_pow (K := ℂ) two_ne_zero hA hd hn h0 hr hre k
  rw [eR]
  rw [show N = 2 ^ (A.half - 1) by rw [hh']]
  rw [← hh'] at q1 q2
  exact ⟨q1.same (⟨_, rfl, rfl, rfl, MEq.rfl' _⟩ : IsM (.ok _) _ _) (hm 0), q2.same (⟨_, rfl, rfl, rfl, MEq.rfl' _⟩ : IsM (.ok _) _ _) (hm 1)⟩

end

/-! ### The hypotheses can be met -/

section examples
open Ex

/-- The bivector `y^x` of three-dimensional space. -/
noncomputable def yx : MV E (ArrayStorage ℝ) := ⟨⟨3, ⟨8, single 3 1⟩⟩⟩

theorem yx_valid : yx.Valid := ⟨by decide, rfl, rfl⟩

theorem yx_val {k : Nat} (hk : k < 2 ^ E.dim) : yx.val k = single 3 1 k := if_pos (show k < 8 from hk)

theorem yx_even : ∀ k < 2 ^ E.dim, countOnes k % 2 = 1 → yx.val k = 0 := fun k hk ho => by
  rw [yx_val hk]
  refine if_neg ?_
  rintro rfl
  exact absurd ho (by decide)

/-- The tenth power of the matrices of the rotor by π/10. -/
example := C87_irrep E_wf (by decide) rfl (by decide) yx_valid yx_even
  (Agree.of_denotes (mul_denotes E_wf yx_valid yx_valid) (fromScalar_denotes (S := ArrayStorage ℝ) (show E.dim ≤ 63 by decide) _) fun k hk => by
    rw [geo_congr (fun _ _ => rfl) (fun _ h => yx_val h) (fun _ h => yx_val h) hk, geo_single_single _ (by decide),
      show bsgn E.sigma E.dim 3 3 = -1 by decide +kernel]
    simp) (k := 10) (by decide)

example (k : Nat) := C39_half_spin_pow (K := ℂ) two_ne_zero E_wf (by decide) rfl (by decide) yx_valid yx_even k

end examples

end TClifford
