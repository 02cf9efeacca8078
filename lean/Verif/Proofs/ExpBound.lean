import Verif.Proofs.Exp
import Verif.Proofs.Sign
import Mathlib.Analysis.Normed.Algebra.Exponential
import Mathlib.Analysis.SpecialFunctions.Exponential
import Mathlib.Analysis.Normed.Module.FiniteDimension
import Mathlib.Analysis.RCLike.Basic
/-
Sum of absolute values of the coefficients as a norm on the ring `GA`, and the error of a truncated exponential series.
-/

set_option linter.unusedSectionVars false

namespace TClifford

open Finset

section banach
variable {𝕜 G : Type} [RCLike 𝕜] [NormedRing G] [NormedAlgebra 𝕜 G] [CompleteSpace G] [NormOneClass G]

/-- The remainder of the exponential series. -/
theorem exp_sub_taylor_le (x : G) (n : Nat) :
    ‖NormedSpace.exp x - ∑ j ∈ range n, ((j.factorial : 𝕜)⁻¹) • x ^ j‖ ≤
      ‖x‖ ^ n / n.factorial * Real.exp ‖x‖ := by
  have h := NormedSpace.exp_series_hasSum_exp' (𝕂 := 𝕜) x
  have h2 := (hasSum_nat_add_iff' n).mpr h
  rw [← h2.tsum_eq]
  have hr : HasSum (fun k : Nat => ‖x‖ ^ n / n.factorial * (‖x‖ ^ k / k.factorial)) (‖x‖ ^ n / n.factorial * Real.exp ‖x‖) := by
    refine HasSum.mul_left _ ?_
    rw [Real.exp_eq_exp_ℝ]
    exact NormedSpace.expSeries_div_hasSum_exp ‖x‖
  refine tsum_of_norm_bounded hr (fun k => ?_)
  rw [norm_smul, norm_inv, RCLike.norm_natCast]
  have hp : ‖x ^ (k + n)‖ ≤ ‖x‖ ^ (k + n) := norm_pow_le x _
  have hf : (n.factorial : ℝ) * k.factorial ≤ (k + n).factorial := by
    rw [mul_comm]
    exact_mod_cast Nat.le_of_dvd (Nat.factorial_pos _) (Nat.factorial_mul_factorial_dvd_factorial_add k n)
  have h1 : (0 : ℝ) < n.factorial := by exact_mod_cast Nat.factorial_pos n
  have h3 : (0 : ℝ) < k.factorial := by exact_mod_cast Nat.factorial_pos k
  rw [div_mul_div_comm, ← pow_add, add_comm n k, inv_mul_eq_div]
  exact div_le_div₀ (by positivity) hp (by positivity) hf

theorem norm_taylor_le (x : G) (n : Nat) : ‖∑ j ∈ range n, ((j.factorial : 𝕜)⁻¹) • x ^ j‖ ≤ Real.exp ‖x‖ := by
  refine (norm_sum_le _ _).trans ((Finset.sum_le_sum (g := fun j : Nat => ‖x‖ ^ j / j.factorial) fun j _ => ?_).trans
    (Real.sum_le_exp_of_nonneg (norm_nonneg x) n))
  rw [norm_smul, norm_inv, RCLike.norm_natCast, inv_mul_eq_div]
  gcongr
  exact norm_pow_le x j

variable (𝕜) in
include 𝕜 in
theorem norm_exp_le (x : G) : ‖NormedSpace.exp x‖ ≤ Real.exp ‖x‖ := by
  have h := exp_sub_taylor_le (𝕜 := 𝕜) x 0
  simpa using h

theorem norm_pow_sub_pow_le {x y : G} (hxy : Commute x y) {b : ℝ} (hx : ‖x‖ ≤ b) (hy : ‖y‖ ≤ b) {m : Nat} (hm : 1 ≤ m) :
    ‖x ^ m - y ^ m‖ ≤ m * b ^ (m - 1) * ‖x - y‖ := by
  have hb : 0 ≤ b := (norm_nonneg x).trans hx
  rw [← hxy.geom_sum₂_mul]
  refine (norm_mul_le _ _).trans (mul_le_mul_of_nonneg_right ?_ (norm_nonneg _))
  refine (norm_sum_le _ _).trans ?_
  rw [show (m : ℝ) * b ^ (m - 1) = ∑ _i ∈ range m, b ^ (m - 1) by simp]
  refine Finset.sum_le_sum fun i hi => ?_
  rw [mem_range] at hi
  refine (norm_mul_le _ _).trans ?_
  calc ‖x ^ i‖ * ‖y ^ (m - 1 - i)‖ ≤ b ^ i * b ^ (m - 1 - i) :=
        mul_le_mul ((norm_pow_le x i).trans (pow_le_pow_left₀ (norm_nonneg _) hx i))
          ((norm_pow_le y _).trans (pow_le_pow_left₀ (norm_nonneg _) hy _)) (norm_nonneg _) (pow_nonneg hb _)
    _ = b ^ (m - 1) := by rw [← pow_add]; congr 1; omega

/-- Error of the scaled and truncated series. -/
theorem exp_sub_taylor_pow_le (x : G) {m : Nat} (hm : 1 ≤ m) (n : Nat) :
    ‖NormedSpace.exp x - (∑ j ∈ range n, ((j.factorial : 𝕜)⁻¹) • ((m : 𝕜)⁻¹ • x) ^ j) ^ m‖ ≤
      m * ((‖x‖ / m) ^ n / n.factorial) * Real.exp ‖x‖ := by
  have hm0 : (m : 𝕜) ≠ 0 := by exact_mod_cast Nat.one_le_iff_ne_zero.mp hm
  have hm1 : (0 : ℝ) < m := by exact_mod_cast hm
  set y : G := (m : 𝕜)⁻¹ • x with hy
  have hxy : x = m • y := by
    rw [hy, ← Nat.cast_smul_eq_nsmul 𝕜 m, smul_smul, mul_inv_cancel₀ hm0, one_smul]
  have hny : ‖y‖ = ‖x‖ / m := by
    rw [hy, norm_smul, norm_inv, RCLike.norm_natCast, inv_mul_eq_div]
  let : NormedAlgebra ℚ G := NormedAlgebra.restrictScalars ℚ 𝕜 G
  have he : NormedSpace.exp x = NormedSpace.exp y ^ m := by rw [hxy, NormedSpace.exp_nsmul]
  rw [he]
  have hc : Commute (NormedSpace.exp y) (∑ j ∈ range n, ((j.factorial : 𝕜)⁻¹) • y ^ j) := by
    refine Commute.sum_right _ _ _ fun j _ => Commute.smul_right (Commute.pow_right ?_ j) _
    exact (Commute.refl y).exp_left
  refine (norm_pow_sub_pow_le hc (norm_exp_le 𝕜 y) (norm_taylor_le y n) hm).trans ?_
  have h := exp_sub_taylor_le (𝕜 := 𝕜) y n
  have h2 : Real.exp ‖x‖ = Real.exp ‖y‖ ^ (m - 1) * Real.exp ‖y‖ := by
    rw [← pow_succ, Nat.sub_add_cancel hm, ← Real.exp_nat_mul, hny]
    congr 1
    field_simp
  rw [h2, ← hny]
  calc (m : ℝ) * Real.exp ‖y‖ ^ (m - 1) * ‖NormedSpace.exp y - ∑ j ∈ range n, ((j.factorial : 𝕜)⁻¹) • y ^ j‖
      ≤ (m : ℝ) * Real.exp ‖y‖ ^ (m - 1) * (‖y‖ ^ n / n.factorial * Real.exp ‖y‖) := by gcongr
    _ = _ := by ring

/-- If the exponent is smaller than the divisor, the result is at most as large as the exponential of the norm. -/
theorem norm_taylor_pow_le (x : G) {m k : Nat} (hm : 1 ≤ m) (hk : k ≤ m) (n : Nat) :
    ‖(∑ j ∈ range n, ((j.factorial : 𝕜)⁻¹) • ((m : 𝕜)⁻¹ • x) ^ j) ^ k‖ ≤ Real.exp ‖x‖ := by
  have hm1 : (0 : ℝ) < m := by exact_mod_cast hm
  have hny : ‖(m : 𝕜)⁻¹ • x‖ = ‖x‖ / m := by
    rw [norm_smul, norm_inv, RCLike.norm_natCast, inv_mul_eq_div]
  refine (norm_pow_le _ k).trans ((pow_le_pow_left₀ (norm_nonneg _) (norm_taylor_le _ n) k).trans ?_)
  rw [← Real.exp_nat_mul, hny]
  refine Real.exp_le_exp.mpr ?_
  rw [← mul_div_assoc, div_le_iff₀ hm1, mul_comm]
  exact mul_le_mul_of_nonneg_left (by exact_mod_cast hk) (norm_nonneg _)

theorem two_le_bound {m : Nat} {N : ℝ} (hm : 2 ^ 64 ≤ m) (hN : (m : ℝ) ≤ N + 1) :
    2 ≤ (m : ℝ) * ((N / m) ^ 19 / Nat.factorial 19) := by
  have hm' : (2 ^ 64 : ℝ) ≤ m := by exact_mod_cast hm
  have hm0 : (0 : ℝ) < m := lt_of_lt_of_le (by positivity) hm'
  have h1 : 1 + (-1 / (m : ℝ)) ≤ N / m := by
    rw [le_div_iff₀ hm0, add_mul, one_mul, div_mul_cancel₀ _ hm0.ne']
    linarith
  have h2 : (-1 : ℝ) / m ≥ -1 / 2 ^ 64 := by
    rw [ge_iff_le, neg_div, neg_div, neg_le_neg_iff]
    exact one_div_le_one_div_of_le (by positivity) hm'
  have h3 : (1 : ℝ) / 2 ≤ (N / m) ^ 19 :=
    calc (1 : ℝ) / 2 ≤ 1 + (19 : ℕ) * (-1 / (m : ℝ)) := by
          have : (-1 : ℝ) / 2 ^ 64 ≥ -1 / 1000 := by norm_num
          push_cast
          linarith
      _ ≤ (1 + (-1 / (m : ℝ))) ^ 19 := one_add_mul_le_pow (by
          have : (-1 : ℝ) / 2 ^ 64 ≥ -1 := by norm_num
          linarith) 19
      _ ≤ (N / m) ^ 19 := pow_le_pow_left₀ (by
          have : (-1 : ℝ) / 2 ^ 64 ≥ -1 := by norm_num
          linarith) h1 19
  have hf : (Nat.factorial 19 : ℝ) = 121645100408832000 := by norm_num [Nat.factorial]
  rw [hf]
  calc (2 : ℝ) ≤ 2 ^ 64 * (1 / 2 / 121645100408832000) := by norm_num
    _ ≤ (m : ℝ) * ((N / m) ^ 19 / 121645100408832000) := by gcongr

/-- Error of the scaled and truncated series, when the exponent saturates. -/
theorem exp_sub_taylor_cast_le (x : G) {m : Nat} (hm : 1 ≤ m) (hx : (m : ℝ) ≤ ‖x‖ + 1) :
    ‖NormedSpace.exp x - (∑ j ∈ range 19, ((j.factorial : 𝕜)⁻¹) • ((m : 𝕜)⁻¹ • x) ^ j) ^ usizeCast m‖ ≤
      m * ((‖x‖ / m) ^ 19 / Nat.factorial 19) * Real.exp ‖x‖ := by
  by_cases h : m < 2 ^ 64
  · rw [show usizeCast m = m from min_eq_left (by omega)]
    exact exp_sub_taylor_pow_le x hm 19
  · have h1 := norm_exp_le 𝕜 x
    have h2 := norm_taylor_pow_le (𝕜 := 𝕜) x hm (min_le_left m (2 ^ 64 - 1)) 19
    refine (norm_sub_le _ _).trans ((add_le_add h1 h2).trans ?_)
    have := mul_le_mul_of_nonneg_right (two_le_bound (by omega) hx) (Real.exp_pos ‖x‖).le
    linarith

end banach

theorem bsgn_abs_le {σ : Nat → ℤ} (h : ∀ i, |σ i| ≤ 1) (n a b : Nat) : |bsgn σ n a b| ≤ 1 := by
  induction n with
  | zero => simp
  | succ n ih =>
    rw [bsgn_succ, abs_mul, abs_mul]
    have h1 : |sg (b.testBit n && par n a)| ≤ 1 := by cases (b.testBit n && par n a) <;> simp [sg]
    have h2 : |cond (a.testBit n && b.testBit n) (σ n) 1| ≤ 1 := by
      cases (a.testBit n && b.testBit n)
      · simp
      · exact h n
    exact mul_le_one₀ (mul_le_one₀ ih (abs_nonneg _) h1) (abs_nonneg _) h2

/-- Squares of generators are `1`, `-1` or `0`. -/
class UnitSig (σ : Nat → ℤ) : Prop where
  le : ∀ i, |σ i| ≤ 1

instance (A : ClAlg) : UnitSig A.sigma :=
  ⟨fun i => by rcases A.sigma_cases i with h | h | h <;> rw [h] <;> simp⟩

namespace GA
variable {σ : Nat → ℤ} {n : Nat} {𝕜 : Type} [RCLike 𝕜]

noncomputable instance : Norm (GA σ n 𝕜) := ⟨fun x => ∑ i ∈ range (2 ^ n), ‖x.fn i‖⟩

theorem norm_def (x : GA σ n 𝕜) : ‖x‖ = ∑ i ∈ range (2 ^ n), ‖x.fn i‖ := rfl

theorem norm_of (f : Nat → 𝕜) : ‖(of f : GA σ n 𝕜)‖ = ∑ i ∈ range (2 ^ n), ‖f i‖ := by
  rw [norm_def]
  refine Finset.sum_congr rfl fun i hi => ?_
  rw [fn_of _ (mem_range.mp hi)]

theorem norm_mul_le' [UnitSig σ] (x y : GA σ n 𝕜) : ‖x * y‖ ≤ ‖x‖ * ‖y‖ := by
  induction x using ind with | h f => ?_
  induction y using ind with | h g => ?_
  rw [← of_mul, norm_of, norm_of, norm_of]
  calc ∑ k ∈ range (2 ^ n), ‖geo σ n f g k‖
      ≤ ∑ k ∈ range (2 ^ n), ∑ i ∈ range (2 ^ n), ‖f i‖ * ‖g (i ^^^ k)‖ := by
        refine Finset.sum_le_sum fun k _ => (norm_sum_le _ _).trans (Finset.sum_le_sum fun i _ => ?_)
        rw [zsmul_eq_mul, norm_mul, norm_mul]
        have : ‖((bsgn σ n i (i ^^^ k) : ℤ) : 𝕜)‖ ≤ 1 := by
          rw [← RCLike.ofReal_intCast, RCLike.norm_ofReal]
          exact_mod_cast bsgn_abs_le UnitSig.le n i (i ^^^ k)
        calc _ ≤ 1 * (‖f i‖ * ‖g (i ^^^ k)‖) := by gcongr
          _ = _ := one_mul _
    _ = ∑ i ∈ range (2 ^ n), ‖f i‖ * ∑ k ∈ range (2 ^ n), ‖g (i ^^^ k)‖ := by
        rw [Finset.sum_comm]
        exact Finset.sum_congr rfl fun i _ => (Finset.mul_sum _ _ _).symm
    _ = _ := by
        rw [Finset.sum_mul]
        refine Finset.sum_congr rfl fun i hi => ?_
        congr 1
        simp only [Nat.xor_comm i]
        exact sum_xor (mem_range.mp hi) (fun j => ‖g j‖)

theorem normCore : NormedSpace.Core 𝕜 (GA σ n 𝕜) where
  norm_nonneg x := Finset.sum_nonneg fun _ _ => norm_nonneg _
  norm_smul c x := by
    induction x using ind with | h f => ?_
    rw [← of_smul, norm_of, norm_of, Finset.mul_sum]
    exact Finset.sum_congr rfl fun i _ => norm_mul _ _
  norm_triangle x y := by
    induction x using ind with | h f => ?_
    induction y using ind with | h g => ?_
    rw [← of_add, norm_of, norm_of, norm_of, ← Finset.sum_add_distrib]
    exact Finset.sum_le_sum fun i _ => norm_add_le _ _
  norm_eq_zero_iff x := by
    induction x using ind with | h f => ?_
    rw [norm_of, Finset.sum_eq_zero_iff_of_nonneg (fun _ _ => norm_nonneg _), ← of_zero]
    constructor
    · intro h
      exact of_congr fun i hi => norm_eq_zero.mp (h i (mem_range.mpr hi))
    · intro h i hi
      rw [of_inj h i (mem_range.mp hi), norm_zero]

noncomputable instance : NormedAddCommGroup (GA σ n 𝕜) := NormedAddCommGroup.ofCore (𝕜 := 𝕜) normCore

noncomputable instance : NormedSpace 𝕜 (GA σ n 𝕜) := NormedSpace.ofCore (𝕜 := 𝕜) normCore

noncomputable instance [UnitSig σ] : NormedRing (GA σ n 𝕜) :=
  { (inferInstance : NormedAddCommGroup (GA σ n 𝕜)), (inferInstance : Ring (GA σ n 𝕜)) with
    norm_mul_le := norm_mul_le' }

noncomputable instance [UnitSig σ] : NormedAlgebra 𝕜 (GA σ n 𝕜) :=
  { (inferInstance : Algebra 𝕜 (GA σ n 𝕜)) with
    norm_smul_le := fun c x => (normCore.norm_smul c x).le }

instance [UnitSig σ] : NormOneClass (GA σ n 𝕜) := ⟨by
  rw [one_def, norm_of, Finset.sum_eq_single 0]
  · simp [single]
  · intro i _ hi; simp [single, hi]
  · intro h; exact absurd (mem_range.mpr (Nat.two_pow_pos n)) h⟩

instance [UnitSig σ] : FiniteDimensional 𝕜 (GA σ n 𝕜) := inferInstanceAs (FiniteDimensional 𝕜 (Fin (2 ^ n) → 𝕜))

instance [UnitSig σ] : CompleteSpace (GA σ n 𝕜) := FiniteDimensional.complete 𝕜 _

/-- A coefficient is at most the norm. -/
theorem norm_fn_le (x : GA σ n 𝕜) {i : Nat} (hi : i < 2 ^ n) : ‖x.fn i‖ ≤ ‖x‖ :=
  Finset.single_le_sum (f := fun i => ‖x.fn i‖) (fun _ _ => norm_nonneg _) (mem_range.mpr hi)

/-- Coefficients as a linear map. -/
def coef (i : Nat) : GA σ n 𝕜 →ₗ[𝕜] 𝕜 where
  toFun x := x.fn i
  map_add' x y := by
    unfold fn; split
    · rfl
    · simp
  map_smul' c x := by
    unfold fn; split
    · rfl
    · simp

end GA

end TClifford
