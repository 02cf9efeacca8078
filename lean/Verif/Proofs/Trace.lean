import Verif.Proofs.Blades
import Verif.Proofs.GA
import Mathlib.Algebra.Order.BigOperators.Ring.Finset
import Mathlib.Algebra.Order.Chebyshev
/-
The scalar part of products: symmetric, invariant, and a sum of squares of coefficients.
-/

set_option linter.unusedSectionVars false

namespace TClifford

open Finset

section
variable {T : Type} [CommRing T]

theorem bsgn_self (σ : Nat → ℤ) (n i : Nat) : bsgn σ n i i = rsg n i * bprod σ n i := by
  rw [ClAlg.bsgn_factor, bsgn_self_plus, Nat.and_self]

/-- The scalar part of a product: only equal blades contribute, with the sign of the reversal and the squares of their
generators. -/
theorem geo_scalar (σ : Nat → ℤ) (n : Nat) (f g : Nat → T) :
    geo σ n f g 0 = ∑ i ∈ range (2 ^ n), (rsg n i * bprod σ n i) • (f i * g i) := by
  unfold geo
  exact sum_congr rfl fun i _ => by rw [Nat.xor_zero, bsgn_self]

theorem geo_scalar_comm (σ : Nat → ℤ) (n : Nat) (f g : Nat → T) : geo σ n f g 0 = geo σ n g f 0 := by
  rw [geo_scalar, geo_scalar]
  exact sum_congr rfl fun i _ => by rw [mul_comm (f i)]

/-- The scalar part of `rev(a) * b`. -/
theorem geo_rev_scalar (σ : Nat → ℤ) (n : Nat) (f g : Nat → T) :
    geo σ n (fun i => rsg n i • f i) g 0 = ∑ i ∈ range (2 ^ n), bprod σ n i • (f i * g i) := by
  rw [geo_scalar]
  refine sum_congr rfl fun i _ => ?_
  rw [smul_mul_assoc, smul_smul]
  congr 1
  linear_combination bprod σ n i * rsg_mul_self n i

end

theorem bprod_ones {σ : Nat → ℤ} {n : Nat} (h : ∀ i < n, σ i = 1) (c : Nat) : bprod σ n c = 1 := by
  induction n with
  | zero => rfl
  | succ n ih => rw [bprod_succ, ih fun i hi => h i (by omega), h n (by omega)]; cases c.testBit n <;> rfl

theorem bprod_nonneg {σ : Nat → ℤ} {n : Nat} (h : ∀ i < n, 0 ≤ σ i) (c : Nat) : 0 ≤ bprod σ n c := by
  induction n with
  | zero => exact zero_le_one
  | succ n ih =>
    rw [bprod_succ]
    refine mul_nonneg (ih fun i hi => h i (by omega)) ?_
    cases c.testBit n
    · exact zero_le_one
    · exact h n (by omega)

theorem bprod_ne_zero {σ : Nat → ℤ} {n : Nat} (h : ∀ i < n, σ i ≠ 0) (c : Nat) : bprod σ n c ≠ 0 := by
  induction n with
  | zero => exact one_ne_zero
  | succ n ih =>
    rw [bprod_succ]
    refine mul_ne_zero (ih fun i hi => h i (by omega)) ?_
    cases c.testBit n
    · exact one_ne_zero
    · exact h n (by omega)

theorem bprod_unit {A : ClAlg} {n : Nat} (h : ∀ i < n, A.sigma i ≠ 0) (c : Nat) :
    bprod A.sigma n c = 1 ∨ bprod A.sigma n c = -1 := by
  induction n with
  | zero => exact .inl rfl
  | succ n ih =>
    rw [bprod_succ]
    have h1 := A.sigma_cases n
    have h2 := h n (by omega)
    rcases ih fun i hi => h i (by omega) with h3 | h3 <;> rw [h3] <;> cases c.testBit n <;>
      rcases h1 with h1 | h1 | h1 <;> simp_all

theorem bprod_two_pow {σ : Nat → ℤ} {n k : Nat} (hk : k < n) : bprod σ n (2 ^ k) = σ k := by
  induction n with
  | zero => omega
  | succ n ih =>
    rw [bprod_succ, Nat.testBit_two_pow]
    by_cases h : k = n
    · subst h
      have : bprod σ k (2 ^ k) = 1 := by
        rw [bprod_congr (l' := σ) (b := 0) (fun _ _ => rfl) (fun i hi => ?_), bprod_zero]
        rw [Nat.testBit_two_pow]; simp; omega
      rw [this]; simp
    · rw [ih (by omega)]; simp [h]

namespace GA
variable {σ : Nat → ℤ} {n : Nat} {T : Type} [CommRing T]

theorem fn_mul_comm (x y : GA σ n T) : (x * y).fn 0 = (y * x).fn 0 := by
  induction x using ind with | h f => ?_
  induction y using ind with | h g => ?_
  rw [← of_mul, ← of_mul, fn_of _ (Nat.two_pow_pos _), fn_of _ (Nat.two_pow_pos _), geo_scalar_comm]

theorem fn_rev (x : GA σ n T) : (rev x).fn 0 = x.fn 0 := by
  induction x using ind with | h f => ?_
  rw [rev_of, fn_of _ (Nat.two_pow_pos _), fn_of _ (Nat.two_pow_pos _)]
  have : rsg n 0 = 1 := by rw [rsg_eq]; simp
  rw [this, one_smul]

theorem fn_add_apply (x y : GA σ n T) (i : Nat) : (x + y).fn i = x.fn i + y.fn i := by
  unfold fn
  split
  · rfl
  · rw [add_zero]

theorem fn_smul_apply (t : T) (x : GA σ n T) (i : Nat) : (t • x).fn i = t * x.fn i := by
  unfold fn
  split
  · rfl
  · rw [mul_zero]

end GA

section
variable {T : Type} [Field T] [LinearOrder T] [IsStrictOrderedRing T]

/-- The sum of the squares of the coefficients of a Euclidean product. -/
theorem geo_norm_le (σ : Nat → ℤ) (n : Nat) (hσ : ∀ a b, |bsgn σ n a b| ≤ 1) (f g : Nat → T) :
    ∑ k ∈ range (2 ^ n), geo σ n f g k ^ 2 ≤
      2 ^ n * (∑ i ∈ range (2 ^ n), f i ^ 2) * ∑ i ∈ range (2 ^ n), g i ^ 2 := by
  have h : ∀ k ∈ range (2 ^ n), geo σ n f g k ^ 2 ≤ (∑ i ∈ range (2 ^ n), f i ^ 2) * ∑ i ∈ range (2 ^ n), g i ^ 2 := by
    intro k hk
    have e : geo σ n f g k = ∑ i ∈ range (2 ^ n), ((bsgn σ n i (i ^^^ k) : T) * f i) * g (i ^^^ k) := by
      unfold geo
      exact sum_congr rfl fun i _ => by rw [zsmul_eq_mul, mul_assoc]
    rw [e]
    refine (sum_mul_sq_le_sq_mul_sq _ _ _).trans ?_
    have h2 : ∑ i ∈ range (2 ^ n), g (i ^^^ k) ^ 2 = ∑ i ∈ range (2 ^ n), g i ^ 2 :=
      sum_xor (mem_range.mp hk) (fun i => g i ^ 2)
    rw [h2]
    refine mul_le_mul_of_nonneg_right (sum_le_sum fun i _ => ?_) (sum_nonneg fun i _ => sq_nonneg _)
    rw [mul_pow]
    have h3 : (bsgn σ n i (i ^^^ k) : T) ^ 2 ≤ 1 := by
      rw [sq_le_one_iff_abs_le_one]
      exact_mod_cast hσ i (i ^^^ k)
    calc _ ≤ 1 * f i ^ 2 := mul_le_mul_of_nonneg_right h3 (sq_nonneg _)
      _ = _ := one_mul _
  refine (sum_le_sum h).trans ?_
  rw [sum_const, card_range, nsmul_eq_mul]
  push_cast
  rw [mul_assoc]

end

end TClifford
