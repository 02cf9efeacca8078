import Verif.Props.PgaIncidence
import Verif.Props.Rotors
/-
Sandwiches of PGA points with vectors: reflections in hyperplanes (for C89).
-/

set_option linter.unusedSectionVars false

namespace TClifford

open MV Finset

namespace GA
variable {σ : Nat → ℤ} {n : Nat} {T : Type} [Field T] [DecidableEq T]

theorem vec_isVec (c : Nat → T) : IsVec (vec c : GA σ n T) := by
  have h : ∀ m ≤ n, IsVec (∑ k ∈ range m, c k • e k : GA σ n T) := by
    intro m
    induction m with
    | zero => intro _ i _ _; rw [sum_range_zero, fn_zero]
    | succ m ih =>
      intro hm
      rw [sum_range_succ]
      exact (ih (by omega)).add ((isVec_e (by omega)).smul _)
  exact h n le_rfl

section
variable {d : Nat} (h1 : ∀ i < d, σ i = 1) (h0 : σ d = 0)
include h1 h0

/-- A generator and the dual of the null generator. -/
theorem e_mul_Dd {k : Nat} (hk : k < d) : (e k * D d : GA σ (d + 1) T) = -((csg (d + 1) : T) • (D d * e k)) := by
  unfold D
  rw [mul_smul_comm, smul_mul_assoc, e_mul_bl (by omega) (xor_mask_lt (two_pow_lt (by omega))), smul_comm (csg (d + 1) : T),
    ← smul_neg]
  refine congrArg _ ?_
  have hb : (2 ^ d ^^^ (2 ^ (d + 1) - 1)).testBit k = true := by
    rw [Nat.testBit_xor, Nat.testBit_two_pow_sub_one, Nat.testBit_two_pow_of_ne (by omega)]
    simp; omega
  have hc : cnt (d + 1) (2 ^ d ^^^ (2 ^ (d + 1) - 1)) = d := by
    have := cnt_compl (n := d + 1) (a := 2 ^ d)
    rw [cnt_two_pow (by omega)] at this
    omega
  have hs : sg (par (d + 1) (2 ^ d ^^^ (2 ^ (d + 1) - 1))) = csg (d + 1) := by
    rw [sg_par_pow (xor_mask_lt (two_pow_lt (by omega))), countOnes_eq_cnt (xor_mask_lt (two_pow_lt (by omega))), hc]
    unfold csg
    split
    · exact Even.neg_one_pow (Nat.even_iff.mpr (by omega))
    · exact Odd.neg_one_pow (Nat.odd_iff.mpr (by omega))
  rw [hb, hs, if_pos rfl, ← Int.cast_smul_eq_zsmul T, mul_neg, mul_one, Int.cast_neg, neg_smul]

/-- The vector without its null part. -/
def eu (d : Nat) (c : Nat → T) : GA σ n T := ∑ k ∈ range d, c k • e k

theorem vec_split (c : Nat → T) : (vec c : GA σ (d + 1) T) = eu d c + c d • e d := sum_range_succ _ _

theorem dual_split (y : Nat → T) : dual (vec y : GA σ (d + 1) T) = ps * eu d y + y d • D d := by
  rw [dual_vec, sum_range_succ, eu, mul_sum]
  congr 1
  exact sum_congr rfl fun k hk => by rw [mul_smul_comm, ps_mul_e h1 h0 (mem_range.mp hk)]

theorem eu_mul_ps (c : Nat → T) : (eu d c * ps : GA σ (d + 1) T) = (csg (d + 1) : T) • (ps * eu d c) := by
  rw [eu, sum_mul, mul_sum, smul_sum]
  refine sum_congr rfl fun k hk => ?_
  rw [smul_mul_assoc, mul_smul_comm, e_mul_ps h1 h0 (mem_range.mp hk), ps_mul_e h1 h0 (mem_range.mp hk), smul_comm]

theorem eu_mul_Dd (c : Nat → T) : (eu d c * D d : GA σ (d + 1) T) = -((csg (d + 1) : T) • (D d * eu d c)) := by
  rw [eu, sum_mul, mul_sum, smul_sum, ← sum_neg_distrib]
  refine sum_congr rfl fun k hk => ?_
  rw [smul_mul_assoc, mul_smul_comm, e_mul_Dd h1 h0 (mem_range.mp hk), smul_neg, smul_comm]

theorem eu_mul_null (c : Nat → T) : (eu d c * e d : GA σ (d + 1) T) = -(e d * eu d c) := by
  rw [eu, sum_mul, mul_sum, ← sum_neg_distrib]
  refine sum_congr rfl fun k hk => ?_
  have := mem_range.mp hk
  rw [smul_mul_assoc, mul_smul_comm, e_anti (by omega) (by omega) (by omega), smul_neg]

/-- The product of two vectors without null parts. -/
theorem eu_isVec (c : Nat → T) : IsVec (eu d c : GA σ (d + 1) T) := by
  have : (eu d c : GA σ (d + 1) T) = vec (fun k => if k < d then c k else 0) := by
    rw [vec_split h1 h0, if_neg (lt_irrefl d), zero_smul, add_zero, eu, eu]
    exact sum_congr rfl fun k hk => by rw [if_pos (mem_range.mp hk)]
  rw [this]
  exact vec_isVec _

theorem dot_eu (c y : Nat → T) : dot (eu d c : GA σ (d + 1) T) (eu d y) = ∑ k ∈ range d, c k * y k := by
  rw [eu, dot_sum_left]
  refine sum_congr rfl fun k hk => ?_
  have hk := mem_range.mp hk
  rw [dot_smul_left, dot_comm (isVec_e (by omega)) (eu_isVec h1 h0 y), eu, dot_sum_left, sum_eq_single k]
  · have := dot_e (T := T) (σ := σ) (⟨k, by omega⟩ : Fin (d + 1)) ⟨k, by omega⟩
    rw [if_pos rfl] at this
    rw [dot_smul_left, this, h1 k hk, Int.cast_one, mul_one]
  · intro j hj hne
    have hj := mem_range.mp hj
    have := dot_e (T := T) (σ := σ) (⟨j, by omega⟩ : Fin (d + 1)) ⟨k, by omega⟩
    rw [if_neg (by simpa using hne)] at this
    rw [dot_smul_left, this, mul_zero]
  · intro h; exact absurd (mem_range.mpr hk) h

/-- The sandwich of the dual of a vector with a vector. -/
theorem vec_sandwich_dual (c y : Nat → T) : (vec c * dual (vec y) * vec c : GA σ (d + 1) T) =
    (-(csg (d + 1) : T)) • dual (vec (fun k => if k < d then (∑ j ∈ range d, c j * c j) * y k - 2 * (∑ j ∈ range (d + 1), c j * y j) * c k
      else (∑ j ∈ range d, c j * c j) * y k)) := by
  set q := ∑ j ∈ range d, c j * c j with hq
  set μ := ∑ j ∈ range (d + 1), c j * y j with hμ
  have hμ' : μ = (∑ j ∈ range d, c j * y j) + c d * y d := sum_range_succ _ _
  rw [dual_split h1 h0 y, dual_split h1 h0, vec_split h1 h0]
  simp only [lt_irrefl, if_false]
  have hE : (eu d (fun k => if k < d then q * y k - 2 * μ * c k else q * y k) : GA σ (d + 1) T) = q • eu d y - (2 * μ) • eu d c := by
    unfold eu
    rw [smul_sum, smul_sum, ← sum_sub_distrib]
    refine sum_congr rfl fun k hk => ?_
    beta_reduce
    rw [if_pos (mem_range.mp hk), sub_smul, smul_smul, smul_smul]
  rw [hE]
  have nP := eu_mul_ps (T := T) h1 h0 c
  have nJ := eu_mul_Dd (T := T) h1 h0 c
  have nE := eu_mul_null (T := T) h1 h0 c
  have uE := eu_mul_null (T := T) h1 h0 y
  have PE := ps_mul_null (T := T) h1 h0
  have EP := null_mul_ps (T := T) h1 h0
  have JE : (D d * e d : GA σ (d + 1) T) = ps := D_mul_e (by omega)
  have EJ : (e d * D d : GA σ (d + 1) T) = (csg (d + 1) : T) • ps := e_mul_D (by omega)
  have nn : (eu d c * eu d c : GA σ (d + 1) T) = q • 1 := by rw [(eu_isVec h1 h0 c).sq, dot_eu h1 h0]
  have nun : (eu d c * eu d y * eu d c : GA σ (d + 1) T) = (2 * ∑ j ∈ range d, c j * y j) • eu d c - q • eu d y := by
    rw [(eu_isVec h1 h0 c).reflect (eu_isVec h1 h0 y), dot_eu h1 h0, dot_eu h1 h0]
  generalize (csg (d + 1) : T) = s at *
  generalize (eu d c : GA σ (d + 1) T) = N at *
  generalize (eu d y : GA σ (d + 1) T) = U at *
  generalize (ps : GA σ (d + 1) T) = P at *
  generalize (D d : GA σ (d + 1) T) = J at *
  generalize (e d : GA σ (d + 1) T) = E at *
  generalize (∑ j ∈ range d, c j * y j) = m at *
  have t1 : N * (P * U) * N = s • (P * ((2 * m) • N - q • U)) := by
    rw [← mul_assoc, nP, smul_mul_assoc, smul_mul_assoc, mul_assoc, mul_assoc, ← mul_assoc N, nun]
  have t2 : N * (P * U) * E = 0 := by
    rw [mul_assoc, mul_assoc, uE, mul_neg, ← mul_assoc P, PE, zero_mul, neg_zero, mul_zero]
  have t3 : E * (P * U) = 0 := by rw [← mul_assoc, EP, zero_mul]
  have t4 : N * J * N = -(s • q • J) := by
    rw [nJ, neg_mul, smul_mul_assoc, mul_assoc, nn, mul_smul_comm, mul_one]
  have t5 : N * J * E = s • (P * N) := by rw [mul_assoc, JE, nP]
  have t6 : E * J * N = s • (P * N) := by rw [EJ, smul_mul_assoc]
  have t7 : E * J * E = 0 := by rw [EJ, smul_mul_assoc, PE, smul_zero]
  have : (N + c d • E) * (P * U + y d • J) * (N + c d • E) =
      N * (P * U) * N + c d • (N * (P * U) * E) + y d • (N * J * N) + (y d * c d) • (N * J * E) + c d • (E * (P * U) * N) +
      (c d * c d) • (E * (P * U) * E) + (c d * y d) • (E * J * N) + (c d * y d * c d) • (E * J * E) := by
    simp only [add_mul, mul_add, smul_mul_assoc, mul_smul_comm]
    module
  rw [this, t1, t2, t3, t4, t5, t6, t7, hμ']
  simp only [mul_sub, mul_smul_comm, smul_sub, smul_add, smul_smul, zero_mul, smul_zero, add_zero, smul_neg, neg_smul]
  module

end
end GA
end TClifford
