import Verif.Proofs.Spin
import Verif.Proofs.Blades
import Mathlib.Algebra.Star.BigOperators
import Mathlib.LinearAlgebra.Matrix.ConjTranspose
/-
Conjugate transposes of the matrices, and the sums of the squares of their entries.
-/

set_option linter.unusedSectionVars false

namespace TClifford

open Finset

variable {K : Type} [Field K] [DecidableEq K] [ImagUnit K] [StarRing K]

local notation "𝐢" => (HasI.I : K)

theorem star_bprod_mask (hI : star 𝐢 = -𝐢) (mask n k : Nat) :
    star (bprod (fun i => if mask.testBit i then 𝐢 else 1) n k) = (-1) ^ cnt n (k &&& mask) * bprod (fun i => if mask.testBit i then 𝐢 else 1) n k := by
  rw [bprod_mask, star_pow, hI, neg_pow]

/-- The conjugate transpose of a matrix of the transform. -/
theorem ctr_star (hI : star 𝐢 = -𝐢) {m n : Nat} (hm : 2 * m ≤ 64) (hn : n ≤ 2 * m) (x : Nat → K) :
    MEq (2 ^ m) (2 ^ m) (ctr m n (fun k => rsg n k • star (x k))) (fun i j => star (ctr m n x j i)) := by
  have h1 : (fun i j => star (ctr m n x j i)) = fun i j => cnn m (fun k => star (psc m n x k)) j i := by
    unfold ctr
    rw [cnn_map (f := star) star_add]
  rw [h1]
  refine MEq.trans ?_ (cnn_transpose m _)
  have : ctr m n (fun k => rsg n k • star (x k)) = cnn m (fun k => tsg m k • star (psc m n x k)) := by
    unfold ctr
    refine cnn_congr fun k hk => ?_
    unfold psc pad
    rw [star_mul', star_bprod_mask hI]
    split
    · rename_i h
      simp only
      rw [← rsg_of_le h hn, mul_smul_comm, tsg, sg_opar_pow hm hk, countOnes_and hk, mul_smul]
      congr 1
      rw [zsmul_eq_mul, ← mul_assoc, ← mul_assoc]
      push_cast
      rw [← mul_pow, neg_one_mul, neg_neg, one_pow, one_mul]
    · simp
  rw [this]; exact MEq.rfl' _

/-- The sum of the squares of the absolute values of the entries. -/
theorem ctr_parseval (hI : star 𝐢 = -𝐢) {m n : Nat} (hm : 2 * m ≤ 64) (hn : n ≤ 2 * m) (x : Nat → K) :
    ∑ i ∈ range (2 ^ m), ∑ j ∈ range (2 ^ m), star (ctr m n x i j) * ctr m n x i j = 2 ^ m * ∑ k ∈ range (2 ^ n), star (x k) * x k := by
  have h1 := ctr_trace m n (geo (fun _ => 1) n (fun k => rsg n k • star (x k)) x)
  rw [sum_congr rfl (fun i hi => ctr_geo hm hn _ _ i (mem_range.mp hi) i (mem_range.mp hi))] at h1
  have h2 : ∀ i ∈ range (2 ^ m), mm m (ctr m n (fun k => rsg n k • star (x k))) (ctr m n x) i i =
      ∑ j ∈ range (2 ^ m), star (ctr m n x j i) * ctr m n x j i := fun i hi =>
    sum_congr rfl fun j hj => by rw [ctr_star hI hm hn x i (mem_range.mp hi) j (mem_range.mp hj)]
  rw [sum_congr rfl h2, sum_comm] at h1
  rw [h1, nsmul_eq_mul]
  push_cast
  congr 1
  unfold geo
  refine sum_congr rfl fun i _ => ?_
  rw [Nat.xor_zero, bsgn_self_plus, smul_mul_assoc, ← mul_smul, rsg_mul_self, one_smul]

end TClifford
