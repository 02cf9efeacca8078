import Verif.Proofs.Lift
import Verif.Proofs.Sign
import Verif.Spec.Exterior
/-
Facts about the product with all squares zero.
-/

namespace TClifford

open Finset

theorem card_inversions (n i j : Nat) :
    ((range n ×ˢ range n).filter (fun p => i.testBit p.1 = true ∧ j.testBit p.2 = true ∧ p.1 < p.2)).card
      = invCount n i j := by
  rw [card_filter, sum_product_right]
  unfold invCount
  apply sum_congr rfl
  intro b hb
  rw [mem_range] at hb
  rw [cnt_eq_sum, mul_sum]
  have hsub : range b ⊆ range n := range_subset_range.mpr (by omega)
  rw [← sum_subset hsub]
  · apply sum_congr rfl
    intro a ha
    rw [mem_range] at ha
    cases i.testBit a <;> cases j.testBit b <;> simp [ha]
  · intro a _ ha
    rw [mem_range] at ha
    simp [ha]

theorem shuffleSign_eq (n i j : Nat) : Spec.shuffleSign n i j = bsgn (fun _ => 1) n i j := by
  unfold Spec.shuffleSign
  rw [card_inversions, bsgn_ones]
  split
  · rename_i h; exact Even.neg_one_pow (Nat.even_iff.mpr h)
  · rename_i h; exact Odd.neg_one_pow (Nat.odd_iff.mpr (by omega))

theorem and_eq_zero_iff_testBit {n a b : Nat} (ha : a < 2 ^ n) :
    a &&& b = 0 ↔ ∀ i < n, (a.testBit i && b.testBit i) = false := by
  constructor
  · intro h i _
    rw [← Nat.testBit_and, h, Nat.zero_testBit]
  · intro h
    apply Nat.eq_of_testBit_eq
    intro i
    rw [Nat.testBit_and, Nat.zero_testBit]
    by_cases hi : i < n
    · exact h i hi
    · rw [testBit_eq_false_of_lt ha (by omega), Bool.false_and]

theorem sub_mask_iff {i k : Nat} : i &&& k = i ↔ i &&& (k ^^^ i) = 0 := by
  constructor
  · intro h
    rw [Nat.and_xor_distrib_left, h, Nat.and_self, Nat.xor_self]
  · intro h
    rw [Nat.and_xor_distrib_left, Nat.and_self] at h
    have h2 := congrArg (fun x => x ^^^ i) h
    simpa [Nat.xor_assoc] using h2

variable {T : Type} [Ring T]

/-- The product with all squares zero is the exterior product. -/
theorem wedgeCoeff_eq (n : Nat) (f g : Nat → T) (k : Nat) :
    geo (fun _ => 0) n f g k = Spec.wedgeCoeff n f g k := by
  unfold geo Spec.wedgeCoeff
  rw [sum_filter]
  apply sum_congr rfl
  intro i hi
  rw [mem_range] at hi
  rw [shuffleSign_eq, Nat.xor_comm k i]
  split
  · rename_i h
    rw [bsgn_disjoint (fun _ => 0) (fun _ => 1)]
    rw [sub_mask_iff, Nat.xor_comm k i, and_eq_zero_iff_testBit hi] at h
    exact h
  · rename_i h
    rw [bsgn_null, zero_smul]
    rw [sub_mask_iff, Nat.xor_comm k i, and_eq_zero_iff_testBit hi] at h
    exact h

theorem bsgn_compl_sq {n i : Nat} (hi : i < 2 ^ n) :
    bsgn (fun _ => 0) n i (i ^^^ (2 ^ n - 1)) * bsgn (fun _ => 0) n i (i ^^^ (2 ^ n - 1)) = 1 := by
  have h : ∀ j < n, (i.testBit j && (i ^^^ (2 ^ n - 1)).testBit j) = false := by
    rw [← and_eq_zero_iff_testBit hi, Nat.and_comm]; exact MV.disjoint_compl hi
  rw [bsgn_disjoint (fun _ => 0) (fun _ => 1) h, bsgn_plus_sq]

theorem bsgn_compl_sq' {n i : Nat} (hi : i < 2 ^ n) :
    bsgn (fun _ => 0) n (i ^^^ (2 ^ n - 1)) i * bsgn (fun _ => 0) n (i ^^^ (2 ^ n - 1)) i = 1 := by
  have h := bsgn_compl_sq (xor_mask_lt hi)
  rwa [MV.xor_mask_xor_mask] at h

/-- Coefficients vanish outside of grade `p`. -/
def HomF (n p : Nat) (f : Nat → T) : Prop := ∀ i < 2 ^ n, cnt n i ≠ p → f i = 0

theorem cnt_disjoint {n a b : Nat} (h : ∀ i < n, (a.testBit i && b.testBit i) = false) :
    cnt n (a ^^^ b) = cnt n a + cnt n b := by
  induction n with
  | zero => rfl
  | succ n ih =>
    have h1 := h n (by omega)
    rw [cnt_succ, cnt_succ, cnt_succ, ih (fun i hi => h i (by omega)), Nat.testBit_xor]
    cases h2 : a.testBit n <;> cases h3 : b.testBit n <;> simp_all <;> omega

theorem geo_hom {n p q : Nat} {f g : Nat → T} (hf : HomF n p f) (hg : HomF n q g) :
    HomF n (p + q) (geo (fun _ => 0) n f g) := by
  intro k hk hne
  unfold geo
  apply sum_eq_zero
  intro i hi
  rw [mem_range] at hi
  by_cases hd : ∀ j < n, (i.testBit j && (i ^^^ k).testBit j) = false
  · have hc := cnt_disjoint hd
    rw [xor_xor_cancel] at hc
    by_cases h1 : cnt n i = p
    · rw [hg (i ^^^ k) (Nat.xor_lt_two_pow hi hk) (by omega), mul_zero, smul_zero]
    · rw [hf i hi h1, zero_mul, smul_zero]
  · rw [bsgn_null hd, zero_smul]

theorem rsg_grades (n a b c p q : Nat) (ha : cnt n a = p) (hb : cnt n b = q) (hc : cnt n c = p + q) :
    rsg n a * rsg n b * rsg n c = if p % 2 = 1 ∧ q % 2 = 1 then -1 else 1 := by
  rw [rsg_eq, rsg_eq, rsg_eq, ha, hb, hc]
  have h1 : p % 4 < 4 := Nat.mod_lt _ (by norm_num)
  have h2 : q % 4 < 4 := Nat.mod_lt _ (by norm_num)
  have h3 : (p + q) % 4 = (p % 4 + q % 4) % 4 := Nat.add_mod _ _ _
  have h4 : p % 2 = p % 4 % 2 := by omega
  have h5 : q % 2 = q % 4 % 2 := by omega
  rw [h3, h4, h5]
  generalize p % 4 = x at *
  generalize q % 4 = y at *
  interval_cases x <;> interval_cases y <;> rfl

theorem geo_graded_comm {T : Type} [CommRing T] {n p q : Nat} {f g : Nat → T} (hf : HomF n p f) (hg : HomF n q g)
    {k : Nat} (hk : k < 2 ^ n) :
    geo (fun _ => 0) n f g k = (if p % 2 = 1 ∧ q % 2 = 1 then (-1 : ℤ) else 1) • geo (fun _ => 0) n g f k := by
  unfold geo
  rw [smul_sum, ← sum_xor hk]
  apply sum_congr rfl
  intro i hi
  rw [mem_range] at hi
  rw [show i ^^^ k ^^^ k = i by simp [Nat.xor_assoc], mul_comm (f _) (g _), smul_smul]
  by_cases hz : f (i ^^^ k) = 0
  · rw [hz, mul_zero, smul_zero, smul_zero]
  by_cases hz' : g i = 0
  · rw [hz', zero_mul, smul_zero, smul_zero]
  have h1 : cnt n (i ^^^ k) = p := by
    by_contra h; exact hz (hf _ (Nat.xor_lt_two_pow hi hk) h)
  have h2 : cnt n i = q := by
    by_contra h; exact hz' (hg _ hi h)
  congr 1
  by_cases hd : ∀ j < n, (i.testBit j && (i ^^^ k).testBit j) = false
  · have hc := cnt_disjoint hd
    rw [xor_xor_cancel] at hc
    have hr := bsgn_rev (fun _ => 0) n (i ^^^ k) i
    rw [show i ^^^ k ^^^ i = k by rw [Nat.xor_comm i k]; simp [Nat.xor_assoc]] at hr
    rw [← rsg_grades n (i ^^^ k) i k p q h1 h2 (by omega)]
    have hk2 := rsg_mul_self n k
    linear_combination rsg n k * hr - bsgn (fun _ => 0) n (i ^^^ k) i * hk2
  · have hd' : ¬ ∀ j < n, ((i ^^^ k).testBit j && i.testBit j) = false := by
      intro h; apply hd; intro j hj; rw [Bool.and_comm]; exact h j hj
    rw [bsgn_null hd, bsgn_null hd', mul_zero]

theorem geo_vector_self {T : Type} [CommRing T] {n : Nat} {f : Nat → T} (hf : HomF n 1 f) {k : Nat} (hk : k < 2 ^ n) :
    geo (fun _ => 0) n f f k = 0 := by
  have hz : f 0 = 0 := hf 0 (Nat.two_pow_pos n) (by rw [cnt_zero]; omega)
  unfold geo
  have hterm : ∀ i < 2 ^ n, bsgn (fun _ => 0) n i (i ^^^ k) • (f i * f (i ^^^ k)) +
      bsgn (fun _ => 0) n (i ^^^ k) i • (f (i ^^^ k) * f i) = 0 := by
    intro i hi
    by_cases hz : f (i ^^^ k) = 0
    · rw [hz]; simp
    by_cases hz' : f i = 0
    · rw [hz']; simp
    have h1 : cnt n (i ^^^ k) = 1 := by
      by_contra h; exact hz (hf _ (Nat.xor_lt_two_pow hi hk) h)
    have h2 : cnt n i = 1 := by
      by_contra h; exact hz' (hf _ hi h)
    rw [mul_comm (f (i ^^^ k)), ← add_smul]
    by_cases hd : ∀ j < n, (i.testBit j && (i ^^^ k).testBit j) = false
    · have hc := cnt_disjoint hd
      rw [xor_xor_cancel] at hc
      have hr := bsgn_rev (fun _ => 0) n (i ^^^ k) i
      rw [show i ^^^ k ^^^ i = k by rw [Nat.xor_comm i k]; simp [Nat.xor_assoc]] at hr
      have hg := rsg_grades n (i ^^^ k) i k 1 1 h1 h2 (by omega)
      rw [if_pos (by decide)] at hg
      have hk2 := rsg_mul_self n k
      have : bsgn (fun _ => 0) n i (i ^^^ k) + bsgn (fun _ => 0) n (i ^^^ k) i = 0 := by
        linear_combination rsg n k * hr - bsgn (fun _ => 0) n (i ^^^ k) i * hk2 + bsgn (fun _ => 0) n i (i ^^^ k) * hg
      rw [this, zero_smul]
    · have hd' : ¬ ∀ j < n, ((i ^^^ k).testBit j && i.testBit j) = false := by
        intro h; apply hd; intro j hj; rw [Bool.and_comm]; exact h j hj
      rw [bsgn_null hd, bsgn_null hd']; simp
  apply sum_involution (fun i _ => i ^^^ k)
  · intro i hi
    rw [mem_range] at hi
    have := hterm i hi
    rwa [show i ^^^ k ^^^ k = i by simp [Nat.xor_assoc]]
  · intro i hi hne
    rw [mem_range] at hi
    intro hc
    have hk0 : k = 0 := by
      have := congrArg (fun x => i ^^^ x) hc
      simpa [xor_xor_cancel] using this
    subst hk0
    apply hne
    rw [Nat.xor_zero]
    by_cases h0 : i = 0
    · subst h0; rw [hz, zero_mul, smul_zero]
    · rw [bsgn_null, zero_smul]
      intro hc
      apply h0
      rw [← and_eq_zero_iff_testBit hi, Nat.and_self] at hc
      exact hc
  · intro i hi
    rw [mem_range] at hi ⊢
    exact Nat.xor_lt_two_pow hi hk
  · intro i hi
    simp [Nat.xor_assoc]

end TClifford
