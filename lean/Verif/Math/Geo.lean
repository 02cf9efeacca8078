import Verif.Math.Sgn
import Mathlib.Algebra.BigOperators.Ring.Finset
import Mathlib.Algebra.Module.BigOperators
import Mathlib.Tactic.Abel
/-
The geometric product of coefficient functions and its algebraic laws.
-/

namespace TClifford

open Finset

/-- Sums over all blade indices can be shifted by xor. -/
theorem sum_xor {M : Type} [AddCommMonoid M] {n k : Nat} (hk : k < 2 ^ n) (F : Nat → M) :
    ∑ i ∈ range (2 ^ n), F (i ^^^ k) = ∑ i ∈ range (2 ^ n), F i := by
  apply Finset.sum_nbij' (fun i => i ^^^ k) (fun i => i ^^^ k)
  · intro i hi; simp only [mem_range] at *; exact Nat.xor_lt_two_pow hi hk
  · intro i hi; simp only [mem_range] at *; exact Nat.xor_lt_two_pow hi hk
  · intro i _; simp [Nat.xor_assoc]
  · intro i _; simp [Nat.xor_assoc]
  · intro i _; rfl

theorem sum_two_pow_succ {M : Type} [AddCommMonoid M] (n : Nat) (F : Nat → M) :
    ∑ i ∈ range (2 ^ (n + 1)), F i = ∑ i ∈ range (2 ^ n), F i + ∑ i ∈ range (2 ^ n), F (i + 2 ^ n) := by
  rw [pow_succ, mul_two, Finset.sum_range_add]
  simp [Nat.add_comm]

variable {T : Type} [Ring T]

/-- The geometric product: coefficient at `k` of the product of the multivectors with coefficients `f`, `g`. -/
def geo (σ : Nat → ℤ) (n : Nat) (f g : Nat → T) (k : Nat) : T :=
  ∑ i ∈ range (2 ^ n), bsgn σ n i (i ^^^ k) • (f i * g (i ^^^ k))

theorem geo_congr {σ τ : Nat → ℤ} {n : Nat} {f f' g g' : Nat → T} (hσ : ∀ i < n, σ i = τ i)
    (hf : ∀ i < 2 ^ n, f i = f' i) (hg : ∀ i < 2 ^ n, g i = g' i) {k : Nat} (hk : k < 2 ^ n) :
    geo σ n f g k = geo τ n f' g' k := by
  apply sum_congr rfl
  intro i hi
  rw [mem_range] at hi
  rw [hf i hi, hg _ (Nat.xor_lt_two_pow hi hk), bsgn_congr hσ (fun _ _ => rfl) (fun _ _ => rfl)]

theorem geo_assoc (σ : Nat → ℤ) (n : Nat) (f g h : Nat → T) (k : Nat) :
    geo σ n (geo σ n f g) h k = geo σ n f (geo σ n g h) k := by
  -- left: sum over i (index of f*g) and j (index of f); right: sum over j and l (index of g)
  have hl : geo σ n (geo σ n f g) h k = ∑ j ∈ range (2 ^ n), ∑ i ∈ range (2 ^ n),
      (bsgn σ n j (j ^^^ i) * bsgn σ n i (i ^^^ k)) • (f j * g (j ^^^ i) * h (i ^^^ k)) := by
    unfold geo
    rw [sum_comm]
    apply sum_congr rfl
    intro i _
    rw [sum_mul, smul_sum]
    apply sum_congr rfl
    intro j _
    rw [smul_mul_assoc, smul_smul, mul_comm]
  have hr : geo σ n f (geo σ n g h) k = ∑ j ∈ range (2 ^ n), ∑ i ∈ range (2 ^ n),
      (bsgn σ n j (j ^^^ k) * bsgn σ n i (i ^^^ (j ^^^ k))) • (f j * (g i * h (i ^^^ (j ^^^ k)))) := by
    unfold geo
    apply sum_congr rfl
    intro j _
    rw [mul_sum, smul_sum]
    apply sum_congr rfl
    intro i _
    rw [mul_smul_comm, smul_smul]
  rw [hl, hr]
  apply sum_congr rfl
  intro j hj
  rw [mem_range] at hj
  rw [← sum_xor hj]
  apply sum_congr rfl
  intro i _
  have e1 : j ^^^ (i ^^^ j) = i := by rw [Nat.xor_comm i j, xor_xor_cancel]
  have e2 : i ^^^ j ^^^ k = i ^^^ (j ^^^ k) := Nat.xor_assoc _ _ _
  have e3 : i ^^^ (i ^^^ (j ^^^ k)) = j ^^^ k := xor_xor_cancel _ _
  rw [e1, e2, ← mul_assoc]
  have := bsgn_cocycle σ n j i (i ^^^ (j ^^^ k))
  rw [e3, Nat.xor_comm j i] at this
  rw [this]

theorem geo_add_left (σ : Nat → ℤ) (n : Nat) (f f' g : Nat → T) (k : Nat) :
    geo σ n (fun i => f i + f' i) g k = geo σ n f g k + geo σ n f' g k := by
  simp only [geo, add_mul, smul_add, sum_add_distrib]

theorem geo_add_right (σ : Nat → ℤ) (n : Nat) (f g g' : Nat → T) (k : Nat) :
    geo σ n f (fun i => g i + g' i) k = geo σ n f g k + geo σ n f g' k := by
  simp only [geo, mul_add, smul_add, sum_add_distrib]

theorem geo_sub_left (σ : Nat → ℤ) (n : Nat) (f f' g : Nat → T) (k : Nat) :
    geo σ n (fun i => f i - f' i) g k = geo σ n f g k - geo σ n f' g k := by
  simp only [geo, sub_mul, smul_sub, sum_sub_distrib]

theorem geo_sub_right (σ : Nat → ℤ) (n : Nat) (f g g' : Nat → T) (k : Nat) :
    geo σ n f (fun i => g i - g' i) k = geo σ n f g k - geo σ n f g' k := by
  simp only [geo, mul_sub, smul_sub, sum_sub_distrib]

theorem geo_neg_left (σ : Nat → ℤ) (n : Nat) (f g : Nat → T) (k : Nat) :
    geo σ n (fun i => -f i) g k = -geo σ n f g k := by
  simp only [geo, neg_mul, smul_neg, sum_neg_distrib]

theorem geo_neg_right (σ : Nat → ℤ) (n : Nat) (f g : Nat → T) (k : Nat) :
    geo σ n f (fun i => -g i) k = -geo σ n f g k := by
  simp only [geo, mul_neg, smul_neg, sum_neg_distrib]

theorem geo_zero_left (σ : Nat → ℤ) (n : Nat) (g : Nat → T) (k : Nat) : geo σ n (fun _ => 0) g k = 0 := by
  simp [geo]

theorem geo_zero_right (σ : Nat → ℤ) (n : Nat) (f : Nat → T) (k : Nat) : geo σ n f (fun _ => 0) k = 0 := by
  simp [geo]

theorem geo_smul_left (σ : Nat → ℤ) (n : Nat) (c : T) (f g : Nat → T) (k : Nat) :
    geo σ n (fun i => c * f i) g k = c * geo σ n f g k := by
  simp only [geo, mul_sum, mul_assoc, mul_smul_comm]

theorem geo_smul_right (σ : Nat → ℤ) (n : Nat) (c : T) (f g : Nat → T) (k : Nat) :
    geo σ n f (fun i => g i * c) k = geo σ n f g k * c := by
  simp only [geo, sum_mul, ← mul_assoc, smul_mul_assoc]

theorem geo_smul_mid (σ : Nat → ℤ) (n : Nat) (c : T) (f g : Nat → T) (k : Nat) :
    geo σ n (fun i => f i * c) g k = geo σ n f (fun i => c * g i) k := by
  simp only [geo, mul_assoc]

/-- A single blade with coefficient `c`. -/
def single {T : Type} [Zero T] (a : Nat) (c : T) : Nat → T := fun i => if i = a then c else 0

theorem geo_single_left (σ : Nat → ℤ) {n a : Nat} (ha : a < 2 ^ n) (c : T) (g : Nat → T) (k : Nat) :
    geo σ n (single a c) g k = bsgn σ n a (a ^^^ k) • (c * g (a ^^^ k)) := by
  unfold geo single
  rw [sum_eq_single a]
  · simp
  · intro i _ hi; simp [hi]
  · intro h; exact absurd (mem_range.mpr ha) h

theorem geo_single_right (σ : Nat → ℤ) {n a : Nat} (ha : a < 2 ^ n) (c : T) (f : Nat → T) {k : Nat} (hk : k < 2 ^ n) :
    geo σ n f (single a c) k = bsgn σ n (a ^^^ k) a • (f (a ^^^ k) * c) := by
  unfold geo single
  have e : a ^^^ k ^^^ k = a := by simp [Nat.xor_assoc]
  rw [sum_eq_single (a ^^^ k)]
  · simp [e]
  · intro i _ hi
    have : ¬ i ^^^ k = a := by
      rintro rfl
      apply hi
      simp [Nat.xor_assoc]
    simp [this]
  · intro h; exact absurd (mem_range.mpr (Nat.xor_lt_two_pow ha hk)) h

theorem geo_single_single (σ : Nat → ℤ) {n a b : Nat} (ha : a < 2 ^ n) (c d : T) (k : Nat) :
    geo σ n (single a c) (single b d) k = single (a ^^^ b) (bsgn σ n a b • (c * d)) k := by
  rw [geo_single_left σ ha]
  unfold single
  by_cases h : k = a ^^^ b
  · subst h; simp [xor_xor_cancel]
  · have : ¬ a ^^^ k = b := by
      rintro rfl
      exact h (xor_xor_cancel _ _).symm
    simp [h, this]

theorem geo_one_left (σ : Nat → ℤ) (n : Nat) (g : Nat → T) (k : Nat) : geo σ n (single 0 1) g k = g k := by
  rw [geo_single_left σ (Nat.two_pow_pos n)]; simp

theorem geo_one_right (σ : Nat → ℤ) (n : Nat) (f : Nat → T) {k : Nat} (hk : k < 2 ^ n) :
    geo σ n f (single 0 1) k = f k := by
  rw [geo_single_right σ (Nat.two_pow_pos n) _ _ hk]; simp

/-! ### Automorphisms and anti-automorphisms -/

/-- A sign function that is multiplicative for xor acts as an automorphism. -/
theorem geo_char {χ : Nat → ℤ} (σ : Nat → ℤ) {n : Nat} (hχ : ∀ a b, χ (a ^^^ b) = χ a * χ b) (f g : Nat → T) (k : Nat) :
    χ k • geo σ n f g k = geo σ n (fun i => χ i • f i) (fun i => χ i • g i) k := by
  unfold geo
  rw [smul_sum]
  apply sum_congr rfl
  intro i _
  have : χ k = χ i * χ (i ^^^ k) := by rw [← hχ, xor_xor_cancel]
  rw [this, smul_mul_smul_comm, smul_smul, smul_smul, mul_comm]

/-- Grade involution sign. -/
theorem sg_par_xor (n a b : Nat) : sg (par n (a ^^^ b)) = sg (par n a) * sg (par n b) := by
  rw [par_xor, sg_xor]

/-- Grade involution of a coefficient function. -/
def flp (n : Nat) (f : Nat → T) : Nat → T := fun i => sg (par n i) • f i

theorem flp_flp (n : Nat) (f : Nat → T) (i : Nat) : flp n (flp n f) i = f i := by
  simp only [flp, smul_smul, sg_mul_self, one_smul]

theorem geo_flp (σ : Nat → ℤ) (n : Nat) (f g : Nat → T) (k : Nat) :
    flp n (geo σ n f g) k = geo σ n (flp n f) (flp n g) k :=
  geo_char (χ := fun i => sg (par n i)) σ (sg_par_xor n) f g k

theorem geo_rev {T : Type} [CommRing T] (σ : Nat → ℤ) (n : Nat) (f g : Nat → T) {k : Nat} (hk : k < 2 ^ n) :
    rsg n k • geo σ n f g k = geo σ n (fun i => rsg n i • g i) (fun i => rsg n i • f i) k := by
  unfold geo
  rw [smul_sum, ← sum_xor hk]
  apply sum_congr rfl
  intro i _
  have e : i ^^^ k ^^^ k = i := by simp [Nat.xor_assoc]
  rw [e, smul_mul_smul_comm, smul_smul, smul_smul, mul_comm (g i)]
  congr 1
  have h := bsgn_rev σ n (i ^^^ k) i
  have e2 : i ^^^ k ^^^ i = k := by rw [Nat.xor_comm, xor_xor_cancel]
  rw [e2] at h
  rw [mul_comm, h]; ring

/-- Reversal as an anti-automorphism over non-commutative coefficients, with an anti-automorphism of the coefficients. -/
theorem geo_rev_conj (σ : Nat → ℤ) (n : Nat) {c : T → T} (hadd : ∀ x y, c (x + y) = c x + c y)
    (hmul : ∀ x y, c (x * y) = c y * c x) (f g : Nat → T) {k : Nat} (hk : k < 2 ^ n) :
    rsg n k • c (geo σ n f g k) = geo σ n (fun i => rsg n i • c (g i)) (fun i => rsg n i • c (f i)) k := by
  let C : T →+ T := AddMonoidHom.mk' c hadd
  have hC : ∀ x, c x = C x := fun _ => rfl
  simp only [hC] at *
  unfold geo
  rw [map_sum, smul_sum, ← sum_xor hk]
  apply sum_congr rfl
  intro i _
  have e : i ^^^ k ^^^ k = i := by simp [Nat.xor_assoc]
  rw [e, smul_mul_smul_comm, smul_smul, map_zsmul, hmul, smul_smul]
  congr 1
  have h := bsgn_rev σ n (i ^^^ k) i
  have e2 : i ^^^ k ^^^ i = k := by rw [Nat.xor_comm, xor_xor_cancel]
  rw [e2] at h
  rw [mul_comm, h]; ring

/-- Rescaling the generators by central scalars changes the metric. -/
theorem geo_scale {T : Type} [CommRing T] {σ σ' : Nat → ℤ} {l : Nat → T} {n : Nat}
    (h : ∀ i < n, ((σ' i : ℤ) : T) = l i * l i * ((σ i : ℤ) : T)) (f g : Nat → T) (k : Nat) :
    bprod l n k * geo σ' n f g k = geo σ n (fun i => bprod l n i * f i) (fun i => bprod l n i * g i) k := by
  unfold geo
  rw [mul_sum]
  apply sum_congr rfl
  intro i _
  have := bsgn_scale h i (i ^^^ k)
  rw [xor_xor_cancel] at this
  rw [zsmul_eq_mul, zsmul_eq_mul]
  linear_combination (f i * g (i ^^^ k)) * this

/-! ### Splitting off the highest generator -/

omit [Ring T] in
/-- The half with the highest generator. -/
def hi (n : Nat) (f : Nat → T) : Nat → T := fun i => f (i + 2 ^ n)

theorem geo_lo (σ : Nat → ℤ) (n : Nat) (f g : Nat → T) {k : Nat} (hk : k < 2 ^ n) :
    geo σ (n + 1) f g k = geo σ n f g k + σ n • geo σ n (flp n (hi n f)) (hi n g) k := by
  unfold geo
  rw [sum_two_pow_succ, smul_sum]
  congr 1
  · apply sum_congr rfl
    intro i hi
    rw [mem_range] at hi
    rw [bsgn_lo_lo (Nat.xor_lt_two_pow hi hk)]
  · apply sum_congr rfl
    intro i hi
    rw [mem_range] at hi
    have hx := Nat.xor_lt_two_pow hi hk
    rw [add_two_pow_xor hi hk, bsgn_hi_hi hi hx]
    simp only [flp, TClifford.hi, smul_mul_assoc, smul_smul]
    rw [mul_comm (sg _)]

theorem geo_hi (σ : Nat → ℤ) (n : Nat) (f g : Nat → T) {k : Nat} (hk : k < 2 ^ n) :
    geo σ (n + 1) f g (k + 2 ^ n) = geo σ n (hi n f) g k + geo σ n (flp n f) (hi n g) k := by
  unfold geo
  rw [sum_two_pow_succ, add_comm]
  congr 1
  · apply sum_congr rfl
    intro i hi
    rw [mem_range] at hi
    have hx := Nat.xor_lt_two_pow hi hk
    rw [add_two_pow_xor_add_two_pow hi hk, bsgn_hi_lo hi hx]
    rfl
  · apply sum_congr rfl
    intro i hi
    rw [mem_range] at hi
    have hx := Nat.xor_lt_two_pow hi hk
    rw [xor_add_two_pow hi hk, bsgn_lo_hi hi hx]
    simp only [flp, TClifford.hi, smul_mul_assoc, smul_smul]
    rw [mul_comm (sg _)]

theorem flp_lo (n : Nat) (f : Nat → T) {k : Nat} (hk : k < 2 ^ n) : flp (n + 1) f k = flp n f k := by
  simp only [flp, par_succ, Nat.testBit_lt_two_pow hk, Bool.xor_false]

theorem flp_hi (n : Nat) (f : Nat → T) {k : Nat} (hk : k < 2 ^ n) : flp (n + 1) f (k + 2 ^ n) = -flp n (hi n f) k := by
  simp only [flp, par_succ, testBit_top hk, par_add hk, Bool.xor_true, hi]
  cases par n k <;> simp

end TClifford
