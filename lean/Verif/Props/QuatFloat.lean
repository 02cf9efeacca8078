import Verif.Model.QuaternionF
import Verif.Props.FloatDiv
import Verif.Props.SignExp
/-
C45 with rounding: the norm of `Quaternion<f64>`.
-/

namespace TClifford

open Finset FloatModel MV

theorem Flt.abs_re {x : F64} (hx : fin x) : fin x.abs ∧ re x.abs = |re x| := by
  obtain ⟨h1, h2⟩ := Flt.abs_ok hx
  refine ⟨h1, ?_⟩
  change ((x.abs.toRat : ℚ) : ℝ) = |((x.toRat : ℚ) : ℝ)|
  rw [h2]; push_cast; rfl

theorem Flt.toRat_ofRat_nonneg {f : Fmt} {x : ℚ} (h : 0 ≤ x) : 0 ≤ (Flt.ofRat x : Flt f).toRat := by
  unfold Flt.ofRat
  split
  · exact f.rnd_nonneg h
  · exact le_refl _

theorem Flt.toRat_mul_nonneg {f : Fmt} {x y : Flt f} (h0 : 0 ≤ x.toRat) (h1 : 0 ≤ y.toRat) : 0 ≤ (x * y).toRat := by
  cases x with
  | nonFinite => exact le_refl _
  | num x =>
    cases y with
    | nonFinite => exact le_refl _
    | num y => exact Flt.toRat_ofRat_nonneg (mul_nonneg h0 h1)

theorem Flt.toRat_add_nonneg {f : Fmt} {x y : Flt f} (h0 : 0 ≤ x.toRat) (h1 : 0 ≤ y.toRat) : 0 ≤ (x + y).toRat := by
  cases x with
  | nonFinite => exact le_refl _
  | num x =>
    cases y with
    | nonFinite => exact le_refl _
    | num y => exact Flt.toRat_ofRat_nonneg (add_nonneg h0 h1)

theorem Flt.toRat_abs_nonneg {f : Fmt} (x : Flt f) : 0 ≤ x.abs.toRat := by
  cases x with
  | nonFinite => exact le_refl _
  | num x => exact Flt.toRat_ofRat_nonneg (abs_nonneg _)

/-- The sum of the squares is not negative, so that it has a square root. -/
theorem norm2_nonneg (a : Quat F64) : 0 ≤ re (a.norm2 Flt.abs) := by
  have h : 0 ≤ (a.norm2 Flt.abs).toRat := by
    have h (x : F64) : 0 ≤ (x.abs * x.abs).toRat := Flt.toRat_mul_nonneg x.toRat_abs_nonneg x.toRat_abs_nonneg
    have h0 : 0 ≤ (0 : F64).toRat := Flt.toRat_ofRat_nonneg (le_refl _)
    exact Flt.toRat_add_nonneg (Flt.toRat_add_nonneg (Flt.toRat_add_nonneg (Flt.toRat_add_nonneg h0 (h _)) (h _)) (h _)) (h _)
  change (0 : ℝ) ≤ (((a.norm2 Flt.abs).toRat : ℚ) : ℝ)
  exact_mod_cast h

theorem norm2_acc {a : Quat F64} (ha : ∀ i < 4, fin (a.val i)) :
    ∃ n ≤ 4, Acc (a.norm2 Flt.abs) (∑ i ∈ range 4, re (a.val i) ^ 2, ∑ i ∈ range 4, re (a.val i) ^ 2, n) ∧
      (∑ i ∈ range 4, re (a.val i) ^ 2 = 0 → n = 0) := by
  have h (i : Nat) (hi : i < 4) := Flt.abs_re (ha i hi)
  have t (i : Nat) (hi : i < 4) : ∃ n ≤ 1, tau 1 (a.val i).abs (a.val i).abs = (re (a.val i) ^ 2, re (a.val i) ^ 2, n) ∧
      (re (a.val i) ^ 2 = 0 → n = 0) := by
    refine ⟨if (1 : ℤ) = 0 ∨ (a.val i).abs = 0 ∨ (a.val i).abs = 0 then 0 else 1, by split <;> omega, ?_, fun h0 => ?_⟩
    · unfold tau
      rw [(h i hi).2, Int.cast_one, one_mul, abs_mul_abs_self, abs_mul_self, sq]
    · refine if_pos (.inr (.inl (F64.eq_zero (h i hi).1 ?_)))
      rw [(h i hi).2, abs_eq_zero]
      exact pow_eq_zero_iff (two_ne_zero) |>.mp h0
  obtain ⟨n0, l0, t0, z0⟩ := t 0 (by decide)
  obtain ⟨n1, l1, t1, z1⟩ := t 1 (by decide)
  obtain ⟨n2, l2, t2, z2⟩ := t 2 (by decide)
  obtain ⟨n3, l3, t3, z3⟩ := t 3 (by decide)
  have I := sumInv_acc (F := F64)
  have g := I.plus (I.plus (I.plus (I.plus I.zero (h 0 (by decide)).1 (h 0 (by decide)).1) (h 1 (by decide)).1 (h 1 (by decide)).1)
    (h 2 (by decide)).1 (h 2 (by decide)).1) (h 3 (by decide)).1 (h 3 (by decide)).1
  rw [t0, t1, t2, t3] at g
  refine ⟨n0 + n1 + n2 + n3, by omega, ?_, ?_⟩
  · have e : ((0, 0, 0) : ℝ × ℝ × ℕ) = 0 := rfl
    rw [← e] at g
    simp only [Prod.mk_add_mk, _root_.zero_add] at g
    simp only [sum_range_succ, sum_range_zero, _root_.zero_add]
    exact g
  · intro h0
    have hz := (sum_eq_zero_iff_of_nonneg (fun i _ => sq_nonneg (re (a.val i)))).mp h0
    rw [z0 (hz 0 (by simp)), z1 (hz 1 (by simp)), z2 (hz 2 (by simp)), z3 (hz 3 (by simp))]

/-- A number times a small power of two. -/
theorem sqrt_tiny {s t : ℝ} (ht : 0 ≤ t) (hs : s ≤ t ^ 2) : √s ≤ t := by
  rw [Real.sqrt_le_left ht]; exact hs

/-- **C45, the norm with rounding.** For doubles up to `2⁴⁸⁰` the norm of a quaternion is finite and right up to eight roundings and `2⁻⁴⁹⁰`;
the latter is not needed if the coefficients are zero or at least `2⁻⁵⁰⁰`. -/
theorem C45_float_norm {a : Quat F64} (ha : ∀ i < 4, fin (a.val i) ∧ |re (a.val i)| ≤ 2 ^ 480) :
    fin a.normF ∧ |re a.normF - √(∑ i ∈ range 4, re (a.val i) ^ 2)| ≤ 8 / 2 ^ 53 * √(∑ i ∈ range 4, re (a.val i) ^ 2) + 1 / 2 ^ 490 ∧
    ((∀ i < 4, re (a.val i) = 0 ∨ 1 / 2 ^ 500 ≤ |re (a.val i)|) →
      |re a.normF - √(∑ i ∈ range 4, re (a.val i) ^ 2)| ≤ 8 / 2 ^ 53 * √(∑ i ∈ range 4, re (a.val i) ^ 2)) := by
  obtain ⟨n, hn, hacc, hz⟩ := norm2_acc fun i hi => (ha i hi).1
  have hs0 := norm2_nonneg a
  have hlow : (∀ i < 4, re (a.val i) = 0 ∨ 1 / 2 ^ 500 ≤ |re (a.val i)|) →
      ∑ i ∈ range 4, re (a.val i) ^ 2 = 0 ∨ 1 / 2 ^ 1000 ≤ ∑ i ∈ range 4, re (a.val i) ^ 2 := by
    intro h
    by_cases h' : ∀ i < 4, re (a.val i) = 0
    · left; exact sum_eq_zero fun i hi => by rw [h' i (mem_range.mp hi)]; ring
    · push Not at h'
      obtain ⟨i, hi, hne⟩ := h'
      right
      refine le_trans ?_ (single_le_sum (f := fun i => re (a.val i) ^ 2) (fun _ _ => sq_nonneg _) (mem_range.mpr hi))
      show 1 / 2 ^ 1000 ≤ re (a.val i) ^ 2
      rw [← sq_abs]
      refine le_trans (le_of_eq ?_) (pow_le_pow_left₀ (by positivity) ((h i hi).resolve_left hne) 2)
      rw [div_pow, one_pow, ← pow_mul]
  have hQ1 : ∑ i ∈ range 4, re (a.val i) ^ 2 ≤ 2 ^ 962 := by
    have : ∀ i ∈ range 4, re (a.val i) ^ 2 ≤ 2 ^ 960 := fun i hi => by
      rw [← sq_abs]
      exact (pow_le_pow_left₀ (abs_nonneg _) (ha i (mem_range.mp hi)).2 2).trans (le_of_eq (by rw [← pow_mul]))
    refine (sum_le_card_nsmul _ _ _ this).trans (le_of_eq ?_)
    rw [card_range, nsmul_eq_mul, show (2 : ℝ) ^ 962 = 2 ^ 2 * 2 ^ 960 by rw [← pow_add]]
    norm_num
  have hQ0 : 0 ≤ ∑ i ∈ range 4, re (a.val i) ^ 2 := sum_nonneg fun _ _ => sq_nonneg _
  set Q := ∑ i ∈ range 4, re (a.val i) ^ 2 with hQ
  set s := a.norm2 Flt.abs with hs
  have hnF : a.normF = s.sqrt := rfl
  rw [hnF]
  obtain ⟨-, -, hzero, hacc⟩ := hacc
  dsimp only at hacc hzero
  have hρ := ρ_small
  have hρ0 := ρ_pos
  -- the two cases
  have big : 1 / 2 ^ 1000 ≤ Q → fin s.sqrt ∧ |re s.sqrt - √Q| ≤ 8 / 2 ^ 53 * √Q := by
    intro hb
    have e := errB_four hn (a := Q) hz (.inr hb)
    have hQp : 0 < Q := lt_of_lt_of_le (by positivity) hb
    obtain ⟨f1, f2⟩ := hacc (F64.big (by
      refine (add_le_add_right e Q).trans ?_
      have : 6 * ρ * Q ≤ Q := mul_le_of_le_one_left hQ0 (by norm_num at hρ; linarith)
      calc Q + 6 * ρ * Q ≤ 2 ^ 962 + 2 ^ 962 := add_le_add hQ1 (this.trans hQ1)
        _ = 2 ^ 963 := by rw [← two_mul, ← pow_succ']
        _ ≤ 2 ^ 1000 := pow_le_pow_right₀ (by norm_num) (by norm_num)))
    have f2 := f2.trans e
    have hsl : 1 / 2 ^ 2000 ≤ re s := by
      have h1 : 1 / 2 * Q ≤ re s := by
        have := (abs_le.mp f2).1
        have : 6 * ρ * Q ≤ 1 / 2 * Q := mul_le_mul_of_nonneg_right (by norm_num at hρ; linarith) hQ0
        linarith
      refine le_trans ?_ h1
      calc (1 : ℝ) / 2 ^ 2000 ≤ 1 / 2 ^ 1001 := one_div_le_one_div_of_le (by positivity) (pow_le_pow_right₀ (by norm_num) (by norm_num))
        _ = 1 / 2 * (1 / 2 ^ 1000) := by rw [div_mul_div_comm, one_mul, ← pow_succ']
        _ ≤ _ := mul_le_mul_of_nonneg_left hb (by norm_num)
    obtain ⟨g1, g2⟩ := F64.sqrt_rel f1 hsl
    refine ⟨g1, ?_⟩
    have h3 := sqrt_near hQp f2
    have hsq := Real.sqrt_nonneg Q
    have h4 : √(re s) ≤ (1 + 6 * ρ) * √Q := by have := (abs_le.mp h3).2; linarith
    have e8 : ρ * (1 + 6 * ρ) + 6 * ρ ≤ 8 / 2 ^ 53 := by unfold ρ; norm_num
    calc |re s.sqrt - √Q| ≤ |re s.sqrt - √(re s)| + |√(re s) - √Q| := abs_sub_le _ _ _
      _ ≤ ρ * ((1 + 6 * ρ) * √Q) + 6 * ρ * √Q := add_le_add (g2.trans (mul_le_mul_of_nonneg_left h4 hρ0.le)) h3
      _ = (ρ * (1 + 6 * ρ) + 6 * ρ) * √Q := by ring
      _ ≤ _ := mul_le_mul_of_nonneg_right e8 hsq
  have small : Q < 1 / 2 ^ 1000 → fin s.sqrt ∧ |re s.sqrt - √Q| ≤ 1 / 2 ^ 490 := by
    intro hb
    have e : errB F64 Q n ≤ 1 / 2 ^ 999 := by
      refine (errB_mono (F := F64) hQ0 hb.le hn).trans ?_
      refine (errB_four (n := 4) le_rfl (fun h => absurd h (by positivity)) (.inr le_rfl)).trans ?_
      calc 6 * ρ * (1 / 2 ^ 1000) ≤ 2 * (1 / 2 ^ 1000) := mul_le_mul_of_nonneg_right (by norm_num at hρ; linarith) (by positivity)
        _ = 1 / 2 ^ 999 := by rw [pow_succ]; field_simp
    have ht : (1 : ℝ) / 2 ^ 999 + 1 / 2 ^ 999 = (1 / 2 ^ 499) ^ 2 := by
      rw [div_pow, one_pow, ← pow_mul, ← two_mul, show (2 : ℝ) ^ 999 = 2 ^ 998 * 2 from pow_succ _ _]; field_simp
    have hb' : Q ≤ 1 / 2 ^ 999 := hb.le.trans (one_div_le_one_div_of_le (by positivity) (pow_le_pow_right₀ (by norm_num) (by norm_num)))
    obtain ⟨f1, f2⟩ := hacc (F64.big (by
      have h1 : (1 : ℝ) / 2 ^ 999 ≤ 1 := by rw [div_le_one (by positivity)]; exact one_le_pow₀ (by norm_num)
      have h2 : (2 : ℝ) ≤ 2 ^ 1000 := le_self_pow₀ (by norm_num) (by norm_num)
      generalize (2 : ℝ) ^ 1000 = X at *
      generalize (1 : ℝ) / 2 ^ 999 = Y at *
      linarith))
    have hsu : re s ≤ (1 / 2 ^ 499) ^ 2 := by
      rw [← ht]
      have := (abs_le.mp (f2.trans e)).2
      generalize (1 : ℝ) / 2 ^ 999 = Y at *
      linarith
    have r1 := sqrt_tiny (by positivity) hsu
    have r2 : √Q ≤ 1 / 2 ^ 499 := sqrt_tiny (by positivity) (by
      rw [← ht]
      have : (0 : ℝ) ≤ 1 / 2 ^ 999 := by positivity
      generalize (1 : ℝ) / 2 ^ 999 = Y at *
      linarith)
    obtain ⟨g1, g2⟩ := Flt.sqrt_err f1 hs0
    refine ⟨g1, ?_⟩
    have hη : (Fmt.halfMin .f64 : ℝ) ≤ 1 / 2 ^ 499 := by
      have h := C69_f64.2.1
      have : (Fmt.halfMin .f64 : ℝ) = η F64 := rfl
      rw [this, h]
      exact one_div_le_one_div_of_le (by positivity) (pow_le_pow_right₀ (by norm_num) (by norm_num))
    have hu : (Fmt.unitRoundoff .f64 : ℝ) ≤ 1 := by
      have : (Fmt.unitRoundoff .f64 : ℝ) = u F64 := rfl
      rw [this, C69_f64.1]; norm_num
    have k0 := Real.sqrt_nonneg (re s)
    have k1 := Real.sqrt_nonneg Q
    have k2 : (Fmt.unitRoundoff .f64 : ℝ) * √(re s) ≤ √(re s) := mul_le_of_le_one_left k0 hu
    have k3 : (1 : ℝ) / 2 ^ 490 = 2 ^ 9 * (1 / 2 ^ 499) := by
      rw [show (2 : ℝ) ^ 499 = 2 ^ 9 * 2 ^ 490 by rw [← pow_add]]; field_simp
    have k4 : (0 : ℝ) < 1 / 2 ^ 499 := by positivity
    rw [k3]
    clear k3 ht hsu hb hb' e
    have g3 := abs_le.mp g2
    generalize (1 : ℝ) / 2 ^ 499 = Y at *
    rw [abs_le]
    constructor <;> norm_num <;> linarith
  have zero : Q = 0 → fin s.sqrt ∧ |re s.sqrt - √Q| ≤ 8 / 2 ^ 53 * √Q := by
    intro h0
    have h1 : s = 0 := (hzero (hz h0)).1
    rw [h0, h1]
    have : (0 : F64).sqrt = 0 := by decide +kernel
    rw [this, Real.sqrt_zero, re_zero]
    exact ⟨fin_zero, by simp⟩
  have hsq := Real.sqrt_nonneg Q
  have hp : (0 : ℝ) ≤ 8 / 2 ^ 53 * √Q := mul_nonneg (by positivity) hsq
  have hq : (0 : ℝ) < 1 / 2 ^ 490 := by positivity
  refine ⟨?_, ?_, fun h => ?_⟩
  · rcases lt_or_ge Q (1 / 2 ^ 1000) with h | h
    · exact (small h).1
    · exact (big h).1
  · rcases lt_or_ge Q (1 / 2 ^ 1000) with h | h
    · exact (small h).2.trans (le_add_of_nonneg_left hp)
    · exact (big h).2.trans (le_add_of_nonneg_right hq.le)
  · rcases hlow h with h | h
    · exact (zero h).2
    · exact (big h).2

/-- The sum of the absolute values of the terms of a coefficient of a product is at most the product of the norms. -/
theorem quat_terms {x y : Nat → ℝ} {k : Nat} (hk : k < 4) :
    ∑ i ∈ range (2 ^ QuaternionAlgebra.dim), |(bsgn QuaternionAlgebra.sigma QuaternionAlgebra.dim i (i ^^^ k) : ℝ) * (x i * y (i ^^^ k))| ≤
      √(∑ i ∈ range 4, x i ^ 2) * √(∑ i ∈ range 4, y i ^ 2) := by
  have hk' : k < 2 ^ QuaternionAlgebra.dim := hk
  have hcs := Real.sum_mul_le_sqrt_mul_sqrt (range (2 ^ QuaternionAlgebra.dim)) (fun i => |x i|) (fun i => |y (i ^^^ k)|)
  simp only [sq_abs] at hcs
  rw [sum_xor hk' (fun i => y i ^ 2)] at hcs
  exact (sum_le_sum fun i hi => mul_le_of_unit (bsgn_sigma_abs quat_wf (mem_range.mp hi)
    (Nat.xor_lt_two_pow (mem_range.mp hi) hk'))).trans hcs

/-- The norms of close quaternions are close. -/
theorem norm_close {x y : Nat → ℝ} {e : ℝ} (he : 0 ≤ e) (h : ∀ k < 4, |x k - y k| ≤ e) :
    |√(∑ i ∈ range 4, x i ^ 2) - √(∑ i ∈ range 4, y i ^ 2)| ≤ 2 * e := by
  have hcs := Real.sum_mul_le_sqrt_mul_sqrt (range 4) x y
  have hx : (0 : ℝ) ≤ ∑ i ∈ range 4, x i ^ 2 := sum_nonneg fun _ _ => sq_nonneg _
  have hy : (0 : ℝ) ≤ ∑ i ∈ range 4, y i ^ 2 := sum_nonneg fun _ _ => sq_nonneg _
  have hd : ∑ i ∈ range 4, (x i - y i) ^ 2 ≤ (2 * e) ^ 2 := by
    refine (sum_le_card_nsmul _ _ (e ^ 2) fun i hi => ?_).trans (le_of_eq ?_)
    · rw [← sq_abs]; exact pow_le_pow_left₀ (abs_nonneg _) (h i (mem_range.mp hi)) 2
    · rw [card_range, nsmul_eq_mul]; push_cast; ring
  have hexp : ∑ i ∈ range 4, (x i - y i) ^ 2 =
      ∑ i ∈ range 4, x i ^ 2 + ∑ i ∈ range 4, y i ^ 2 - 2 * ∑ i ∈ range 4, x i * y i := by
    rw [mul_sum, ← sum_add_distrib, ← sum_sub_distrib]
    exact sum_congr rfl fun i _ => by ring
  refine abs_le_of_sq_le_sq ?_ (by linarith)
  have e1 := Real.sq_sqrt hx
  have e2 := Real.sq_sqrt hy
  nlinarith

/-- Euler's identity of four squares. -/
theorem quat_norm_mul (x y : Nat → ℝ) :
    √(∑ k ∈ range 4, (∑ i ∈ range (2 ^ QuaternionAlgebra.dim),
      (bsgn QuaternionAlgebra.sigma QuaternionAlgebra.dim i (i ^^^ k) : ℝ) * (x i * y (i ^^^ k))) ^ 2) =
      √(∑ i ∈ range 4, x i ^ 2) * √(∑ i ∈ range 4, y i ^ 2) := by
  rw [← Real.sqrt_mul (sum_nonneg fun _ _ => sq_nonneg _)]
  congr 1
  have hg : ∀ k < 4, ∑ i ∈ range (2 ^ QuaternionAlgebra.dim),
      (bsgn QuaternionAlgebra.sigma QuaternionAlgebra.dim i (i ^^^ k) : ℝ) * (x i * y (i ^^^ k)) = geo (fun _ => -1) 2 x y k := by
    intro k hk
    rw [← geo_congr (σ := QuaternionAlgebra.sigma) (n := 2) quat_sigma (fun _ _ => rfl) (fun _ _ => rfl) hk]
    unfold geo
    exact sum_congr rfl fun i _ => by rw [zsmul_eq_mul]; rfl
  obtain ⟨h0, h1, h2, h3⟩ := geo_neg_two x y
  simp only [sum_range_succ (n := 3), sum_range_succ (n := 2), sum_range_succ (n := 1), sum_range_succ (n := 0), sum_range_zero]
  rw [hg 0 (by decide), hg 1 (by decide), hg 2 (by decide), hg 3 (by decide), h0, h1, h2, h3]
  ring

theorem quat_sq_le {a : Quat F64} (ha : ∀ i < 4, MidR (a.val i)) :
    √(∑ i ∈ range 4, re (a.val i) ^ 2) ≤ 2 ^ 201 := by
  refine sqrt_tiny (by positivity) ?_
  have : ∀ i ∈ range 4, re (a.val i) ^ 2 ≤ 2 ^ 400 := fun i hi => by
    rw [← sq_abs]
    exact (pow_le_pow_left₀ (abs_nonneg _) (ha i (mem_range.mp hi)).le 2).trans (le_of_eq (by rw [← pow_mul]))
  refine (sum_le_card_nsmul _ _ _ this).trans (le_of_eq ?_)
  rw [card_range, nsmul_eq_mul, ← pow_mul, show (2 : ℝ) ^ (201 * 2) = 2 ^ 2 * 2 ^ 400 by rw [← pow_add]]
  norm_num

theorem quat_sq_ge {a : Quat F64} (ha : ∀ i < 4, MidR (a.val i)) :
    √(∑ i ∈ range 4, re (a.val i) ^ 2) = 0 ∨ 1 / 2 ^ 200 ≤ √(∑ i ∈ range 4, re (a.val i) ^ 2) := by
  by_cases h' : ∀ i < 4, re (a.val i) = 0
  · left
    rw [sum_eq_zero fun i hi => by rw [h' i (mem_range.mp hi)]; ring, Real.sqrt_zero]
  · push Not at h'
    obtain ⟨i, hi, hne⟩ := h'
    right
    refine le_trans (((ha i hi).2.resolve_left hne).1) ?_
    rw [← Real.sqrt_sq_eq_abs]
    exact Real.sqrt_le_sqrt (single_le_sum (f := fun i => re (a.val i) ^ 2) (fun _ _ => sq_nonneg _) (mem_range.mpr hi))

/-- **C45, the norm of a product with rounding.** For doubles that are zero or between `2⁻²⁰⁰` and `2²⁰⁰`, `(a * b).norm()` and
`a.norm() * b.norm()` are within 21 and 18 roundings of the exact value. -/
theorem C45_float_norm_mul {a b : Quat F64} (ha : ∀ i < 4, MidR (a.val i)) (hb : ∀ i < 4, MidR (b.val i)) :
    ∃ p : Quat F64, a.naiveMulImpl b = .ok p ∧ fin p.normF ∧ fin (a.normF * b.normF) ∧
      |re p.normF - √(∑ i ∈ range 4, re (a.val i) ^ 2) * √(∑ i ∈ range 4, re (b.val i) ^ 2)| ≤
        21 / 2 ^ 53 * (√(∑ i ∈ range 4, re (a.val i) ^ 2) * √(∑ i ∈ range 4, re (b.val i) ^ 2)) ∧
      |re (a.normF * b.normF) - √(∑ i ∈ range 4, re (a.val i) ^ 2) * √(∑ i ∈ range 4, re (b.val i) ^ 2)| ≤
        18 / 2 ^ 53 * (√(∑ i ∈ range 4, re (a.val i) ^ 2) * √(∑ i ∈ range 4, re (b.val i) ^ 2)) := by
  have hρ0 := ρ_pos
  have hρ : ρ ≤ 1 / 1000 := ρ_small.trans (by norm_num)
  have small : ∀ {z : F64}, MidR z → re z = 0 ∨ 1 / 2 ^ 200 ≤ |re z| := fun h => h.2.imp_right And.left
  have low : ∀ {z : F64}, MidR z → re z = 0 ∨ 1 / 2 ^ 500 ≤ |re z| := fun h => (small h).imp_right
    (le_trans (one_div_le_one_div_of_le (by positivity) (pow_le_pow_right₀ (by norm_num) (by norm_num))))
  have up : ∀ {z : F64}, MidR z → fin z ∧ |re z| ≤ 2 ^ 480 := fun h => ⟨h.1, h.le.trans (pow_le_pow_right₀ (by norm_num) (by norm_num))⟩
  obtain ⟨fa, -, na⟩ := C45_float_norm fun i hi => up (ha i hi)
  obtain ⟨fb, -, nb⟩ := C45_float_norm fun i hi => up (hb i hi)
  replace na := na fun i hi => low (ha i hi)
  replace nb := nb fun i hi => low (hb i hi)
  have ua := quat_sq_le ha
  have ub := quat_sq_le hb
  have la := quat_sq_ge ha
  have lb := quat_sq_ge hb
  obtain ⟨(p : Quat F64), hp, -, hpf⟩ := mul_inv sumInv_acc quat_wf (a := a) (b := b) rfl rfl (fun i hi => (ha i hi).1) (fun i hi => (hb i hi).1)
  have hnm := quat_norm_mul (fun i => re (a.val i)) (fun i => re (b.val i))
  have hterms := fun k hk => quat_terms (x := fun i => re (a.val i)) (y := fun i => re (b.val i)) (k := k) hk
  beta_reduce at hnm hterms
  set NA := √(∑ i ∈ range 4, re (a.val i) ^ 2) with hNA
  set NB := √(∑ i ∈ range 4, re (b.val i) ^ 2) with hNB
  have a0 : 0 ≤ NA := Real.sqrt_nonneg _
  have b0 : 0 ≤ NB := Real.sqrt_nonneg _
  have M0 : 0 ≤ NA * NB := mul_nonneg a0 b0
  have M1 : NA * NB ≤ 2 ^ 402 := by
    calc NA * NB ≤ 2 ^ 201 * 2 ^ 201 := mul_le_mul ua ub b0 (by positivity)
      _ = 2 ^ 402 := by rw [← pow_add]
  have M2 : NA * NB = 0 ∨ 1 / 2 ^ 400 ≤ NA * NB := by
    rcases la with h | h
    · left; rw [h, MulZeroClass.zero_mul]
    rcases lb with h' | h'
    · left; rw [h', MulZeroClass.mul_zero]
    right
    calc (1 : ℝ) / 2 ^ 400 = 1 / 2 ^ 200 * (1 / 2 ^ 200) := by rw [div_mul_div_comm, one_mul, ← pow_add]
      _ ≤ _ := mul_le_mul h h' (by positivity) a0
  have dots : ∀ k < 4, fin (p.val k) ∧ |re (p.val k) - ∑ i ∈ range (2 ^ QuaternionAlgebra.dim),
      (bsgn QuaternionAlgebra.sigma QuaternionAlgebra.dim i (i ^^^ k) : ℝ) * (re (a.val i) * re (b.val (i ^^^ k)))| ≤ 6 * ρ * (NA * NB) := by
    intro k hk
    have hk' : k < 2 ^ QuaternionAlgebra.dim := hk
    have hx : ∀ i ∈ range (2 ^ QuaternionAlgebra.dim), i < 4 ∧ i ^^^ k < 4 := fun i hi =>
      ⟨mem_range.mp hi, Nat.xor_lt_two_pow (n := 2) (mem_range.mp hi) hk⟩
    obtain ⟨h1, h2⟩ := dot_fl (hpf k hk') (by decide) (fun i hi => (ha i (hx i hi).1).1) (fun i hi => (hb _ (hx i hi).2).1)
      (fun i hi => (mul_zero_or (bsgn_sigma_abs quat_wf (mem_range.mp hi) (Nat.xor_lt_two_pow (mem_range.mp hi) hk'))
        (small (ha i (hx i hi).1)) (small (hb _ (hx i hi).2)) (by positivity)).imp_right (le_trans (by
          rw [div_mul_div_comm, one_mul, ← pow_add]
          exact one_div_le_one_div_of_le (by positivity) (pow_le_pow_right₀ (by norm_num) (by norm_num)))))
      ((hterms k hk).trans (M1.trans (pow_le_pow_right₀ (by norm_num) (by norm_num))))
    exact ⟨h1, h2.trans (mul_le_mul_of_nonneg_left (hterms k hk) (by positivity))⟩
  have hclose := norm_close (x := fun k => re (p.val k)) (mul_nonneg (by positivity) M0) fun k hk => (dots k hk).2
  rw [hnm] at hclose
  set P := √(∑ i ∈ range 4, re (p.val i) ^ 2) with hP
  have P0 : 0 ≤ P := Real.sqrt_nonneg _
  have hPle : P ≤ (1 + 12 * ρ) * (NA * NB) := by have := (abs_le.mp hclose).2; linarith
  have p480 : ∀ k < 4, fin (p.val k) ∧ |re (p.val k)| ≤ 2 ^ 480 := by
    intro k hk
    refine ⟨(dots k hk).1, ?_⟩
    have h1 : |re (p.val k)| ≤ P := by
      rw [← Real.sqrt_sq_eq_abs]
      exact Real.sqrt_le_sqrt (single_le_sum (f := fun i => re (p.val i) ^ 2) (fun _ _ => sq_nonneg _) (mem_range.mpr hk))
    have h2 : (1 + 12 * ρ) * (NA * NB) ≤ 2 * (NA * NB) := mul_le_mul_of_nonneg_right (by linarith) M0
    calc |re (p.val k)| ≤ 2 * 2 ^ 402 := h1.trans (hPle.trans (h2.trans (mul_le_mul_of_nonneg_left M1 (by norm_num))))
      _ = 2 ^ 403 := by rw [← pow_succ']
      _ ≤ 2 ^ 480 := pow_le_pow_right₀ (by norm_num) (by norm_num)
  obtain ⟨fp, np, np'⟩ := C45_float_norm p480
  rw [← hP] at np np'
  have np2 : |re p.normF - P| ≤ 8 / 2 ^ 53 * P + 1 / 2 ^ 90 * (NA * NB) := by
    rcases M2 with h | h
    · rw [h, MulZeroClass.mul_zero, _root_.add_zero]
      refine np' fun k hk => .inl ?_
      have hP0 : P = 0 := le_antisymm (by rw [h, MulZeroClass.mul_zero] at hPle; exact hPle) P0
      rw [← abs_eq_zero]
      refine le_antisymm ?_ (abs_nonneg _)
      rw [← Real.sqrt_sq_eq_abs, ← hP0]
      exact Real.sqrt_le_sqrt (single_le_sum (f := fun i => re (p.val i) ^ 2) (fun _ _ => sq_nonneg _) (mem_range.mpr hk))
    · refine np.trans (add_le_add_right ?_ _)
      calc (1 : ℝ) / 2 ^ 490 = 1 / 2 ^ 90 * (1 / 2 ^ 400) := by rw [div_mul_div_comm, one_mul, ← pow_add]
        _ ≤ _ := mul_le_mul_of_nonneg_left h (by positivity)
  refine ⟨p, hp, fp, ?_⟩
  have part1 : |re p.normF - NA * NB| ≤ 21 / 2 ^ 53 * (NA * NB) := by
    have e1 : 8 / 2 ^ 53 * (1 + 12 * ρ) + 1 / 2 ^ 90 + 12 * ρ ≤ 21 / 2 ^ 53 := by unfold ρ; norm_num
    calc |re p.normF - NA * NB| ≤ |re p.normF - P| + |P - NA * NB| := abs_sub_le _ _ _
      _ ≤ (8 / 2 ^ 53 * ((1 + 12 * ρ) * (NA * NB)) + 1 / 2 ^ 90 * (NA * NB)) + 2 * (6 * ρ * (NA * NB)) :=
        add_le_add (np2.trans (by gcongr)) hclose
      _ = (8 / 2 ^ 53 * (1 + 12 * ρ) + 1 / 2 ^ 90 + 12 * ρ) * (NA * NB) := by ring
      _ ≤ _ := mul_le_mul_of_nonneg_right e1 M0
  -- the product of the norms
  set x := re a.normF with hx
  set y := re b.normF with hy
  have x1 : |x| ≤ 2 * NA := by
    have := abs_le.mp na
    rw [abs_le]; constructor <;> norm_num at this <;> linarith
  have y1 : |y| ≤ 2 * NB := by
    have := abs_le.mp nb
    rw [abs_le]; constructor <;> norm_num at this <;> linarith
  have hxy : |x * y - NA * NB| ≤ (16 / 2 ^ 53 + 1 / 2 ^ 90) * (NA * NB) := by
    have e : x * y - NA * NB = (x - NA) * (y - NB) + (x - NA) * NB + NA * (y - NB) := by ring
    rw [e]
    calc _ ≤ |x - NA| * |y - NB| + |x - NA| * NB + NA * |y - NB| := by
          refine (abs_add_three _ _ _).trans (le_of_eq ?_)
          rw [abs_mul, abs_mul, abs_mul, abs_of_nonneg a0, abs_of_nonneg b0]
      _ ≤ (8 / 2 ^ 53 * NA) * (8 / 2 ^ 53 * NB) + (8 / 2 ^ 53 * NA) * NB + NA * (8 / 2 ^ 53 * NB) := by gcongr
      _ = (8 / 2 ^ 53 * (8 / 2 ^ 53) + 16 / 2 ^ 53) * (NA * NB) := by ring
      _ ≤ _ := mul_le_mul_of_nonneg_right (by norm_num) M0
  have hxyl : x * y = 0 ∨ 1 / 2 ^ 1000 ≤ |x * y| := by
    rcases M2 with h | h
    · left
      rw [h, MulZeroClass.mul_zero, sub_zero] at hxy
      exact abs_eq_zero.mp (le_antisymm hxy (abs_nonneg _))
    · right
      have h1 : 1 / 2 * (NA * NB) ≤ x * y := by
        have := (abs_le.mp hxy).1
        have : (16 / 2 ^ 53 + 1 / 2 ^ 90) * (NA * NB) ≤ 1 / 2 * (NA * NB) := mul_le_mul_of_nonneg_right (by norm_num) M0
        linarith
      refine le_trans ?_ (h1.trans (le_abs_self _))
      calc (1 : ℝ) / 2 ^ 1000 ≤ 1 / 2 ^ 401 := one_div_le_one_div_of_le (by positivity) (pow_le_pow_right₀ (by norm_num) (by norm_num))
        _ = 1 / 2 * (1 / 2 ^ 400) := by rw [div_mul_div_comm, one_mul, ← pow_succ']
        _ ≤ _ := mul_le_mul_of_nonneg_left h (by norm_num)
  have hxyu : |x * y| ≤ (1 + (16 / 2 ^ 53 + 1 / 2 ^ 90)) * (NA * NB) := by
    have h1 : |x * y| ≤ |x * y - NA * NB| + |NA * NB| := by
      have := abs_add_le (x * y - NA * NB) (NA * NB)
      rwa [sub_add_cancel] at this
    rw [abs_of_nonneg M0] at h1
    linarith
  obtain ⟨g1, g2⟩ := F64.mul_rel fa fb hxyl (hxyu.trans (by
    calc (1 + (16 / 2 ^ 53 + 1 / 2 ^ 90)) * (NA * NB) ≤ 2 * 2 ^ 402 := mul_le_mul (by norm_num) M1 M0 (by norm_num)
      _ = 2 ^ 403 := by rw [← pow_succ']
      _ ≤ 2 ^ 1000 := pow_le_pow_right₀ (by norm_num) (by norm_num)))
  refine ⟨g1, part1, ?_⟩
  have e2 : ρ * (1 + (16 / 2 ^ 53 + 1 / 2 ^ 90)) + (16 / 2 ^ 53 + 1 / 2 ^ 90) ≤ 18 / 2 ^ 53 := by unfold ρ; norm_num
  calc |re (a.normF * b.normF) - NA * NB| ≤ |re (a.normF * b.normF) - x * y| + |x * y - NA * NB| := abs_sub_le _ _ _
    _ ≤ ρ * ((1 + (16 / 2 ^ 53 + 1 / 2 ^ 90)) * (NA * NB)) + (16 / 2 ^ 53 + 1 / 2 ^ 90) * (NA * NB) :=
      add_le_add (g2.trans (mul_le_mul_of_nonneg_left hxyu hρ0.le)) hxy
    _ = (ρ * (1 + (16 / 2 ^ 53 + 1 / 2 ^ 90)) + (16 / 2 ^ 53 + 1 / 2 ^ 90)) * (NA * NB) := by ring
    _ ≤ _ := mul_le_mul_of_nonneg_right e2 M0

/-- **C45, exact laws under rounding.** `conj` is its own inverse, is `rev` after `flip`, and keeps the norm, as does the negation; `i`, `j`, `k`
and 1 have norm 1, and 0 has norm 0. -/
theorem C45_float_exact (a : Quat F64) :
    a.conj.conj = a ∧ (do let x ← a.rev; x.flip) = .ok a.conj ∧ Quat.normF a.conj = a.normF ∧
    (∃ m : Quat F64, a.neg = .ok m ∧ m.normF = a.normF) ∧
    (Quat.i : Quat F64).normF = 1 ∧ (Quat.j : Quat F64).normF = 1 ∧ (Quat.k : Quat F64).normF = 1 ∧
    Quat.normF (⟨⟨1, 0, 0, 0⟩⟩ : Quat F64) = 1 ∧ Quat.normF (⟨⟨0, 0, 0, 0⟩⟩ : Quat F64) = 0 := by
  obtain ⟨⟨c0, c1, c2, c3⟩⟩ := a
  refine ⟨?_, ?_, ?_, ⟨⟨⟨-c0, -c1, -c2, -c3⟩⟩, ?_, ?_⟩, by decide +kernel, by decide +kernel, by decide +kernel, by decide +kernel,
    by decide +kernel⟩
  · simp only [Quat.conj, SignLaws.neg_neg]
  · have h1 : countOnes 1 = 1 := by decide
    have h2 : countOnes 2 = 1 := by decide
    have h3 : countOnes 3 = 2 := by decide
    have hr : MV.rev (⟨⟨c0, c1, c2, c3⟩⟩ : Quat F64) = .ok ⟨⟨revC 0 c0, revC 1 c1, revC 2 c2, revC 3 c3⟩⟩ := by
      simp only [MV.rev, MV.default, MV.coeffEnumerate, CoeffStorage.coeffEnumerate, QStorage.coeffEnumerate, CoeffStorage.new, QStorage.new,
        MV.setByIdx, CoeffStorage.setByIdx, QStorage.setByIdx, List.foldl, bind, Except.bind, pure, Except.pure, QuaternionAlgebra]
      rfl
    have hf (x0 x1 x2 x3 : F64) : MV.flip (⟨⟨x0, x1, x2, x3⟩⟩ : Quat F64) = .ok ⟨⟨if countOnes 0 % 2 = 0 then x0 else -x0,
      if countOnes 1 % 2 = 0 then x1 else -x1, if countOnes 2 % 2 = 0 then x2 else -x2, if countOnes 3 % 2 = 0 then x3 else -x3⟩⟩ := by
      simp only [MV.flip, MV.default, MV.coeffEnumerate, CoeffStorage.coeffEnumerate, QStorage.coeffEnumerate, CoeffStorage.new, QStorage.new,
        MV.setByIdx, CoeffStorage.setByIdx, QStorage.setByIdx, List.foldl, bind, Except.bind, pure, Except.pure, QuaternionAlgebra]
      rfl
    simp only [hr, hf, bind, Except.bind, revC, h1, h2, h3]
    rfl
  · show Flt.sqrt _ = Flt.sqrt _
    simp only [Quat.norm2, Quat.conj, List.foldl, Flt.abs_neg]
  · rfl
  · show Flt.sqrt _ = Flt.sqrt _
    simp only [Quat.norm2, List.foldl, Flt.abs_neg]

deriving instance DecidableEq for MV

namespace Ex

/-- `2⁵³ - j + 2 J∧I`, `i + j + J∧I` -/
def qfA : Quat F64 := ⟨⟨Flt.ofRat (2 ^ 53), 0, -1, Flt.ofRat 2⟩⟩
def qfB : Quat F64 := ⟨⟨0, 1, 1, 1⟩⟩
def qfC : Quat F64 := ⟨⟨1, 1, 1, 0⟩⟩

end Ex

/-- **C45 under rounding.** The norm is not exactly multiplicative, `conj` does not exactly reverse products, and the norm of very large and very
small quaternions overflows or is 0, because the coefficients are squared. -/
theorem C45_float_false :
    (∃ a p : Quat F64, a.naiveMulImpl a = .ok p ∧ p.normF ≠ a.normF * a.normF) ∧
    (∃ a b p : Quat F64, a.naiveMulImpl b = .ok p ∧ b.conj.naiveMulImpl a.conj ≠ .ok p.conj) ∧
    (∃ a : Quat F64, (∀ i < 4, fin (a.val i)) ∧ ¬ fin a.normF) ∧
    (∃ a : Quat F64, a.normF = 0 ∧ a.val 1 ≠ 0) := by
  refine ⟨⟨Ex.qfC, ⟨⟨Flt.ofRat (-1), Flt.ofRat 2, Flt.ofRat 2, 0⟩⟩, ?_, ?_⟩, ⟨Ex.qfA, Ex.qfB, ⟨⟨Flt.ofRat (-1), Flt.ofRat (2 ^ 53 + 2),
    Flt.ofRat (2 ^ 53 - 2), Flt.ofRat (2 ^ 53 - 1)⟩⟩, ?_, ?_⟩, ⟨⟨⟨0, Flt.ofRat (2 ^ 600), 0, 0⟩⟩, ?_, ?_⟩,
    ⟨⟨⟨0, Flt.ofRat (1 / 2 ^ 600), 0, 0⟩⟩, ?_, ?_⟩⟩
  · decide +kernel
  · decide +kernel
  · decide +kernel
  · decide +kernel
  · have h : ∀ i < 4, MV.val (⟨⟨0, Flt.ofRat (2 ^ 600), 0, 0⟩⟩ : Quat F64) i ≠ .nonFinite := by decide +kernel
    exact h
  · have : Quat.normF (⟨⟨0, Flt.ofRat (2 ^ 600), 0, 0⟩⟩ : Quat F64) = .nonFinite := by decide +kernel
    rw [this]
    exact fun h => h rfl
  · decide +kernel
  · decide +kernel

namespace Ex

/-- `1 + 3i + 3j + 4 J∧I` -/
def qfD : Quat F64 := ⟨⟨xD 0, xD 1, xD 2, xD 3⟩⟩

theorem qfD_mid : ∀ i < 4, MidR (qfD.val i) := by
  intro i hi
  interval_cases i
  · exact xD_mid 0
  · exact xD_mid 1
  · exact xD_mid 2
  · exact xD_mid 3

example := C45_float_norm (a := qfD) fun i hi => ⟨(qfD_mid i hi).1, (qfD_mid i hi).le.trans (pow_le_pow_right₀ (by norm_num) (by norm_num))⟩
example := C45_float_norm_mul qfD_mid qfD_mid
/-- `|1 + i + j| = √3`, rounded -/
example : qfC.normF = Flt.ofRat (3900231685776981 / 2 ^ 51) := by decide +kernel
example := C45_float_exact qfD

end Ex

end TClifford
