import Verif.Model.Float
import Verif.Proofs.Lawful
import Mathlib.Data.Real.Basic
import Mathlib.Tactic.Linarith
import Mathlib.Tactic.Positivity
import Mathlib.Tactic.FieldSimp
import Mathlib.Tactic.Ring
/-
The standard model of floating point arithmetic (every operation is exact up to a relative error `u` and, for products
and quotients, an absolute error `η` from underflow), and a proof that the IEEE formats satisfy it.
-/

namespace TClifford

/-- The standard model of floating point arithmetic.  `fin x`: `x` is finite; `re x`: its value; `Ω`: the largest
finite value. -/
class FloatModel (F : Type) [Zero F] [One F] [Add F] [Sub F] [Neg F] [Mul F] [Div F] extends CoeffLaws F where
  fin : F → Prop
  re : F → ℝ
  u : ℝ
  η : ℝ
  Ω : ℝ
  u_nonneg : 0 ≤ u
  η_nonneg : 0 ≤ η
  fin_zero : fin (0 : F)
  re_zero : re (0 : F) = 0
  fin_one : fin (1 : F)
  re_one : re (1 : F) = 1
  re_inj : ∀ {x y : F}, fin x → fin y → re x = re y → x = y
  Ω_nonneg : 0 ≤ Ω
  zero_add : ∀ x : F, 0 + x = x
  zero_mul : ∀ {x : F}, fin x → 0 * x = 0
  mul_zero : ∀ {x : F}, fin x → x * 0 = 0
  zero_div : ∀ {x : F}, fin x → x ≠ 0 → 0 / x = 0
  neg_ok : ∀ {x : F}, fin x → fin (-x) ∧ re (-x) = -re x
  add_ok : ∀ {x y : F}, fin x → fin y → |re x + re y| ≤ Ω →
    fin (x + y) ∧ |re (x + y) - (re x + re y)| ≤ u * |re x + re y|
  sub_ok : ∀ {x y : F}, fin x → fin y → |re x - re y| ≤ Ω →
    fin (x - y) ∧ |re (x - y) - (re x - re y)| ≤ u * |re x - re y|
  mul_ok : ∀ {x y : F}, fin x → fin y → |re x * re y| ≤ Ω →
    fin (x * y) ∧ |re (x * y) - re x * re y| ≤ u * |re x * re y| + η
  div_ok : ∀ {x y : F}, fin x → fin y → re y ≠ 0 → |re x / re y| ≤ Ω →
    fin (x / y) ∧ |re (x / y) - re x / re y| ≤ u * |re x / re y| + η
  /-- integers up to `M` are exact -/
  M : ℝ
  add_int : ∀ {x y : F} {m n : ℤ}, fin x → fin y → re x = m → re y = n → |(m + n : ℝ)| ≤ M →
    fin (x + y) ∧ re (x + y) = m + n
  sub_int : ∀ {x y : F} {m n : ℤ}, fin x → fin y → re x = m → re y = n → |(m - n : ℝ)| ≤ M →
    fin (x - y) ∧ re (x - y) = m - n
  mul_int : ∀ {x y : F} {m n : ℤ}, fin x → fin y → re x = m → re y = n → |(m * n : ℝ)| ≤ M →
    fin (x * y) ∧ re (x * y) = m * n

/-! ### Rounding to integers -/

theorem rne_sub_le (x : ℚ) : |(rne x : ℚ) - x| ≤ 1 / 2 := by
  have h1 := Int.floor_le x
  have h2 := Int.lt_floor_add_one x
  unfold rne
  simp only
  split
  · rw [abs_le]; constructor <;> linarith
  · split
    · rw [abs_le]; push_cast; constructor <;> linarith
    · split
      · rw [abs_le]; constructor <;> linarith
      · rw [abs_le]; push_cast; constructor <;> linarith

theorem rne_int (n : ℤ) : rne (n : ℚ) = n := by
  unfold rne
  simp

theorem rne_le {x : ℚ} {n : ℤ} (h : x ≤ n) : rne x ≤ n := by
  have h1 : ⌊x⌋ ≤ n := by
    have := Int.floor_le x
    have : (⌊x⌋ : ℚ) ≤ n := by linarith
    exact_mod_cast this
  rcases h1.lt_or_eq with h1 | h1
  · unfold rne
    simp only
    split
    · omega
    · split
      · omega
      · split <;> omega
  · have h2 : x = (n : ℚ) := by
      have := Int.floor_le x
      rw [h1] at this
      linarith
    rw [h2, rne_int]

theorem rne_nearest (x : ℚ) (n : ℤ) : |(rne x : ℚ) - x| ≤ |(n : ℚ) - x| := by
  have h1 := Int.floor_le x
  have h2 := Int.lt_floor_add_one x
  have h3 : (n : ℚ) ≤ ⌊x⌋ ∨ (⌊x⌋ : ℚ) + 1 ≤ n := by
    rcases le_or_gt n ⌊x⌋ with h | h
    · left; exact_mod_cast h
    · right; exact_mod_cast h
  have key : |(⌊x⌋ : ℚ) - x| ≤ |(n : ℚ) - x| ∨ 1 / 2 ≤ x - ⌊x⌋ := by
    by_cases hc : 1 / 2 ≤ x - ⌊x⌋
    · exact Or.inr hc
    · left
      rw [abs_of_nonpos (by linarith)]
      rcases h3 with h | h
      · rw [abs_of_nonpos (by linarith)]; linarith
      · rw [abs_of_nonneg (by linarith)]; linarith
  have key2 : |(⌊x⌋ : ℚ) + 1 - x| ≤ |(n : ℚ) - x| ∨ x - ⌊x⌋ < 1 / 2 := by
    by_cases hc : x - ⌊x⌋ < 1 / 2
    · exact Or.inr hc
    · left
      rw [abs_of_nonneg (by linarith)]
      rcases h3 with h | h
      · rw [abs_of_nonpos (by linarith)]; linarith
      · rw [abs_of_nonneg (by linarith)]; linarith
  have key3 : x - ⌊x⌋ = 1 / 2 → |(⌊x⌋ : ℚ) - x| ≤ |(n : ℚ) - x| := by
    intro hc
    rw [abs_of_nonpos (by linarith)]
    rcases h3 with h | h
    · rw [abs_of_nonpos (by linarith)]; linarith
    · rw [abs_of_nonneg (by linarith)]; linarith
  unfold rne
  simp only
  split
  · rcases key with h | h
    · exact h
    · linarith
  · split
    · push_cast
      rcases key2 with h | h
      · exact h
      · linarith
    · split
      · exact key3 (by linarith)
      · push_cast
        rcases key2 with h | h
        · exact h
        · linarith

theorem rne_nonneg {x : ℚ} (h : 0 ≤ x) : 0 ≤ rne x := by
  have h1 : 0 ≤ ⌊x⌋ := Int.floor_nonneg.mpr h
  unfold rne
  simp only
  split
  · omega
  · split
    · omega
    · split <;> omega

/-! ### Rounding to a format -/

namespace Fmt
variable (f : Fmt)

theorem two_zpow_pos (e : ℤ) : (0 : ℚ) < 2 ^ e := by positivity

theorem rnd_zero : f.rnd 0 = 0 := by
  unfold rnd
  simp only [abs_zero, zero_div, lt_irrefl, if_false]
  have := rne_int 0
  rw [Int.cast_zero] at this
  rw [this]; simp

theorem lastBit_neg (x : ℚ) : f.lastBit (-x) = f.lastBit x := by unfold lastBit; rw [abs_neg]

theorem rnd_neg (x : ℚ) : f.rnd (-x) = -f.rnd x := by
  rcases lt_trichotomy x 0 with h | h | h
  · unfold rnd
    rw [lastBit_neg, abs_neg]
    simp only
    rw [if_pos h, if_neg (by linarith), neg_neg]
  · subst h; rw [neg_zero, rnd_zero, neg_zero]
  · unfold rnd
    rw [lastBit_neg, abs_neg]
    simp only
    rw [if_pos (by linarith), if_neg (by linarith)]

/-- `rnd` on nonnegative numbers. -/
theorem rnd_of_nonneg {x : ℚ} (h : 0 ≤ x) : f.rnd x = (rne (x / 2 ^ f.lastBit x) : ℚ) * 2 ^ f.lastBit x := by
  unfold rnd
  rw [abs_of_nonneg h]
  simp only
  rw [if_neg (by linarith)]

theorem rnd_nonneg {x : ℚ} (h : 0 ≤ x) : 0 ≤ f.rnd x := by
  rw [rnd_of_nonneg f h]
  have h1 := two_zpow_pos (f.lastBit x)
  have : 0 ≤ rne (x / 2 ^ f.lastBit x) := rne_nonneg (by positivity)
  have : (0 : ℚ) ≤ rne (x / 2 ^ f.lastBit x) := by exact_mod_cast this
  positivity

theorem abs_rnd (x : ℚ) : |f.rnd x| = f.rnd |x| := by
  rcases le_total 0 x with h | h
  · rw [abs_of_nonneg h, abs_of_nonneg (rnd_nonneg f h)]
  · rw [abs_of_nonpos h, rnd_neg, abs_of_nonpos]
    have := rnd_nonneg f (x := -x) (by linarith)
    rw [rnd_neg] at this
    linarith

theorem lt_two_pow {x : ℚ} (h : 0 < x) : x < 2 ^ (f.lastBit x + f.p) := by
  have h1 := Int.lt_zpow_succ_log_self (b := 2) (by norm_num) x
  refine lt_of_lt_of_le h1 ?_
  push_cast
  apply zpow_le_zpow_right₀ (by norm_num)
  have := le_max_left (Int.log 2 |x| - f.p + 1) f.emin
  unfold lastBit
  rw [abs_of_pos h] at *
  omega

/-- Every multiple of a possible last bit with at most `p` bits is a number of the format. -/
theorem rnd_fixed {m : ℤ} {e : ℤ} (hm : |m| ≤ 2 ^ f.p) (he : f.emin ≤ e) : f.rnd ((m : ℚ) * 2 ^ e) = (m : ℚ) * 2 ^ e := by
  wlog hp : 0 ≤ m generalizing m
  · have := this (m := -m) (by rw [abs_neg]; exact hm) (by omega)
    rw [Int.cast_neg, neg_mul, rnd_neg, neg_inj] at this
    exact this
  rcases hp.eq_or_lt with rfl | hp
  · simp [rnd_zero]
  rw [abs_of_pos hp] at hm
  have hx : (0 : ℚ) < (m : ℚ) * 2 ^ e := by
    have : (0 : ℚ) < m := by exact_mod_cast hp
    positivity
  set x := (m : ℚ) * 2 ^ e with hxd
  rw [rnd_of_nonneg f hx.le]
  -- it is enough that x is a multiple of its last bit
  suffices h : ∃ k : ℤ, x = (k : ℚ) * 2 ^ f.lastBit x by
    obtain ⟨k, hk⟩ := h
    have : x / 2 ^ f.lastBit x = k := by
      rw [div_eq_iff (two_zpow_pos _).ne']; exact hk
    rw [this, rne_int, ← hk]
  rcases hm.lt_or_eq with hm | hm
  · -- the last bit is at most e
    have hl : f.lastBit x ≤ e := by
      unfold lastBit
      apply max_le _ he
      have h1 := Int.zpow_log_le_self (b := 2) (by norm_num) hx
      rw [abs_of_pos hx]
      have h2 : (2 : ℚ) ^ Int.log 2 x < 2 ^ (e + f.p) := by
        refine lt_of_le_of_lt (by exact_mod_cast h1) ?_
        rw [hxd, zpow_add₀ (by norm_num), mul_comm]
        apply mul_lt_mul_of_pos_left _ (two_zpow_pos e)
        rw [zpow_natCast]
        exact_mod_cast hm
      rw [zpow_lt_zpow_iff_right₀ (by norm_num)] at h2
      omega
    refine ⟨m * 2 ^ (e - f.lastBit x).toNat, ?_⟩
    push_cast
    rw [mul_assoc, ← zpow_natCast, ← zpow_add₀ (by norm_num), Int.toNat_of_nonneg (by omega), sub_add_cancel]
  · -- a power of two
    have hx2 : x = 2 ^ (e + f.p) := by
      rw [hxd, hm]; push_cast
      rw [zpow_add₀ (by norm_num), zpow_natCast, mul_comm]
    have hlog : Int.log 2 x = e + f.p := by
      rw [hx2]
      exact_mod_cast Int.log_zpow (R := ℚ) (b := 2) (by norm_num) (e + f.p)
    have hl : f.lastBit x = e + 1 := by
      unfold lastBit
      rw [abs_of_pos hx, hlog]
      rw [max_eq_left (by omega)]
      omega
    refine ⟨2 ^ (f.p - 1), ?_⟩
    rw [hl, hx2]
    push_cast
    rw [← zpow_natCast, ← zpow_add₀ (by norm_num)]
    congr 1
    have := f.hp
    omega

/-- A rounded number has at most `p` bits. -/
theorem rnd_form (x : ℚ) : ∃ m : ℤ, f.rnd x = (m : ℚ) * 2 ^ f.lastBit x ∧ |m| ≤ 2 ^ f.p := by
  wlog hp : 0 ≤ x generalizing x
  · obtain ⟨m, h1, h2⟩ := this (-x) (by linarith)
    refine ⟨-m, ?_, by rw [abs_neg]; exact h2⟩
    rw [rnd_neg, lastBit_neg] at h1
    push_cast
    linarith
  refine ⟨rne (x / 2 ^ f.lastBit x), rnd_of_nonneg f hp, ?_⟩
  have h0 := two_zpow_pos (f.lastBit x)
  rw [abs_of_nonneg (rne_nonneg (by positivity))]
  apply rne_le
  push_cast
  rcases hp.eq_or_lt with rfl | hp
  · rw [zero_div]; positivity
  · rw [div_le_iff₀ h0]
    have := lt_two_pow f hp
    rw [add_comm, zpow_add₀ (by norm_num), zpow_natCast] at this
    exact this.le

theorem emin_le_lastBit (x : ℚ) : f.emin ≤ f.lastBit x := le_max_right _ _

theorem rnd_rnd (x : ℚ) : f.rnd (f.rnd x) = f.rnd x := by
  obtain ⟨m, h1, h2⟩ := rnd_form f x
  rw [h1]
  exact rnd_fixed f h2 (emin_le_lastBit f x)

theorem rnd_sub_le (x : ℚ) : |f.rnd x - x| ≤ 2 ^ f.lastBit x / 2 := by
  wlog hp : 0 ≤ x generalizing x
  · have := this (-x) (by linarith)
    rw [rnd_neg, lastBit_neg, ← neg_sub', abs_neg] at this
    exact this
  rw [rnd_of_nonneg f hp]
  have h0 := two_zpow_pos (f.lastBit x)
  have h1 := rne_sub_le (x / 2 ^ f.lastBit x)
  have e : (rne (x / 2 ^ f.lastBit x) : ℚ) * 2 ^ f.lastBit x - x =
      ((rne (x / 2 ^ f.lastBit x) : ℚ) - x / 2 ^ f.lastBit x) * 2 ^ f.lastBit x := by
    rw [sub_mul, div_mul_cancel₀ _ h0.ne']
  rw [e, abs_mul, abs_of_pos h0]
  nlinarith

/-- Unit roundoff. -/
def unitRoundoff : ℚ := 1 / 2 ^ f.p

/-- Half of the smallest positive number. -/
def halfMin : ℚ := 2 ^ f.emin / 2

/-- Error of a rounding whose last bit is not the smallest one. -/
theorem rnd_rel {x : ℚ} (hx : x ≠ 0) (h : f.lastBit x ≠ f.emin) : |f.rnd x - x| ≤ f.unitRoundoff * |x| := by
  refine (rnd_sub_le f x).trans ?_
  have hl : f.lastBit x = Int.log 2 |x| - f.p + 1 := by
    unfold lastBit at *
    rcases max_choice (Int.log 2 |x| - f.p + 1) f.emin with h1 | h1
    · exact h1
    · exact absurd h1 h
  have h1 := Int.zpow_log_le_self (b := 2) (by norm_num) (abs_pos.mpr hx)
  have e : (2 : ℚ) ^ f.lastBit x / 2 = f.unitRoundoff * 2 ^ Int.log 2 |x| := by
    rw [hl, zpow_add₀ (by norm_num), zpow_sub₀ (by norm_num), zpow_natCast, zpow_one]
    unfold unitRoundoff
    field_simp
  rw [e]
  apply mul_le_mul_of_nonneg_left (by exact_mod_cast h1)
  unfold unitRoundoff; positivity

theorem rnd_err (x : ℚ) : |f.rnd x - x| ≤ f.unitRoundoff * |x| + f.halfMin := by
  have hu : (0 : ℚ) ≤ f.unitRoundoff := by unfold unitRoundoff; positivity
  have hh : (0 : ℚ) < f.halfMin := by unfold halfMin; positivity
  by_cases hx : x = 0
  · subst hx; rw [rnd_zero]; simpa using hh.le
  by_cases h : f.lastBit x = f.emin
  · refine (rnd_sub_le f x).trans ?_
    rw [h]
    have : 0 ≤ f.unitRoundoff * |x| := by positivity
    unfold halfMin at *
    linarith
  · have := rnd_rel f hx h
    linarith

/-- No underflow for multiples of the smallest number. -/
theorem rnd_err_mult {x : ℚ} {m : ℤ} (hm : x = (m : ℚ) * 2 ^ f.emin) : |f.rnd x - x| ≤ f.unitRoundoff * |x| := by
  have hu : (0 : ℚ) ≤ f.unitRoundoff := by unfold unitRoundoff; positivity
  by_cases hx : x = 0
  · subst hx; rw [rnd_zero]; simp
  by_cases h : f.lastBit x = f.emin
  · have : f.rnd x = x := by
      wlog hp : 0 ≤ x generalizing x m
      · have := this (x := -x) (m := -m) (by rw [hm]; push_cast; ring) (by simpa using hx)
          (by rw [lastBit_neg]; exact h) (by linarith)
        rw [rnd_neg] at this
        linarith
      rw [rnd_of_nonneg f hp, h, hm, mul_div_assoc, div_self (two_zpow_pos _).ne', mul_one, rne_int]
    rw [this, sub_self, abs_zero]
    positivity
  · exact rnd_rel f hx h

theorem rnd_le_multiple {x : ℚ} (hx : 0 ≤ x) (n : ℤ) : |f.rnd x - x| ≤ |(n : ℚ) * 2 ^ f.lastBit x - x| := by
  have hp := two_zpow_pos (f.lastBit x)
  have h := rne_nearest (x / 2 ^ f.lastBit x) n
  have e : ∀ t : ℚ, |t * 2 ^ f.lastBit x - x| = |t - x / 2 ^ f.lastBit x| * 2 ^ f.lastBit x := by
    intro t
    rw [← abs_of_pos hp, ← abs_mul, sub_mul, abs_of_pos hp, div_mul_cancel₀ _ hp.ne']
  rw [rnd_of_nonneg f hx, e, e]
  exact mul_le_mul_of_nonneg_right h hp.le

/-- Rounding gives a nearest number of the format (without upper bound for the exponent). -/
theorem rnd_nearest {x y : ℚ} (hy : f.rnd y = y) : |f.rnd x - x| ≤ |y - x| := by
  wlog hx : 0 ≤ x generalizing x y
  · have := this (x := -x) (y := -y) (by rw [rnd_neg, hy]) (by linarith)
    rw [rnd_neg] at this
    rw [← abs_neg, ← abs_neg (y - x)]
    convert this using 2 <;> ring
  obtain ⟨m, hm, hm'⟩ := f.rnd_form y
  rw [hy] at hm
  rcases hx.eq_or_lt with rfl | hx0
  · rw [rnd_zero]; simp
  by_cases hl : f.lastBit x ≤ f.lastBit y
  · obtain ⟨k, hk⟩ := Int.le.dest hl
    have := rnd_le_multiple f hx (m * 2 ^ k)
    rw [hm, ← hk, zpow_add₀ (by norm_num), zpow_natCast]
    push_cast at this
    rw [show (m : ℚ) * (2 ^ f.lastBit x * 2 ^ k) = m * 2 ^ k * 2 ^ f.lastBit x by ring]
    exact this
  · have he : f.emin < f.lastBit x := lt_of_le_of_lt (f.emin_le_lastBit y) (by omega)
    have hlog : f.lastBit x = Int.log 2 |x| - f.p + 1 := by
      unfold lastBit at he ⊢
      rcases le_total (Int.log 2 |x| - f.p + 1) f.emin with h | h
      · rw [max_eq_right h] at he; omega
      · rw [max_eq_left h]
    have h1 : (2 : ℚ) ^ (f.lastBit x + f.p - 1) ≤ x := by
      rw [hlog, show Int.log 2 |x| - f.p + 1 + f.p - 1 = Int.log 2 |x| by ring, abs_of_pos hx0]
      exact_mod_cast Int.zpow_log_le_self (R := ℚ) (b := 2) (by norm_num) hx0
    have h2 : y ≤ 2 ^ (f.lastBit x + f.p - 1) := by
      rw [hm]
      have a1 : (m : ℚ) ≤ 2 ^ f.p := by exact_mod_cast (le_abs_self m).trans hm'
      have a2 : (2 : ℚ) ^ f.lastBit y ≤ 2 ^ (f.lastBit x - 1) := zpow_le_zpow_right₀ (by norm_num) (by omega)
      calc (m : ℚ) * 2 ^ f.lastBit y ≤ 2 ^ f.p * 2 ^ f.lastBit y := mul_le_mul_of_nonneg_right a1 (two_zpow_pos _).le
        _ ≤ 2 ^ f.p * 2 ^ (f.lastBit x - 1) := mul_le_mul_of_nonneg_left a2 (by positivity)
        _ = 2 ^ (f.lastBit x + f.p - 1) := by
          rw [← zpow_natCast, ← zpow_add₀ (by norm_num)]
          congr 1
          ring
    have h3 := rnd_le_multiple f hx (2 ^ (f.p - 1))
    have e3 : ((2 ^ (f.p - 1) : ℤ) : ℚ) * 2 ^ f.lastBit x = 2 ^ (f.lastBit x + f.p - 1) := by
      push_cast
      rw [← zpow_natCast, ← zpow_add₀ (by norm_num), Nat.cast_sub f.hp]
      congr 1
      push_cast
      ring
    rw [e3] at h3
    refine h3.trans ?_
    rw [abs_of_nonpos (by linarith), abs_of_nonpos (by linarith)]
    linarith

theorem mult_of_repr {x : ℚ} (h : f.rnd x = x) : ∃ m : ℤ, x = (m : ℚ) * 2 ^ f.emin := by
  obtain ⟨m, h1, -⟩ := rnd_form f x
  rw [h] at h1
  refine ⟨m * 2 ^ (f.lastBit x - f.emin).toNat, ?_⟩
  have := emin_le_lastBit f x
  push_cast
  rw [mul_assoc, ← zpow_natCast, ← zpow_add₀ (by norm_num), Int.toNat_of_nonneg (by omega), sub_add_cancel]
  exact h1

theorem maxFin_pos : 0 < f.maxFin := by
  unfold maxFin
  have : (2 : ℚ) ^ 1 ≤ 2 ^ f.p := pow_le_pow_right₀ (by norm_num) f.hp
  have : (0 : ℚ) < 2 ^ f.p - 1 := by linarith
  positivity

/-- Rounding does not overflow below the largest finite number. -/
theorem rnd_le_maxFin {x : ℚ} (h : |x| ≤ f.maxFin) : |f.rnd x| ≤ f.maxFin := by
  rw [abs_rnd]
  generalize |x| = y at h
  by_cases hy : y ≤ 0
  · rcases hy.lt_or_eq with hy | rfl
    · have := rnd_nonneg f (x := -y) (by linarith)
      rw [rnd_neg] at this
      have := maxFin_pos f
      linarith
    · rw [rnd_zero]; exact (maxFin_pos f).le
  have hy : 0 < y := lt_of_not_ge hy
  rw [rnd_of_nonneg f hy.le]
  have h0 := two_zpow_pos (f.lastBit y)
  have hl : f.lastBit y ≤ f.emax := by
    unfold lastBit
    apply max_le _ (by have := f.hmin; have := f.hmax; omega)
    have h1 := Int.zpow_log_le_self (b := 2) (by norm_num) hy
    rw [abs_of_pos hy]
    have h2 : (2 : ℚ) ^ Int.log 2 y < 2 ^ (f.emax + f.p) := by
      refine lt_of_le_of_lt (by exact_mod_cast h1) (lt_of_le_of_lt h ?_)
      unfold maxFin
      rw [zpow_add₀ (by norm_num), mul_comm, zpow_natCast]
      apply mul_lt_mul_of_pos_left _ (two_zpow_pos _)
      linarith
    rw [zpow_lt_zpow_iff_right₀ (by norm_num)] at h2
    omega
  rw [← le_div_iff₀ h0]
  have e : f.maxFin / 2 ^ f.lastBit y = (((2 ^ f.p - 1) * 2 ^ (f.emax - f.lastBit y).toNat : ℤ) : ℚ) := by
    unfold maxFin
    push_cast
    rw [div_eq_iff h0.ne', mul_assoc, ← zpow_natCast (2 : ℚ) (f.emax - f.lastBit y).toNat, ← zpow_add₀ (by norm_num),
      Int.toNat_of_nonneg (by omega), sub_add_cancel]
  rw [e, Int.cast_le]
  apply rne_le
  rw [← e]
  exact div_le_div_of_nonneg_right h h0.le

theorem repr_rnd {x : ℚ} (h : |x| ≤ f.maxFin) : f.Repr (f.rnd x) := ⟨rnd_rnd f x, rnd_le_maxFin f h⟩

theorem two_pow_le_maxFin : (2 : ℚ) ^ f.p ≤ f.maxFin := by
  unfold maxFin
  have h1 : (2 : ℚ) ^ (1 : ℤ) ≤ 2 ^ f.emax := zpow_le_zpow_right₀ (by norm_num) f.hmax
  have h2 : (2 : ℚ) ^ 1 ≤ 2 ^ f.p := pow_le_pow_right₀ (by norm_num) f.hp
  rw [zpow_one] at h1
  rw [pow_one] at h2
  nlinarith

/-- Integers up to `2^p` are numbers of the format. -/
theorem rnd_int {m : ℤ} (h : |m| ≤ 2 ^ f.p) : f.rnd m = m := by
  have h0 := rnd_fixed f (m := m) (e := 0) h f.hmin
  simpa using h0

end Fmt

namespace Flt
variable {f : Fmt}

/-- finite -/
def Fin (x : Flt f) : Prop := x ≠ nonFinite

theorem fin_num (x : { x : ℚ // f.Repr x }) : Fin (num x : Flt f) := by unfold Fin; simp

theorem ofRat_eq {x : ℚ} (h : |x| ≤ f.maxFin) : (ofRat x : Flt f) = num ⟨f.rnd x, f.repr_rnd h⟩ := by
  unfold ofRat
  rw [dif_pos (f.repr_rnd h)]

theorem ofRat_repr (x : { x : ℚ // f.Repr x }) : (ofRat x.1 : Flt f) = num x := by
  rw [ofRat_eq x.2.2]
  congr 1
  exact Subtype.ext x.2.1

theorem cases_fin {x : Flt f} (h : Fin x) : ∃ y : { x : ℚ // f.Repr x }, x = num y :=
  match x, h with
  | num y, _ => ⟨y, rfl⟩
  | nonFinite, h => absurd rfl h

theorem toRat_num (x : { x : ℚ // f.Repr x }) : toRat (num x : Flt f) = x.1 := rfl

theorem ofRat_ok {x : ℚ} (h : |x| ≤ f.maxFin) : Fin (ofRat x : Flt f) ∧ (ofRat x : Flt f).toRat = f.rnd x := by
  rw [ofRat_eq h]
  exact ⟨fin_num _, rfl⟩

theorem ofRat_int {m : ℤ} (h : |m| ≤ 2 ^ f.p) : Fin (ofRat (m : ℚ) : Flt f) ∧ (ofRat (m : ℚ) : Flt f).toRat = m := by
  have hm : |(m : ℚ)| ≤ f.maxFin := by
    refine le_trans ?_ f.two_pow_le_maxFin
    exact_mod_cast h
  have := ofRat_ok (f := f) hm
  rw [f.rnd_int h] at this
  exact this

theorem zero_eq : (0 : Flt f) = num ⟨0, f.rnd_zero, by rw [abs_zero]; exact f.maxFin_pos.le⟩ := by
  show ofRat 0 = _
  rw [ofRat_eq (by rw [abs_zero]; exact f.maxFin_pos.le)]
  congr 1
  exact Subtype.ext f.rnd_zero

theorem add_num (x y : { x : ℚ // f.Repr x }) : (num x + num y : Flt f) = ofRat (x.1 + y.1) := by
  show op2 _ _ _ = _
  rw [op2]
theorem sub_num (x y : { x : ℚ // f.Repr x }) : (num x - num y : Flt f) = ofRat (x.1 - y.1) := by
  show op2 _ _ _ = _
  rw [op2]
theorem mul_num (x y : { x : ℚ // f.Repr x }) : (num x * num y : Flt f) = ofRat (x.1 * y.1) := by
  show op2 _ _ _ = _
  rw [op2]
theorem neg_num (x : { x : ℚ // f.Repr x }) : (-num x : Flt f) = ofRat (-x.1) := by
  show neg _ = _
  rw [neg]
theorem div_num (x y : { x : ℚ // f.Repr x }) : (num x / num y : Flt f) = if y.1 = 0 then nonFinite else ofRat (x.1 / y.1) := by
  show div _ _ = _
  rw [div]

theorem cast_le {a b : ℚ} : ((a : ℝ) ≤ (b : ℝ)) = (a ≤ b) := by rw [Rat.cast_le]

theorem err_cast {r x e : ℚ} (h : |r - x| ≤ e) : |(r : ℝ) - (x : ℝ)| ≤ (e : ℝ) := by exact_mod_cast h

theorem int_of_cast {q : ℚ} {m : ℤ} (h : (q : ℝ) = m) : q = m := by exact_mod_cast h

/-- The IEEE formats satisfy the standard model with unit roundoff `2^-p`, underflow error half of the smallest
positive number, and exact integers up to `2^p`. -/
noncomputable instance : FloatModel (Flt f) where
  add_zero x := by
    match x with
    | nonFinite => rfl
    | num x => rw [zero_eq, add_num, _root_.add_zero, ofRat_repr]
  sub_zero x := by
    match x with
    | nonFinite => rfl
    | num x => rw [zero_eq, sub_num, _root_.sub_zero, ofRat_repr]
  fin := Fin
  re x := (toRat x : ℝ)
  u := (f.unitRoundoff : ℝ)
  η := (f.halfMin : ℝ)
  Ω := (f.maxFin : ℝ)
  M := 2 ^ f.p
  u_nonneg := by
    have : (0 : ℚ) ≤ f.unitRoundoff := by unfold Fmt.unitRoundoff; positivity
    exact_mod_cast this
  η_nonneg := by
    have : (0 : ℚ) ≤ f.halfMin := by unfold Fmt.halfMin; positivity
    exact_mod_cast this
  fin_zero := by rw [zero_eq]; exact fin_num _
  re_zero := by rw [zero_eq, toRat_num]; simp
  fin_one := by
    have h := (ofRat_int (f := f) (m := 1) (by rw [abs_one]; exact one_le_pow₀ (by norm_num))).1
    rw [Int.cast_one] at h
    exact h
  re_one := by
    have h := (ofRat_int (f := f) (m := 1) (by rw [abs_one]; exact one_le_pow₀ (by norm_num))).2
    show ((ofRat 1 : Flt f).toRat : ℝ) = 1
    rw [Int.cast_one] at h
    rw [h]; simp
  re_inj := by
    intro x y hx hy h
    obtain ⟨x, rfl⟩ := cases_fin hx
    obtain ⟨y, rfl⟩ := cases_fin hy
    rw [toRat_num, toRat_num] at h
    congr 1
    exact Subtype.ext (by exact_mod_cast h)
  Ω_nonneg := by
    have := f.maxFin_pos.le
    exact_mod_cast this
  zero_add x := by
    match x with
    | nonFinite => rw [zero_eq]; rfl
    | num x => rw [zero_eq, add_num, _root_.zero_add, ofRat_repr]
  zero_mul := by
    intro x hx
    obtain ⟨x, rfl⟩ := cases_fin hx
    rw [zero_eq, mul_num, MulZeroClass.zero_mul]
    exact zero_eq
  mul_zero := by
    intro x hx
    obtain ⟨x, rfl⟩ := cases_fin hx
    rw [zero_eq, mul_num, MulZeroClass.mul_zero]
    exact zero_eq
  zero_div := by
    intro x hx h0
    obtain ⟨x, rfl⟩ := cases_fin hx
    have h0' : x.1 ≠ 0 := by
      intro hc
      apply h0
      rw [zero_eq]
      congr 1
      exact Subtype.ext hc
    rw [zero_eq, div_num, if_neg h0', _root_.zero_div]
    exact zero_eq
  neg_ok := by
    intro x hx
    obtain ⟨x, rfl⟩ := cases_fin hx
    rw [neg_num]
    have h := ofRat_ok (f := f) (x := -x.1) (by rw [abs_neg]; exact x.2.2)
    refine ⟨h.1, ?_⟩
    rw [h.2, f.rnd_neg, x.2.1, toRat_num]; push_cast; rfl
  add_ok := by
    intro x y hx hy hb
    obtain ⟨x, rfl⟩ := cases_fin hx
    obtain ⟨y, rfl⟩ := cases_fin hy
    rw [toRat_num, toRat_num, ← Rat.cast_add, ← Rat.cast_abs] at *
    rw [add_num]
    have h := ofRat_ok (f := f) (x := x.1 + y.1) (by exact_mod_cast hb)
    refine ⟨h.1, ?_⟩
    rw [h.2]
    obtain ⟨m, hm⟩ := f.mult_of_repr x.2.1
    obtain ⟨n, hn⟩ := f.mult_of_repr y.2.1
    have := f.rnd_err_mult (x := x.1 + y.1) (m := m + n) (by rw [hm, hn]; push_cast; ring)
    exact_mod_cast this
  sub_ok := by
    intro x y hx hy hb
    obtain ⟨x, rfl⟩ := cases_fin hx
    obtain ⟨y, rfl⟩ := cases_fin hy
    rw [toRat_num, toRat_num, ← Rat.cast_sub, ← Rat.cast_abs] at *
    rw [sub_num]
    have h := ofRat_ok (f := f) (x := x.1 - y.1) (by exact_mod_cast hb)
    refine ⟨h.1, ?_⟩
    rw [h.2]
    obtain ⟨m, hm⟩ := f.mult_of_repr x.2.1
    obtain ⟨n, hn⟩ := f.mult_of_repr y.2.1
    have := f.rnd_err_mult (x := x.1 - y.1) (m := m - n) (by rw [hm, hn]; push_cast; ring)
    exact_mod_cast this
  mul_ok := by
    intro x y hx hy hb
    obtain ⟨x, rfl⟩ := cases_fin hx
    obtain ⟨y, rfl⟩ := cases_fin hy
    rw [toRat_num, toRat_num, ← Rat.cast_mul, ← Rat.cast_abs] at *
    rw [mul_num]
    have h := ofRat_ok (f := f) (x := x.1 * y.1) (by exact_mod_cast hb)
    refine ⟨h.1, ?_⟩
    rw [h.2]
    have := f.rnd_err (x.1 * y.1)
    exact_mod_cast this
  div_ok := by
    intro x y hx hy h0 hb
    obtain ⟨x, rfl⟩ := cases_fin hx
    obtain ⟨y, rfl⟩ := cases_fin hy
    rw [toRat_num] at h0
    have h0' : y.1 ≠ 0 := by exact_mod_cast h0
    rw [toRat_num, toRat_num, ← Rat.cast_div, ← Rat.cast_abs] at *
    rw [div_num, if_neg h0']
    have h := ofRat_ok (f := f) (x := x.1 / y.1) (by exact_mod_cast hb)
    refine ⟨h.1, ?_⟩
    rw [h.2]
    have := f.rnd_err (x.1 / y.1)
    exact_mod_cast this
  add_int := by
    intro x y m n hx hy h1 h2 hb
    obtain ⟨x, rfl⟩ := cases_fin hx
    obtain ⟨y, rfl⟩ := cases_fin hy
    rw [toRat_num] at h1 h2
    rw [add_num, int_of_cast h1, int_of_cast h2, ← Int.cast_add]
    have h := ofRat_int (f := f) (m := m + n) (by exact_mod_cast hb)
    refine ⟨h.1, ?_⟩
    rw [h.2]; push_cast; rfl
  sub_int := by
    intro x y m n hx hy h1 h2 hb
    obtain ⟨x, rfl⟩ := cases_fin hx
    obtain ⟨y, rfl⟩ := cases_fin hy
    rw [toRat_num] at h1 h2
    rw [sub_num, int_of_cast h1, int_of_cast h2, ← Int.cast_sub]
    have h := ofRat_int (f := f) (m := m - n) (by exact_mod_cast hb)
    refine ⟨h.1, ?_⟩
    rw [h.2]; push_cast; rfl
  mul_int := by
    intro x y m n hx hy h1 h2 hb
    obtain ⟨x, rfl⟩ := cases_fin hx
    obtain ⟨y, rfl⟩ := cases_fin hy
    rw [toRat_num] at h1 h2
    rw [mul_num, int_of_cast h1, int_of_cast h2, ← Int.cast_mul]
    have h := ofRat_int (f := f) (m := m * n) (by exact_mod_cast hb)
    refine ⟨h.1, ?_⟩
    rw [h.2]; push_cast; rfl

end Flt

end TClifford
