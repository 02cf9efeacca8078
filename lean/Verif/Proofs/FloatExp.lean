import Verif.Model.FloatExp
import Verif.Proofs.FloatMV
import Mathlib.Analysis.Real.Sqrt
/-
`abs`, `max`, `sqrt`, `ceil` of floating point numbers.
-/

namespace TClifford

theorem isqrtAux_spec (x : Nat) (k r0 : Nat) (h0 : r0 * r0 ≤ x) (h1 : x < (r0 + 2 ^ k) * (r0 + 2 ^ k)) :
    isqrtAux x k r0 * isqrtAux x k r0 ≤ x ∧ x < (isqrtAux x k r0 + 1) * (isqrtAux x k r0 + 1) := by
  induction k generalizing r0 with
  | zero => exact ⟨h0, by simpa [isqrtAux] using h1⟩
  | succ k ih =>
    rw [isqrtAux]
    split
    · rename_i h
      refine ih _ h ?_
      rwa [add_assoc, ← two_mul, ← Nat.pow_succ']
    · rename_i h
      exact ih _ h0 (by omega)

theorem isqrt_spec (x : Nat) : isqrt x * isqrt x ≤ x ∧ x < (isqrt x + 1) * (isqrt x + 1) := by
  refine isqrtAux_spec x _ 0 (by simp) ?_
  have h := @Nat.lt_log2_self x
  refine lt_of_lt_of_le h ?_
  rw [zero_add, ← pow_add]
  exact Nat.pow_le_pow_right (by norm_num) (by omega)

namespace Flt
variable {f : Fmt}

/-- `sqrtRat` and the real square root lie on the same side of every multiple of `2^(emin - 1)`. -/
theorem sqrtRat_spec {x : ℚ} (hx : 0 ≤ x) (j : ℤ) :
    (sqrtRat f x < j * 2 ^ (f.emin - 1) ↔ Real.sqrt x < j * 2 ^ (f.emin - 1)) ∧
    ((j * 2 ^ (f.emin - 1) : ℚ) < sqrtRat f x ↔ j * 2 ^ (f.emin - 1) < Real.sqrt x) := by
  have hs : ∃ s : Nat, s = (1 - f.emin).toNat := ⟨_, rfl⟩
  obtain ⟨s, hs⟩ := hs
  have he : f.emin - 1 = -(s : ℤ) := by have := f.hmin; omega
  have e2 : ∀ {K : Type} [Field K] , (2 : K) ^ (f.emin - 1) = (2 ^ s)⁻¹ := by
    intro K _; rw [he, zpow_neg, zpow_natCast]
  have hy0 : 0 ≤ x * 4 ^ s := by positivity
  obtain ⟨h1, h2⟩ := isqrt_spec ⌊x * 4 ^ s⌋.toNat
  set r := isqrt ⌊x * 4 ^ s⌋.toNat with hr
  have hfl : ((⌊x * 4 ^ s⌋.toNat : ℕ) : ℚ) = ⌊x * 4 ^ s⌋ := by
    have : ((⌊x * 4 ^ s⌋.toNat : ℕ) : ℤ) = ⌊x * 4 ^ s⌋ := Int.toNat_of_nonneg (Int.floor_nonneg.mpr hy0)
    exact_mod_cast this
  have h1' : (r * r : ℚ) ≤ x * 4 ^ s := by
    have : ((r * r : ℕ) : ℚ) ≤ (⌊x * 4 ^ s⌋.toNat : ℕ) := by exact_mod_cast h1
    rw [hfl] at this
    have h3 := Int.floor_le (x * 4 ^ s)
    push_cast at this
    linarith
  have h2' : x * 4 ^ s < ((r + 1) * (r + 1) : ℚ) := by
    have : ((⌊x * 4 ^ s⌋.toNat + 1 : ℕ) : ℚ) ≤ ((r + 1) * (r + 1) : ℕ) := by exact_mod_cast h2
    push_cast at this
    rw [hfl] at this
    have h3 := Int.lt_floor_add_one (x * 4 ^ s)
    linarith
  have hp : (0 : ℝ) < 2 ^ s := by positivity
  have hpq : (0 : ℚ) < 2 ^ s := by positivity
  -- the scaled real root
  have ht : Real.sqrt x * 2 ^ s = Real.sqrt (x * 4 ^ s : ℚ) := by
    push_cast
    rw [Real.sqrt_mul (by exact_mod_cast hx), show (4 : ℝ) ^ s = (2 ^ s) ^ 2 by rw [← pow_mul, mul_comm, pow_mul]; norm_num,
      Real.sqrt_sq hp.le]
  have hl : (r : ℝ) ≤ Real.sqrt x * 2 ^ s := by
    rw [ht]
    apply Real.le_sqrt_of_sq_le
    rw [pow_two]; exact_mod_cast h1'
  have hu : Real.sqrt x * 2 ^ s < r + 1 := by
    rw [ht, Real.sqrt_lt' (by positivity), pow_two]
    exact_mod_cast h2'
  have lt1 : ∀ z : ℚ, (z < j * 2 ^ (f.emin - 1) ↔ z * 2 ^ s < j) ∧ (j * 2 ^ (f.emin - 1) < z ↔ (j : ℚ) < z * 2 ^ s) := by
    intro z
    rw [e2, ← div_eq_mul_inv, lt_div_iff₀ hpq, div_lt_iff₀ hpq]
    exact ⟨Iff.rfl, Iff.rfl⟩
  have lt2 : ∀ z : ℝ, (z < j * 2 ^ (f.emin - 1) ↔ z * 2 ^ s < j) ∧ (j * 2 ^ (f.emin - 1) < z ↔ (j : ℝ) < z * 2 ^ s) := by
    intro z
    rw [e2, ← div_eq_mul_inv, lt_div_iff₀ hp, div_lt_iff₀ hp]
    exact ⟨Iff.rfl, Iff.rfl⟩
  rw [(lt1 _).1, (lt1 _).2, (lt2 _).1, (lt2 _).2]
  have e : sqrtRat f x = if (r * r : ℚ) = x * 4 ^ s then (r : ℚ) / 2 ^ s else (2 * r + 1 : ℚ) / 2 ^ (s + 1) := by
    unfold sqrtRat
    rw [← hs]
  rw [e]
  split
  · rename_i heq
    have : Real.sqrt x * 2 ^ s = r := by
      rw [ht, ← heq]
      push_cast
      exact Real.sqrt_mul_self (by positivity)
    rw [this, div_mul_cancel₀ _ hpq.ne']
    constructor <;> exact_mod_cast Iff.rfl
  · rename_i hne
    have hl' : (r : ℝ) < Real.sqrt x * 2 ^ s := by
      rcases lt_or_eq_of_le hl with h | h
      · exact h
      · exfalso
        apply hne
        have : (r * r : ℝ) = ((x * 4 ^ s : ℚ) : ℝ) := by
          rw [h, ht, Real.mul_self_sqrt (by exact_mod_cast hy0)]
        exact_mod_cast this
    have e3 : (2 * r + 1 : ℚ) / 2 ^ (s + 1) * 2 ^ s = r + 1 / 2 := by
      rw [pow_succ]; field_simp
    rw [e3]
    constructor
    · constructor
      · intro h
        have : (r : ℤ) + 1 ≤ j := by
          by_contra hc
          have : j ≤ r := by omega
          have : (j : ℚ) ≤ r := by exact_mod_cast this
          linarith
        have : (r : ℝ) + 1 ≤ j := by exact_mod_cast this
        linarith
      · intro h
        have h' : (r : ℝ) < j := hl'.trans h
        have : (r : ℤ) + 1 ≤ j := by
          have : (r : ℤ) < j := by exact_mod_cast h'
          omega
        have : (r : ℚ) + 1 ≤ j := by exact_mod_cast this
        linarith
    · constructor
      · intro h
        have : j ≤ (r : ℤ) := by
          by_contra hc
          have : (r : ℤ) + 1 ≤ j := by omega
          have : (r : ℚ) + 1 ≤ j := by exact_mod_cast this
          linarith
        have : (j : ℝ) ≤ r := by exact_mod_cast this
        linarith
      · intro h
        have h' : (j : ℝ) < r + 1 := h.trans hu
        have : j ≤ (r : ℤ) := by
          have : j < (r : ℤ) + 1 := by exact_mod_cast h'
          omega
        have : (j : ℚ) ≤ r := by exact_mod_cast this
        linarith

theorem zpow_half (z : ℤ) {K : Type} [Field K] [CharZero K] : (2 : K) ^ (z - 1) * 2 = 2 ^ z := by
  rw [← zpow_add_one₀ (by norm_num : (2 : K) ≠ 0)]; congr 1; ring

theorem sqrtRat_nonneg {x : ℚ} (hx : 0 ≤ x) : 0 ≤ sqrtRat f x := by
  by_contra h
  have := (sqrtRat_spec (f := f) hx 0).1.mp (by simpa using h)
  have h0 := Real.sqrt_nonneg (x : ℝ)
  simp at this
  linarith

theorem rnd_sqrtRat_nearest {x : ℚ} (hx : 0 ≤ x) {y : ℚ} (hy : f.rnd y = y) :
    |(f.rnd (sqrtRat f x) : ℝ) - Real.sqrt x| ≤ |(y : ℝ) - Real.sqrt x| := by
  set q := sqrtRat f x with hq
  have hn := f.rnd_nearest (x := q) hy
  obtain ⟨m, hm⟩ := f.mult_of_repr (f.rnd_rnd q)
  obtain ⟨n, hn'⟩ := f.mult_of_repr hy
  -- the midpoint
  have hmid : (f.rnd q + y) / 2 = ((m + n : ℤ) : ℚ) * 2 ^ (f.emin - 1) := by
    rw [hm, hn', ← zpow_half f.emin]; push_cast; ring
  have hmidR : ((f.rnd q : ℝ) + y) / 2 = ((m + n : ℤ) : ℝ) * 2 ^ (f.emin - 1) := by
    have : (((f.rnd q + y) / 2 : ℚ) : ℝ) = ((((m + n : ℤ) : ℚ) * 2 ^ (f.emin - 1) : ℚ) : ℝ) := by rw [hmid]
    push_cast at this ⊢
    exact this
  obtain ⟨s1, s2⟩ := sqrtRat_spec (f := f) hx (m + n)
  rw [← hmid, ← hmidR, ← hq] at s1 s2
  have key : ∀ {r y t : ℝ}, |y - t| < |r - t| ↔ 0 < (r - y) * ((r + y) / 2 - t) := by
    intro r y t
    rw [← sq_lt_sq]
    constructor <;> intro h <;> nlinarith
  by_contra hc
  push Not at hc
  rw [key] at hc
  have hn2 : |(f.rnd q : ℝ) - q| ≤ |(y : ℝ) - q| := by exact_mod_cast hn
  apply absurd hn2
  push Not
  rw [key]
  rcases pos_and_pos_or_neg_and_neg_of_mul_pos hc with ⟨h1, h2⟩ | ⟨h1, h2⟩
  · have h3 := s1.mpr (by linarith)
    have h4 : (q : ℝ) < ((f.rnd q : ℝ) + y) / 2 := by exact_mod_cast h3
    exact mul_pos h1 (by linarith)
  · have h3 := s2.mpr (by linarith)
    have h4 : ((f.rnd q : ℝ) + y) / 2 < (q : ℝ) := by exact_mod_cast h3
    exact mul_pos_of_neg_of_neg h1 (by linarith)

theorem maxFin_mult : ∃ j : ℤ, f.maxFin = j * 2 ^ (f.emin - 1) := by
  have h1 := f.hmin
  have h2 := f.hmax
  refine ⟨(2 ^ f.p - 1) * 2 ^ (f.emax - f.emin + 1).toNat, ?_⟩
  unfold Fmt.maxFin
  push_cast
  rw [mul_assoc, ← zpow_natCast (2 : ℚ) (f.emax - f.emin + 1).toNat, ← zpow_add₀ (by norm_num : (2 : ℚ) ≠ 0)]
  congr 2
  omega

/-- `sqrt` of a finite number that is not negative. -/
theorem sqrt_ok {x : Flt f} (hx : Fin x) (h0 : 0 ≤ x.toRat) : Fin x.sqrt ∧ x.sqrt.toRat = f.rnd (sqrtRat f x.toRat) := by
  obtain ⟨x, rfl⟩ := cases_fin hx
  rw [toRat_num] at *
  rw [sqrt, if_neg (not_lt.mpr h0)]
  apply ofRat_ok
  rw [abs_of_nonneg (sqrtRat_nonneg h0)]
  by_contra hc
  push Not at hc
  obtain ⟨j, hj⟩ := maxFin_mult (f := f)
  have h1 : (1 : ℚ) ≤ f.maxFin := le_trans (one_le_pow₀ (by norm_num)) f.two_pow_le_maxFin
  have h2 := (sqrtRat_spec (f := f) h0 j).2.mp (by rw [← hj]; exact hc)
  have h3 : (j * 2 ^ (f.emin - 1) : ℝ) = (f.maxFin : ℝ) := by rw [hj]; push_cast; rfl
  rw [h3] at h2
  have h4 : x.1 ≤ f.maxFin := (le_abs_self _).trans x.2.2
  have h5 : Real.sqrt x.1 ≤ f.maxFin := by
    rw [Real.sqrt_le_left (by exact_mod_cast (by linarith : (0 : ℚ) ≤ f.maxFin))]
    have : x.1 ≤ f.maxFin ^ 2 := by nlinarith
    exact_mod_cast this
  linarith

theorem abs_ok {x : Flt f} (hx : Fin x) : Fin x.abs ∧ x.abs.toRat = |x.toRat| := by
  obtain ⟨x, rfl⟩ := cases_fin hx
  rw [toRat_num, abs]
  have h := ofRat_ok (f := f) (x := |x.1|) (by rw [abs_abs]; exact x.2.2)
  refine ⟨h.1, ?_⟩
  rw [h.2, ← f.abs_rnd, x.2.1]

theorem fmax_ok {x y : Flt f} (hx : Fin x) (hy : Fin y) : Fin (x.fmax y) ∧ (x.fmax y).toRat = max x.toRat y.toRat := by
  obtain ⟨x, rfl⟩ := cases_fin hx
  obtain ⟨y, rfl⟩ := cases_fin hy
  rw [toRat_num, toRat_num, fmax]
  split
  · rename_i h; exact ⟨fin_num _, by rw [max_eq_right h]; rfl⟩
  · rename_i h; exact ⟨fin_num _, by rw [max_eq_left (le_of_lt (not_le.mp h))]; rfl⟩

theorem ceil_ok {x : Flt f} (hx : Fin x) : Fin x.ceil ∧ x.ceil.toRat = ⌈x.toRat⌉ := by
  obtain ⟨x, rfl⟩ := cases_fin hx
  rw [toRat_num, ceil]
  obtain ⟨m, hm, hm2⟩ := f.rnd_form x.1
  rw [x.2.1] at hm
  by_cases he : 0 ≤ f.lastBit x.1
  · have : x.1 = ((m * 2 ^ (f.lastBit x.1).toNat : ℤ) : ℚ) := by
      conv_lhs => rw [hm]
      push_cast
      rw [← zpow_natCast, Int.toNat_of_nonneg he]
    have hc : ((⌈x.1⌉ : ℤ) : ℚ) = x.1 := by rw [this, Int.ceil_intCast]
    rw [hc]
    have := ofRat_ok (f := f) (x := x.1) x.2.2
    exact ⟨this.1, by rw [this.2, x.2.1]⟩
  · apply ofRat_int
    have h1 : |x.1| ≤ (2 ^ f.p : ℤ) := by
      rw [hm, abs_mul, abs_of_pos (Fmt.two_zpow_pos _)]
      have h2 : (2 : ℚ) ^ f.lastBit x.1 ≤ 1 := zpow_le_one_of_nonpos₀ (by norm_num) (by omega)
      have h3 : |(m : ℚ)| ≤ (2 ^ f.p : ℤ) := by exact_mod_cast hm2
      calc |(m : ℚ)| * 2 ^ f.lastBit x.1 ≤ |(m : ℚ)| * 1 := mul_le_mul_of_nonneg_left h2 (abs_nonneg _)
        _ ≤ _ := by rw [mul_one]; exact h3
    rw [abs_le] at h1 ⊢
    constructor
    · have h4 := Int.le_ceil x.1
      have : ((-(2 ^ f.p) : ℤ) : ℚ) ≤ ⌈x.1⌉ := by push_cast at h1 ⊢; linarith
      exact_mod_cast this
    · exact Int.ceil_le.mpr (by exact_mod_cast h1.2)

end Flt

end TClifford
