import Verif.Proofs.FloatExpLoop
import Verif.Props.FloatIEEE
/-
C88: `exp` with `f64` coefficients.
-/

set_option linter.unusedSectionVars false

namespace TClifford

open Finset FloatModel MV

/-- **C88, `sqrt`.** The square root of a finite number that is not negative is finite, and no number of the format is closer to
the exact root. -/
theorem C88_sqrt {f : Fmt} {x : Flt f} (hx : fin x) (h0 : 0 ≤ re x) :
    fin x.sqrt ∧ ∀ y : Flt f, fin y → |re x.sqrt - Real.sqrt (re x)| ≤ |re y - Real.sqrt (re x)| := by
  have h0' : 0 ≤ x.toRat := by
    change (0 : ℝ) ≤ ((x.toRat : ℚ) : ℝ) at h0
    exact_mod_cast h0
  obtain ⟨s1, s2⟩ := Flt.sqrt_ok hx h0'
  refine ⟨s1, fun y hy => ?_⟩
  obtain ⟨y, rfl⟩ := Flt.cases_fin hy
  have := Flt.rnd_sqrtRat_nearest (f := f) h0' y.2.1
  rw [← s2] at this
  exact this

/-- **C88, coefficients.** The loop computes with `coeff` = `1/k!` up to a relative error of `2^-52`, and stops at `k` = 18, the
first `k` with `coeff ≤ f64::EPSILON`. -/
theorem C88_coefficients : (∀ k < 19, fin (expCoefF k) ∧ |re (expCoefF k) - 1 / k.factorial| ≤ 1 / 2 ^ 52 * (1 / k.factorial)) ∧
    (∀ k < 18, (expCoefF k).gt F64.epsilon = true) ∧ (expCoefF 18).gt F64.epsilon = false := by
  refine ⟨fun k hk => ?_, expCoefF_gt, expCoefF_18⟩
  obtain ⟨h1, h2⟩ := expCoefF_acc k hk
  refine ⟨h1, ?_⟩
  show |((expCoefF k).toRat : ℝ) - _| ≤ _
  have := (Rat.cast_le (K := ℝ)).mpr h2
  push_cast at this ⊢
  refine this.trans (le_of_eq ?_)
  norm_num

variable {S : Type} [CoeffStorage S F64] {A : ClAlg}

/-- **C88, termination.** The loop takes exactly 18 iterations, whatever the coefficients are, finite or not. -/
theorem C88_iterations (a : MV A S) :
    (∀ fuel < 18, a.expF fuel = none ∨ ∃ e, a.expF fuel = some (.error e)) ∧ ∃ r, ∀ fuel ≥ 18, a.expF fuel = some r := by
  unfold MV.expF
  split
  · exact ⟨fun _ _ => .inr ⟨_, rfl⟩, _, fun _ _ => rfl⟩
  · rename_i res k n _
    obtain ⟨h1, r, h2⟩ := taylorF_fuel n 18 (k := 0) rfl res n
    refine ⟨fun fuel hf => ?_, _, fun fuel hf => by rw [show (1 : F64) = expCoefF 0 from rfl, h2 fuel hf]; rfl⟩
    rcases h1 fuel hf with h | ⟨e, h⟩
    · exact .inl (by rw [show (1 : F64) = expCoefF 0 from rfl, h]; rfl)
    · exact .inr ⟨e, by rw [show (1 : F64) = expCoefF 0 from rfl, h]; rfl⟩

variable [LawfulStorage S F64]

/-- `m` is the `max_c` of the floating point `exp`, for coefficients `x` and the computed `mag2` `q`. -/
def IsMaxF (n : Nat) (x : Nat → F64) (q : F64) (m : ℕ) : Prop :=
  IsLeast {k : ℕ | 1 ≤ k ∧ (∀ i < 2 ^ n, |re (x i)| ≤ k) ∧ re q.abs.sqrt ≤ k} m

theorem f64_Ω_lt : Ω F64 < 2 ^ 1024 := by
  show ((Fmt.f64.maxFin : ℚ) : ℝ) < _
  have : Fmt.f64.maxFin < 2 ^ 1024 := by decide +kernel
  exact_mod_cast this

theorem f64_η_eq : η F64 = 1 / 2 ^ 1075 := by
  show ((Fmt.f64.halfMin : ℚ) : ℝ) = _
  have : Fmt.f64.halfMin = 1 / 2 ^ 1075 := by decide +kernel
  rw [this]; push_cast; rfl

theorem exp_lt_bound {m : ℝ} (h : Real.exp m ≤ Ω F64) : m ≤ 1024 := by
  have h1 : Real.exp m < (2 : ℝ) ^ 1024 := h.trans_lt f64_Ω_lt
  have h2 : (2 : ℝ) ^ 1024 ≤ Real.exp 1024 := by
    rw [show Real.exp 1024 = Real.exp 1 ^ 1024 by rw [← Real.exp_nat_mul]; norm_num]
    have : (2 : ℝ) ≤ Real.exp 1 := by have := Real.add_one_le_exp (1 : ℝ); linarith
    exact pow_le_pow_left₀ (by norm_num) this _
  exact (Real.exp_lt_exp.mp (h1.trans_le h2)).le

theorem expF_near (hA : A.WF) {a : MV A S} (ha : a.Fine) {q : F64} (hq : a.mag2 = .ok q) (hqf : fin q) {m : ℕ}
    (hm : IsMaxF A.dim a.val q m)
    (ho : Nat.factorial 19 * Real.exp (max m ‖a.gaR‖) * (1 + expDelta A) ^ (58 * m) ≤ Ω F64) {fuel : ℕ} (hf : 18 ≤ fuel) :
    ∃ r, a.expF fuel = some (.ok r) ∧ r.Fine ∧ ‖r.gaR - (∑ j ∈ range 19, ((j.factorial : ℝ)⁻¹) • ((m : ℝ)⁻¹ • a.gaR) ^ j) ^ m‖ ≤
      Real.exp (max m ‖a.gaR‖) * ((1 + expDelta A) ^ (58 * m) - 1) := by
  have hδ := expDelta_nonneg (A := A)
  have hu := two_u_le_expDelta (A := A)
  have hu0 := u_nonneg (F := F64)
  have hη0 := η_nonneg (F := F64)
  have h1δ : (1 : ℝ) ≤ 1 + expDelta A := by linarith
  have hf19 : (1 : ℝ) ≤ Nat.factorial 19 := by exact_mod_cast Nat.factorial_pos 19
  -- the exponent
  obtain ⟨M, m', hM, hMf, hMm, hiff⟩ := expMaxF_ok ha hq hqf
  have : m' = m := le_antisymm ((hiff m).mpr hm.1) (hm.2 ((hiff m').mp le_rfl))
  subst this
  have hm1 : 1 ≤ m' := hm.1.1
  have hm1R : (1 : ℝ) ≤ m' := by exact_mod_cast hm1
  have hm0 : (0 : ℝ) < m' := by linarith
  have hreM : re M = m' := by
    show ((M.toRat : ℚ) : ℝ) = _
    rw [hMm]; push_cast; rfl
  -- size of things
  have hpow1 : (1 : ℝ) ≤ (1 + expDelta A) ^ (58 * m') := one_le_pow₀ h1δ
  have hexp : Real.exp (max m' ‖a.gaR‖) ≤ Ω F64 := by
    refine le_trans ?_ ho
    rw [mul_assoc]
    have := Real.exp_pos (max m' ‖a.gaR‖)
    nlinarith [one_le_mul_of_one_le_of_one_le hf19 hpow1]
  have hm1024 : (m' : ℝ) ≤ 1024 := (le_max_left _ _).trans (exp_lt_bound hexp)
  have hmN : m' ≤ 1024 := by exact_mod_cast hm1024
  set s : ℝ := max 1 (‖a.gaR‖ / m') with hs
  have hs1 : 1 ≤ s := le_max_left _ _
  have hsm : s * m' = max (m' : ℝ) ‖a.gaR‖ := by
    rw [hs, max_mul_of_nonneg _ _ hm0.le, one_mul, div_mul_cancel₀ _ hm0.ne']
  have hes : Real.exp s ≤ Real.exp (max m' ‖a.gaR‖) := by
    rw [← hsm]
    exact Real.exp_le_exp.mpr (le_mul_of_one_le_right (by linarith) hm1R)
  have hos : Nat.factorial 19 * Real.exp s * (1 + expDelta A) ^ 58 ≤ Ω F64 := by
    refine le_trans ?_ ho
    have h1 : (1 + expDelta A) ^ 58 ≤ (1 + expDelta A) ^ (58 * m') := pow_le_pow_right₀ h1δ (by omega)
    have := Real.exp_pos s
    gcongr
  -- the reciprocal
  obtain ⟨t1, t2⟩ := div_ok (x := (1 : F64)) (y := M) fin_one hMf (by rw [hreM]; exact hm0.ne') (by
    rw [re_one, hreM, abs_of_nonneg (by positivity), div_le_iff₀ hm0]
    have : 1 ≤ Ω F64 := by
      have := Real.add_one_le_exp (max (m' : ℝ) ‖a.gaR‖)
      have := le_max_left (m' : ℝ) ‖a.gaR‖
      linarith
    nlinarith)
  rw [re_one, hreM, abs_of_nonneg (show (0 : ℝ) ≤ 1 / m' by positivity)] at t2
  have hηm : η F64 * m' ≤ u F64 := by
    rw [f64_η_eq, u_f64]
    calc (1 : ℝ) / 2 ^ 1075 * m' ≤ 1 / 2 ^ 1075 * 1024 := by gcongr
      _ ≤ _ := by
        rw [one_div_mul_eq_div, div_le_div_iff₀ (by positivity) (by positivity), one_mul,
          show (2 : ℝ) ^ 1075 = 2 ^ 63 * 2 ^ 1012 by rw [← pow_add]]
        have : (1 : ℝ) ≤ 2 ^ 1012 := one_le_pow₀ (by norm_num)
        generalize (2 : ℝ) ^ 1012 = z at this ⊢
        norm_num
        linarith
  have hct : |re (1 / M) - 1 / m'| ≤ 1 / m' * ((1 + expDelta A) ^ 1 - 1) := by
    refine t2.trans ?_
    rw [pow_one, add_sub_cancel_left, ← sub_nonneg]
    have : 1 / (m' : ℝ) * expDelta A - (u F64 * (1 / m') + η F64) = (expDelta A - u F64 - η F64 * m') / m' := by
      field_simp; ring
    rw [this]
    apply div_nonneg _ hm0.le
    linarith
  -- the normalized multivector
  have hNa : NearV (expDelta A) a a.gaR (s * m') 0 := by
    refine ⟨ha, ?_, by simp⟩
    rw [hsm]; exact le_max_right _ _
  have hsm1 : s * m' * (1 / m') = s := by field_simp
  obtain ⟨n, n1, n2⟩ := hNa.smul hδ t1 (show (0 : ℝ) ≤ 1 / m' by positivity) hct (by
    rw [hsm1]
    have e1 := η_le_hMul (F := F64) (A := A)
    have e2 := expDelta_ge (A := A)
    have e3 := u_le_gMul (F := F64) (A := A)
    have e4 := hMul_nonneg (F := F64) (A := A)
    nlinarith) (by
    rw [hsm1]
    refine le_trans ?_ hos
    have h1 : (1 + expDelta A) ^ (0 + 1) ≤ (1 + expDelta A) ^ 58 := pow_le_pow_right₀ h1δ (by omega)
    have h2 : s ≤ Nat.factorial 19 * Real.exp s := by
      have := Real.add_one_le_exp s
      have := Real.exp_pos s
      nlinarith
    exact mul_le_mul h2 h1 (by positivity) (by positivity))
  rw [hsm1, one_div] at n2
  -- the loop
  obtain ⟨o, o1, o2, o3⟩ := one_denotes (A := A) (S := S) (T := F64) ha.1.supp
  have hov : ∀ i < 2 ^ A.dim, o.val i = single 0 1 i := fun i hi => o3 i hi
  have hog : o.gaR = 1 := by
    rw [GA.one_def]
    refine GA.of_congr fun i hi => ?_
    rw [hov i hi]
    unfold single
    split
    · exact re_one
    · exact re_zero
  have hNo : NearV (expDelta A) o (∑ j ∈ range (0 + 1), ((j.factorial : ℝ)⁻¹) • ((m' : ℝ)⁻¹ • a.gaR) ^ j)
      (∑ j ∈ range (0 + 1), s ^ j / j.factorial) (3 * 0 + 3) := by
    refine NearV.mono hδ (k := 0) (B := 1) ⟨⟨o2, fun i hi => ?_⟩, ?_, ?_⟩ (by simp) (by omega)
    · rw [hov i hi]
      unfold single
      split
      · exact fin_one
      · exact fin_zero
    · simp
    · simp [hog]
  obtain ⟨r, r1, r2⟩ := taylorF_near hA hs1 n2 hos 18 (k := 0) rfl hNo (by rw [_root_.zero_add, pow_one, pow_one]; exact n2) fuel hf
  -- the power
  have hpe : Real.exp s ^ m' = Real.exp (max m' ‖a.gaR‖) := by rw [← Real.exp_nat_mul, mul_comm, hsm]
  obtain ⟨z, z1, z2⟩ := r2.pow hA expDelta_ge (Real.one_le_exp (by linarith)) hm1 (by
    rw [hpe]
    have e : m' * (57 + 1) = 58 * m' := by omega
    rw [e]
    refine le_trans ?_ ho
    rw [mul_assoc]
    have := Real.exp_pos (max m' ‖a.gaR‖)
    exact le_mul_of_one_le_left (by positivity) hf19)
  have z3 := z2.mono hδ le_rfl (show m' * (57 + 1) - 1 ≤ 58 * m' by omega)
  refine ⟨z, ?_, z3.fine, ?_⟩
  · unfold MV.expF
    have hus : M.toUsize = .ok m' := by
      obtain ⟨M, rfl⟩ := Flt.cases_fin hMf
      rw [Flt.toRat_num] at hMm
      show Except.ok (min ⌊M.1⌋.toNat (2 ^ 64 - 1)) = _
      rw [hMm, show ((m' : ℕ) : ℚ) = ((m' : ℤ) : ℚ) by push_cast; rfl, Int.floor_intCast, Int.toNat_natCast,
        min_eq_left (by omega)]
    have hdo : (do
        let res ← one (A := A) (S := S) (T := F64)
        let maxC ← a.expMaxF
        let intPow ← maxC.toUsize
        let n ← a.smul (1 / maxC)
        return (res, intPow, n) : Res (MV A S × Nat × MV A S)) = .ok (o, m', n) := by
      rw [o1, hM]
      show (do
        let intPow ← M.toUsize
        let n ← a.smul (1 / M)
        return (o, intPow, n) : Res (MV A S × Nat × MV A S)) = _
      rw [hus]
      show (do
        let n ← a.smul (1 / M)
        return (o, m', n) : Res (MV A S × Nat × MV A S)) = _
      rw [n1]; rfl
    rw [hdo]
    show (taylorF n fuel (expCoefF 0) (0 + 1) o n).map _ = _
    rw [r1]
    show some (r.pow m') = _
    rw [z1]
  · rw [hpe] at z3
    exact z3.err

section
variable {S' : Type} [CoeffStorage S' ℝ] [LawfulStorage S' ℝ]

theorem SameValues_fine {a : MV A S} {a' : MV A S'} {x : Nat → F64} (h : SameValues a a' x) : a.Fine := ⟨h.valid, h.good⟩

theorem SameValues_gaR {a : MV A S} {a' : MV A S'} {x : Nat → F64} (h : SameValues a a' x) : a.gaR = a'.ga := by
  refine GA.of_congr fun i hi => ?_
  rw [h.val hi, h.val' hi]

theorem SameValues_norm {a : MV A S} {a' : MV A S'} {x : Nat → F64} (h : SameValues a a' x) :
    ‖a.gaR‖ = ∑ i ∈ range (2 ^ A.dim), |re (x i)| := by
  rw [norm_gaR]
  exact sum_congr rfl fun i hi => by rw [h.val (mem_range.mp hi)]

theorem expF_error (hA : A.WF) {a : MV A S} {a' : MV A S'} {x : Nat → F64} (ha : SameValues a a' x) {E : Nat → ℝ}
    (hE : a'.IsExp E) {m : ℕ} (hm1 : 1 ≤ m) {r : MV A S} {ε : ℝ}
    (h : ‖r.gaR - (∑ j ∈ range 19, ((j.factorial : ℝ)⁻¹) • ((m : ℝ)⁻¹ • a.gaR) ^ j) ^ m‖ ≤ ε) :
    ∑ i ∈ range (2 ^ A.dim), |re (r.val i) - E i| ≤
      m * (((∑ i ∈ range (2 ^ A.dim), |re (x i)|) / m) ^ 19 / Nat.factorial 19) * Real.exp (∑ i ∈ range (2 ^ A.dim), |re (x i)|) + ε := by
  have h1 := exp_sub_taylor_pow_le (𝕜 := ℝ) a.gaR hm1 19
  rw [SameValues_norm ha] at h1
  have h2 : ∑ i ∈ range (2 ^ A.dim), |re (r.val i) - E i| = ‖r.gaR - NormedSpace.exp a.gaR‖ := by
    rw [GA.norm_def]
    refine sum_congr rfl fun i hi => ?_
    rw [mem_range] at hi
    rw [(isExp_iff hA ha.valid').mp hE i hi, ← SameValues_gaR ha, ← gaR_fn r hi, Real.norm_eq_abs]
    congr 1
    exact (map_sub (GA.coef i) _ _).symm
  rw [h2]
  have h3 := norm_sub_le_norm_sub_add_norm_sub r.gaR ((∑ j ∈ range 19, ((j.factorial : ℝ)⁻¹) • ((m : ℝ)⁻¹ • a.gaR) ^ j) ^ m)
    (NormedSpace.exp a.gaR)
  rw [norm_sub_rev (_ ^ m)] at h3
  linarith

/-- **C88, the error.** Let `x` be the coefficients of `a`, finite `f64`, `L` the sum of their absolute values and `E` the coefficients
of the exponential of `a`.  If `mag2` does not overflow and neither does `19! e^max(m, L)` with some slack, the computed exponential is
finite and differs from the exact one by at most the error of the truncated series (as in C67) and `e^max(m, L) ((1 + δ)^(58 m) - 1)`
for the rounding, all coefficients taken together.  Here `m` is the computed `max_c`, and `δ = (1 + u)^(2^n + 1) - 1` with `u = 2^-53`,
up to a term `19! 4^n (1 + u)^(2^n) 2^-1075` for underflow. -/
theorem C88_error (hA : A.WF) {a : MV A S} {a' : MV A S'} {x : Nat → F64} (ha : SameValues a a' x) {E : Nat → ℝ} (hE : a'.IsExp E)
    {q : F64} (hq : a.mag2 = .ok q) (hqf : fin q) {m : ℕ} (hm : IsMaxF A.dim x q m) {δ L : ℝ}
    (hL : L = ∑ i ∈ range (2 ^ A.dim), |re (x i)|)
    (hδ : δ = (1 + 1 / 2 ^ 53) ^ (2 ^ A.dim + 1) - 1 +
      Nat.factorial 19 * (2 ^ A.dim * (1 / 2 ^ 1075 * 2 ^ A.dim * (1 + 1 / 2 ^ 53) ^ (2 ^ A.dim))))
    (ho : Nat.factorial 19 * Real.exp (max m L) * (1 + δ) ^ (58 * m) ≤ Ω F64) {fuel : ℕ} (hf : 18 ≤ fuel) :
    ∃ r z, a.expF fuel = some (.ok r) ∧ r.Valid ∧ Coefs (.ok r) z ∧ (∀ i < 2 ^ A.dim, fin (z i)) ∧
    ∑ i ∈ range (2 ^ A.dim), |re (z i) - E i| ≤
      m * ((L / m) ^ 19 / Nat.factorial 19) * Real.exp L + Real.exp (max m L) * ((1 + δ) ^ (58 * m) - 1) := by
  have hδ' : δ = expDelta A := by
    rw [hδ, expDelta, gMul, hMul, u_f64, f64_η_eq]
  have hm' : IsMaxF A.dim a.val q m := by
    have e : {k : ℕ | 1 ≤ k ∧ (∀ i < 2 ^ A.dim, |re (x i)| ≤ k) ∧ re q.abs.sqrt ≤ k} =
        {k : ℕ | 1 ≤ k ∧ (∀ i < 2 ^ A.dim, |re (a.val i)| ≤ k) ∧ re q.abs.sqrt ≤ k} := by
      ext k
      refine and_congr_right fun _ => and_congr_left fun _ => forall₂_congr fun i hi => by rw [ha.val hi]
    unfold IsMaxF at hm ⊢
    rwa [← e]
  have hLa : L = ‖a.gaR‖ := by rw [hL, SameValues_norm ha]
  rw [hδ', hLa] at ho
  obtain ⟨r, h1, h2, h3⟩ := expF_near hA (SameValues_fine ha) hq hqf hm' ho hf
  refine ⟨r, r.val, h1, h2.1, Denotes.coefs ⟨r, rfl, h2.1, fun _ _ => rfl⟩, h2.2, ?_⟩
  have h4 := expF_error hA ha hE hm.1.1 h3
  rw [hδ', hL]
  rwa [SameValues_norm ha] at h4

/-! ### Bounds in numbers -/

theorem one_add_pow_le_sq {δ : ℝ} (h0 : 0 ≤ δ) (K : ℕ) (h : K * δ ≤ 1) : (1 + δ) ^ K ≤ 1 + K * δ + (K * δ) ^ 2 := by
  have h1 : (1 + δ) ^ K ≤ Real.exp (K * δ) := by
    rw [Real.exp_nat_mul]
    exact pow_le_pow_left₀ (by linarith) (by have := Real.add_one_le_exp δ; linarith) K
  have h2 := Real.abs_exp_sub_one_sub_id_le (x := K * δ) (by rw [abs_of_nonneg (by positivity)]; exact h)
  rw [abs_le] at h2
  linarith [h2.2]

theorem inv_pow_1075 : (1 : ℝ) / 2 ^ 1075 ≤ 1 / 2 ^ 200 := by
  apply one_div_le_one_div_of_le (by positivity)
  exact pow_le_pow_right₀ (by norm_num) (by norm_num)

theorem two_pow_le {n : ℕ} (h : n ≤ 20) : (2 : ℝ) ^ n ≤ 2 ^ 20 := pow_le_pow_right₀ (by norm_num) h

theorem small_g (hd : A.dim ≤ 20) : gMul F64 A ≤ (2 ^ A.dim + 1 + 1 / 4) / 2 ^ 53 := by
  have h := two_pow_le hd
  have h1 := one_add_pow_le_sq (δ := 1 / 2 ^ 53) (by positivity) (2 ^ A.dim + 1) (by push_cast; linarith)
  unfold gMul
  rw [u_f64]
  have h2 : ((2 ^ A.dim + 1 : ℕ) * (1 / 2 ^ 53 : ℝ)) ^ 2 ≤ 1 / 4 / 2 ^ 53 := by
    push_cast
    have h3 : ((2 : ℝ) ^ A.dim + 1) ^ 2 ≤ (2 ^ 20 + 1) ^ 2 := by gcongr
    rw [mul_pow]
    nlinarith
  push_cast at h1 h2
  have e : (2 ^ A.dim + 1 + 1 / 4) / 2 ^ 53 = ((2 : ℝ) ^ A.dim + 1) * (1 / 2 ^ 53) + 1 / 4 / 2 ^ 53 := by ring
  rw [e]
  linarith

theorem small_h (hd : A.dim ≤ 20) : Nat.factorial 19 * hMul F64 A ≤ 1 / 2 ^ 90 := by
  have h := two_pow_le hd
  have h1 : (1 + u F64) ^ (2 ^ A.dim) ≤ 2 := by
    have := small_g hd
    unfold gMul at this
    have h2 : (1 + u F64) ^ (2 ^ A.dim) ≤ (1 + u F64) ^ (2 ^ A.dim + 1) :=
      pow_le_pow_right₀ (by have := u_nonneg (F := F64); linarith) (by omega)
    linarith
  have h2 : η F64 ≤ 1 / 2 ^ 200 := by rw [f64_η_eq]; exact inv_pow_1075
  have h3 := η_nonneg (F := F64)
  have h4 := u_nonneg (F := F64)
  have h5 : hMul F64 A ≤ 2 ^ 20 * (1 / 2 ^ 200 * 2 ^ 20 * 2) := by
    unfold hMul
    gcongr
  have h6 : ((Nat.factorial 19 : ℕ) : ℝ) ≤ 2 ^ 57 := by
    have : Nat.factorial 19 ≤ 2 ^ 57 := by decide
    exact_mod_cast this
  calc (Nat.factorial 19 : ℝ) * hMul F64 A ≤ 2 ^ 57 * (2 ^ 20 * (1 / 2 ^ 200 * 2 ^ 20 * 2)) :=
        mul_le_mul h6 h5 hMul_nonneg (by positivity)
    _ ≤ _ := by norm_num

theorem small_delta (hd : A.dim ≤ 20) : expDelta A ≤ (2 ^ A.dim + 2) / 2 ^ 53 := by
  have h1 := small_g hd
  have h2 := small_h hd
  unfold expDelta
  have h3 : (1 : ℝ) / 2 ^ 90 ≤ (3 / 4) / 2 ^ 53 := by norm_num
  have : ((2 : ℝ) ^ A.dim + 2) / 2 ^ 53 = (2 ^ A.dim + 1 + 1 / 4) / 2 ^ 53 + (3 / 4) / 2 ^ 53 := by ring
  linarith

theorem mag2_small (hA : A.WF) (hd : A.dim ≤ 20) {a : MV A S} {a' : MV A S'} {x : Nat → F64} (ha : SameValues a a' x) {L : ℝ}
    (hL : L = ∑ i ∈ range (2 ^ A.dim), |re (x i)|) (hL6 : L ≤ 600) :
    ∃ q, a.mag2 = .ok q ∧ fin q ∧ |re q| ≤ L ^ 2 + 1 / 8 := by
  have hL0 : 0 ≤ L := by rw [hL]; exact sum_nonneg fun _ _ => abs_nonneg _
  obtain ⟨q, e, hq, he, hqe⟩ := C70_mag2 hA ha
  set M := absSum (range (2 ^ A.dim)) x x with hM
  have hML : M ≤ L ^ 2 := by
    rw [hL, hM, pow_two, sum_mul]
    refine sum_le_sum fun i hi => mul_le_mul_of_nonneg_left ?_ (abs_nonneg _)
    exact single_le_sum (f := fun i => |re (x i)|) (fun _ _ => abs_nonneg _) hi
  have hM0 : 0 ≤ M := absSum_nonneg _ _ _
  have hg := small_g hd
  have hh := small_h hd
  have h2 := two_pow_le hd
  have hh' : hMul F64 A ≤ 1 / 2 ^ 90 := by
    refine le_trans ?_ hh
    exact le_mul_of_one_le_left hMul_nonneg (by exact_mod_cast Nat.factorial_pos 19)
  have herr : errB F64 M (nTerms (range (2 ^ A.dim)) x x) ≤ 1 / 16 := by
    refine (errB_mono hM0 hML (n' := 2 ^ A.dim) ?_).trans ?_
    · unfold nTerms
      exact (card_filter_le _ _).trans (by rw [card_range])
    · have e1 : errB F64 (L ^ 2) (2 ^ A.dim) ≤ L ^ 2 * gMul F64 A + hMul F64 A := by
        unfold errB gMul hMul
        have hN1 : (1 : ℝ) ≤ 2 ^ A.dim := one_le_pow₀ (by norm_num)
        have := u_nonneg (F := F64)
        have := η_nonneg (F := F64)
        push_cast
        have := le_mul_of_one_le_left (show 0 ≤ η F64 * 2 ^ A.dim * (1 + u F64) ^ 2 ^ A.dim by positivity) hN1
        linarith
      have e2 : L ^ 2 ≤ 600 ^ 2 := by gcongr
      have e3 : gMul F64 A ≤ (2 ^ 20 + 2) / 2 ^ 53 := hg.trans (by gcongr ?_ / _; linarith)
      have e4 : L ^ 2 * gMul F64 A ≤ 600 ^ 2 * ((2 ^ 20 + 2) / 2 ^ 53) :=
        mul_le_mul e2 e3 gMul_nonneg (by positivity)
      have e5 : (600 : ℝ) ^ 2 * ((2 ^ 20 + 2) / 2 ^ 53) ≤ 1 / 32 := by norm_num
      have e6 : (1 : ℝ) / 2 ^ 90 ≤ 1 / 32 := by norm_num
      linarith
  have hΩ : (2 : ℝ) ^ 100 ≤ Ω F64 := by
    show _ ≤ ((Fmt.f64.maxFin : ℚ) : ℝ)
    have : (2 : ℚ) ^ 100 ≤ Fmt.f64.maxFin := by decide +kernel
    exact_mod_cast this
  obtain ⟨f1, f2⟩ := hqe (by
    have : L ^ 2 ≤ 600 ^ 2 := by gcongr
    have : (600 : ℝ) ^ 2 + 1 / 16 ≤ 2 ^ 100 := by norm_num
    linarith)
  refine ⟨q, hq, f1, ?_⟩
  have hee : |e| ≤ M := by
    rw [mag2_ok hA ha.valid'] at he
    injection he with he
    rw [← he, hM]
    refine (abs_sum_le_sum_abs _ _).trans (sum_le_sum fun i hi => ?_)
    rw [mem_range] at hi
    simp only [Nat.xor_zero]
    rw [ha.val' hi, zsmul_eq_mul, abs_mul, zsmul_eq_mul, abs_mul, abs_mul]
    have b1 : |((bsgn A.sigma A.dim i i : ℤ) : ℝ)| ≤ 1 := by exact_mod_cast bsgn_sigma_abs hA hi hi
    have b2 : |((rsg A.dim i : ℤ) : ℝ)| ≤ 1 := by rcases rsg_unit A.dim i with h | h <;> rw [h] <;> simp
    calc _ ≤ 1 * (1 * |re (x i)| * |re (x i)|) := by gcongr
      _ = _ := by ring
  have := abs_add_le (re q - e) e
  rw [sub_add_cancel] at this
  linarith

theorem f64_nat (n : ℕ) (hn : n ≤ 2 ^ 53) : ∃ y : F64, fin y ∧ re y = n := by
  obtain ⟨h1, h2⟩ := Flt.ofRat_int (f := Fmt.f64) (m := (n : ℤ)) (by
    rw [abs_of_nonneg (by positivity)]
    show (n : ℤ) ≤ 2 ^ 53
    exact_mod_cast hn)
  refine ⟨_, h1, ?_⟩
  show ((Flt.toRat _ : ℚ) : ℝ) = _
  rw [h2]; push_cast; rfl

/-- **C88, accuracy.** Let `n ≤ 20` be the number of generators, and let the absolute values of the `f64` coefficients of `a` add up
to `L ≤ 600`.  Then nothing overflows, and the coefficients of the computed exponential differ from the exact ones by at most
`e^L L^19 / 19!` (truncation of the series) plus `e^(L+2) (L+2) 2^n 2^-44` (rounding), all taken together. -/
theorem C88_accuracy (hA : A.WF) (hd : A.dim ≤ 20) {a : MV A S} {a' : MV A S'} {x : Nat → F64} (ha : SameValues a a' x)
    {E : Nat → ℝ} (hE : a'.IsExp E) {L : ℝ} (hL : L = ∑ i ∈ range (2 ^ A.dim), |re (x i)|) (hL6 : L ≤ 600) {fuel : ℕ}
    (hf : 18 ≤ fuel) :
    ∃ r z, a.expF fuel = some (.ok r) ∧ r.Valid ∧ Coefs (.ok r) z ∧ (∀ i < 2 ^ A.dim, fin (z i)) ∧
    ∑ i ∈ range (2 ^ A.dim), |re (z i) - E i| ≤
      Real.exp L * (L ^ 19 / Nat.factorial 19) + Real.exp (L + 2) * (L + 2) * 2 ^ A.dim / 2 ^ 44 := by
  have hL0 : 0 ≤ L := by rw [hL]; exact sum_nonneg fun _ _ => abs_nonneg _
  have hLa : ‖a.gaR‖ = L := by rw [hL, SameValues_norm ha]
  have hfin := SameValues_fine ha
  obtain ⟨q, hq, hqf, hql⟩ := mag2_small hA hd ha hL hL6
  obtain ⟨M, m, -, -, -, hiff⟩ := expMaxF_ok hfin hq hqf
  have hm : IsMaxF A.dim a.val q m := ⟨(hiff m).mp le_rfl, fun k hk => (hiff k).mpr hk⟩
  have hm1 : 1 ≤ m := hm.1.1
  have hm1R : (1 : ℝ) ≤ m := by exact_mod_cast hm1
  have hm0 : (0 : ℝ) < m := by linarith
  -- m ≤ L + 2
  have hc1 : L ≤ ⌈L⌉₊ := Nat.le_ceil L
  have hc2 : (⌈L⌉₊ : ℝ) < L + 1 := Nat.ceil_lt_add_one hL0
  have hmle : m ≤ ⌈L⌉₊ + 1 := by
    rw [hiff]
    refine ⟨by omega, fun i hi => ?_, ?_⟩
    · have := abs_val_le a hi
      push_cast
      linarith
    · obtain ⟨a1, a2⟩ := Flt.abs_ok hqf
      have a2R : re q.abs = |re q| := by
        show ((q.abs.toRat : ℚ) : ℝ) = _
        rw [a2]; push_cast; rfl
      obtain ⟨s1, s2⟩ := C88_sqrt (x := q.abs) a1 (by rw [a2R]; exact abs_nonneg _)
      obtain ⟨y, y1, y2⟩ := f64_nat (⌈L⌉₊ + 1) (by
        have : (⌈L⌉₊ : ℝ) < 2 ^ 53 - 1 := lt_of_lt_of_le (by linarith : _ < (601 : ℝ)) (by norm_num)
        have : (⌈L⌉₊ + 1 : ℝ) ≤ (2 ^ 53 : ℕ) := by push_cast; linarith
        exact_mod_cast this)
      have s3 := s2 y y1
      rw [a2R, y2] at s3
      have s4 : Real.sqrt |re q| ≤ (⌈L⌉₊ + 1 : ℕ) := by
        rw [Real.sqrt_le_left (by positivity)]
        push_cast
        nlinarith
      by_contra hcon
      push Not at hcon
      push_cast at hcon s3 s4
      rw [abs_of_nonneg (sub_nonneg.mpr s4)] at s3
      have := le_abs_self (re q.abs.sqrt - Real.sqrt |re q|)
      linarith
  have hmR : (m : ℝ) ≤ L + 2 := by
    have : (m : ℝ) ≤ (⌈L⌉₊ + 1 : ℕ) := by exact_mod_cast hmle
    push_cast at this
    linarith
  have hmax : max (m : ℝ) ‖a.gaR‖ ≤ L + 2 := max_le hmR (by rw [hLa]; linarith)
  -- the rounding steps
  have hδ0 := expDelta_nonneg (A := A)
  have hδ := small_delta hd
  have h2 := two_pow_le hd
  have hK : ((58 * m : ℕ) : ℝ) ≤ 58 * (L + 2) := by push_cast; linarith
  have hKδ : ((58 * m : ℕ) : ℝ) * expDelta A ≤ 58 * (L + 2) * ((2 ^ A.dim + 2) / 2 ^ 53) :=
    mul_le_mul hK hδ hδ0 (by positivity)
  have hKδ1 : ((58 * m : ℕ) : ℝ) * expDelta A ≤ 1 := by
    refine hKδ.trans ?_
    have e1 : 58 * (L + 2) ≤ 58 * 602 := by linarith
    have e2 : ((2 : ℝ) ^ A.dim + 2) / 2 ^ 53 ≤ (2 ^ 20 + 2) / 2 ^ 53 := by gcongr
    calc _ ≤ 58 * 602 * ((2 ^ 20 + 2) / 2 ^ 53 : ℝ) := mul_le_mul e1 e2 (by positivity) (by norm_num)
      _ ≤ 1 := by norm_num
  have hpow := one_add_pow_le_sq hδ0 (58 * m) hKδ1
  have hpow2 : (1 + expDelta A) ^ (58 * m) - 1 ≤ 2 * (((58 * m : ℕ) : ℝ) * expDelta A) := by
    have : 0 ≤ ((58 * m : ℕ) : ℝ) * expDelta A := by positivity
    nlinarith
  have hexp : Real.exp (max (m : ℝ) ‖a.gaR‖) ≤ Real.exp (L + 2) := Real.exp_le_exp.mpr hmax
  have ho : Nat.factorial 19 * Real.exp (max m ‖a.gaR‖) * (1 + expDelta A) ^ (58 * m) ≤ Ω F64 := by
    have e1 : Real.exp (L + 2) ≤ 2 ^ 903 := by
      calc Real.exp (L + 2) ≤ Real.exp ((301 : ℕ) * 2) := Real.exp_le_exp.mpr (by push_cast; linarith)
        _ = (Real.exp 2) ^ 301 := Real.exp_nat_mul _ _
        _ ≤ (2 ^ 3) ^ 301 := by
            refine pow_le_pow_left₀ (Real.exp_pos _).le ?_ _
            have := Real.exp_one_lt_d9
            rw [show (2 : ℝ) = 1 + 1 by norm_num, Real.exp_add]
            have h0 := Real.exp_pos 1
            nlinarith
        _ = 2 ^ 903 := by rw [← pow_mul]
    have e2 : ((Nat.factorial 19 : ℕ) : ℝ) ≤ 2 ^ 57 := by
      have : Nat.factorial 19 ≤ 2 ^ 57 := by decide
      exact_mod_cast this
    have e3 : (1 + expDelta A) ^ (58 * m) ≤ 2 ^ 2 := by linarith
    have e4 : (2 : ℝ) ^ 962 ≤ Ω F64 := by
      show _ ≤ ((Fmt.f64.maxFin : ℚ) : ℝ)
      have : (2 : ℚ) ^ 962 ≤ Fmt.f64.maxFin := by decide +kernel
      exact_mod_cast this
    refine le_trans ?_ e4
    calc _ ≤ (2 : ℝ) ^ 57 * 2 ^ 903 * 2 ^ 2 :=
          mul_le_mul (mul_le_mul e2 (hexp.trans e1) (Real.exp_pos _).le (by positivity)) e3 (by positivity) (by positivity)
      _ = 2 ^ 962 := by rw [← pow_add, ← pow_add]
  obtain ⟨r, h1, h3, h4⟩ := expF_near hA hfin hq hqf hm ho hf
  refine ⟨r, r.val, h1, h3.1, Denotes.coefs ⟨r, rfl, h3.1, fun _ _ => rfl⟩, h3.2, ?_⟩
  have h5 := expF_error hA ha hE hm1 h4
  rw [← hL, hLa] at h5
  refine h5.trans (add_le_add ?_ ?_)
  · rw [mul_comm _ (Real.exp L)]
    refine mul_le_mul_of_nonneg_left ?_ (Real.exp_pos _).le
    rw [← mul_div_assoc]
    refine div_le_div_of_nonneg_right ?_ (by positivity)
    rw [div_pow, mul_div_assoc', div_le_iff₀ (by positivity), mul_comm]
    refine mul_le_mul_of_nonneg_left ?_ (by positivity)
    exact le_self_pow₀ hm1R (by norm_num)
  · rw [hLa] at hexp
    have e3 : ((2 : ℝ) ^ A.dim + 2) ≤ 3 * 2 ^ A.dim := by
      have : (1 : ℝ) ≤ 2 ^ A.dim := one_le_pow₀ (by norm_num)
      linarith
    calc Real.exp (max (m : ℝ) L) * ((1 + expDelta A) ^ (58 * m) - 1)
        ≤ Real.exp (L + 2) * (2 * (58 * (L + 2) * ((2 ^ A.dim + 2) / 2 ^ 53))) := by
          refine mul_le_mul hexp (by linarith) ?_ (Real.exp_pos _).le
          have : (1 : ℝ) ≤ (1 + expDelta A) ^ (58 * m) := one_le_pow₀ (by linarith)
          linarith
      _ ≤ Real.exp (L + 2) * (2 * (58 * (L + 2) * (3 * 2 ^ A.dim / 2 ^ 53))) := by
          have := Real.exp_pos (L + 2)
          gcongr
      _ ≤ _ := by
          have h6 : 0 ≤ Real.exp (L + 2) * (L + 2) * 2 ^ A.dim := by have := Real.exp_pos (L + 2); positivity
          have : Real.exp (L + 2) * (2 * (58 * (L + 2) * (3 * 2 ^ A.dim / 2 ^ 53))) =
            (Real.exp (L + 2) * (L + 2) * 2 ^ A.dim) * (348 / 2 ^ 53) := by ring
          rw [this, div_eq_mul_inv _ ((2 : ℝ) ^ 44)]
          exact mul_le_mul_of_nonneg_left (by norm_num) h6

end

/-! ### Examples

Eight coefficients 0.1, …, 0.8 in the algebra of signature (+,+,+); they add up to 3.6. -/

namespace Ex

theorem xF_sum : ∑ i ∈ range (2 ^ E.dim), |re (xF i)| ≤ 37 / 10 := by
  have h : ∑ i ∈ range 8, |(xF i).toRat| ≤ 37 / 10 := by decide +kernel
  have := (Rat.cast_le (K := ℝ)).mpr h
  push_cast at this
  exact this

/-- `mag2` of this multivector is 2.04 but for rounding errors. -/
def qF : F64 := Flt.ofRat (2296835809958953 / 1125899906842624)

theorem qF_mag2 : (dense64 xF).mag2 = .ok qF := by decide +kernel

/-- `max_c` is 2, because the root of `mag2` is. -/
theorem maxF : IsMaxF E.dim xF qF 2 := by
  have h : (∀ i < 8, |(xF i).toRat| ≤ 1) ∧ 1 < qF.abs.sqrt.toRat ∧ qF.abs.sqrt.toRat ≤ 2 := by decide +kernel
  refine ⟨⟨by norm_num, fun i hi => ?_, ?_⟩, fun k hk => ?_⟩
  · have := (Rat.cast_le (K := ℝ)).mpr (h.1 i hi)
    push_cast at this
    exact this.trans (by norm_num)
  · have := (Rat.cast_le (K := ℝ)).mpr h.2.2
    push_cast at this ⊢
    exact this
  · have h1 := (Rat.cast_lt (K := ℝ)).mpr h.2.1
    push_cast at h1
    have h2 : (1 : ℝ) < k := lt_of_lt_of_le h1 hk.2.2
    have : 1 < k := by exact_mod_cast h2
    exact this

example := C88_sqrt (x := Ex.qF) (show Ex.qF ≠ .nonFinite by decide +kernel) (by
  show (0 : ℝ) ≤ ((Ex.qF.toRat : ℚ) : ℝ)
  have : 0 ≤ Ex.qF.toRat := by decide +kernel
  exact_mod_cast this)

/-- The root is not exact. -/
example : qF.sqrt.toRat ^ 2 ≠ qF.toRat := by decide +kernel

example := C88_iterations (dense64 xF)

theorem isExpF : ∃ E, (denseR xF).IsExp E :=
  ⟨fun i => (NormedSpace.exp (denseR xF).ga).fn i, (isExp_iff E_wf sameF.valid').mpr fun _ _ => rfl⟩

example : ∃ r, (dense64 xF).expF 18 = some (.ok r) := by
  obtain ⟨E', hE⟩ := isExpF
  obtain ⟨r, -, h, -⟩ := C88_accuracy E_wf (by decide) sameF hE rfl (xF_sum.trans (by norm_num)) le_rfl
  exact ⟨r, h⟩

example : ∃ r, (dense64 xF).expF 18 = some (.ok r) := by
  obtain ⟨E', hE⟩ := isExpF
  have hδ : expDelta E ≤ 1 / 2 ^ 40 := (small_delta (by decide)).trans (by rw [show E.dim = 3 from rfl]; norm_num)
  obtain ⟨r, -, h, -⟩ := C88_error E_wf sameF hE qF_mag2 (show qF ≠ .nonFinite by decide +kernel) maxF rfl rfl (by
    have e1 : Real.exp (max (2 : ℕ) (∑ i ∈ range (2 ^ E.dim), |re (xF i)|)) ≤ 3 ^ 4 := by
      refine (Real.exp_le_exp.mpr (max_le (by norm_num) (xF_sum.trans (by norm_num)) : _ ≤ ((4 : ℕ) : ℝ) * 1)).trans ?_
      rw [Real.exp_nat_mul]
      exact pow_le_pow_left₀ (Real.exp_pos _).le (Real.exp_one_lt_d9.le.trans (by norm_num)) _
    have e2 : (1 + expDelta E) ^ (58 * 2) ≤ 2 ^ 116 := pow_le_pow_left₀ (by have := expDelta_nonneg (A := E); linarith) (by linarith) _
    have e4 : (2 : ℝ) ^ 200 ≤ Ω F64 := by
      show _ ≤ ((Fmt.f64.maxFin : ℚ) : ℝ)
      have : (2 : ℚ) ^ 200 ≤ Fmt.f64.maxFin := by decide +kernel
      exact_mod_cast this
    have e3 : ((Nat.factorial 19 : ℕ) : ℝ) ≤ 2 ^ 57 := by
      have : Nat.factorial 19 ≤ 2 ^ 57 := by decide
      exact_mod_cast this
    refine le_trans ?_ e4
    have e5 : (1 + 1 / 2 ^ 53) ^ (2 ^ E.dim + 1) - 1 +
      Nat.factorial 19 * (2 ^ E.dim * (1 / 2 ^ 1075 * 2 ^ E.dim * (1 + 1 / 2 ^ 53) ^ (2 ^ E.dim))) = expDelta E := by
      rw [expDelta, gMul, hMul, u_f64, f64_η_eq]
    rw [e5]
    have h0 := expDelta_nonneg (A := E)
    calc _ ≤ (2 : ℝ) ^ 57 * 3 ^ 4 * 2 ^ 116 :=
          mul_le_mul (mul_le_mul e3 e1 (Real.exp_pos _).le (by positivity)) e2 (by positivity) (by positivity)
      _ ≤ _ := by norm_num) le_rfl
  exact ⟨r, h⟩

end Ex

end TClifford
