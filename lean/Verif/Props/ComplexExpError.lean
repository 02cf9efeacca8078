import Verif.Proofs.ComplexExpNear
import Verif.Props.ComplexExp
import Verif.Proofs.Debug
/-
Rounding errors of `exp` with `Complex64` coefficients: C88.
-/

set_option linter.unusedSectionVars false

namespace TClifford

open MV Finset FloatModel

section
variable {A : ClAlg} {S : Type} [CoeffStorage S (Cx F64)] [LawfulStorage S (Cx F64)] {S' : Type} [CoeffStorage S' ℂ] [LawfulStorage S' ℂ]
variable {a : MV A S} {a' : MV A S'} {x : Nat → Cx F64}

/-- `mag2`. -/
theorem cmag2_small (hA : A.WF) (hd : A.dim ≤ 32) (ha : SameValuesC a a' x) {N : ℝ} (hN : N = normC A.dim x) (hN6 : N ≤ 600) :
    ∃ m : Cx F64, a.mag2 = .ok m ∧ m.Fin ∧ Cx.n1 m.val ≤ N ^ 2 + N / 2 + 1 / 2 := by
  have hN0 : 0 ≤ N := by rw [hN]; exact normC_nonneg _ _
  obtain ⟨z, e, h1, -, h3⟩ := mag2_nearC hA four_le_M64 u64_pos ha rfl
  set B := absSumC A.dim x x + 2 ^ A.dim * (4 * η F64 / u F64) with hB
  have hs : absSumC A.dim x x ≤ N * N := by rw [hN]; exact absSumC_le _ _ _
  have hu0 : (0 : ℝ) ≤ 4 * η F64 / u F64 := Cx.uflow_nonneg (F := F64)
  have hp : (2 : ℝ) ^ A.dim ≤ 2 ^ 32 := pow_le_pow_right₀ (by norm_num) hd
  have hfl : (2 : ℝ) ^ A.dim * (4 * η F64 / u F64) ≤ 1 / 8 := by
    have h5 : (4 * η F64 / u F64 : ℝ) ≤ 1 / 2 ^ 900 := uflow64_le
    have h6 : (1 : ℝ) / 2 ^ 900 ≤ 1 / 2 ^ 40 := one_div_le_one_div_of_le (by positivity) (pow_le_pow_right₀ (by norm_num) (by norm_num))
    calc _ ≤ (2 : ℝ) ^ 32 * (1 / 2 ^ 40) := mul_le_mul hp (h5.trans h6) hu0 (by positivity)
      _ ≤ 1 / 8 := by norm_num
  have hN2 : N * N ≤ 600 * N := mul_le_mul_of_nonneg_right hN6 hN0
  have hB1 : B ≤ N * N + 1 / 8 := add_le_add hs hfl
  have hB0 : 0 ≤ B := add_nonneg (absSumC_nonneg _ _ _) (by positivity)
  have hL : 2 ^ A.dim + 2 ≤ 2 ^ 33 := by
    have : 2 ^ A.dim ≤ 2 ^ 32 := Nat.pow_le_pow_right (by norm_num) hd
    omega
  have h20 : (2 : ℝ) ^ 20 ≤ 2 ^ 1000 := pow_le_pow_right₀ (by norm_num) (by norm_num)
  have hn := h3 (show nearQ.ok (2 ^ A.dim + 2) B from okF (by omega) (le_trans (by norm_num; linarith) h20))
  refine ⟨z, h1, hn.1, ?_⟩
  have hsz := hn.size
  have hLr : ((2 ^ A.dim + 2 : ℕ) : ℝ) * u F64 ≤ 1 / 2 ^ 20 := by
    have : ((2 ^ A.dim + 2 : ℕ) : ℝ) ≤ (2 ^ 33 : ℕ) := by exact_mod_cast hL
    rw [C69_f64.1]
    push_cast at this ⊢
    linarith
  have hpw := pow_sub_one_le (u_nonneg (F := F64)) (L := 2 ^ A.dim + 2) (by linarith)
  have h4 : (1 + u F64) ^ (2 ^ A.dim + 2) * B ≤ (1 + 3 / 2 * (1 / 2 ^ 20)) * B := mul_le_mul_of_nonneg_right (by linarith) hB0
  have h5 : 3 / 2 * (1 / 2 ^ 20) * B ≤ 3 / 2 * (1 / 2 ^ 20) * (600 * N + 1 / 8) := mul_le_mul_of_nonneg_left (by linarith) (by norm_num)
  rw [pow_two]
  linarith

/-- `max_c`. -/
theorem expMaxFC_ok {hyp : F64 → F64 → F64} (hh : HypotOk hyp) (hA : A.WF) (hd : A.dim ≤ 32) (ha : SameValuesC a a' x) {N : ℝ}
    (hN : N = normC A.dim x) (hN6 : N ≤ 600) : ∃ M m, a.expMaxFC hyp = .ok M ∧ fin M ∧ re M = (m : ℕ) ∧ 1 ≤ m ∧ m ≤ ⌈N⌉₊ + 1 := by
  have hN0 : 0 ≤ N := by rw [hN]; exact normC_nonneg _ _
  obtain ⟨m2, h2, hm2, hm2'⟩ := cmag2_small hA hd ha hN hN6
  have hc1 : N ≤ ⌈N⌉₊ := Nat.le_ceil N
  have hc2 : (⌈N⌉₊ : ℝ) < N + 1 := Nat.ceil_lt_add_one hN0
  set B : ℕ := ⌈N⌉₊ + 1 with hB
  have hBN : N + 1 ≤ B := by rw [hB]; push_cast; linarith
  have h500 : (2 : ℝ) ^ 20 ≤ 2 ^ 500 := pow_le_pow_right₀ (by norm_num) (by norm_num)
  -- entries
  have hent : ∀ p ∈ a.coeffEnumerate, fin (hyp p.2.re p.2.im) ∧ (hyp p.2.re p.2.im).toRat ≤ (B : ℚ) := by
    intro p hp
    obtain ⟨hi, e⟩ := ha.valid.enum.mem p hp
    rw [e, ha.val hi]
    have hs' : Cx.n1 (x p.1).val ≤ N := by
      rw [hN]
      exact single_le_sum (f := fun i => |re (x i).re| + |re (x i).im|) (fun _ _ => by positivity) (mem_range.mpr hi)
    obtain ⟨g1, g2, g3⟩ := hh.le (ha.finite _ hi) hs' (le_trans (by norm_num; linarith) h500)
    refine ⟨g1, ?_⟩
    have : re (hyp (x p.1).re (x p.1).im) ≤ B := by linarith
    change (((hyp _ _).toRat : ℚ) : ℝ) ≤ B at this
    exact_mod_cast this
  obtain ⟨f1, f2⟩ := foldl_fmax' (fun p : Nat × Cx F64 => hyp p.2.re p.2.im) a.coeffEnumerate (fun z hz => (hent z hz).1) 1 fin_one
  -- mag2
  have hNN : N ^ 2 ≤ 600 ^ 2 := pow_le_pow_left₀ hN0 hN6 2
  obtain ⟨g1, g2, g3⟩ := hh.le hm2 hm2' (le_trans (by norm_num; linarith) h500)
  have g2' : 0 ≤ (hyp m2.re m2.im).toRat := by
    change (0 : ℝ) ≤ (((hyp m2.re m2.im).toRat : ℚ) : ℝ) at g2
    exact_mod_cast g2
  obtain ⟨s1, -⟩ := Flt.sqrt_ok g1 g2'
  have s4 : re (hyp m2.re m2.im).sqrt ≤ B := by
    obtain ⟨t1, t2⟩ := C88_sqrt g1 g2
    obtain ⟨y, y1, y2⟩ := f64_nat B (by
      have : (⌈N⌉₊ : ℝ) < 2 ^ 53 - 1 := lt_of_lt_of_le (by linarith : _ < (601 : ℝ)) (by norm_num)
      have : (⌈N⌉₊ + 1 : ℝ) ≤ (2 ^ 53 : ℕ) := by push_cast; linarith
      rw [hB]
      exact_mod_cast this)
    have s3 := t2 y y1
    rw [y2] at s3
    have s4 : Real.sqrt (re (hyp m2.re m2.im)) ≤ B := by
      rw [Real.sqrt_le_left (by positivity)]
      nlinarith
    by_contra hcon
    push Not at hcon
    rw [abs_of_nonneg (sub_nonneg.mpr s4)] at s3
    have := le_abs_self (re (hyp m2.re m2.im).sqrt - Real.sqrt (re (hyp m2.re m2.im)))
    linarith
  obtain ⟨m1, m3⟩ := Flt.fmax_ok f1 s1
  obtain ⟨c1, c2⟩ := Flt.ceil_ok m1
  have e1 : (1 : F64).toRat = 1 := by
    have : re (1 : F64) = 1 := re_one
    have h : (((1 : F64).toRat : ℚ) : ℝ) = ((1 : ℚ) : ℝ) := by rw [Rat.cast_one]; exact this
    exact_mod_cast h
  set q := max (a.coeffEnumerate.foldl (fun m p => Flt.fmax (hyp p.2.re p.2.im) m) (1 : F64)).toRat (hyp m2.re m2.im).sqrt.toRat with hq
  have hq1 : 1 ≤ q := by
    refine le_max_of_le_left ?_
    have := ((f2 _).mp le_rfl).1
    rwa [e1] at this
  have hqB : q ≤ B := by
    refine max_le ((f2 _).mpr ⟨?_, fun z hz => (hent z hz).2⟩) ?_
    · rw [e1, hB]; push_cast; linarith [Nat.cast_nonneg (α := ℚ) ⌈N⌉₊]
    · change (((hyp m2.re m2.im).sqrt.toRat : ℚ) : ℝ) ≤ B at s4
      exact_mod_cast s4
  refine ⟨_, ⌈q⌉.toNat, ?_, c1, ?_, ?_, ?_⟩
  · unfold MV.expMaxFC
    rw [h2]
    rfl
  · show ((Flt.toRat _ : ℚ) : ℝ) = _
    rw [c2, m3]
    have h0 : 0 ≤ ⌈q⌉ := Int.ceil_nonneg (by linarith)
    have := Int.toNat_of_nonneg h0
    have h3 : ((⌈q⌉.toNat : ℤ) : ℝ) = ((⌈q⌉ : ℤ) : ℝ) := by rw [this]
    push_cast at h3 ⊢
    exact h3.symm
  · have : (0 : ℤ) < ⌈q⌉ := Int.ceil_pos.mpr (by linarith)
    omega
  · rw [Int.toNat_le, Int.ceil_le]
    exact_mod_cast hqB

/-- The quotient `1.0 / max_c`. -/
theorem recip_near {M : F64} {m : ℕ} (hM : fin M) (hMm : re M = m) (h1 : 1 ≤ m) (h2 : m ≤ 602) :
    fin (1 / M) ∧ |re (1 / M) - (m : ℝ)⁻¹| ≤ ((1 + u F64) ^ 2 - 1) * (m : ℝ)⁻¹ := by
  have h1R : (1 : ℝ) ≤ m := by exact_mod_cast h1
  have h2R : (m : ℝ) ≤ 602 := by exact_mod_cast h2
  have hi : (m : ℝ)⁻¹ ≤ 1 := inv_le_one_of_one_le₀ h1R
  have hi0 : (602 : ℝ)⁻¹ ≤ (m : ℝ)⁻¹ := inv_anti₀ (by linarith) h2R
  have e : re (1 : F64) / re M = (m : ℝ)⁻¹ := by rw [re_one, hMm, one_div]
  have hΩ : (1 : ℝ) ≤ Ω F64 := by
    rw [C69_f64.2.2.2.1]
    exact one_le_mul_of_one_le_of_one_le (by norm_num) (one_le_pow₀ (by norm_num))
  obtain ⟨k1, k2⟩ := div_ok (x := (1 : F64)) fin_one hM (by rw [hMm]; linarith) (by
    rw [e, abs_of_nonneg (by positivity)]; exact hi.trans hΩ)
  rw [e, abs_of_nonneg (show (0 : ℝ) ≤ (m : ℝ)⁻¹ by positivity)] at k2
  refine ⟨k1, k2.trans ?_⟩
  have hη : η F64 ≤ 1 / 2 ^ 100 := by
    rw [C69_f64.2.1]
    exact one_div_le_one_div_of_le (by positivity) (pow_le_pow_right₀ (by norm_num) (by norm_num))
  rw [C69_f64.1]
  norm_num at hη hi0 ⊢
  linarith

/-- The input represents its value. -/
theorem NearG.of_same (hd : A.dim ≤ 62) (ha : SameValuesC a a' x) {N : ℝ} (hN : N = normC A.dim x) : NearG 0 a a'.ga N := by
  obtain ⟨a'', v1, v2⟩ := exists_ga (A := A) (S := ArrayStorage ℂ) (T := ℂ) (show A.dim ≤ 63 by omega) a'.ga
  have hv : ∀ k < 2 ^ A.dim, a''.val k = (x k).val := fun k hk => by rw [← ga_val hk, v2, ga_val hk, ha.val' hk]
  refine ⟨a'', ⟨ha.valid, v1, fun k => Cx.n1 (x k).val, hN ▸ le_rfl, fun k hk => ?_⟩, v2⟩
  rw [ha.val hk, hv k hk]
  exact ⟨ha.finite k hk, le_rfl, by rw [sub_self, Cx.n1_zero]; simp⟩

theorem SameValuesC_norm (ha : SameValuesC a a' x) : ‖a'.ga‖ ≤ normC A.dim x := by
  rw [GA.norm_def]
  refine sum_le_sum fun i hi => ?_
  rw [ga_val (mem_range.mp hi), ha.val' (mem_range.mp hi)]
  exact Complex.norm_le_abs_re_add_abs_im _

/-- **C88.** Error of `exp` with `Complex64` coefficients, for the code as it is, rounding after every operation: if the sum `N` of
the absolute values of all real and imaginary parts is at most 600, `exp` succeeds, and every coefficient of the result is finite and
within `e^N N^19 / 19! + (19·2^n + 113) (N + 2) e^(N+2) / 2^52` of that of the exponential, in dimension `n ≤ 32`.  Asked of `hypot` is
that it does not exceed the exact value by more than one part in `2^50`. -/
theorem C88_complex_accuracy {hyp : F64 → F64 → F64} (hh : HypotOk hyp) (hA : A.WF) (hd : A.dim ≤ 32) (ha : SameValuesC a a' x)
    {E : Nat → ℂ} (hE : a'.IsExp E) {N : ℝ} (hN : N = ∑ i ∈ range (2 ^ A.dim), (|re (x i).re| + |re (x i).im|)) (hN6 : N ≤ 600) {K : ℕ}
    (hK : K = 19 * 2 ^ A.dim + 113) {fuel : ℕ} (hf : 18 ≤ fuel) :
    ∃ (s : MV A S) (z : Nat → Cx F64), a.expFC hyp fuel = some (.ok s) ∧ Coefs (.ok s : Res (MV A S)) z ∧
      ∀ i < 2 ^ A.dim, fin (z i).re ∧ fin (z i).im ∧
        ‖(⟨re (z i).re, re (z i).im⟩ : ℂ) - E i‖ ≤ Real.exp N * (N ^ 19 / Nat.factorial 19) + K * (N + 2) * Real.exp (N + 2) / 2 ^ 52 := by
  have hN : N = normC A.dim x := hN
  have hN0 : 0 ≤ N := by rw [hN]; exact normC_nonneg _ _
  have hNa : ‖a'.ga‖ ≤ N := by rw [hN]; exact SameValuesC_norm ha
  have hp32 : 2 ^ A.dim ≤ 2 ^ 32 := Nat.pow_le_pow_right (by norm_num) hd
  have hmG : mulG A = 2 ^ A.dim + 2 := rfl
  have hKb : K ≤ 2 ^ 37 := by omega
  -- underflow
  have hE0 := uflowG_nonneg (A := A)
  obtain ⟨ε, hε⟩ : ∃ ε : ℝ, ε = 1 / 2 ^ 40 := ⟨_, rfl⟩
  have hUε : uflowG A ≤ ε := by
    have h1 : (4 : ℝ) ^ A.dim ≤ 4 ^ 32 := pow_le_pow_right₀ (by norm_num) hd
    have h2 : Cx.uflow F64 ≤ 1 / 2 ^ 900 := uflow64_le
    have h3 : (1 : ℝ) / 2 ^ 900 ≤ 1 / 2 ^ 110 := one_div_le_one_div_of_le (by positivity) (pow_le_pow_right₀ (by norm_num) (by norm_num))
    calc _ ≤ (4 : ℝ) ^ 32 * (1 / 2 ^ 110) := mul_le_mul h1 (h2.trans h3) (Cx.uflow_nonneg (F := F64)) (by positivity)
      _ ≤ _ := by rw [hε]; norm_num
  set U := uflowG A with hU
  -- max_c
  obtain ⟨M, m, M1, M2, M3, hm1, hmB⟩ := expMaxFC_ok hh hA hd ha hN hN6
  have hm1R : (1 : ℝ) ≤ m := by exact_mod_cast hm1
  have hm0 : (0 : ℝ) < m := by linarith
  have hmR : (m : ℝ) ≤ N + 2 := by
    have hc2 : (⌈N⌉₊ : ℝ) < N + 1 := Nat.ceil_lt_add_one hN0
    have : (m : ℝ) ≤ (⌈N⌉₊ + 1 : ℕ) := by exact_mod_cast hmB
    push_cast at this
    linarith
  have hm602 : m ≤ 602 := by
    have : (m : ℝ) ≤ (602 : ℕ) := by push_cast; linarith
    exact_mod_cast this
  -- the normalized multivector
  set s0 : ℝ := max 1 (N / m) with hs0
  have hs1 : 1 ≤ s0 := le_max_left _ _
  have hsm : s0 * m = max (m : ℝ) N := by
    rw [hs0, max_mul_of_nonneg _ _ hm0.le, one_mul, div_mul_cancel₀ _ hm0.ne']
  have hs600 : s0 ≤ 600 := max_le (by norm_num) ((div_le_self hN0 hm1R).trans hN6)
  have h1000 : (2 : ℝ) ^ 10 ≤ 2 ^ 1000 := pow_le_pow_right₀ (by norm_num) (by norm_num)
  have hNm : (m : ℝ)⁻¹ * N = N / m := by rw [inv_mul_eq_div]
  obtain ⟨q1, q2⟩ := recip_near M2 M3 hm1 hm602
  obtain ⟨n, n1, n2⟩ := (NearG.of_same (by omega) ha hN).smulReal (by positivity) q1 q2 (okF (by omega) (by
    rw [hNm]
    exact ((le_max_right 1 (N / m)).trans hs600).trans (le_trans (by norm_num) h1000)))
  set y : GA A.sigma A.dim ℂ := (((m : ℝ)⁻¹ : ℝ) : ℂ) • a'.ga with hy
  set σ := s0 + 2 * U with hσ
  have n3 : NearG 3 n y (σ - U) := n2.mono le_rfl (by
    rw [hNm, hσ]
    have := le_max_right 1 (N / m)
    linarith)
  have hε1 : ε ≤ 1 / 2 ^ 20 := by rw [hε]; norm_num
  have hσ601 : σ ≤ 601 := by rw [hσ]; linarith
  have hσ1 : 1 + U ≤ σ := by rw [hσ]; linarith
  have h999 : (2 : ℝ) ^ 903 ≤ 2 ^ 999 := pow_le_pow_right₀ (by norm_num) (by norm_num)
  have hσ19 : σ ^ 19 ≤ 2 ^ 999 := by
    calc σ ^ 19 ≤ 601 ^ 19 := pow_le_pow_left₀ (by linarith) hσ601 19
      _ ≤ 2 ^ 200 := by norm_num
      _ ≤ _ := pow_le_pow_right₀ (by norm_num) (by norm_num)
  -- the loop
  obtain ⟨o, o1, o2⟩ := NearG.one (A := A) (S := S) (by omega) ha.valid.supp
  have hone : NearG (0 * (3 + mulG A + 1) + 3) o (∑ j ∈ range (0 + 1), (((j.factorial : ℝ)⁻¹ : ℝ) : ℂ) • y ^ j)
      (∑ j ∈ range (0 + 1), σ ^ j / (j.factorial : ℝ) + ((0 : ℕ) : ℝ) * uflowG A) := by
    have := o2.mono (l' := 3) (by omega) le_rfl
    simpa using this
  obtain ⟨t, t1, t2⟩ := taylorFC_near hA hσ1 n3 (by omega) hσ19 ((exp_big (by linarith)).trans h999) (by linarith) 18 (k := 0) rfl
    hone (p := n) (by simpa using n3) fuel hf
  -- the power
  have hexp0 := Real.exp_pos σ
  have hexp1 : 1 ≤ Real.exp σ := Real.one_le_exp (by linarith)
  have hbase : Real.exp σ + 18 * U + U ≤ Real.exp (σ + 19 * U) := by
    rw [Real.exp_add σ (19 * U)]
    have e1 := mul_le_mul_of_nonneg_left (Real.add_one_le_exp (19 * U)) hexp0.le
    have e2 := mul_le_mul_of_nonneg_right hexp1 (show 0 ≤ 19 * U by positivity)
    linarith
  have hmax : max (m : ℝ) N ≤ N + 2 := max_le hmR (by linarith)
  have hmU : (m : ℝ) * U ≤ 602 * ε := mul_le_mul (by exact_mod_cast hm602) hUε hE0 (by norm_num)
  have hbig : (Real.exp σ + 18 * U + U) ^ m ≤ Real.exp (N + 2 + 21 * (602 * ε)) := by
    refine (pow_le_pow_left₀ (by positivity) hbase m).trans ?_
    rw [← Real.exp_nat_mul]
    refine Real.exp_le_exp.mpr ?_
    have : (m : ℝ) * (σ + 19 * U) = s0 * m + 21 * (m * U) := by rw [hσ]; ring
    rw [this, hsm]
    linarith
  have hbig2 : Real.exp (N + 2 + 21 * (602 * ε)) ≤ Real.exp (N + 2) * (1 + 1 / 100) := by
    rw [Real.exp_add]
    refine mul_le_mul_of_nonneg_left ?_ (Real.exp_pos _).le
    have h5 : (0 : ℝ) ≤ 21 * (602 * ε) := by rw [hε]; positivity
    have h6 := Real.abs_exp_sub_one_le (x := 21 * (602 * ε)) (by rw [abs_of_nonneg h5, hε]; norm_num)
    rw [abs_of_nonneg h5, abs_le] at h6
    have : 2 * (21 * (602 * ε)) ≤ 1 / 100 := by rw [hε]; norm_num
    linarith [h6.2]
  have hE2 : Real.exp (N + 2) ≤ 2 ^ 903 := exp_big (by linarith)
  have hE21 : 1 ≤ Real.exp (N + 2) := Real.one_le_exp (by linarith)
  have h990 : (4 : ℝ) * (2 * 2 ^ 903) ≤ 2 ^ 1000 := by
    rw [show (4 : ℝ) * (2 * 2 ^ 903) = 2 ^ 906 by rw [show (906 : ℕ) = 3 + 903 from rfl, pow_add]; ring]
    exact pow_le_pow_right₀ (by norm_num) (by norm_num)
  obtain ⟨W, hW⟩ : ∃ W : ℝ, W = 2 ^ 903 := ⟨_, rfl⟩
  rw [← hW] at hE2 h990
  set L1 := 18 * (3 + mulG A + 1) + 3 with hL1
  have hlev : m * L1 + (m - 1) * mulG A ≤ m * K := by
    have e1 : (m - 1) * mulG A ≤ m * mulG A := Nat.mul_le_mul_right _ (by omega)
    have e3 : m * L1 + m * mulG A = m * K := by
      rw [← Nat.mul_add]
      congr 1
      rw [hK, hL1, hmG]
      ring
    omega
  have hmK : m * K ≤ 602 * 2 ^ 37 := Nat.mul_le_mul hm602 hKb
  obtain ⟨w, w1, w2⟩ := t2.pow hA (by linarith) (n := m) (by omega) (by omega)
    (le_trans (show (Real.exp σ + 18 * U + U) ^ m ≤ 4 * (2 * W) by linarith) h990)
  set L2 := m * L1 + (m - 1) * mulG A with hL2
  set B := (Real.exp σ + 18 * U + U) ^ m - U with hB
  set T := ∑ j ∈ range 19, (((j.factorial : ℝ)⁻¹ : ℝ) : ℂ) • y ^ j with hT
  have hBle : B ≤ Real.exp (N + 2) * (1 + 1 / 50) := by linarith
  refine ⟨w, w.val, ?_, (Denotes.coefs ⟨w, rfl, w2.valid, fun _ _ => rfl⟩), fun i hi => ?_⟩
  · unfold MV.expFC
    have hus : M.toUsize = .ok m := by
      obtain ⟨M, rfl⟩ := Flt.cases_fin M2
      have hMm : M.1 = (m : ℕ) := by
        change ((M.1 : ℚ) : ℝ) = _ at M3
        exact_mod_cast M3
      show Except.ok (min ⌊M.1⌋.toNat (2 ^ 64 - 1)) = _
      rw [hMm, show ((m : ℕ) : ℚ) = ((m : ℤ) : ℚ) by push_cast; rfl, Int.floor_intCast, Int.toNat_natCast,
        min_eq_left (by omega)]
    rw [o1, ok_bind', M1, ok_bind', hus, ok_bind', n1, ok_bind']
    show (MV.taylorFC n fuel (expCoefF 0) (0 + 1) o n).map _ = _
    rw [t1]
    show some (t.pow m) = _
    rw [w1]
  · have hun := w2.entry hi
    refine ⟨hun.1.1, hun.1.2, ?_⟩
    have hre : ‖(w.val i).val - (T ^ m).fn i‖ ≤ _ := (Complex.norm_le_abs_re_add_abs_im _).trans hun.2.2
    have hlevR : (L2 : ℝ) ≤ (N + 2) * K := by
      have : (L2 : ℝ) ≤ (m * K : ℕ) := by exact_mod_cast hlev
      push_cast at this ⊢
      exact this.trans (mul_le_mul_of_nonneg_right hmR (by positivity))
    have hpw := pow_sub_one_le (u_nonneg (F := F64)) (L := L2) (by
      have : (L2 : ℝ) ≤ 602 * 2 ^ 37 := by exact_mod_cast hlev.trans hmK
      rw [C69_f64.1]
      linarith)
    rw [C69_f64.1] at hpw hre
    have hround : ((1 + 1 / 2 ^ 53) ^ L2 - 1) * B ≤ K * (N + 2) * Real.exp (N + 2) / 2 ^ 52 := by
      have g0 : (0 : ℝ) ≤ (1 + 1 / 2 ^ 53) ^ L2 - 1 := by
        have : (1 : ℝ) ≤ (1 + 1 / 2 ^ 53) ^ L2 := one_le_pow₀ (by norm_num)
        linarith
      have g1 := mul_le_mul_of_nonneg_left hBle g0
      have g2 : (1 + 1 / 2 ^ 53) ^ L2 - 1 ≤ 3 / 2 * ((N + 2) * K * (1 / 2 ^ 53)) :=
        hpw.trans (mul_le_mul_of_nonneg_left (mul_le_mul_of_nonneg_right hlevR (by norm_num)) (by norm_num))
      have g3 := mul_le_mul_of_nonneg_right g2 (show 0 ≤ Real.exp (N + 2) * (1 + 1 / 50) by positivity)
      refine (g1.trans g3).trans ?_
      have g4 : 0 ≤ K * (N + 2) * Real.exp (N + 2) := by positivity
      have : 3 / 2 * ((N + 2) * K * (1 / 2 ^ 53)) * (Real.exp (N + 2) * (1 + 1 / 50)) =
        K * (N + 2) * Real.exp (N + 2) / 2 ^ 52 * (153 / 200) := by ring
      rw [this]
      exact mul_le_of_le_one_right (by positivity) (by norm_num)
    have htr := exp_sub_taylor_pow_le (𝕜 := ℂ) a'.ga hm1 19
    have hTe : (∑ j ∈ range 19, ((j.factorial : ℂ)⁻¹) • ((m : ℂ)⁻¹ • a'.ga) ^ j) = T := by
      rw [hT, hy]
      push_cast
      rfl
    rw [hTe, norm_sub_rev] at htr
    have hcoef : ‖(T ^ m).fn i - E i‖ ≤ ‖T ^ m - NormedSpace.exp a'.ga‖ := by
      rw [(isExp_iff hA ha.valid').mp hE i hi, GA.norm_def]
      refine le_trans (le_of_eq ?_) (single_le_sum (f := fun i => ‖(T ^ m - NormedSpace.exp a'.ga).fn i‖) (fun _ _ => norm_nonneg _) (mem_range.mpr hi))
      congr 1
      exact (map_sub (GA.coef i) _ _).symm
    have htr1 : m * ((‖a'.ga‖ / m) ^ 19 / Nat.factorial 19) * Real.exp ‖a'.ga‖ ≤ m * ((N / m) ^ 19 / Nat.factorial 19) * Real.exp N := by
      gcongr
    have htr2 : m * ((N / m) ^ 19 / Nat.factorial 19) * Real.exp N ≤ Real.exp N * (N ^ 19 / Nat.factorial 19) := by
      rw [mul_comm _ (Real.exp N)]
      refine mul_le_mul_of_nonneg_left ?_ (Real.exp_pos _).le
      rw [← mul_div_assoc]
      refine div_le_div_of_nonneg_right ?_ (by positivity)
      rw [div_pow, mul_div_assoc', div_le_iff₀ (by positivity), mul_comm]
      refine mul_le_mul_of_nonneg_left ?_ (by positivity)
      exact le_self_pow₀ hm1R (by norm_num)
    have hre' := hre.trans hround
    have := norm_sub_le_norm_sub_add_norm_sub (w.val i).val ((T ^ m).fn i) (E i)
    change ‖(w.val i).val - E i‖ ≤ _
    linarith

end

namespace Ex

example : ∃ s, (denseC xFC : MV E (ArrayStorage (TClifford.Cx F64))).expFC Flt.hypot 18 = some (.ok s) := by
  obtain ⟨E', hE, -⟩ := C67_exponential E_wf (sameFC.valid')
  obtain ⟨s, z, h, -⟩ := C88_complex_accuracy hypotOk E_wf (by decide) sameFC hE rfl (xFC_norm.trans (by norm_num)) rfl le_rfl
  exact ⟨s, h⟩

end Ex

end TClifford
