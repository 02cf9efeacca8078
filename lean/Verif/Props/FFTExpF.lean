import Verif.Proofs.FFTExpF
/-
C88: `exp` of transforms (src/fftrepr/mod.rs:102-130) with `f64`.
-/

set_option linter.unusedSectionVars false

namespace TClifford

open MV Finset FloatModel

/-- What is asked of `hypot` of the C library: it does not exceed the exact value by much. -/
def HypotOk (hyp : F64 → F64 → F64) : Prop := ∀ x y : F64, fin x → fin y → |re x| + |re y| ≤ 2 ^ 500 →
  fin (hyp x y) ∧ 0 ≤ re (hyp x y) ∧ re (hyp x y) ≤ (1 + 1 / 2 ^ 50) * Real.sqrt (re x ^ 2 + re y ^ 2) + 1 / 2 ^ 50

variable {A : ClAlg}

/-- **C88, termination in the transformed domain.** The loop takes exactly 18 iterations, whatever the entries are, finite or not. -/
theorem C88_fft_iterations (hyp : F64 → F64 → F64) (r : FFTRepr A (Cx F64)) :
    (∀ fuel < 18, r.expF hyp fuel = none ∨ ∃ e, r.expF hyp fuel = some (.error e)) ∧ ∃ s, ∀ fuel ≥ 18, r.expF hyp fuel = some s := by
  unfold FFTRepr.expF
  split
  · exact ⟨fun _ _ => .inr ⟨_, rfl⟩, _, fun _ _ => rfl⟩
  · rename_i k n _
    obtain ⟨h1, r, h2⟩ := FFTRepr.taylorF_fuel n 18 (k := 0) rfl FFTRepr.one n
    refine ⟨fun fuel hf => ?_, _, fun fuel hf => by rw [show (1 : F64) = expCoefF 0 from rfl, h2 fuel hf]; rfl⟩
    rcases h1 fuel hf with h | ⟨e, h⟩
    · exact .inl (by rw [show (1 : F64) = expCoefF 0 from rfl, h]; rfl)
    · exact .inr ⟨e, by rw [show (1 : F64) = expCoefF 0 from rfl, h]; rfl⟩

theorem foldl_fmax' {X : Type} (g : X → F64) (l : List X) (hl : ∀ p ∈ l, fin (g p)) (m0 : F64) (h0 : fin m0) :
    fin (l.foldl (fun m p => Flt.fmax (g p) m) m0) ∧ ∀ B : ℚ,
      (l.foldl (fun m p => Flt.fmax (g p) m) m0).toRat ≤ B ↔ m0.toRat ≤ B ∧ ∀ p ∈ l, (g p).toRat ≤ B := by
  induction l generalizing m0 with
  | nil => exact ⟨h0, by simp⟩
  | cons p l ih =>
    obtain ⟨m1, m2⟩ := Flt.fmax_ok (hl p (List.mem_cons_self ..)) h0
    obtain ⟨r1, r2⟩ := ih (fun q hq => hl q (List.mem_cons_of_mem _ hq)) _ m1
    refine ⟨r1, fun B => ?_⟩
    rw [List.foldl_cons, r2, m2]
    simp; tauto

theorem sqrt_le_add_abs (x y : ℝ) : Real.sqrt (x ^ 2 + y ^ 2) ≤ |x| + |y| := by
  rw [Real.sqrt_le_left (by positivity)]
  have h1 := abs_nonneg x
  have h2 := abs_nonneg y
  nlinarith [sq_abs x, sq_abs y]

/-- `hypot` of a number in terms of the sum of the absolute values of its parts. -/
theorem HypotOk.le {hyp : F64 → F64 → F64} (hh : HypotOk hyp) {v : Cx F64} (hv : v.Fin) {B : ℝ} (hB : Cx.n1 v.val ≤ B) (hB' : B ≤ 2 ^ 500) :
    fin (hyp v.re v.im) ∧ 0 ≤ re (hyp v.re v.im) ∧ re (hyp v.re v.im) ≤ (1 + 1 / 2 ^ 50) * B + 1 / 2 ^ 50 := by
  obtain ⟨h1, h2, h3⟩ := hh v.re v.im hv.1 hv.2 (hB.trans hB')
  refine ⟨h1, h2, h3.trans (add_le_add (mul_le_mul_of_nonneg_left ((sqrt_le_add_abs _ _).trans hB) (by norm_num)) le_rfl)⟩

/-- `max_c`. -/
theorem FFTRepr.expMaxF_ok {hyp : F64 → F64 → F64} (hh : HypotOk hyp) {l : Nat} {r : FFTRepr A (Cx F64)} {y : GA A.sigma A.dim ℝ} {N : ℝ}
    (hN0 : 0 ≤ N) (hN : N ≤ 600) (hl : l ≤ 2 ^ 32) (hr : RepG l r y N) {m2 : Cx F64} (h2 : r.mag2F (Flt.ofNat .f64) = .ok m2) (hm2 : m2.Fin)
    (hm2' : Cx.n1 m2.val ≤ N ^ 2 + N / 2 + 1 / 2) :
    ∃ M m, r.expMaxF hyp = .ok M ∧ fin M ∧ re M = (m : ℕ) ∧ 1 ≤ m ∧ m ≤ ⌈N⌉₊ + 1 := by
  have hc1 : N ≤ ⌈N⌉₊ := Nat.le_ceil N
  have hc2 : (⌈N⌉₊ : ℝ) < N + 1 := Nat.ceil_lt_add_one hN0
  set B : ℕ := ⌈N⌉₊ + 1 with hB
  have hBN : N + 1 ≤ B := by rw [hB]; push_cast; linarith
  have h500 : (2 : ℝ) ^ 20 ≤ 2 ^ 500 := pow_le_pow_right₀ (by norm_num) (by norm_num)
  -- entries
  have hent : ∀ z ∈ r.arr.entries, fin (hyp z.re z.im) ∧ (hyp z.re z.im).toRat ≤ (B : ℚ) := by
    intro z hz
    simp only [Arr3.entries, List.mem_flatMap, List.mem_map, List.mem_range] at hz
    obtain ⟨k, hk, i, hi, j, hj, rfl⟩ := hz
    have hk' : k < 2 ^ A.projDim := by rw [← hr.1.1]; exact hk
    have hi' : i < 2 ^ A.half := by rw [← hr.1.2.1]; exact hi
    have hj' : j < 2 ^ A.half := by rw [← hr.1.2.2]; exact hj
    have he : Cx.Near l (r.arr.get k i j) _ N := CxRel.Rep.entry_le hr hk' hi' hj'
    have hs := he.size
    have hl' : (l : ℝ) ≤ 2 ^ 32 := by exact_mod_cast hl
    have hlu : (l : ℝ) * u F64 ≤ 1 / 2 ^ 21 := by rw [C69_f64.1]; linarith
    have hp := pow_sub_one_le (u_nonneg (F := F64)) (L := l) (by linarith)
    have hs' : Cx.n1 (r.arr.get k i j).val ≤ N + 1 / 4 := by
      refine hs.trans ?_
      have : ((1 + u F64) ^ l - 1) * N ≤ (3 / 2 * (1 / 2 ^ 21)) * 600 := mul_le_mul (by linarith) hN hN0 (by norm_num)
      linarith
    obtain ⟨g1, g2, g3⟩ := hh.le he.1 hs' (le_trans (by norm_num; linarith) h500)
    refine ⟨g1, ?_⟩
    have : re (hyp (r.arr.get k i j).re (r.arr.get k i j).im) ≤ B := by linarith
    change (((hyp _ _).toRat : ℚ) : ℝ) ≤ B at this
    exact_mod_cast this
  obtain ⟨f1, f2⟩ := foldl_fmax' (fun z : Cx F64 => hyp z.re z.im) r.arr.entries (fun z hz => (hent z hz).1) 1 fin_one
  -- mag2
  have hNN : N ^ 2 ≤ 600 ^ 2 := pow_le_pow_left₀ hN0 hN 2
  obtain ⟨g1, g2, g3⟩ := hh.le hm2 hm2' (le_trans (by norm_num; linarith) h500)
  have g2' : 0 ≤ (hyp m2.re m2.im).toRat := by
    change (0 : ℝ) ≤ (((hyp m2.re m2.im).toRat : ℚ) : ℝ) at g2
    exact_mod_cast g2
  obtain ⟨s1, -⟩ := Flt.sqrt_ok g1 g2'
  have s4 : re (hyp m2.re m2.im).sqrt ≤ B := by
    obtain ⟨t1, t2⟩ := C88_sqrt g1 g2
    obtain ⟨y, y1, y2⟩ := f64_nat B (by
      have : (⌈N⌉₊ : ℝ) < 2 ^ 53 - 1 := lt_of_lt_of_le (by linarith : _ < (601 : ℝ)) (by norm_num)
      have : (⌈N⌉₊ + 1 : ℝ) ≤ (2 ^ 53 : ℕ) := by push_cast; linarith
      rw [hB]
      exact_mod_cast this)
    have s3 := t2 y y1
    rw [y2] at s3
    have s4 : Real.sqrt (re (hyp m2.re m2.im)) ≤ B := by
      rw [Real.sqrt_le_left (by positivity)]
      nlinarith
    by_contra hcon
    push Not at hcon
    rw [abs_of_nonneg (sub_nonneg.mpr s4)] at s3
    have := le_abs_self (re (hyp m2.re m2.im).sqrt - Real.sqrt (re (hyp m2.re m2.im)))
    linarith
  obtain ⟨m1, m3⟩ := Flt.fmax_ok f1 s1
  obtain ⟨c1, c2⟩ := Flt.ceil_ok m1
  have e1 : (1 : F64).toRat = 1 := by
    have : re (1 : F64) = 1 := re_one
    have h : (((1 : F64).toRat : ℚ) : ℝ) = ((1 : ℚ) : ℝ) := by rw [Rat.cast_one]; exact this
    exact_mod_cast h
  set q := max (r.arr.entries.foldl (fun m z => Flt.fmax (hyp z.re z.im) m) (1 : F64)).toRat (hyp m2.re m2.im).sqrt.toRat with hq
  have hq1 : 1 ≤ q := by
    refine le_max_of_le_left ?_
    have := ((f2 _).mp le_rfl).1
    rwa [e1] at this
  have hqB : q ≤ B := by
    refine max_le ((f2 _).mpr ⟨?_, fun z hz => (hent z hz).2⟩) ?_
    · rw [e1, hB]; push_cast; linarith [Nat.cast_nonneg (α := ℚ) ⌈N⌉₊]
    · change (((hyp m2.re m2.im).sqrt.toRat : ℚ) : ℝ) ≤ B at s4
      exact_mod_cast s4
  refine ⟨_, ⌈q⌉.toNat, ?_, c1, ?_, ?_, ?_⟩
  · unfold FFTRepr.expMaxF
    rw [h2]
    rfl
  · show ((Flt.toRat _ : ℚ) : ℝ) = _
    rw [c2, m3]
    have h0 : 0 ≤ ⌈q⌉ := Int.ceil_nonneg (by linarith)
    have := Int.toNat_of_nonneg h0
    have h3 : ((⌈q⌉.toNat : ℤ) : ℝ) = ((⌈q⌉ : ℤ) : ℝ) := by rw [this]
    push_cast at h3 ⊢
    exact h3.symm
  · have : (0 : ℤ) < ⌈q⌉ := Int.ceil_pos.mpr (by linarith)
    omega
  · rw [Int.toNat_le, Int.ceil_le]
    exact_mod_cast hqB

section
variable {S' : Type} [CoeffStorage S' ℝ] [LawfulStorage S' ℝ] [WedgeProduct A S'] {a : MV A (ArrayStorage F64)} {a' : MV A S'} {x : Nat → F64}

/-- The transform of a multivector. -/
theorem fft_repG (hA : A.WF) (hd : A.dim < 63) (ha : SameValues a a' x) {N : ℝ} (hN : N = ∑ i ∈ range (2 ^ A.dim), |re (x i)|) (hN6 : N ≤ 600) :
    ∃ r : FFTRepr A (Cx F64), a.fft = .ok r ∧ RepG A.half r a.gaR N := by
  have hhalf : A.half ≤ 2 ^ 51 := by
    have : A.realDim + A.imagDim + A.projDim = A.dim := hA.dims
    have e : A.half = (A.realDim + A.imagDim + 1) / 2 := rfl
    omega
  obtain ⟨r, h1, h2⟩ := FExpr.repFFT (Q := nearQ) (T := F64) hA hd Cx.neg_neg' ConvModel.fft_zero (ρ := fun _ => a) (fun _ => ha.valid)
    (x := fun _ k => re (x k)) (b := fun _ k => |re (x k)|) (l := fun _ => N) (fun _ => hN.ge) rfl (fun i k hk => by
      rw [ha.val hk]
      obtain ⟨g1, g2⟩ := ConvModel.into_ok (F := F64) (ha.finite k hk)
      refine ⟨g1, ?_, ?_⟩
      · show Cx.n1 ((re (x k) : ℝ) : ℂ) ≤ _
        unfold Cx.n1; simp
      · show Cx.n1 (_ - ((re (x k) : ℝ) : ℂ)) ≤ _
        rw [g2, sub_self, Cx.n1_zero]; simp) (.X 0) (okF hhalf (hN6.trans (le_trans (by norm_num)
          (pow_le_pow_right₀ (by norm_num : (1 : ℝ) ≤ 2) (show 10 ≤ 1000 by norm_num)))))
  refine ⟨r, h1, CxRel.Rep.congr hA h2 fun k hk => cx_congr ?_⟩
  rw [gaR_fn a hk, ha.val hk]
  rfl

/-- `mag2` of the transform. -/
theorem fft_mag2 (hA : A.WF) (hd : A.dim < 63) (ha : SameValues a a' x) {N : ℝ} (hN : N = ∑ i ∈ range (2 ^ A.dim), |re (x i)|) (hN6 : N ≤ 600)
    {r : FFTRepr A (Cx F64)} (hr : a.fft = .ok r) :
    ∃ m : Cx F64, r.mag2F (Flt.ofNat .f64) = .ok m ∧ m.Fin ∧ Cx.n1 m.val ≤ N ^ 2 + N / 2 + 1 / 2 := by
  have hN0 : 0 ≤ N := by rw [hN]; exact sum_nonneg fun _ _ => abs_nonneg _
  have hNn : normOne A.dim x = N := by rw [hN]; rfl
  obtain ⟨m, s, h1, h2, h3, h4, h5⟩ := C79_mag2_f64 hA hd ha (by
    rw [hNn]
    exact hN6.trans (le_trans (by norm_num) (pow_le_pow_right₀ (by norm_num : (1 : ℝ) ≤ 2) (show 10 ≤ 480 by norm_num)))) rfl rfl
  rw [hr] at h1
  refine ⟨m, h1, ⟨h3, h4⟩, ?_⟩
  rw [hNn] at h5
  have hs : |s| ≤ N ^ 2 := by
    rw [mag2_ok hA ha.valid'] at h2
    injection h2 with h2
    rw [← h2, hN, pow_two, sum_mul]
    refine (abs_sum_le_sum_abs _ _).trans (sum_le_sum fun i hi => ?_)
    have hi' := mem_range.mp hi
    simp only [Nat.xor_zero]
    rw [ha.val' hi', zsmul_eq_mul, abs_mul, zsmul_eq_mul, abs_mul, abs_mul]
    have b1 : |((bsgn A.sigma A.dim i i : ℤ) : ℝ)| ≤ 1 := by exact_mod_cast bsgn_sigma_abs hA hi' hi'
    have b2 : |((rsg A.dim i : ℤ) : ℝ)| ≤ 1 := by rcases rsg_unit A.dim i with h | h <;> rw [h] <;> simp
    calc _ ≤ 1 * (1 * |re (x i)| * |re (x i)|) := by gcongr
      _ = |re (x i)| * |re (x i)| := by ring
      _ ≤ _ := mul_le_mul_of_nonneg_left (single_le_sum (f := fun i => |re (x i)|) (fun _ _ => abs_nonneg _) hi) (abs_nonneg _)
  set L := 2 * 2 ^ ((A.realDim + A.imagDim + 1) / 2) + 2 * ((A.realDim + A.imagDim + 1) / 2) + A.projDim + 3 with hL
  have hLn : L ≤ 2 ^ 33 := by
    have hdim : A.realDim + A.imagDim + A.projDim = A.dim := hA.dims
    have : 2 ^ ((A.realDim + A.imagDim + 1) / 2) ≤ 2 ^ 31 := Nat.pow_le_pow_right (by norm_num) (by omega)
    omega
  have hLr : (L : ℝ) / 2 ^ 52 ≤ 1 / 2 ^ 19 := by
    rw [div_le_div_iff₀ (by positivity) (by positivity)]
    have : (L : ℝ) ≤ 2 ^ 33 := by exact_mod_cast hLn
    linarith
  have h800 : (1 : ℝ) / 2 ^ 800 ≤ 1 := by
    rw [div_le_one (by positivity)]; exact one_le_pow₀ (by norm_num)
  have h6 : (L : ℝ) / 2 ^ 52 * (N ^ 2 + 1 / 2 ^ 800) ≤ 1 / 2 ^ 19 * (N * 600 + 1) :=
    mul_le_mul hLr (add_le_add (by nlinarith) h800) (by positivity) (by norm_num)
  have h7 := abs_add_le (re m.re - s) s
  rw [sub_add_cancel] at h7
  show |re m.re| + |re m.im| ≤ _
  linarith

theorem exp_big {y : ℝ} (h : y ≤ 602) : Real.exp y ≤ 2 ^ 903 := by
  calc Real.exp y ≤ Real.exp ((301 : ℕ) * 2) := Real.exp_le_exp.mpr (by push_cast; linarith)
    _ = (Real.exp 2) ^ 301 := Real.exp_nat_mul _ _
    _ ≤ (2 ^ 3) ^ 301 := by
        refine pow_le_pow_left₀ (Real.exp_pos _).le ?_ _
        have := Real.exp_one_lt_d9
        rw [show (2 : ℝ) = 1 + 1 by norm_num, Real.exp_add]
        have h0 := Real.exp_pos 1
        nlinarith
    _ = 2 ^ 903 := by rw [← pow_mul]

/-- **C88, accuracy in the transformed domain.** Let the absolute values of the `f64` coefficients of `a` add up to `N ≤ 600`, in an
algebra with fewer than 63 generators.  Then nothing overflows in `a.fft().exp().ifft()`, and every coefficient differs from that of the
exact exponential by at most `e^N N^19 / 19!` (truncation of the series) plus `K (N+2) e^(N+2) / 2^52` (rounding), where
`K = 19·2^h + 21 h + 19 p + 77` for the `p` generators that square to zero and half of the number of the others, rounded up, `h`. -/
theorem C88_fft_accuracy {hyp : F64 → F64 → F64} (hh : HypotOk hyp) (hA : A.WF) (hd : A.dim < 63) (ha : SameValues a a' x)
    {E : Nat → ℝ} (hE : a'.IsExp E) {N : ℝ} (hN : N = ∑ i ∈ range (2 ^ A.dim), |re (x i)|) (hN6 : N ≤ 600) {h K : ℕ}
    (hhalf : h = (A.realDim + A.imagDim + 1) / 2) (hK : K = 19 * 2 ^ h + 21 * h + 19 * A.projDim + 77) {fuel : ℕ} (hf : 18 ≤ fuel) :
    ∃ (r s : FFTRepr A (Cx F64)) (z : Nat → F64), a.fft = .ok r ∧ r.expF hyp fuel = some (.ok s) ∧
      Coefs (s.ifft : Res (MV A (ArrayStorage F64))) z ∧ ∀ i < 2 ^ A.dim, fin (z i) ∧
        |re (z i) - E i| ≤ Real.exp N * (N ^ 19 / Nat.factorial 19) + K * (N + 2) * Real.exp (N + 2) / 2 ^ 52 := by
  have hh' : h = A.half := hhalf
  subst hh'
  have hN0 : 0 ≤ N := by rw [hN]; exact sum_nonneg fun _ _ => abs_nonneg _
  have hNa : ‖a.gaR‖ = N := by rw [hN, SameValues_norm ha]
  have hdim : A.realDim + A.imagDim + A.projDim = A.dim := hA.dims
  have hh31 : A.half ≤ 31 := by omega
  have hp31 : 2 ^ A.half ≤ 2 ^ 31 := Nat.pow_le_pow_right (by norm_num) hh31
  have hKb : K ≤ 2 ^ 37 := by omega
  -- underflow
  have hD0 := Cx.uflow_nonneg (F := F64)
  have hE0 := uflowE_nonneg (A := A)
  obtain ⟨ε, hε⟩ : ∃ ε : ℝ, ε = 1 / 2 ^ 40 := ⟨_, rfl⟩
  have hsmall : uflowE A + A.half * Cx.uflow F64 ≤ ε := by
    obtain ⟨-, -, k3⟩ := consts_f64 (h := A.half) (s := A.projDim) hh31 (by omega) rfl
    have e4 : (3 ^ A.projDim * 4 ^ A.half + A.half) * (4 * η F64 / u F64) = uflowE A + A.half * Cx.uflow F64 := by
      unfold uflowE
      rw [show (4 : ℝ) ^ A.half = 2 ^ A.half * 2 ^ A.half by rw [← mul_pow]; norm_num]
      unfold Cx.uflow
      ring
    rw [e4] at k3
    refine k3.trans ?_
    rw [hε]
    exact one_div_le_one_div_of_le (by positivity) (pow_le_pow_right₀ (by norm_num) (by norm_num))
  have hhD : 0 ≤ A.half * Cx.uflow F64 := by positivity
  set U := uflowE A with hU
  have hUε : U ≤ ε := by linarith
  -- the transform and max_c
  obtain ⟨r, r1, r2⟩ := fft_repG hA hd ha hN hN6
  obtain ⟨m2, q1, q2, q3⟩ := fft_mag2 hA hd ha hN hN6 r1
  obtain ⟨M, m, M1, M2, M3, hm1, hmB⟩ := FFTRepr.expMaxF_ok hh hN0 hN6 (by omega) r2 q1 q2 q3
  have hm1R : (1 : ℝ) ≤ m := by exact_mod_cast hm1
  have hm0 : (0 : ℝ) < m := by linarith
  have hmR : (m : ℝ) ≤ N + 2 := by
    have hc2 : (⌈N⌉₊ : ℝ) < N + 1 := Nat.ceil_lt_add_one hN0
    have : (m : ℝ) ≤ (⌈N⌉₊ + 1 : ℕ) := by exact_mod_cast hmB
    push_cast at this
    linarith
  have hm602 : m ≤ 602 := by
    have : (m : ℝ) ≤ (602 : ℕ) := by push_cast; linarith
    exact_mod_cast this
  -- the normalized transform
  set s0 : ℝ := max 1 (N / m) with hs0
  have hs1 : 1 ≤ s0 := le_max_left _ _
  have hsm : s0 * m = max (m : ℝ) N := by
    rw [hs0, max_mul_of_nonneg _ _ hm0.le, one_mul, div_mul_cancel₀ _ hm0.ne']
  have hs600 : s0 ≤ 600 := max_le (by norm_num) ((div_le_self hN0 hm1R).trans hN6)
  have h1000 : (2 : ℝ) ^ 10 ≤ 2 ^ 1000 := pow_le_pow_right₀ (by norm_num) (by norm_num)
  have hNm : (m : ℝ)⁻¹ * N = N / m := by rw [inv_mul_eq_div]
  have n2 := r2.divReal hA (m := m) (by omega) M2 M3 (okF (by omega) (by
    rw [hNm]
    exact ((le_max_right 1 (N / m)).trans hs600).trans (le_trans (by norm_num) h1000)))
  set σ := s0 + 2 * U with hσ
  have n3 : RepG (A.half + 1) (r.divReal M) ((m : ℝ)⁻¹ • a.gaR) (σ - U) := n2.mono le_rfl (by
    rw [hNm, hσ]
    have := le_max_right 1 (N / m)
    linarith)
  have hε1 : ε ≤ 1 / 2 ^ 20 := by rw [hε]; norm_num
  have hσ601 : σ ≤ 601 := by rw [hσ]; linarith
  have hσ1 : 1 + U ≤ σ := by rw [hσ]; linarith
  have h999 : (2 : ℝ) ^ 903 ≤ 2 ^ 999 := pow_le_pow_right₀ (by norm_num) (by norm_num)
  have hσ19 : σ ^ 19 ≤ 2 ^ 999 := by
    calc σ ^ 19 ≤ 601 ^ 19 := pow_le_pow_left₀ (by linarith) hσ601 19
      _ ≤ 2 ^ 200 := by norm_num
      _ ≤ _ := pow_le_pow_right₀ (by norm_num) (by norm_num)
  -- the loop
  have hone : RepG (0 * (A.half + 1 + mulC A + 1) + 3) (FFTRepr.one : FFTRepr A (Cx F64))
      (∑ j ∈ range (0 + 1), (j.factorial : ℝ)⁻¹ • ((m : ℝ)⁻¹ • a.gaR) ^ j)
      (∑ j ∈ range (0 + 1), σ ^ j / (j.factorial : ℝ) + ((0 : ℕ) : ℝ) * uflowE A) := by
    have := (RepG.one hA hd (A := A)).mono (l' := 3) (by omega) le_rfl
    simpa using this
  obtain ⟨t, t1, t2⟩ := FFTRepr.taylorF_near hA hσ1 n3 (by unfold mulC; omega) hσ19 ((exp_big (by linarith)).trans h999) (by linarith) 18 (k := 0) rfl
    (res := FFTRepr.one) hone
    (p := r.divReal M) (by simpa using n3) fuel hf
  -- the power
  have hexp0 := Real.exp_pos σ
  have hexp1 : 1 ≤ Real.exp σ := Real.one_le_exp (by linarith)
  have hbase : Real.exp σ + 18 * U + U ≤ Real.exp (σ + 19 * U) := by
    rw [Real.exp_add σ (19 * U)]
    have e1 := mul_le_mul_of_nonneg_left (Real.add_one_le_exp (19 * U)) hexp0.le
    have e2 := mul_le_mul_of_nonneg_right hexp1 (show 0 ≤ 19 * U by positivity)
    linarith
  have hmax : max (m : ℝ) N ≤ N + 2 := max_le hmR (by linarith)
  have hmU : (m : ℝ) * U ≤ 602 * ε := mul_le_mul (by exact_mod_cast hm602) hUε hE0 (by norm_num)
  have hbig : (Real.exp σ + 18 * U + U) ^ m ≤ Real.exp (N + 2 + 21 * (602 * ε)) := by
    refine (pow_le_pow_left₀ (by positivity) hbase m).trans ?_
    rw [← Real.exp_nat_mul]
    refine Real.exp_le_exp.mpr ?_
    have : (m : ℝ) * (σ + 19 * U) = s0 * m + 21 * (m * U) := by rw [hσ]; ring
    rw [this, hsm]
    linarith
  have hbig2 : Real.exp (N + 2 + 21 * (602 * ε)) ≤ Real.exp (N + 2) * (1 + 1 / 100) := by
    rw [Real.exp_add]
    refine mul_le_mul_of_nonneg_left ?_ (Real.exp_pos _).le
    have h5 : (0 : ℝ) ≤ 21 * (602 * ε) := by rw [hε]; positivity
    have h6 := Real.abs_exp_sub_one_le (x := 21 * (602 * ε)) (by rw [abs_of_nonneg h5, hε]; norm_num)
    rw [abs_of_nonneg h5, abs_le] at h6
    have : 2 * (21 * (602 * ε)) ≤ 1 / 100 := by rw [hε]; norm_num
    linarith [h6.2]
  have hE2 : Real.exp (N + 2) ≤ 2 ^ 903 := exp_big (by linarith)
  have hE21 : 1 ≤ Real.exp (N + 2) := Real.one_le_exp (by linarith)
  have h990 : (4 : ℝ) * (2 * 2 ^ 903) ≤ 2 ^ 1000 := by
    rw [show (4 : ℝ) * (2 * 2 ^ 903) = 2 ^ 906 by rw [show (906 : ℕ) = 3 + 903 from rfl, pow_add]; ring]
    exact pow_le_pow_right₀ (by norm_num) (by norm_num)
  obtain ⟨W, hW⟩ : ∃ W : ℝ, W = 2 ^ 903 := ⟨_, rfl⟩
  rw [← hW] at hE2 h990
  set L1 := 18 * (A.half + 1 + mulC A + 1) + 3 with hL1
  have hlev : m * L1 + (m - 1) * mulC A + 3 * A.half ≤ m * K := by
    have e1 : (m - 1) * mulC A ≤ m * mulC A := Nat.mul_le_mul_right _ (by omega)
    have e2 : 3 * A.half ≤ m * (3 * A.half) := Nat.le_mul_of_pos_left _ (by omega)
    have e3 : m * L1 + m * mulC A + m * (3 * A.half) = m * K := by
      rw [← Nat.mul_add, ← Nat.mul_add]
      congr 1
      rw [hK, hL1]
      unfold mulC
      ring
    omega
  have hmK : m * K ≤ 602 * 2 ^ 37 := Nat.mul_le_mul hm602 hKb
  obtain ⟨w, w1, w2⟩ := t2.pow hA (by linarith) (n := m) (by omega) (by omega)
    (le_trans (show (Real.exp σ + 18 * U + U) ^ m ≤ 4 * (2 * W) by linarith) h990)
  set L2 := m * L1 + (m - 1) * mulC A with hL2
  set B := (Real.exp σ + 18 * U + U) ^ m - U with hB
  set T := ∑ j ∈ range 19, ((j.factorial : ℝ)⁻¹) • ((m : ℝ)⁻¹ • a.gaR) ^ j with hT
  have hBle : B + A.half * Cx.uflow F64 ≤ Real.exp (N + 2) * (1 + 1 / 50) := by
    have : A.half * Cx.uflow F64 ≤ 1 / 100 := by linarith
    linarith
  -- back
  have hden := ifft_ops (T := F64) (ConvModel.ifft_zero (F := F64) (by rw [C69_f64.2.2.1]; positivity)) hA hd w2.1
  refine ⟨r, w, _, r1, ?_, hden.coefs, fun i hi => ?_⟩
  · unfold FFTRepr.expF
    have hus : M.toUsize = .ok m := by
      obtain ⟨M, rfl⟩ := Flt.cases_fin M2
      have hMm : M.1 = (m : ℕ) := by
        change ((M.1 : ℚ) : ℝ) = _ at M3
        exact_mod_cast M3
      show Except.ok (min ⌊M.1⌋.toNat (2 ^ 64 - 1)) = _
      rw [hMm, show ((m : ℕ) : ℚ) = ((m : ℤ) : ℚ) by push_cast; rfl, Int.floor_intCast, Int.toNat_natCast,
        min_eq_left (by omega)]
    have hdo : (do
        let maxC ← r.expMaxF hyp
        let intPow ← maxC.toUsize
        return (intPow, r.divReal maxC) : Res (Nat × FFTRepr A (Cx F64))) = .ok (m, r.divReal M) := by
      rw [M1]
      show (do
        let intPow ← M.toUsize
        return (intPow, r.divReal M) : Res (Nat × FFTRepr A (Cx F64))) = _
      rw [hus]
      rfl
    rw [hdo]
    show (FFTRepr.taylorF _ fuel (expCoefF 0) (0 + 1) _ _).map _ = _
    rw [t1]
    show some (t.pow m) = _
    rw [w1]
  · have hun := nearQ.iPow_mul (countOnes (i &&& A.imagMask)) (CxRel.Rep.unfl (Q := nearQ) hA w2 (fun _ _ => trivial) (okF (by omega) (by
      have : 4 * (B + A.half * Cx.uflow F64) ≤ 4 * (2 * W) := by linarith
      exact this.trans h990)) hi)
    have e2 : iPow (countOnes (i &&& A.imagMask)) * cx A (T ^ m).fn i = (((T ^ m).fn i : ℝ) : ℂ) := by
      unfold cx
      rw [← mul_assoc, iPow_mul_iPowNeg, one_mul]
      rfl
    rw [e2] at hun
    have hun : Cx.Near (L2 + 3 * A.half) (iPow (countOnes (i &&& A.imagMask)) * unflO A.half A.nn w.arr.get i : Cx F64) (((T ^ m).fn i : ℝ) : ℂ) (B + A.half * Cx.uflow F64) := hun
    refine ⟨hun.1.1, ?_⟩
    have hre := (Cx.abs_re_le _).trans hun.2.2
    have hlevR : ((L2 + 3 * A.half : ℕ) : ℝ) ≤ (N + 2) * K := by
      have : ((L2 + 3 * A.half : ℕ) : ℝ) ≤ (m * K : ℕ) := by exact_mod_cast hlev
      push_cast at this ⊢
      exact this.trans (mul_le_mul_of_nonneg_right hmR (by positivity))
    have hpw := pow_sub_one_le (u_nonneg (F := F64)) (L := L2 + 3 * A.half) (by
      have : ((L2 + 3 * A.half : ℕ) : ℝ) ≤ 602 * 2 ^ 37 := by exact_mod_cast hlev.trans hmK
      rw [C69_f64.1]
      linarith)
    rw [C69_f64.1] at hpw hre
    have hround : ((1 + 1 / 2 ^ 53) ^ (L2 + 3 * A.half) - 1) * (B + A.half * Cx.uflow F64) ≤ K * (N + 2) * Real.exp (N + 2) / 2 ^ 52 := by
      have g0 : (0 : ℝ) ≤ (1 + 1 / 2 ^ 53) ^ (L2 + 3 * A.half) - 1 := by
        have : (1 : ℝ) ≤ (1 + 1 / 2 ^ 53) ^ (L2 + 3 * A.half) := one_le_pow₀ (by norm_num)
        linarith
      have g1 := mul_le_mul_of_nonneg_left hBle g0
      have g2 : (1 + 1 / 2 ^ 53) ^ (L2 + 3 * A.half) - 1 ≤ 3 / 2 * ((N + 2) * K * (1 / 2 ^ 53)) :=
        hpw.trans (mul_le_mul_of_nonneg_left (mul_le_mul_of_nonneg_right hlevR (by norm_num)) (by norm_num))
      have g3 := mul_le_mul_of_nonneg_right g2 (show 0 ≤ Real.exp (N + 2) * (1 + 1 / 50) by positivity)
      refine (g1.trans g3).trans ?_
      have g4 : 0 ≤ K * (N + 2) * Real.exp (N + 2) := by positivity
      have : 3 / 2 * ((N + 2) * K * (1 / 2 ^ 53)) * (Real.exp (N + 2) * (1 + 1 / 50)) =
        K * (N + 2) * Real.exp (N + 2) / 2 ^ 52 * (153 / 200) := by ring
      rw [this]
      exact mul_le_of_le_one_right (by positivity) (by norm_num)
    have htr := exp_sub_taylor_pow_le (𝕜 := ℝ) a.gaR hm1 19
    rw [hNa, ← hT, norm_sub_rev] at htr
    have hcoef : |(T ^ m).fn i - E i| ≤ ‖T ^ m - NormedSpace.exp a.gaR‖ := by
      rw [(isExp_iff hA ha.valid').mp hE i hi, ← SameValues_gaR ha, GA.norm_def]
      refine le_trans (le_of_eq ?_) (single_le_sum (f := fun i => ‖(T ^ m - NormedSpace.exp a.gaR).fn i‖) (fun _ _ => norm_nonneg _) (mem_range.mpr hi))
      rw [Real.norm_eq_abs]
      congr 1
      exact (map_sub (GA.coef i) _ _).symm
    have htr2 : m * ((N / m) ^ 19 / Nat.factorial 19) * Real.exp N ≤ Real.exp N * (N ^ 19 / Nat.factorial 19) := by
      rw [mul_comm _ (Real.exp N)]
      refine mul_le_mul_of_nonneg_left ?_ (Real.exp_pos _).le
      rw [← mul_div_assoc]
      refine div_le_div_of_nonneg_right ?_ (by positivity)
      rw [div_pow, mul_div_assoc', div_le_iff₀ (by positivity), mul_comm]
      refine mul_le_mul_of_nonneg_left ?_ (by positivity)
      exact le_self_pow₀ hm1R (by norm_num)
    have hre' : |re (dcx (T := F64) A (unflO A.half A.nn w.arr.get) i) - (T ^ m).fn i| ≤ K * (N + 2) * Real.exp (N + 2) / 2 ^ 52 :=
      hre.trans hround
    have := abs_sub_le (re (dcx (T := F64) A (unflO A.half A.nn w.arr.get) i)) ((T ^ m).fn i) (E i)
    linarith

end

/-- **C88, `hypot`.** A `hypot` that returns a closest `f64` to the exact value satisfies the requirement. -/
theorem C88_hypot {hyp : F64 → F64 → F64} (h : ∀ x y : F64, fin x → fin y → |re x| + |re y| ≤ 2 ^ 500 → fin (hyp x y) ∧
    ∀ z : F64, fin z → |re (hyp x y) - Real.sqrt (re x ^ 2 + re y ^ 2)| ≤ |re z - Real.sqrt (re x ^ 2 + re y ^ 2)|) : HypotOk hyp := by
  intro x y hx hy hxy
  obtain ⟨h1, h2⟩ := h x y hx hy hxy
  have hs := (sqrt_le_add_abs (re x) (re y)).trans hxy
  set s := Real.sqrt (re x ^ 2 + re y ^ 2) with hs'
  have hs0 : 0 ≤ s := Real.sqrt_nonneg _
  have hz := h2 0 fin_zero
  rw [re_zero, zero_sub, abs_neg, abs_of_nonneg hs0] at hz
  refine ⟨h1, ?_, ?_⟩
  · have := neg_abs_le (re (hyp x y) - s)
    linarith
  · obtain ⟨q, q1, q2⟩ := exists_rat_btwn (show s < s + 1 / 2 ^ 60 by linarith [show (0 : ℝ) < 1 / 2 ^ 60 by norm_num])
    have hq0 : 0 ≤ q := by exact_mod_cast hs0.trans q1.le
    have hqM : |q| ≤ Fmt.f64.maxFin := by
      rw [abs_of_nonneg hq0]
      have e1 : (2 : ℚ) ^ 500 + 1 ≤ Fmt.f64.maxFin := by decide +kernel
      have e2 : (q : ℝ) ≤ ((2 ^ 500 + 1 : ℚ) : ℝ) := by
        push_cast
        refine q2.le.trans (add_le_add hs (by norm_num))
      exact le_trans (by exact_mod_cast e2) e1
    obtain ⟨z1, z2⟩ := Flt.ofRat_ok (f := .f64) hqM
    have hzz := h2 _ z1
    have hre : re (Flt.ofRat q : F64) = ((Fmt.f64.rnd q : ℚ) : ℝ) := congrArg ((↑) : ℚ → ℝ) z2
    have herr := Flt.err_cast (Fmt.f64.rnd_err q)
    rw [← hre, abs_of_nonneg hq0] at herr
    have hu : ((Fmt.f64.unitRoundoff : ℚ) : ℝ) = 1 / 2 ^ 53 := C69_f64.1
    have hη : ((Fmt.f64.halfMin : ℚ) : ℝ) ≤ 1 / 2 ^ 60 := by
      have e : ((Fmt.f64.halfMin : ℚ) : ℝ) = 1 / 2 ^ 1075 := C69_f64.2.1
      rw [e]
      exact one_div_le_one_div_of_le (by positivity) (pow_le_pow_right₀ (by norm_num) (by norm_num))
    push_cast at herr
    rw [hu] at herr
    have h3 := abs_sub_le (re (Flt.ofRat q : F64)) q s
    have h4 : |(q : ℝ) - s| ≤ 1 / 2 ^ 60 := by rw [abs_le]; constructor <;> linarith
    have h5 := le_abs_self (re (hyp x y) - s)
    have h6 : 1 / 2 ^ 53 * (q : ℝ) ≤ 1 / 2 ^ 53 * (s + 1 / 2 ^ 60) := mul_le_mul_of_nonneg_left q2.le (by norm_num)
    linarith

/-- `Flt.hypot` returns a closest `f64`. -/
theorem hypot_nearest {x y : F64} (hx : fin x) (hy : fin y) (hxy : |re x| + |re y| ≤ 2 ^ 500) : fin (x.hypot y) ∧
    ∀ z : F64, fin z → |re (x.hypot y) - Real.sqrt (re x ^ 2 + re y ^ 2)| ≤ |re z - Real.sqrt (re x ^ 2 + re y ^ 2)| := by
  obtain ⟨x, rfl⟩ := Flt.cases_fin hx
  obtain ⟨y, rfl⟩ := Flt.cases_fin hy
  have hq : 0 ≤ x.1 ^ 2 + y.1 ^ 2 := by positivity
  have e : re (.num x : F64) ^ 2 + re (.num y : F64) ^ 2 = ((x.1 ^ 2 + y.1 ^ 2 : ℚ) : ℝ) := by push_cast; rfl
  have hs := (sqrt_le_add_abs (re (.num x : F64)) (re (.num y : F64))).trans hxy
  rw [e] at hs ⊢
  obtain ⟨w1, w2⟩ := Flt.ofRat_ok (f := .f64) (x := Flt.sqrtRat .f64 (x.1 ^ 2 + y.1 ^ 2)) (by
    rw [abs_of_nonneg (Flt.sqrtRat_nonneg hq)]
    by_contra hc
    push Not at hc
    obtain ⟨j, hj⟩ := Flt.maxFin_mult (f := .f64)
    have h2 := (Flt.sqrtRat_spec (f := .f64) hq j).2.mp (by rw [← hj]; exact hc)
    have h3 : (j * 2 ^ (Fmt.f64.emin - 1) : ℝ) = (Fmt.f64.maxFin : ℝ) := by rw [hj]; push_cast; rfl
    rw [h3] at h2
    have e1 : (2 : ℚ) ^ 500 ≤ Fmt.f64.maxFin := by decide +kernel
    have e2 : (2 : ℝ) ^ 500 ≤ Fmt.f64.maxFin := by exact_mod_cast e1
    exact absurd (h2.trans_le hs) (not_lt.mpr e2))
  refine ⟨w1, fun z hz => ?_⟩
  obtain ⟨z, rfl⟩ := Flt.cases_fin hz
  have := Flt.rnd_sqrtRat_nearest (f := .f64) hq z.2.1
  rw [← w2] at this
  exact this

theorem hypotOk : HypotOk Flt.hypot := C88_hypot fun _ _ hx hy h => hypot_nearest hx hy h

namespace Ex

/-- 3, 4 → 5, and a result that is rounded. -/
example : (Flt.hypot (Flt.ofRat 3) (Flt.ofRat 4) : F64) = Flt.ofRat 5 ∧ (Flt.hypot (Flt.ofRat 1) (Flt.ofRat 1) : F64).toRat ^ 2 ≠ 2 := by
  decide +kernel

example := C88_hypot (hyp := Flt.hypot) fun _ _ hx hy h => hypot_nearest hx hy h

example : ∃ r : FFTRepr E (Cx F64), (dense64 xF).fft = .ok r ∧ ∃ s, r.expF Flt.hypot 18 = some s := by
  obtain ⟨r, hr, -⟩ := fft_repG E_wf (by decide) sameF rfl (xF_sum.trans (by norm_num))
  obtain ⟨-, s, hs⟩ := C88_fft_iterations Flt.hypot r
  exact ⟨r, hr, s, hs 18 le_rfl⟩

/-- The eight coefficients 0.1, …, 0.8. -/
example : ∃ (r s : FFTRepr E (Cx F64)), (dense64 xF).fft = .ok r ∧ r.expF Flt.hypot 18 = some (.ok s) := by
  obtain ⟨E', hE⟩ := isExpF
  obtain ⟨r, s, z, h1, h2, -⟩ := C88_fft_accuracy hypotOk E_wf (by decide) sameF hE rfl (xF_sum.trans (by norm_num)) rfl rfl le_rfl
  exact ⟨r, s, h1, h2⟩

end Ex

end TClifford
