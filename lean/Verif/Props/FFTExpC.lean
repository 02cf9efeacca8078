import Verif.Proofs.FFTExpC
import Verif.Props.ComplexExpError
/-
C88: `exp` of transforms (src/fftrepr/mod.rs:102-130) of multivectors with complex coefficients (`Complex64`), and `mag2` of such
transforms (src/fftrepr/mod.rs:95-100, C99).
-/

set_option linter.unusedSectionVars false

namespace TClifford

open MV Finset FloatModel

section
variable {F : Type} [Zero F] [One F] [Add F] [Sub F] [Neg F] [Mul F] [Div F] [FloatModel F] [FloatSigns F] [DecidableEq F]
variable {G : Type} [Zero G] [One G] [Add G] [Sub G] [Neg G] [Mul G] [Div G] [FloatModel G] [FloatSigns G] [DecidableEq G]
  [IntoComplex G (Cx F)] [FromComplex G (Cx F)] [ConvModel G F] [IntoComplex (Cx G) (Cx F)] [FromComplex (Cx G) (Cx F)] [ConvC G F]
variable {A : ClAlg} {S' : Type} [CoeffStorage S' ℂ] [LawfulStorage S' ℂ] [WedgeProduct A S']
variable {a : MV A (ArrayStorage (Cx G))} {a' : MV A S'} {x : Nat → Cx G} {c : Nat → F}

theorem MV.mag2_evalC (hA : A.WF) (ha : a'.Valid) {s : ℂ}
    (h : (do let p ← (FExpr.mul (.rev (.X 0)) (.X 0)).toG.eval (fun _ => a'); p.scalarPart) = .ok s) : a'.mag2 = .ok s := by
  obtain ⟨t, h1, h2⟩ := C15_mag2 hA ha
  have e : (do let p ← (FExpr.mul (.rev (.X 0)) (.X 0)).toG.eval (fun _ => a'); p.scalarPart : Res ℂ) =
      (do let r ← a'.rev; let p ← r.naiveMulImpl a'; p.scalarPart) := by
    simp only [FExpr.toG, GExpr.eval, bind_assoc]
    rfl
  rw [e, h2] at h
  rw [h1, h]

/-- **C99, squared magnitudes.** `mag2` in the transformed domain is exact for Gaussian integers. -/
theorem C99_fft_mag2_gaussian (hc : CastOk c) (hA : A.WF) (hd : A.dim < 63) (h4 : 4 ≤ M F) (ha : SameValuesC a a' x)
    (hz : Gaussian A.dim x) (hh : (2 : ℝ) ^ A.half ≤ M F) (hx : normC A.dim x ≤ M F)
    (hF : 2 ^ A.half * (normC A.dim x * normC A.dim x) ≤ M F) :
    ∃ (m : Cx F) (s : ℂ), (do let r : FFTRepr A (Cx F) ← a.fft; r.mag2F c) = .ok m ∧ a'.mag2 = .ok s ∧
      fin m.re ∧ fin m.im ∧ re m.re = s.re ∧ re m.im = s.im := by
  have n0 := normC_nonneg A.dim x
  have h2 : (1 : ℝ) ≤ 2 ^ A.half := one_le_pow₀ (by norm_num)
  obtain ⟨r, s, h1, h2, h3⟩ := C99_fft_ntrace_gaussian (F := F) hc hA hd h4 (ρ := fun _ => a) (ρ' := fun _ => a') (x := fun _ => x)
    (l := fun _ => normC A.dim x) (fun _ => ha) (fun _ => hz) (fun _ => le_rfl) (.mul (.rev (.X 0)) (.X 0)) ⟨hx, hx, by
      show normC A.dim x * normC A.dim x + 0 ≤ M F
      nlinarith only [hF, h2, mul_nonneg n0 n0]⟩ hh (by
      show 2 ^ A.half * (normC A.dim x * normC A.dim x + 0) ≤ M F
      rw [_root_.add_zero]; exact hF)
  exact ⟨_, s, FFTRepr.mag2F_eq h1, MV.mag2_evalC hA ha.valid' h2, h3⟩

/-- **C99, squared magnitudes.** The error of `mag2` of the transform; `L` counts the roundings. -/
theorem C99_fft_mag2 (hc : CastOk c) (hA : A.WF) (hd : A.dim < 63) (h4 : 4 ≤ M F) (hu : 0 < u F) (ha : SameValuesC a a' x)
    {h L : Nat} {B : ℝ} (hh : h = (A.realDim + A.imagDim + 1) / 2) (hL : L = 2 * 2 ^ h + 2 * h + A.projDim + 2)
    (hB : normC A.dim x ^ 2 + 3 ^ A.projDim * 4 ^ h * (4 * η F / u F) ≤ B)
    (hM : (2 : ℝ) ^ h ≤ M F) (hx : (1 + u F) ^ L * normC A.dim x ≤ Ω F) (hF : (1 + u F) ^ L * (2 ^ h * B) ≤ Ω F) :
    ∃ (m : Cx F) (s : ℂ), (do let r : FFTRepr A (Cx F) ← a.fft; r.mag2F c) = .ok m ∧ a'.mag2 = .ok s ∧ fin m.re ∧ fin m.im ∧
      |re m.re - s.re| + |re m.im - s.im| ≤ ((1 + u F) ^ (L + 1) - 1) * B + 2 * η F := by
  have hh' : h = A.half := hh
  subst hh'
  have n0 := normC_nonneg A.dim x
  have hD := Cx.uflow_nonneg (F := F)
  have hp := one_le_one_add_u (F := F)
  have h1 : (1 : ℝ) ≤ 2 ^ A.half := one_le_pow₀ (by norm_num)
  set E : ℝ := 3 ^ A.projDim * (2 ^ A.half * (2 ^ A.half * Cx.uflow F)) with hE
  have hE0 : 0 ≤ E := by positivity
  have e4 : 3 ^ A.projDim * 4 ^ A.half * (4 * η F / u F) = E := by
    rw [hE, show (4 : ℝ) ^ A.half = 2 ^ A.half * 2 ^ A.half by rw [← mul_pow]; norm_num]
    unfold Cx.uflow
    ring
  rw [e4] at hB
  have hB' : normC A.dim x * normC A.dim x + E ≤ B := by rw [← pow_two]; exact hB
  have hBB0 : 0 ≤ normC A.dim x * normC A.dim x + E := add_nonneg (mul_nonneg n0 n0) hE0
  have hle : ∀ {n m : Nat} {s t : ℝ}, n ≤ m → 0 ≤ s → s ≤ t → (1 + u F) ^ n * s ≤ (1 + u F) ^ m * t := fun hn hs ht =>
    mul_le_mul (pow_le_pow_right₀ hp hn) ht hs (zero_le_one.trans (one_le_pow₀ hp))
  have hL' : (FExpr.mul (.rev (.X 0)) (.X 0)).level A.half A.projDim + 2 ^ A.half = L := by
    simp only [FExpr.level]; omega
  have hbig : normC A.dim x * normC A.dim x + E ≤ 2 ^ A.half * B := by nlinarith only [h1, hB', hBB0]
  obtain ⟨r, s, g1, g2, g3, g4, g5⟩ := C99_fft_ntrace (F := F) (L := L) hc hA hd h4 hu (ρ := fun _ => a) (ρ' := fun _ => a') (x := fun _ => x)
    (l := fun _ => normC A.dim x) (fun _ => ha) (fun _ => le_rfl) (.mul (.rev (.X 0)) (.X 0)) hE rfl hL'.symm
    ⟨(hle (show A.half ≤ L by omega) n0 le_rfl).trans hx, (hle (show A.half ≤ L by omega) n0 le_rfl).trans hx,
      (hle (m := L) (by simp only [FExpr.level] at hL' ⊢; omega) hBB0 hbig).trans hF⟩ hM
    ((hle le_rfl (mul_nonneg (zero_le_one.trans h1) hBB0) (mul_le_mul_of_nonneg_left hB' (zero_le_one.trans h1))).trans hF)
  refine ⟨_, s, FFTRepr.mag2F_eq g1, MV.mag2_evalC hA ha.valid' g2, g3, g4, g5.trans ?_⟩
  have := one_le_pow₀ hp (n := L + 1)
  have := mul_le_mul_of_nonneg_left hB' (show 0 ≤ (1 + u F) ^ (L + 1) - 1 by linarith)
  exact add_le_add this le_rfl

end

section
variable {A : ClAlg} {S' : Type} [CoeffStorage S' ℂ] [LawfulStorage S' ℂ] [WedgeProduct A S'] {a' : MV A S'}

set_option exponentiation.threshold 2000 in
/-- **C99, squared magnitudes in `f64`.** The error is at most `L 2^-52` times the square of the sum of the absolute values. -/
theorem C99_fft_mag2_f64 (hA : A.WF) (hd : A.dim < 63) {a : MV A (ArrayStorage (Cx F64))} {x : Nat → Cx F64} (ha : SameValuesC a a' x)
    (hx : normC A.dim x ≤ 2 ^ 480) {h L : Nat} (hh : h = (A.realDim + A.imagDim + 1) / 2) (hL : L = 2 * 2 ^ h + 2 * h + A.projDim + 3) :
    ∃ (m : Cx F64) (s : ℂ), (do let r : FFTRepr A (Cx F64) ← a.fft; r.mag2F (Flt.ofNat .f64)) = .ok m ∧ a'.mag2 = .ok s ∧
      fin m.re ∧ fin m.im ∧ |re m.re - s.re| + |re m.im - s.im| ≤ L / 2 ^ 52 * (normC A.dim x ^ 2 + 1 / 2 ^ 800) := by
  obtain ⟨cu, cη, cM, cΩ, -⟩ := C69_f64
  have hdim : A.realDim + A.imagDim + A.projDim = A.dim := hA.dims
  have hh31 : h ≤ 31 := by omega
  obtain ⟨-, -, k3⟩ := consts_f64 (h := h) (s := A.projDim) hh31 (by omega) rfl
  have n1 := normC_nonneg A.dim x
  have hp31 : 2 ^ h ≤ 2 ^ 31 := Nat.pow_le_pow_right (by norm_num) hh31
  have hp31' : (2 : ℝ) ^ h ≤ 2 ^ 31 := pow_le_pow_right₀ (by norm_num) hh31
  have hLn : L ≤ 2 ^ 33 := by omega
  have hLr : (L : ℝ) ≤ 2 ^ 33 := by exact_mod_cast hLn
  have hLu : (L : ℝ) * u F64 ≤ 1 / 2 := by rw [cu]; linarith
  have k1 := pow_sub_one_le (u_nonneg (F := F64)) hLu
  have hx2 : normC A.dim x ^ 2 ≤ 2 ^ 960 := by
    refine (pow_le_pow_left₀ n1 hx 2).trans_eq ?_
    rw [← pow_mul]
  set B := normC A.dim x ^ 2 + 1 / 2 ^ 800 with hB
  have hB0 : 1 / 2 ^ 800 ≤ B := by have := pow_nonneg n1 2; linarith
  have hB00 : 0 ≤ B := le_trans (by positivity) hB0
  have hB1 : B ≤ 2 ^ 961 := by
    have : (1 : ℝ) / 2 ^ 800 ≤ 2 ^ 960 := by
      rw [div_le_iff₀ (by positivity), ← pow_add]
      exact one_le_pow₀ (by norm_num)
    rw [pow_succ]
    linarith
  have hpw : ∀ n ≤ L, (1 + u F64) ^ n ≤ 2 := fun n hn => by
    refine (pow_le_pow_right₀ (one_le_one_add_u (F := F64)) hn).trans ?_
    linarith
  have hD := Cx.uflow_nonneg (F := F64)
  have key := C99_fft_mag2 (F := F64) (castOk_flt .f64) hA hd (by rw [cM]; norm_num) (by rw [cu]; positivity) ha (L := L - 1) (B := B) hh (by omega)
    (by
      have e : (3 ^ A.projDim * 4 ^ h + h : ℝ) * (4 * η F64 / u F64) = 3 ^ A.projDim * 4 ^ h * (4 * η F64 / u F64) + h * (4 * η F64 / u F64) := by ring
      have : (0 : ℝ) ≤ h * (4 * η F64 / u F64) := mul_nonneg (Nat.cast_nonneg _) hD
      rw [hB]
      linarith)
    (by rw [cM]; exact hp31'.trans (by norm_num))
    ((mul_le_mul (hpw _ (by omega)) hx n1 (by norm_num)).trans (by rw [cΩ]; norm_num))
    ((mul_le_mul (hpw _ (by omega)) (mul_le_mul hp31' hB1 hB00 (by norm_num)) (by positivity) (by norm_num)).trans (by rw [cΩ]; norm_num))
  rw [show L - 1 + 1 = L by omega] at key
  obtain ⟨m, s, p1, p2, p3, p4, p5⟩ := key
  refine ⟨m, s, p1, p2, p3, p4, p5.trans ?_⟩
  have hL1 : (1 : ℝ) ≤ L := by exact_mod_cast (show 1 ≤ L by omega)
  have g1 := mul_le_mul_of_nonneg_right k1 hB00
  have g2 : (L : ℝ) * u F64 = L / 2 ^ 52 / 2 := by rw [cu]; ring
  rw [g2] at g1
  have g3 : 2 * η F64 ≤ 1 / 4 * (L / 2 ^ 52 * B) := by
    have : (1 : ℝ) / 2 ^ 52 * (1 / 2 ^ 800) ≤ L / 2 ^ 52 * B :=
      mul_le_mul (div_le_div_of_nonneg_right hL1 (by positivity)) hB0 (by positivity) (by positivity)
    refine le_trans ?_ (mul_le_mul_of_nonneg_left this (by norm_num))
    rw [cη]
    norm_num
  linarith

end

variable {A : ClAlg}

/-- `max_c`. -/
theorem FFTRepr.expMaxF_okC {hyp : F64 → F64 → F64} (hh : HypotOk hyp) {l : Nat} {r : FFTRepr A (Cx F64)} {y : GA A.sigma A.dim ℂ} {N : ℝ}
    (hN0 : 0 ≤ N) (hN : N ≤ 600) (hl : l ≤ 2 ^ 32) (hr : RepC l r y N) {m2 : Cx F64} (h2 : r.mag2F (Flt.ofNat .f64) = .ok m2) (hm2 : m2.Fin)
    (hm2' : Cx.n1 m2.val ≤ N ^ 2 + N / 2 + 1 / 2) :
    ∃ M m, r.expMaxF hyp = .ok M ∧ fin M ∧ re M = (m : ℕ) ∧ 1 ≤ m ∧ m ≤ ⌈N⌉₊ + 1 := by
  have hc1 : N ≤ ⌈N⌉₊ := Nat.le_ceil N
  have hc2 : (⌈N⌉₊ : ℝ) < N + 1 := Nat.ceil_lt_add_one hN0
  set B : ℕ := ⌈N⌉₊ + 1 with hB
  have hBN : N + 1 ≤ B := by rw [hB]; push_cast; linarith
  have h500 : (2 : ℝ) ^ 20 ≤ 2 ^ 500 := pow_le_pow_right₀ (by norm_num) (by norm_num)
  -- entries
  have hent : ∀ z ∈ r.arr.entries, fin (hyp z.re z.im) ∧ (hyp z.re z.im).toRat ≤ (B : ℚ) := by
    intro z hz
    simp only [Arr3.entries, List.mem_flatMap, List.mem_map, List.mem_range] at hz
    obtain ⟨k, hk, i, hi, j, hj, rfl⟩ := hz
    have hk' : k < 2 ^ A.projDim := by rw [← hr.1.1]; exact hk
    have hi' : i < 2 ^ A.half := by rw [← hr.1.2.1]; exact hi
    have hj' : j < 2 ^ A.half := by rw [← hr.1.2.2]; exact hj
    have he : Cx.Near l (r.arr.get k i j) _ N := CxRel.Rep.entry_le hr hk' hi' hj'
    have hs := he.size
    have hl' : (l : ℝ) ≤ 2 ^ 32 := by exact_mod_cast hl
    have hlu : (l : ℝ) * u F64 ≤ 1 / 2 ^ 21 := by rw [C69_f64.1]; linarith
    have hp := pow_sub_one_le (u_nonneg (F := F64)) (L := l) (by linarith)
    have hs' : Cx.n1 (r.arr.get k i j).val ≤ N + 1 / 4 := by
      refine hs.trans ?_
      have : ((1 + u F64) ^ l - 1) * N ≤ (3 / 2 * (1 / 2 ^ 21)) * 600 := mul_le_mul (by linarith) hN hN0 (by norm_num)
      linarith
    obtain ⟨g1, g2, g3⟩ := hh.le he.1 hs' (le_trans (by norm_num; linarith) h500)
    refine ⟨g1, ?_⟩
    have : re (hyp (r.arr.get k i j).re (r.arr.get k i j).im) ≤ B := by linarith
    change (((hyp _ _).toRat : ℚ) : ℝ) ≤ B at this
    exact_mod_cast this
  obtain ⟨f1, f2⟩ := foldl_fmax' (fun z : Cx F64 => hyp z.re z.im) r.arr.entries (fun z hz => (hent z hz).1) 1 fin_one
  -- mag2
  have hNN : N ^ 2 ≤ 600 ^ 2 := pow_le_pow_left₀ hN0 hN 2
  obtain ⟨g1, g2, g3⟩ := hh.le hm2 hm2' (le_trans (by norm_num; linarith) h500)
  have g2' : 0 ≤ (hyp m2.re m2.im).toRat := by
    change (0 : ℝ) ≤ (((hyp m2.re m2.im).toRat : ℚ) : ℝ) at g2
    exact_mod_cast g2
  obtain ⟨s1, -⟩ := Flt.sqrt_ok g1 g2'
  have s4 : re (hyp m2.re m2.im).sqrt ≤ B := by
    obtain ⟨t1, t2⟩ := C88_sqrt g1 g2
    obtain ⟨y, y1, y2⟩ := f64_nat B (by
      have : (⌈N⌉₊ : ℝ) < 2 ^ 53 - 1 := lt_of_lt_of_le (by linarith : _ < (601 : ℝ)) (by norm_num)
      have : (⌈N⌉₊ + 1 : ℝ) ≤ (2 ^ 53 : ℕ) := by push_cast; linarith
      rw [hB]
      exact_mod_cast this)
    have s3 := t2 y y1
    rw [y2] at s3
    have s4 : Real.sqrt (re (hyp m2.re m2.im)) ≤ B := by
      rw [Real.sqrt_le_left (by positivity)]
      nlinarith
    by_contra hcon
    push Not at hcon
    rw [abs_of_nonneg (sub_nonneg.mpr s4)] at s3
    have := le_abs_self (re (hyp m2.re m2.im).sqrt - Real.sqrt (re (hyp m2.re m2.im)))
    linarith
  obtain ⟨m1, m3⟩ := Flt.fmax_ok f1 s1
  obtain ⟨c1, c2⟩ := Flt.ceil_ok m1
  have e1 : (1 : F64).toRat = 1 := by
    have : re (1 : F64) = 1 := re_one
    have h : (((1 : F64).toRat : ℚ) : ℝ) = ((1 : ℚ) : ℝ) := by rw [Rat.cast_one]; exact this
    exact_mod_cast h
  set q := max (r.arr.entries.foldl (fun m z => Flt.fmax (hyp z.re z.im) m) (1 : F64)).toRat (hyp m2.re m2.im).sqrt.toRat with hq
  have hq1 : 1 ≤ q := by
    refine le_max_of_le_left ?_
    have := ((f2 _).mp le_rfl).1
    rwa [e1] at this
  have hqB : q ≤ B := by
    refine max_le ((f2 _).mpr ⟨?_, fun z hz => (hent z hz).2⟩) ?_
    · rw [e1, hB]; push_cast; linarith [Nat.cast_nonneg (α := ℚ) ⌈N⌉₊]
    · change (((hyp m2.re m2.im).sqrt.toRat : ℚ) : ℝ) ≤ B at s4
      exact_mod_cast s4
  refine ⟨_, ⌈q⌉.toNat, ?_, c1, ?_, ?_, ?_⟩
  · unfold FFTRepr.expMaxF
    rw [h2]
    rfl
  · show ((Flt.toRat _ : ℚ) : ℝ) = _
    rw [c2, m3]
    have h0 : 0 ≤ ⌈q⌉ := Int.ceil_nonneg (by linarith)
    have := Int.toNat_of_nonneg h0
    have h3 : ((⌈q⌉.toNat : ℤ) : ℝ) = ((⌈q⌉ : ℤ) : ℝ) := by rw [this]
    push_cast at h3 ⊢
    exact h3.symm
  · have : (0 : ℤ) < ⌈q⌉ := Int.ceil_pos.mpr (by linarith)
    omega
  · rw [Int.toNat_le, Int.ceil_le]
    exact_mod_cast hqB

section
variable {S' : Type} [CoeffStorage S' ℂ] [LawfulStorage S' ℂ] [WedgeProduct A S'] {a : MV A (ArrayStorage (Cx F64))} {a' : MV A S'} {x : Nat → Cx F64}

/-- The transform of a multivector. -/
theorem fft_repC (hA : A.WF) (hd : A.dim < 63) (ha : SameValuesC a a' x) {N : ℝ} (hN : N = ∑ i ∈ range (2 ^ A.dim), (|re (x i).re| + |re (x i).im|)) (hN6 : N ≤ 600) :
    ∃ r : FFTRepr A (Cx F64), a.fft = .ok r ∧ RepC A.half r a'.ga N := by
  have hhalf : A.half ≤ 2 ^ 51 := by
    have : A.realDim + A.imagDim + A.projDim = A.dim := hA.dims
    have e : A.half = (A.realDim + A.imagDim + 1) / 2 := rfl
    omega
  obtain ⟨r, h1, h2⟩ := FExpr.repFFT (Q := nearQ) (T := Cx F64) hA hd Cx.neg_neg' ConvC.fft_zero (ρ := fun _ => a) (fun _ => ha.valid)
    (x := fun _ k => (x k).val) (b := fun _ k => Cx.n1 (x k).val) (l := fun _ => N) (fun _ => hN.ge) rfl (fun i k hk => by
      rw [ha.val hk]
      obtain ⟨g1, g2⟩ := ConvC.into_ok (F := F64) (ha.finite k hk)
      refine ⟨g1, le_rfl, ?_⟩
      show Cx.n1 (_ - (x k).val) ≤ _
      rw [g2, sub_self, Cx.n1_zero]; simp) (.X 0) (okF hhalf (hN6.trans (le_trans (by norm_num)
          (pow_le_pow_right₀ (by norm_num : (1 : ℝ) ≤ 2) (show 10 ≤ 1000 by norm_num)))))
  refine ⟨r, h1, CxRel.Rep.congr hA h2 fun k hk => cx_congr ?_⟩
  rw [ga_val hk, ha.val' hk]
  rfl

/-- `mag2` of the transform. -/
theorem fft_mag2C (hA : A.WF) (hd : A.dim < 63) (ha : SameValuesC a a' x) {N : ℝ} (hN : N = ∑ i ∈ range (2 ^ A.dim), (|re (x i).re| + |re (x i).im|)) (hN6 : N ≤ 600)
    {r : FFTRepr A (Cx F64)} (hr : a.fft = .ok r) :
    ∃ m : Cx F64, r.mag2F (Flt.ofNat .f64) = .ok m ∧ m.Fin ∧ Cx.n1 m.val ≤ N ^ 2 + N / 2 + 1 / 2 := by
  have hN0 : 0 ≤ N := by rw [hN]; exact normC_nonneg _ _
  have hNn : normC A.dim x = N := by rw [hN]; rfl
  obtain ⟨m, s, h1, h2, h3, h4, h5⟩ := C99_fft_mag2_f64 hA hd ha (by
    rw [hNn]
    exact hN6.trans (le_trans (by norm_num) (pow_le_pow_right₀ (by norm_num : (1 : ℝ) ≤ 2) (show 10 ≤ 480 by norm_num)))) rfl rfl
  rw [hr] at h1
  refine ⟨m, h1, ⟨h3, h4⟩, ?_⟩
  rw [hNn] at h5
  have hs : Cx.n1 s ≤ N ^ 2 := by
    rw [mag2_ok hA ha.valid'] at h2
    injection h2 with h2
    have hN' : N = ∑ i ∈ range (2 ^ A.dim), Cx.n1 (x i).val := hN
    rw [← h2, hN', pow_two, sum_mul]
    refine (Cx.n1_sum _ _).trans (sum_le_sum fun i hi => ?_)
    have hi' := mem_range.mp hi
    simp only [Nat.xor_zero]
    rw [ha.val' hi', zsmul_eq_mul, zsmul_eq_mul]
    have b1 : |((bsgn A.sigma A.dim i i : ℤ) : ℝ)| ≤ 1 := by exact_mod_cast bsgn_sigma_abs hA hi' hi'
    have b2 : |((rsg A.dim i : ℤ) : ℝ)| ≤ 1 := by rcases rsg_unit A.dim i with h | h <;> rw [h] <;> simp
    have e : ((bsgn A.sigma A.dim i i : ℤ) : ℂ) * (((rsg A.dim i : ℤ) : ℂ) * (x i).val * (x i).val) =
        ((x i).val * (x i).val) * ((((bsgn A.sigma A.dim i i : ℤ) : ℝ) * ((rsg A.dim i : ℤ) : ℝ) : ℝ) : ℂ) := by push_cast; ring
    rw [e, Cx.n1_mul_real, abs_mul]
    have n0 := Cx.n1_nonneg (x i).val
    have n2 := Cx.n1_nonneg ((x i).val * (x i).val)
    calc _ ≤ Cx.n1 ((x i).val * (x i).val) * (1 * 1) := by gcongr
      _ ≤ Cx.n1 (x i).val * Cx.n1 (x i).val := by rw [one_mul, mul_one]; exact Cx.n1_mul _ _
      _ ≤ _ := mul_le_mul_of_nonneg_left (single_le_sum (f := fun i => Cx.n1 (x i).val) (fun _ _ => Cx.n1_nonneg _) hi) n0
  set L := 2 * 2 ^ ((A.realDim + A.imagDim + 1) / 2) + 2 * ((A.realDim + A.imagDim + 1) / 2) + A.projDim + 3 with hL
  have hLn : L ≤ 2 ^ 33 := by
    have hdim : A.realDim + A.imagDim + A.projDim = A.dim := hA.dims
    have : 2 ^ ((A.realDim + A.imagDim + 1) / 2) ≤ 2 ^ 31 := Nat.pow_le_pow_right (by norm_num) (by omega)
    omega
  have hLr : (L : ℝ) / 2 ^ 52 ≤ 1 / 2 ^ 19 := by
    rw [div_le_div_iff₀ (by positivity) (by positivity)]
    have : (L : ℝ) ≤ 2 ^ 33 := by exact_mod_cast hLn
    linarith
  have h800 : (1 : ℝ) / 2 ^ 800 ≤ 1 := by
    rw [div_le_one (by positivity)]; exact one_le_pow₀ (by norm_num)
  have h6 : (L : ℝ) / 2 ^ 52 * (N ^ 2 + 1 / 2 ^ 800) ≤ 1 / 2 ^ 19 * (N * 600 + 1) :=
    mul_le_mul hLr (add_le_add (by nlinarith) h800) (by positivity) (by norm_num)
  have h7 := Cx.n1_add (m.val - s) s
  rw [sub_add_cancel] at h7
  have h8 : Cx.n1 (m.val - s) = |re m.re - s.re| + |re m.im - s.im| := rfl
  linarith

/-- **C88, accuracy in the transformed domain, complex coefficients.** Let the absolute values of the real and imaginary parts of the
`Complex64` coefficients of `a` add up to `N ≤ 600`, in an algebra with fewer than 63 generators.  Then nothing overflows in
`a.fft().exp().ifft()`, and every coefficient differs from that of the exact exponential by at most `e^N N^19 / 19!` (truncation of the series) plus `K (N+2) e^(N+2) / 2^52` (rounding), where
`K = 19·2^h + 21 h + 19 p + 77` for the `p` generators that square to zero and half of the number of the others, rounded up, `h`. -/
theorem C88_fft_complex_accuracy {hyp : F64 → F64 → F64} (hh : HypotOk hyp) (hA : A.WF) (hd : A.dim < 63) (ha : SameValuesC a a' x)
    {E : Nat → ℂ} (hE : a'.IsExp E) {N : ℝ} (hN : N = ∑ i ∈ range (2 ^ A.dim), (|re (x i).re| + |re (x i).im|)) (hN6 : N ≤ 600) {h K : ℕ}
    (hhalf : h = (A.realDim + A.imagDim + 1) / 2) (hK : K = 19 * 2 ^ h + 21 * h + 19 * A.projDim + 77) {fuel : ℕ} (hf : 18 ≤ fuel) :
    ∃ (r s : FFTRepr A (Cx F64)) (z : Nat → Cx F64), a.fft = .ok r ∧ r.expF hyp fuel = some (.ok s) ∧
      Coefs (s.ifft : Res (MV A (ArrayStorage (Cx F64)))) z ∧ ∀ i < 2 ^ A.dim, fin (z i).re ∧ fin (z i).im ∧
        ‖(⟨re (z i).re, re (z i).im⟩ : ℂ) - E i‖ ≤ Real.exp N * (N ^ 19 / Nat.factorial 19) + K * (N + 2) * Real.exp (N + 2) / 2 ^ 52 := by
  have hh' : h = A.half := hhalf
  subst hh'
  have hN0 : 0 ≤ N := by rw [hN]; exact normC_nonneg _ _
  have hNa : ‖a'.ga‖ ≤ N := by rw [hN]; exact SameValuesC_norm ha
  have hdim : A.realDim + A.imagDim + A.projDim = A.dim := hA.dims
  have hh31 : A.half ≤ 31 := by omega
  have hp31 : 2 ^ A.half ≤ 2 ^ 31 := Nat.pow_le_pow_right (by norm_num) hh31
  have hKb : K ≤ 2 ^ 37 := by omega
  -- underflow
  have hD0 := Cx.uflow_nonneg (F := F64)
  have hE0 := uflowE_nonneg (A := A)
  obtain ⟨ε, hε⟩ : ∃ ε : ℝ, ε = 1 / 2 ^ 40 := ⟨_, rfl⟩
  have hsmall : uflowE A + A.half * Cx.uflow F64 ≤ ε := by
    obtain ⟨-, -, k3⟩ := consts_f64 (h := A.half) (s := A.projDim) hh31 (by omega) rfl
    have e4 : (3 ^ A.projDim * 4 ^ A.half + A.half) * (4 * η F64 / u F64) = uflowE A + A.half * Cx.uflow F64 := by
      unfold uflowE
      rw [show (4 : ℝ) ^ A.half = 2 ^ A.half * 2 ^ A.half by rw [← mul_pow]; norm_num]
      unfold Cx.uflow
      ring
    rw [e4] at k3
    refine k3.trans ?_
    rw [hε]
    exact one_div_le_one_div_of_le (by positivity) (pow_le_pow_right₀ (by norm_num) (by norm_num))
  have hhD : 0 ≤ A.half * Cx.uflow F64 := by positivity
  set U := uflowE A with hU
  have hUε : U ≤ ε := by linarith
  -- the transform and max_c
  obtain ⟨r, r1, r2⟩ := fft_repC hA hd ha hN hN6
  obtain ⟨m2, q1, q2, q3⟩ := fft_mag2C hA hd ha hN hN6 r1
  obtain ⟨M, m, M1, M2, M3, hm1, hmB⟩ := FFTRepr.expMaxF_okC hh hN0 hN6 (by omega) r2 q1 q2 q3
  have hm1R : (1 : ℝ) ≤ m := by exact_mod_cast hm1
  have hm0 : (0 : ℝ) < m := by linarith
  have hmR : (m : ℝ) ≤ N + 2 := by
    have hc2 : (⌈N⌉₊ : ℝ) < N + 1 := Nat.ceil_lt_add_one hN0
    have : (m : ℝ) ≤ (⌈N⌉₊ + 1 : ℕ) := by exact_mod_cast hmB
    push_cast at this
    linarith
  have hm602 : m ≤ 602 := by
    have : (m : ℝ) ≤ (602 : ℕ) := by push_cast; linarith
    exact_mod_cast this
  -- the normalized transform
  set s0 : ℝ := max 1 (N / m) with hs0
  have hs1 : 1 ≤ s0 := le_max_left _ _
  have hsm : s0 * m = max (m : ℝ) N := by
    rw [hs0, max_mul_of_nonneg _ _ hm0.le, one_mul, div_mul_cancel₀ _ hm0.ne']
  have hs600 : s0 ≤ 600 := max_le (by norm_num) ((div_le_self hN0 hm1R).trans hN6)
  have h1000 : (2 : ℝ) ^ 10 ≤ 2 ^ 1000 := pow_le_pow_right₀ (by norm_num) (by norm_num)
  have hNm : (m : ℝ)⁻¹ * N = N / m := by rw [inv_mul_eq_div]
  have n2 := r2.divReal hA (m := m) (by omega) M2 M3 (okF (by omega) (by
    rw [hNm]
    exact ((le_max_right 1 (N / m)).trans hs600).trans (le_trans (by norm_num) h1000)))
  set σ := s0 + 2 * U with hσ
  have n3 : RepC (A.half + 1) (r.divReal M) ((((m : ℝ)⁻¹ : ℝ) : ℂ) • a'.ga) (σ - U) := n2.mono le_rfl (by
    rw [hNm, hσ]
    have := le_max_right 1 (N / m)
    linarith)
  have hε1 : ε ≤ 1 / 2 ^ 20 := by rw [hε]; norm_num
  have hσ601 : σ ≤ 601 := by rw [hσ]; linarith
  have hσ1 : 1 + U ≤ σ := by rw [hσ]; linarith
  have h999 : (2 : ℝ) ^ 903 ≤ 2 ^ 999 := pow_le_pow_right₀ (by norm_num) (by norm_num)
  have hσ19 : σ ^ 19 ≤ 2 ^ 999 := by
    calc σ ^ 19 ≤ 601 ^ 19 := pow_le_pow_left₀ (by linarith) hσ601 19
      _ ≤ 2 ^ 200 := by norm_num
      _ ≤ _ := pow_le_pow_right₀ (by norm_num) (by norm_num)
  -- the loop
  have hone : RepC (0 * (A.half + 1 + mulC A + 1) + 3) (FFTRepr.one : FFTRepr A (Cx F64))
      (∑ j ∈ range (0 + 1), (((j.factorial : ℝ)⁻¹ : ℝ) : ℂ) • ((((m : ℝ)⁻¹ : ℝ) : ℂ) • a'.ga) ^ j)
      (∑ j ∈ range (0 + 1), σ ^ j / (j.factorial : ℝ) + ((0 : ℕ) : ℝ) * uflowE A) := by
    have := (RepC.one hA hd (A := A)).mono (l' := 3) (by omega) le_rfl
    simpa using this
  obtain ⟨t, t1, t2⟩ := FFTRepr.taylorF_nearC hA hσ1 n3 (by unfold mulC; omega) hσ19 ((exp_big (by linarith)).trans h999) (by linarith) 18 (k := 0) rfl
    (res := FFTRepr.one) hone
    (p := r.divReal M) (by simpa using n3) fuel hf
  -- the power
  have hexp0 := Real.exp_pos σ
  have hexp1 : 1 ≤ Real.exp σ := Real.one_le_exp (by linarith)
  have hbase : Real.exp σ + 18 * U + U ≤ Real.exp (σ + 19 * U) := by
    rw [Real.exp_add σ (19 * U)]
    have e1 := mul_le_mul_of_nonneg_left (Real.add_one_le_exp (19 * U)) hexp0.le
    have e2 := mul_le_mul_of_nonneg_right hexp1 (show 0 ≤ 19 * U by positivity)
    linarith
  have hmax : max (m : ℝ) N ≤ N + 2 := max_le hmR (by linarith)
  have hmU : (m : ℝ) * U ≤ 602 * ε := mul_le_mul (by exact_mod_cast hm602) hUε hE0 (by norm_num)
  have hbig : (Real.exp σ + 18 * U + U) ^ m ≤ Real.exp (N + 2 + 21 * (602 * ε)) := by
    refine (pow_le_pow_left₀ (by positivity) hbase m).trans ?_
    rw [← Real.exp_nat_mul]
    refine Real.exp_le_exp.mpr ?_
    have : (m : ℝ) * (σ + 19 * U) = s0 * m + 21 * (m * U) := by rw [hσ]; ring
    rw [this, hsm]
    linarith
  have hbig2 : Real.exp (N + 2 + 21 * (602 * ε)) ≤ Real.exp (N + 2) * (1 + 1 / 100) := by
    rw [Real.exp_add]
    refine mul_le_mul_of_nonneg_left ?_ (Real.exp_pos _).le
    have h5 : (0 : ℝ) ≤ 21 * (602 * ε) := by rw [hε]; positivity
    have h6 := Real.abs_exp_sub_one_le (x := 21 * (602 * ε)) (by rw [abs_of_nonneg h5, hε]; norm_num)
    rw [abs_of_nonneg h5, abs_le] at h6
    have : 2 * (21 * (602 * ε)) ≤ 1 / 100 := by rw [hε]; norm_num
    linarith [h6.2]
  have hE2 : Real.exp (N + 2) ≤ 2 ^ 903 := exp_big (by linarith)
  have hE21 : 1 ≤ Real.exp (N + 2) := Real.one_le_exp (by linarith)
  have h990 : (4 : ℝ) * (2 * 2 ^ 903) ≤ 2 ^ 1000 := by
    rw [show (4 : ℝ) * (2 * 2 ^ 903) = 2 ^ 906 by rw [show (906 : ℕ) = 3 + 903 from rfl, pow_add]; ring]
    exact pow_le_pow_right₀ (by norm_num) (by norm_num)
  obtain ⟨W, hW⟩ : ∃ W : ℝ, W = 2 ^ 903 := ⟨_, rfl⟩
  rw [← hW] at hE2 h990
  set L1 := 18 * (A.half + 1 + mulC A + 1) + 3 with hL1
  have hlev : m * L1 + (m - 1) * mulC A + 3 * A.half ≤ m * K := by
    have e1 : (m - 1) * mulC A ≤ m * mulC A := Nat.mul_le_mul_right _ (by omega)
    have e2 : 3 * A.half ≤ m * (3 * A.half) := Nat.le_mul_of_pos_left _ (by omega)
    have e3 : m * L1 + m * mulC A + m * (3 * A.half) = m * K := by
      rw [← Nat.mul_add, ← Nat.mul_add]
      congr 1
      rw [hK, hL1]
      unfold mulC
      ring
    omega
  have hmK : m * K ≤ 602 * 2 ^ 37 := Nat.mul_le_mul hm602 hKb
  obtain ⟨w, w1, w2⟩ := t2.pow hA (by linarith) (n := m) (by omega) (by omega)
    (le_trans (show (Real.exp σ + 18 * U + U) ^ m ≤ 4 * (2 * W) by linarith) h990)
  set L2 := m * L1 + (m - 1) * mulC A with hL2
  set B := (Real.exp σ + 18 * U + U) ^ m - U with hB
  set T := ∑ j ∈ range 19, (((j.factorial : ℝ)⁻¹ : ℝ) : ℂ) • ((((m : ℝ)⁻¹ : ℝ) : ℂ) • a'.ga) ^ j with hT
  have hBle : B + A.half * Cx.uflow F64 ≤ Real.exp (N + 2) * (1 + 1 / 50) := by
    have : A.half * Cx.uflow F64 ≤ 1 / 100 := by linarith
    linarith
  -- back
  have hden := ifft_ops (T := Cx F64) (ConvC.ifft_zero (F := F64) (by rw [C69_f64.2.2.1]; positivity)) hA hd w2.1
  refine ⟨r, w, _, r1, ?_, hden.coefs, fun i hi => ?_⟩
  · unfold FFTRepr.expF
    have hus : M.toUsize = .ok m := by
      obtain ⟨M, rfl⟩ := Flt.cases_fin M2
      have hMm : M.1 = (m : ℕ) := by
        change ((M.1 : ℚ) : ℝ) = _ at M3
        exact_mod_cast M3
      show Except.ok (min ⌊M.1⌋.toNat (2 ^ 64 - 1)) = _
      rw [hMm, show ((m : ℕ) : ℚ) = ((m : ℤ) : ℚ) by push_cast; rfl, Int.floor_intCast, Int.toNat_natCast,
        min_eq_left (by omega)]
    have hdo : (do
        let maxC ← r.expMaxF hyp
        let intPow ← maxC.toUsize
        return (intPow, r.divReal maxC) : Res (Nat × FFTRepr A (Cx F64))) = .ok (m, r.divReal M) := by
      rw [M1]
      show (do
        let intPow ← M.toUsize
        return (intPow, r.divReal M) : Res (Nat × FFTRepr A (Cx F64))) = _
      rw [hus]
      rfl
    rw [hdo]
    show (FFTRepr.taylorF _ fuel (expCoefF 0) (0 + 1) _ _).map _ = _
    rw [t1]
    show some (t.pow m) = _
    rw [w1]
  · have hun := nearQ.iPow_mul (countOnes (i &&& A.imagMask)) (CxRel.Rep.unfl (Q := nearQ) hA w2 (fun _ _ => trivial) (okF (by omega) (by
      have : 4 * (B + A.half * Cx.uflow F64) ≤ 4 * (2 * W) := by linarith
      exact this.trans h990)) hi)
    have e2 : iPow (countOnes (i &&& A.imagMask)) * cx A (T ^ m).fn i = ((T ^ m).fn i) := by
      unfold cx
      rw [← mul_assoc, iPow_mul_iPowNeg, one_mul]
      rfl
    rw [e2] at hun
    have hun : Cx.Near (L2 + 3 * A.half) (iPow (countOnes (i &&& A.imagMask)) * unflO A.half A.nn w.arr.get i : Cx F64) ((T ^ m).fn i) (B + A.half * Cx.uflow F64) := hun
    refine ⟨hun.1.1, hun.1.2, ?_⟩
    have hre := (Complex.norm_le_abs_re_add_abs_im _).trans hun.2.2
    have hlevR : ((L2 + 3 * A.half : ℕ) : ℝ) ≤ (N + 2) * K := by
      have : ((L2 + 3 * A.half : ℕ) : ℝ) ≤ (m * K : ℕ) := by exact_mod_cast hlev
      push_cast at this ⊢
      exact this.trans (mul_le_mul_of_nonneg_right hmR (by positivity))
    have hpw := pow_sub_one_le (u_nonneg (F := F64)) (L := L2 + 3 * A.half) (by
      have : ((L2 + 3 * A.half : ℕ) : ℝ) ≤ 602 * 2 ^ 37 := by exact_mod_cast hlev.trans hmK
      rw [C69_f64.1]
      linarith)
    rw [C69_f64.1] at hpw hre
    have hround : ((1 + 1 / 2 ^ 53) ^ (L2 + 3 * A.half) - 1) * (B + A.half * Cx.uflow F64) ≤ K * (N + 2) * Real.exp (N + 2) / 2 ^ 52 := by
      have g0 : (0 : ℝ) ≤ (1 + 1 / 2 ^ 53) ^ (L2 + 3 * A.half) - 1 := by
        have : (1 : ℝ) ≤ (1 + 1 / 2 ^ 53) ^ (L2 + 3 * A.half) := one_le_pow₀ (by norm_num)
        linarith
      have g1 := mul_le_mul_of_nonneg_left hBle g0
      have g2 : (1 + 1 / 2 ^ 53) ^ (L2 + 3 * A.half) - 1 ≤ 3 / 2 * ((N + 2) * K * (1 / 2 ^ 53)) :=
        hpw.trans (mul_le_mul_of_nonneg_left (mul_le_mul_of_nonneg_right hlevR (by norm_num)) (by norm_num))
      have g3 := mul_le_mul_of_nonneg_right g2 (show 0 ≤ Real.exp (N + 2) * (1 + 1 / 50) by positivity)
      refine (g1.trans g3).trans ?_
      have g4 : 0 ≤ K * (N + 2) * Real.exp (N + 2) := by positivity
      have : 3 / 2 * ((N + 2) * K * (1 / 2 ^ 53)) * (Real.exp (N + 2) * (1 + 1 / 50)) =
        K * (N + 2) * Real.exp (N + 2) / 2 ^ 52 * (153 / 200) := by ring
      rw [this]
      exact mul_le_of_le_one_right (by positivity) (by norm_num)
    have htr := exp_sub_taylor_pow_le (𝕜 := ℂ) a'.ga hm1 19
    have hTe : (∑ j ∈ range 19, ((j.factorial : ℂ)⁻¹) • ((m : ℂ)⁻¹ • a'.ga) ^ j) = T := by
      rw [hT]
      push_cast
      rfl
    rw [hTe, norm_sub_rev] at htr
    have hcoef : ‖(T ^ m).fn i - E i‖ ≤ ‖T ^ m - NormedSpace.exp a'.ga‖ := by
      rw [(isExp_iff hA ha.valid').mp hE i hi, GA.norm_def]
      refine le_trans (le_of_eq ?_) (single_le_sum (f := fun i => ‖(T ^ m - NormedSpace.exp a'.ga).fn i‖) (fun _ _ => norm_nonneg _) (mem_range.mpr hi))
      congr 1
      exact (map_sub (GA.coef i) _ _).symm
    have htr1 : m * ((‖a'.ga‖ / m) ^ 19 / Nat.factorial 19) * Real.exp ‖a'.ga‖ ≤ m * ((N / m) ^ 19 / Nat.factorial 19) * Real.exp N := by
      gcongr
    have htr2 : m * ((N / m) ^ 19 / Nat.factorial 19) * Real.exp N ≤ Real.exp N * (N ^ 19 / Nat.factorial 19) := by
      rw [mul_comm _ (Real.exp N)]
      refine mul_le_mul_of_nonneg_left ?_ (Real.exp_pos _).le
      rw [← mul_div_assoc]
      refine div_le_div_of_nonneg_right ?_ (by positivity)
      rw [div_pow, mul_div_assoc', div_le_iff₀ (by positivity), mul_comm]
      refine mul_le_mul_of_nonneg_left ?_ (by positivity)
      exact le_self_pow₀ hm1R (by norm_num)
    have hre' := hre.trans hround
    have := norm_sub_le_norm_sub_add_norm_sub (dcx (T := Cx F64) A (unflO A.half A.nn w.arr.get) i).val ((T ^ m).fn i) (E i)
    change ‖(dcx (T := Cx F64) A (unflO A.half A.nn w.arr.get) i).val - (T ^ m).fn i‖ ≤ _ at hre'
    change ‖(dcx (T := Cx F64) A (unflO A.half A.nn w.arr.get) i).val - E i‖ ≤ _
    linarith

end

namespace Ex

example : ∃ (m : TClifford.Cx F64) (s : ℂ), (do
    let r : FFTRepr E (TClifford.Cx F64) ← (denseC xGC : MV E (ArrayStorage (TClifford.Cx F64))).fft
    r.mag2F (Flt.ofNat .f64)) = .ok m ∧ (denseCC xGC).mag2 = .ok s := by
  have hn := xGC_norm
  have hn0 := normC_nonneg E.dim xGC
  have hM : FloatModel.M F64 = 2 ^ 53 := rfl
  have h4 : (2 : ℝ) ^ E.half ≤ 4 := by rw [show E.half = 2 by decide]; norm_num
  obtain ⟨m, s, h1, h2, -⟩ := C99_fft_mag2_gaussian (castOk_flt .f64) E_wf (by decide) four_le_M64 sameGC xGC_gauss two_half
    (hn.trans (by rw [hM]; norm_num)) (by
      calc _ ≤ 4 * (80 * 80 : ℝ) := mul_le_mul h4 (mul_le_mul hn hn hn0 (by norm_num)) (mul_nonneg hn0 hn0) (by norm_num)
        _ ≤ _ := by rw [hM]; norm_num)
  exact ⟨m, s, h1, h2⟩

example : ∃ (m : TClifford.Cx F64) (s : ℂ), (do
    let r : FFTRepr E (TClifford.Cx F64) ← (denseC xFC : MV E (ArrayStorage (TClifford.Cx F64))).fft
    r.mag2F (Flt.ofNat .f64)) = .ok m ∧ (denseCC xFC).mag2 = .ok s := by
  obtain ⟨m, s, h1, h2, -⟩ := C99_fft_mag2_f64 E_wf (by decide) sameFC (xFC_norm.trans (le_trans (by norm_num)
    (pow_le_pow_right₀ (by norm_num : (1 : ℝ) ≤ 2) (show 10 ≤ 480 by norm_num)))) rfl rfl
  exact ⟨m, s, h1, h2⟩

example : ∃ (r s : FFTRepr E (TClifford.Cx F64)), (denseC xFC : MV E (ArrayStorage (TClifford.Cx F64))).fft = .ok r ∧
    r.expF Flt.hypot 18 = some (.ok s) := by
  obtain ⟨E', hE, -⟩ := C67_exponential E_wf (sameFC.valid')
  obtain ⟨r, s, z, h1, h2, -⟩ := C88_fft_complex_accuracy hypotOk E_wf (by decide) sameFC hE rfl (xFC_norm.trans (by norm_num)) rfl rfl le_rfl
  exact ⟨r, s, h1, h2⟩

end Ex

end TClifford
