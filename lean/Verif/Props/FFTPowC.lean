import Verif.Props.FFTExpC
import Verif.Props.FFTFloatPow
/-
C99, powers of `Complex64` multivectors through the transforms.
-/

namespace TClifford

open Finset FloatModel MV

variable {A : ClAlg} {S' : Type} [CoeffStorage S' ℂ] [LawfulStorage S' ℂ] {a : MV A (ArrayStorage (Cx F64))} {a' : MV A S'}
  {x : Nat → Cx F64}

set_option exponentiation.threshold 2000 in
/-- The transform of a multivector; compare `fft_repC`. -/
theorem fft_repC_big (hA : A.WF) (hd : A.dim < 63) (ha : SameValuesC a a' x) {N : ℝ} (hN : normC A.dim x ≤ N) (hb : N ≤ 2 ^ 1000) :
    ∃ r : FFTRepr A (Cx F64), a.fft = .ok r ∧ RepC A.half r a'.ga N := by
  have hhalf : A.half ≤ 2 ^ 51 := by
    have : A.realDim + A.imagDim + A.projDim = A.dim := hA.dims
    have e : A.half = (A.realDim + A.imagDim + 1) / 2 := rfl
    omega
  obtain ⟨r, h1, h2⟩ := FExpr.repFFT (Q := nearQ) (T := Cx F64) hA hd Cx.neg_neg' ConvC.fft_zero (ρ := fun _ => a) (fun _ => ha.valid)
    (x := fun _ k => (x k).val) (b := fun _ k => Cx.n1 (x k).val) (l := fun _ => N) (fun _ => hN) rfl (fun i k hk => by
      rw [ha.val hk]
      obtain ⟨g1, g2⟩ := ConvC.into_ok (F := F64) (ha.finite k hk)
      refine ⟨g1, le_rfl, ?_⟩
      show Cx.n1 (_ - (x k).val) ≤ _
      rw [g2, sub_self, Cx.n1_zero]; simp) (.X 0) (okF hhalf hb)
  refine ⟨r, h1, CxRel.Rep.congr hA h2 fun k hk => cx_congr ?_⟩
  rw [ga_val hk, ha.val' hk]
  rfl

set_option exponentiation.threshold 2000 in
/-- **C99, powers through the transforms.** With `h = ⌈(p+q)/2⌉` and `s` null directions, `L = n h + (n-1)(2^h + s + 2) + 3 h`
roundings; `N` is at least one and at least the sum of the absolute values of all real and imaginary parts. -/
theorem C99_fft_pow_f64 (hA : A.WF) (hd : A.dim < 63) (ha : SameValuesC a a' x) {N : ℝ} (h1 : 1 ≤ N)
    (hN : ∑ i ∈ range (2 ^ A.dim), (|re (x i).re| + |re (x i).im|) ≤ N) {n h L : Nat} (hn : 0 < n) (hh : h = (A.realDim + A.imagDim + 1) / 2)
    (hL : L = n * h + (n - 1) * (2 + 2 ^ h + A.projDim) + 3 * h) (hL' : L ≤ 2 ^ 51) (hΩ : N ^ n ≤ 2 ^ 997) :
    NearC (a.powFFT F64 n) (a'.pow n) (L / 2 ^ 52 * N ^ n) := by
  obtain ⟨cu, cη, cM, cΩ, -⟩ := C69_f64
  have hdim : A.realDim + A.imagDim + A.projDim = A.dim := hA.dims
  have hh' : h = A.half := hh
  subst hh'
  have hLm : L = n * A.half + (n - 1) * mulC A + 3 * A.half := hL
  obtain ⟨-, -, k3⟩ := consts_f64 (h := A.half) (s := A.projDim) (by omega) (by omega) rfl
  have hLr : (L : ℝ) ≤ 2 ^ 51 := by exact_mod_cast hL'
  have small : (L : ℝ) * u F64 ≤ 1 / 2 := by rw [cu]; linarith
  have hnr : (n : ℝ) ≤ 2 ^ 53 := by
    have : n - 1 ≤ (n - 1) * (2 + 2 ^ A.half + A.projDim) := Nat.le_mul_of_pos_right _ (by have := Nat.two_pow_pos A.half; omega)
    exact_mod_cast (show n ≤ 2 ^ 53 by omega)
  have hD := Cx.uflow_nonneg (F := F64)
  have hE0 := uflowE_nonneg (A := A)
  obtain ⟨E, hE⟩ : ∃ E : ℝ, E = uflowE A := ⟨_, rfl⟩
  obtain ⟨D, hD'⟩ : ∃ D : ℝ, D = A.half * Cx.uflow F64 := ⟨_, rfl⟩
  have hDq : D = A.half * nearQ.D := hD'
  have hD0 : 0 ≤ D := by rw [hD']; positivity
  rw [← hE] at hE0
  have hED : E + D ≤ 1 / 2 ^ 800 := by
    rw [hE, hD']
    refine le_of_eq_of_le ?_ k3
    unfold uflowE
    rw [show (4 : ℝ) ^ A.half = 2 ^ A.half * 2 ^ A.half by rw [← mul_pow]; norm_num]
    unfold Cx.uflow
    ring
  have t0 : (1 : ℝ) / 2 ^ 800 * 2 ^ 53 ≤ 1 / 12 := by norm_num
  have hnE : (n : ℝ) * E ≤ 1 / 12 := by
    refine le_trans ?_ t0
    rw [mul_comm]
    exact mul_le_mul (by linarith) hnr (by positivity) (by positivity)
  have hD1 : D ≤ 1 / 12 := by
    refine le_trans ?_ t0
    have : (1 : ℝ) / 2 ^ 800 ≤ 1 / 2 ^ 800 * 2 ^ 53 := le_mul_of_one_le_right (by positivity) (by norm_num)
    linarith
  have hp := one_add_pow_le hE0 n (by linarith)
  have hnE0 : 0 ≤ (n : ℝ) * E := by positivity
  rw [← mul_pow] at hp
  have hp' : (1 + E) ^ n ≤ 7 / 6 := by nlinarith only [hp, hnE, hnE0]
  have hN1 : 1 ≤ N ^ n := one_le_pow₀ h1
  have hNE : (N + E) ^ n + D ≤ 4 / 3 * N ^ n := by
    have h2 : N + E ≤ N * (1 + E) := by nlinarith only [h1, hE0]
    have := pow_le_pow_left₀ (by linarith) h2 n
    rw [mul_pow] at this
    nlinarith only [this, hp', hN1, hD1]
  have h8 : (8 : ℝ) * 2 ^ 997 = 2 ^ 1000 := by norm_num
  have hNn : N ≤ N ^ n := le_self_pow₀ h1 (by omega)
  obtain ⟨W, hW⟩ : ∃ W : ℝ, W = 2 ^ 1000 := ⟨_, rfl⟩
  have hΩ8 : 8 * N ^ n ≤ W := by rw [hW, ← h8]; linarith
  -- the transform, its power, and back
  obtain ⟨r, r1, r2⟩ := fft_repC_big hA hd ha hN (by rw [← hW]; linarith)
  obtain ⟨w, w1, w2⟩ := r2.pow hA h1 hn (by omega) (by rw [← hE, ← hW]; linarith)
  rw [← hE] at w2
  have hden := ifft_ops (T := Cx F64) (ConvC.ifft_zero (F := F64) (by rw [cM]; positivity)) hA hd w2.1
  obtain ⟨b', b1, b2, b3⟩ := (is_pow hA ha.valid' n).ok
  obtain ⟨b, c1, c2, c3⟩ := hden
  refine ⟨b, b', b.val, b'.val, ?_, b1, c2, b2, Denotes.coefs ⟨b, rfl, c2, fun _ _ => rfl⟩, Denotes.coefs ⟨b', rfl, b2, fun _ _ => rfl⟩, fun i hi => ?_⟩
  · unfold MV.powFFT
    rw [r1]
    show (r.pow n >>= fun s => _) = _
    rw [w1]
    exact c1
  have hun := nearQ.iPow_mul (countOnes (i &&& A.imagMask)) (CxRel.Rep.unfl (Q := nearQ) hA w2 (fun _ _ => trivial) (okF (by omega) (by
    rw [← hW, ← hDq]
    linarith)) hi)
  have e2 : iPow (countOnes (i &&& A.imagMask)) * cx A (a'.ga ^ n).fn i = ((a'.ga ^ n).fn i) := by
    unfold cx
    rw [← mul_assoc, iPow_mul_iPowNeg, one_mul]
    rfl
  rw [e2, ← b3, ga_val hi, ← hDq, ← hLm] at hun
  have hun : Cx.Near L (iPow (countOnes (i &&& A.imagMask)) * unflO A.half A.nn w.arr.get i : Cx F64) (b'.val i) ((N + E) ^ n - E + D) := hun
  have c3' : b.val i = (iPow (countOnes (i &&& A.imagMask)) * unflO A.half A.nn w.arr.get i : Cx F64) := c3 i hi
  rw [c3']
  refine ⟨hun.1.1, hun.1.2, hun.2.2.trans ?_⟩
  have k1 := pow_sub_one_le (u_nonneg (F := F64)) small
  have k2 := one_le_pow₀ (one_le_one_add_u (F := F64)) (n := L)
  have hx : 0 ≤ (L : ℝ) * u F64 := mul_nonneg (Nat.cast_nonneg _) u_nonneg
  have e3 : (L : ℝ) / 2 ^ 52 = 2 * (L * u F64) := by rw [cu]; ring
  rw [e3]
  have := mul_le_mul k1 (show (N + E) ^ n - E + D ≤ 4 / 3 * N ^ n by linarith)
    (by have : N ^ n ≤ (N + E) ^ n := pow_le_pow_left₀ (by linarith) (by linarith) n
        linarith [show E ≤ 1 by have : (1 : ℝ) / 2 ^ 800 ≤ 1 := by norm_num
                                linarith]) (by linarith)
  linarith

namespace Ex

set_option exponentiation.threshold 2000 in
/-- The twentieth power. -/
example := C99_fft_pow_f64 E_wf (by decide) sameFC (N := 2 ^ 10) (by norm_num) (xFC_norm.trans (by norm_num)) (n := 20) (by norm_num) rfl rfl (by decide) (by
  rw [← pow_mul]
  exact pow_le_pow_right₀ (by norm_num) (by norm_num))

end Ex

end TClifford
