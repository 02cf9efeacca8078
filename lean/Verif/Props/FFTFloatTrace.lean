import Verif.Model.FFTTrace
import Verif.Props.FFTFloatPow
/-
Traces of transforms in floating point: C78 (integers are exact) and C79 (rounding errors).
-/

set_option linter.unusedSectionVars false

namespace TClifford

open MV Finset FloatModel

/-- `as f64` is exact for integers up to `M`. -/
def CastOk {F : Type} [Zero F] [One F] [Add F] [Sub F] [Neg F] [Mul F] [Div F] [FloatModel F] (c : Nat → F) : Prop :=
  ∀ n : Nat, (n : ℝ) ≤ M F → fin (c n) ∧ re (c n) = n

theorem castOk_flt (f : Fmt) : CastOk (Flt.ofNat f) := by
  intro n hn
  have h := Flt.ofRat_int (f := f) (m := n) (by
    have : (n : ℝ) ≤ 2 ^ f.p := hn
    rw [abs_of_nonneg (by positivity)]
    exact_mod_cast this)
  have e : (((n : ℤ) : ℚ)) = (n : ℚ) := by simp
  rw [e] at h
  refine ⟨h.1, ?_⟩
  show (((Flt.ofNat f n).toRat : ℚ) : ℝ) = n
  unfold Flt.ofNat
  rw [h.2]; simp

namespace CxRel

section
variable {K : Type} [Zero K] [One K] [Add K] [Sub K] [Neg K] [Mul K] [Div K] [HasI K] {Q : CxRel K} {A : ClAlg}

theorem Rep.trace {l : Nat} {r : FFTRepr A K} {f : Nat → ℂ} {b : ℝ} (h : Q.Rep A l r f b)
    (hok : Q.ok (l + 2 ^ A.half) (2 ^ A.half * b)) : Q.R (l + 2 ^ A.half) r.trace (2 ^ A.half * f 0) (2 ^ A.half * b) := by
  have hb := h.nonneg
  have key : ∀ n ≤ 2 ^ A.half, Q.R (l + n) ((List.range n).foldl (fun s i => s + r.arr.get 0 i i) 0)
      (∑ i ∈ range n, FL A.half A.nn f 0 i i) (n * b) := by
    intro n
    induction n with
    | zero => intro _; simpa using Q.mono Q.zero (Nat.zero_le l) (le_refl (0 : ℝ))
    | succ n ih =>
      intro hn
      rw [List.range_succ, List.foldl_append, sum_range_succ]
      have h1 := ih (by omega)
      have h2 := Q.mono (h.entry_le (Nat.two_pow_pos _) (by omega : n < 2 ^ A.half) (by omega : n < 2 ^ A.half)) (Nat.le_add_right l n) le_rfl
      have e : ((n + 1 : Nat) : ℝ) * b = n * b + b := by push_cast; ring
      rw [e]
      refine Q.add h1 h2 (Q.ok_mono hok (show l + n + 1 ≤ l + 2 ^ A.half by omega) ?_)
      rw [← e]
      exact mul_le_mul_of_nonneg_right (by exact_mod_cast hn) hb
  have := key _ le_rfl
  unfold FFTRepr.trace
  rw [h.1.2.1]
  have e : ∑ i ∈ range (2 ^ A.half), FL A.half A.nn f 0 i i = 2 ^ A.half * f 0 := by
    have := ctr_trace A.half A.nn (lay A.nn f 0)
    rw [lay_zero, nsmul_eq_mul] at this
    rw [← lay_zero A.nn f] at this
    push_cast at this
    rw [lay_zero] at this
    rw [← this]
    refine sum_congr rfl fun i _ => ?_
    unfold FL
    rw [lay_zero]
  rw [e] at this
  push_cast at this
  exact this

end

end CxRel

namespace Cx

section
variable {F : Type} [Zero F] [One F] [Add F] [Sub F] [Neg F] [Mul F] [Div F] [FloatModel F] [FloatSigns F]

theorem divReal_exact {v : Cx F} {r : F} {z : ℂ} {N : Nat} (hN : N ≠ 0) (hr : fin r ∧ FloatModel.re r = N) (hv : v.Fin)
    (e : v.val = N * z) (hz : GInt z) (hb : n1 z ≤ M F) : (v.divReal r).Fin ∧ (v.divReal r).val = z := by
  obtain ⟨⟨a, ha⟩, b, hb'⟩ := hz
  have e1 : FloatModel.re v.re = a * ((N : ℤ) : ℝ) := by
    have : v.val.re = (N * z).re := by rw [e]
    simp at this
    rw [ha] at this
    rw [mul_comm]; push_cast; exact this
  have e2 : FloatModel.re v.im = b * ((N : ℤ) : ℝ) := by
    have : v.val.im = (N * z).im := by rw [e]
    simp at this
    rw [hb'] at this
    rw [mul_comm]; push_cast; exact this
  have j1 := FloatSigns.div_int (m := a) (n := N) hv.1 hr.1 e1 (by rw [hr.2]; simp) (by exact_mod_cast hN) (by
    rw [← ha]; exact (abs_re_le z).trans hb)
  have j2 := FloatSigns.div_int (m := b) (n := N) hv.2 hr.1 e2 (by rw [hr.2]; simp) (by exact_mod_cast hN) (by
    rw [← hb']; exact (abs_im_le z).trans hb)
  exact ⟨⟨j1.1, j2.1⟩, Complex.ext (by rw [ha]; exact j1.2) (by rw [hb']; exact j2.2)⟩

theorem divReal_near {v : Cx F} {r : F} {z : ℂ} {N : Nat} {L : Nat} {b : ℝ} (hN : N ≠ 0) (hr : fin r ∧ FloatModel.re r = N)
    (hv : Near L v (N * z) (N * b)) (hok : (1 + u F) ^ L * b ≤ Ω F) :
    (v.divReal r).Fin ∧ n1 ((v.divReal r).val - z) ≤ ((1 + u F) ^ (L + 1) - 1) * b + 2 * η F := by
  have hN0 : (0 : ℝ) < N := by exact_mod_cast Nat.pos_of_ne_zero hN
  have hs := hv.size
  have hs1 : |FloatModel.re v.re| / N + |FloatModel.re v.im| / N ≤ (1 + u F) ^ L * b := by
    rw [← add_div, div_le_iff₀ hN0]
    refine le_trans hs (le_of_eq (by ring))
  have p1 : 0 ≤ |FloatModel.re v.re| / N := by positivity
  have p2 : 0 ≤ |FloatModel.re v.im| / N := by positivity
  have a1 : |FloatModel.re v.re / N| = |FloatModel.re v.re| / N := by rw [abs_div, abs_of_pos hN0]
  have a2 : |FloatModel.re v.im / N| = |FloatModel.re v.im| / N := by rw [abs_div, abs_of_pos hN0]
  have j1 := FloatModel.div_ok hv.1.1 hr.1 (by rw [hr.2]; exact hN0.ne') (by rw [hr.2, a1]; linarith)
  have j2 := FloatModel.div_ok hv.1.2 hr.1 (by rw [hr.2]; exact hN0.ne') (by rw [hr.2, a2]; linarith)
  rw [hr.2, a1] at j1
  rw [hr.2, a2] at j2
  refine ⟨⟨j1.1, j2.1⟩, ?_⟩
  have e3 : n1 (v.val - N * z) / N = |FloatModel.re v.re / N - z.re| + |FloatModel.re v.im / N - z.im| := by
    have t1 : (v.val - N * z).re / N = FloatModel.re v.re / N - z.re := by
      simp
      rw [sub_div, mul_div_cancel_left₀ _ hN0.ne']; rfl
    have t2 : (v.val - N * z).im / N = FloatModel.re v.im / N - z.im := by
      simp
      rw [sub_div, mul_div_cancel_left₀ _ hN0.ne']; rfl
    rw [← t1, ← t2, abs_div, abs_div, abs_of_pos hN0, ← add_div]
    rfl
  have h4 : n1 (v.val - N * z) / N ≤ ((1 + u F) ^ L - 1) * b := by
    rw [div_le_iff₀ hN0]
    exact hv.2.2.trans (le_of_eq (by ring))
  rw [e3] at h4
  have b1 := abs_sub_le (FloatModel.re (v.re / r)) (FloatModel.re v.re / N) z.re
  have b2 := abs_sub_le (FloatModel.re (v.im / r)) (FloatModel.re v.im / N) z.im
  have hu := FloatModel.u_nonneg (F := F)
  have h5 := mul_le_mul_of_nonneg_left hs1 hu
  show |FloatModel.re (v.re / r) - z.re| + |FloatModel.re (v.im / r) - z.im| ≤ _
  have e6 : ((1 + u F) ^ (L + 1) - 1) * b = ((1 + u F) ^ L - 1) * b + u F * ((1 + u F) ^ L * b) := by rw [pow_succ]; ring
  rw [e6]
  linarith [j1.2, j2.2]

end
end Cx

section
variable {F : Type} [Zero F] [One F] [Add F] [Sub F] [Neg F] [Mul F] [Div F] [FloatModel F] [FloatSigns F] [DecidableEq F]
variable {T : Type} [Zero T] [One T] [Add T] [Sub T] [Neg T] [Mul T] [Div T] [FloatModel T] [DecidableEq T]
  [IntoComplex T (Cx F)] [FromComplex T (Cx F)] [ConvModel T F]
variable {A : ClAlg} {S' : Type} [CoeffStorage S' ℝ] [LawfulStorage S' ℝ] [WedgeProduct A S']

/-- The trace of the value of an expression, for a relation `Q`. -/
theorem FExpr.trace {Q : CxRel (Cx F)} (hA : A.WF) (hd : A.dim < 63) {ρ : Nat → MV A (ArrayStorage T)} {ρ' : Nat → MV A S'}
    {x : Nat → Nat → T} {l : Nat → ℝ} (hρ : ∀ i, SameValues (ρ i) (ρ' i) (x i)) (hl : ∀ i, normOne A.dim (x i) ≤ l i)
    {E : ℝ} (hE : E = 3 ^ A.projDim * (2 ^ A.half * (2 ^ A.half * Q.D)))
    (hR : ∀ i, ∀ k < 2 ^ A.dim, ∀ v : Cx F, v.Fin → v.val = (re (x i k) : ℂ) → Q.R 0 v (re (x i k) : ℂ) |re (x i k)|)
    (e : FExpr) (he : e.Fits Q.ok A.half A.projDim E l)
    (hok : Q.ok (e.level A.half A.projDim + 2 ^ A.half) (2 ^ A.half * e.size E l)) :
    ∃ r : FFTRepr A (Cx F), e.evalFFT (fun i => (ρ i).fft) = .ok r ∧ r.arr.d1 = 2 ^ A.half ∧
      (do let p ← e.toG.eval ρ'; p.scalarPart) = .ok (e.exact A (fun i k => re (x i k)) 0) ∧
      Q.R (e.level A.half A.projDim + 2 ^ A.half) r.trace ((2 ^ A.half : ℕ) * ((e.exact A (fun i k => re (x i k)) 0 : ℝ) : ℂ))
        ((2 ^ A.half : ℕ) * e.size E l) := by
  obtain ⟨r, e1, hr⟩ := FExpr.repFFT (Q := Q) hA hd Cx.neg_neg' ConvModel.fft_zero (fun i => (hρ i).valid)
    (x := fun i k => re (x i k)) hl hE (fun i k hk => by
      rw [(hρ i).val hk]
      obtain ⟨g1, g2⟩ := ConvModel.into_ok (F := F) ((hρ i).finite k hk)
      exact hR i k hk _ g1 g2) e he
  refine ⟨r, e1, hr.1.2.1, (FExpr.toG_denotes hA (fun i => (hρ i).valid') (x := fun i k => re (x i k))
    (fun i k hk => (hρ i).val' hk) e).scalarPart, ?_⟩
  have h := hr.trace hok
  have e0 : cx (K := ℂ) A (e.exact A (fun i k => re (x i k))) 0 = ((e.exact A (fun i k => re (x i k)) 0 : ℝ) : ℂ) := by
    unfold cx
    rw [Nat.zero_and, show countOnes 0 = 0 by decide]
    simp only [iPowNeg, one_mul]
    rfl
  rw [e0] at h
  push_cast
  exact h

variable {c : Nat → F}

/-- **C78, traces.** For integer coefficients, the normalized trace of the value of an expression in the transformed domain is
exactly the scalar part of the exact value (with imaginary part 0). -/
theorem C78_ntrace (hc : CastOk c) (hA : A.WF) (hd : A.dim < 63) (h4 : 4 ≤ M F) {ρ : Nat → MV A (ArrayStorage T)} {ρ' : Nat → MV A S'}
    {x : Nat → Nat → T} {l : Nat → ℝ} (hρ : ∀ i, SameValues (ρ i) (ρ' i) (x i))
    (hz : ∀ i, ∀ j < 2 ^ A.dim, ∃ m : ℤ, re (x i j) = m) (hl : ∀ i, normOne A.dim (x i) ≤ l i) (e : FExpr)
    (he : e.Fits (fun _ b => b ≤ M F) A.half A.projDim 0 l) (hh : (2 : ℝ) ^ A.half ≤ M F) (hF : 2 ^ A.half * e.size 0 l ≤ M F) :
    ∃ (r : FFTRepr A (Cx F)) (s : ℝ), e.evalFFT (fun i => (ρ i).fft) = .ok r ∧ (do let p ← e.toG.eval ρ'; p.scalarPart) = .ok s ∧
      fin (r.ntraceF c).re ∧ re (r.ntraceF c).re = s ∧ (r.ntraceF c).im = 0 := by
  have hint := FExpr.exact_int (A := A) (x := fun i k => re (x i k)) hz e 0 (Nat.two_pow_pos _)
  have hnorm := FExpr.exact_norm hA (x := fun i k => re (x i k)) hl e
  have h0 : |e.exact A (fun i k => re (x i k)) 0| ≤ e.size 0 l :=
    (single_le_sum (f := fun k => |e.exact A (fun i k => re (x i k)) k|) (fun _ _ => abs_nonneg _)
      (mem_range.mpr (Nat.two_pow_pos _))).trans hnorm
  obtain ⟨r, e1, e2, e3, h1, h2, -, -⟩ := FExpr.trace (F := F) (Q := Cx.exactRel h4) hA hd hρ hl (E := 0) (by
      show (0 : ℝ) = _ * (_ * (_ * (0 : ℝ))); simp)
    (fun i k hk v hv e => by
      obtain ⟨m, hm⟩ := hz i k hk
      refine ⟨hv, e, by rw [hm]; exact ⟨⟨m, by simp⟩, 0, by simp⟩, ?_⟩
      unfold Cx.n1
      simp) e he hF
  obtain ⟨m, hm⟩ := hint
  obtain ⟨k1, k2⟩ := Cx.divReal_exact (v := r.trace) (r := c r.arr.d1) (z := ((e.exact A (fun i k => re (x i k)) 0 : ℝ) : ℂ))
    (N := 2 ^ A.half) (Nat.two_pow_pos _).ne' (by rw [e2]; exact hc _ (by push_cast; exact hh)) h1 h2
    (by rw [hm]; exact ⟨⟨m, by simp⟩, 0, by simp⟩) (by
      unfold Cx.n1
      simp only [Complex.ofReal_re, Complex.ofReal_im, abs_zero, _root_.add_zero]
      have : (1 : ℝ) ≤ 2 ^ A.half := one_le_pow₀ (by norm_num)
      have hs : 0 ≤ e.size 0 l := (abs_nonneg _).trans h0
      nlinarith)
  refine ⟨r, _, e1, e3, k1.1, congrArg Complex.re k2, re_inj k1.2 fin_zero ?_⟩
  rw [re_zero]
  exact congrArg Complex.im k2

/-- **C79, traces.** The error of the normalized trace of the value of an expression; `L` counts the roundings and `B` bounds
the value. -/
theorem C79_ntrace (hc : CastOk c) (hA : A.WF) (hd : A.dim < 63) (h4 : 4 ≤ M F) (hu : 0 < u F)
    {ρ : Nat → MV A (ArrayStorage T)} {ρ' : Nat → MV A S'} {x : Nat → Nat → T} {l : Nat → ℝ}
    (hρ : ∀ i, SameValues (ρ i) (ρ' i) (x i)) (hl : ∀ i, normOne A.dim (x i) ≤ l i) (e : FExpr) {E B : ℝ} {L : Nat}
    (hE : E = 3 ^ A.projDim * (2 ^ A.half * (2 ^ A.half * Cx.uflow F)))
    (hB : B = e.size E l) (hL : L = e.level A.half A.projDim + 2 ^ A.half)
    (he : e.Fits (fun l b => (1 + u F) ^ l * b ≤ Ω F) A.half A.projDim E l)
    (hh : (2 : ℝ) ^ A.half ≤ M F) (hF : (1 + u F) ^ L * (2 ^ A.half * B) ≤ Ω F) :
    ∃ (r : FFTRepr A (Cx F)) (s : ℝ), e.evalFFT (fun i => (ρ i).fft) = .ok r ∧ (do let p ← e.toG.eval ρ'; p.scalarPart) = .ok s ∧
      fin (r.ntraceF c).re ∧ fin (r.ntraceF c).im ∧
      |re (r.ntraceF c).re - s| + |re (r.ntraceF c).im| ≤ ((1 + u F) ^ (L + 1) - 1) * B + 2 * η F := by
  obtain ⟨r, e1, e2, e3, h1⟩ := FExpr.trace (F := F) (Q := Cx.nearRel h4 hu) hA hd hρ hl hE
    (fun i k hk v hv e => by
      refine ⟨hv, ?_, ?_⟩
      · unfold Cx.n1; simp
      · rw [e, sub_self, Cx.n1_zero]; simp) e he (by rw [hB, hL] at hF; exact hF)
  rw [← hL, ← hB] at h1
  have h1' : Cx.Near L r.trace ((2 ^ A.half : ℕ) * ((e.exact A (fun i k => re (x i k)) 0 : ℝ) : ℂ)) ((2 ^ A.half : ℕ) * B) := h1
  have hB0 : 0 ≤ B := by
    have := h1'.nonneg
    have h2 : (0 : ℝ) < (2 ^ A.half : ℕ) := by exact_mod_cast Nat.two_pow_pos _
    exact nonneg_of_mul_nonneg_right this h2
  obtain ⟨k1, k2⟩ := Cx.divReal_near (r := c r.arr.d1) (Nat.two_pow_pos A.half).ne' (by rw [e2]; exact hc _ (by push_cast; exact hh)) h1' (by
    refine le_trans (mul_le_mul_of_nonneg_left ?_ (zero_le_one.trans (Cx.one_le_pow' (F := F) L))) hF
    exact le_mul_of_one_le_left hB0 (one_le_pow₀ (by norm_num)))
  refine ⟨r, _, e1, e3, k1.1, k1.2, le_trans (le_of_eq ?_) k2⟩
  unfold Cx.n1 FFTRepr.ntraceF
  simp [Cx.val]

variable {a : MV A (ArrayStorage T)} {a' : MV A S'} {x : Nat → T}

omit [FloatModel F] [FloatSigns F] [ConvModel T F] [FromComplex T (Cx F)] [CoeffStorage S' ℝ] [LawfulStorage S' ℝ] [WedgeProduct A S'] [FloatModel T] [Div T] in
theorem FFTRepr.mag2F_eq {r : FFTRepr A (Cx F)} (h : (FExpr.mul (.rev (.X 0)) (.X 0)).evalFFT (fun _ => a.fft) = .ok r) :
    (do let r : FFTRepr A (Cx F) ← a.fft; r.mag2F c) = .ok (r.ntraceF c) := by
  simp only [FExpr.evalFFT] at h
  cases h1 : (a.fft : Res (FFTRepr A (Cx F))) with
  | error e => rw [h1] at h; cases h
  | ok t =>
    rw [h1] at h
    show t.mag2F c = _
    cases h2 : t.rev with
    | error e =>
      rw [show (do let x ← (Except.ok t : Res (FFTRepr A (Cx F))); x.rev) = t.rev from rfl, h2] at h
      cases h
    | ok w =>
      rw [show (do let x ← (Except.ok t : Res (FFTRepr A (Cx F))); x.rev) = t.rev from rfl, h2] at h
      unfold FFTRepr.mag2F
      rw [h2]
      show (do let p ← w.mul t; return p.ntraceF c) = _
      rw [show w.mul t = .ok r from h]
      rfl

theorem MV.mag2_eval (hA : A.WF) (ha : a'.Valid) {s : ℝ}
    (h : (do let p ← (FExpr.mul (.rev (.X 0)) (.X 0)).toG.eval (fun _ => a'); p.scalarPart) = .ok s) : a'.mag2 = .ok s := by
  obtain ⟨t, h1, h2⟩ := C15_mag2 hA ha
  have e : (do let p ← (FExpr.mul (.rev (.X 0)) (.X 0)).toG.eval (fun _ => a'); p.scalarPart : Res ℝ) =
      (do let r ← a'.rev; let p ← r.naiveMulImpl a'; p.scalarPart) := by
    simp only [FExpr.toG, GExpr.eval, bind_assoc]
    rfl
  rw [e, h2] at h
  rw [h1, h]

/-- **C78, squared magnitudes.** `mag2` in the transformed domain is exact for integers. -/
theorem C78_mag2 (hc : CastOk c) (hA : A.WF) (hd : A.dim < 63) (h4 : 4 ≤ M F) (ha : SameValues a a' x)
    (hz : ∀ j < 2 ^ A.dim, ∃ m : ℤ, re (x j) = m) (hh : (2 : ℝ) ^ A.half ≤ M F) (hx : normOne A.dim x ≤ M F)
    (hF : 2 ^ A.half * (normOne A.dim x * normOne A.dim x) ≤ M F) :
    ∃ (m : Cx F) (s : ℝ), (do let r : FFTRepr A (Cx F) ← a.fft; r.mag2F c) = .ok m ∧ a'.mag2 = .ok s ∧ fin m.re ∧ re m.re = s ∧ m.im = 0 := by
  have n0 := normOne_nonneg A.dim x
  have h2 : (1 : ℝ) ≤ 2 ^ A.half := one_le_pow₀ (by norm_num)
  obtain ⟨r, s, h1, h2, h3⟩ := C78_ntrace (F := F) hc hA hd h4 (ρ := fun _ => a) (ρ' := fun _ => a') (x := fun _ => x)
    (l := fun _ => normOne A.dim x) (fun _ => ha) (fun _ => hz) (fun _ => le_rfl) (.mul (.rev (.X 0)) (.X 0)) ⟨hx, hx, by
      show normOne A.dim x * normOne A.dim x + 0 ≤ M F
      nlinarith only [hF, h2, mul_nonneg n0 n0]⟩ hh (by
      show 2 ^ A.half * (normOne A.dim x * normOne A.dim x + 0) ≤ M F
      rw [_root_.add_zero]; exact hF)
  exact ⟨_, s, FFTRepr.mag2F_eq h1, MV.mag2_eval hA ha.valid' h2, h3⟩

/-- **C79, squared magnitudes.** -/
theorem C79_mag2 (hc : CastOk c) (hA : A.WF) (hd : A.dim < 63) (h4 : 4 ≤ M F) (hu : 0 < u F) (ha : SameValues a a' x)
    {h L : Nat} {B : ℝ} (hh : h = (A.realDim + A.imagDim + 1) / 2) (hL : L = 2 * 2 ^ h + 2 * h + A.projDim + 2)
    (hB : normOne A.dim x ^ 2 + 3 ^ A.projDim * 4 ^ h * (4 * η F / u F) ≤ B)
    (hM : (2 : ℝ) ^ h ≤ M F) (hx : (1 + u F) ^ L * normOne A.dim x ≤ Ω F) (hF : (1 + u F) ^ L * (2 ^ h * B) ≤ Ω F) :
    ∃ (m : Cx F) (s : ℝ), (do let r : FFTRepr A (Cx F) ← a.fft; r.mag2F c) = .ok m ∧ a'.mag2 = .ok s ∧ fin m.re ∧ fin m.im ∧
      |re m.re - s| + |re m.im| ≤ ((1 + u F) ^ (L + 1) - 1) * B + 2 * η F := by
  have hh' : h = A.half := hh
  subst hh'
  have n0 := normOne_nonneg A.dim x
  have hD := Cx.uflow_nonneg (F := F)
  have hp := one_le_one_add_u (F := F)
  have h1 : (1 : ℝ) ≤ 2 ^ A.half := one_le_pow₀ (by norm_num)
  set E : ℝ := 3 ^ A.projDim * (2 ^ A.half * (2 ^ A.half * Cx.uflow F)) with hE
  have hE0 : 0 ≤ E := by positivity
  have e4 : 3 ^ A.projDim * 4 ^ A.half * (4 * η F / u F) = E := by
    rw [hE, show (4 : ℝ) ^ A.half = 2 ^ A.half * 2 ^ A.half by rw [← mul_pow]; norm_num]
    unfold Cx.uflow
    ring
  rw [e4] at hB
  have hB' : normOne A.dim x * normOne A.dim x + E ≤ B := by rw [← pow_two]; exact hB
  have hBB0 : 0 ≤ normOne A.dim x * normOne A.dim x + E := add_nonneg (mul_nonneg n0 n0) hE0
  have hle : ∀ {n m : Nat} {s t : ℝ}, n ≤ m → 0 ≤ s → s ≤ t → (1 + u F) ^ n * s ≤ (1 + u F) ^ m * t := fun hn hs ht =>
    mul_le_mul (pow_le_pow_right₀ hp hn) ht hs (zero_le_one.trans (one_le_pow₀ hp))
  have hL' : (FExpr.mul (.rev (.X 0)) (.X 0)).level A.half A.projDim + 2 ^ A.half = L := by
    simp only [FExpr.level]; omega
  have hbig : normOne A.dim x * normOne A.dim x + E ≤ 2 ^ A.half * B := by nlinarith only [h1, hB', hBB0]
  obtain ⟨r, s, g1, g2, g3, g4, g5⟩ := C79_ntrace (F := F) (L := L) hc hA hd h4 hu (ρ := fun _ => a) (ρ' := fun _ => a') (x := fun _ => x)
    (l := fun _ => normOne A.dim x) (fun _ => ha) (fun _ => le_rfl) (.mul (.rev (.X 0)) (.X 0)) hE rfl hL'.symm
    ⟨(hle (show A.half ≤ L by omega) n0 le_rfl).trans hx, (hle (show A.half ≤ L by omega) n0 le_rfl).trans hx,
      (hle (m := L) (by simp only [FExpr.level] at hL' ⊢; omega) hBB0 hbig).trans hF⟩ hM
    ((hle le_rfl (mul_nonneg (zero_le_one.trans h1) hBB0) (mul_le_mul_of_nonneg_left hB' (zero_le_one.trans h1))).trans hF)
  refine ⟨_, s, FFTRepr.mag2F_eq g1, MV.mag2_eval hA ha.valid' g2, g3, g4, g5.trans ?_⟩
  have := one_le_pow₀ hp (n := L + 1)
  have := mul_le_mul_of_nonneg_left hB' (show 0 ≤ (1 + u F) ^ (L + 1) - 1 by linarith)
  exact add_le_add this le_rfl

end

section
variable {A : ClAlg} {S' : Type} [CoeffStorage S' ℝ] [LawfulStorage S' ℝ] [WedgeProduct A S'] {a' : MV A S'}

set_option exponentiation.threshold 2000 in
/-- **C79, squared magnitudes in `f64`.** The error is at most `L 2^-52` times the square of the sum of the absolute values. -/
theorem C79_mag2_f64 (hA : A.WF) (hd : A.dim < 63) {a : MV A (ArrayStorage F64)} {x : Nat → F64} (ha : SameValues a a' x)
    (hx : normOne A.dim x ≤ 2 ^ 480) {h L : Nat} (hh : h = (A.realDim + A.imagDim + 1) / 2) (hL : L = 2 * 2 ^ h + 2 * h + A.projDim + 3) :
    ∃ (m : Cx F64) (s : ℝ), (do let r : FFTRepr A (Cx F64) ← a.fft; r.mag2F (Flt.ofNat .f64)) = .ok m ∧ a'.mag2 = .ok s ∧
      fin m.re ∧ fin m.im ∧ |re m.re - s| + |re m.im| ≤ L / 2 ^ 52 * (normOne A.dim x ^ 2 + 1 / 2 ^ 800) := by
  obtain ⟨cu, cη, cM, cΩ, -⟩ := C69_f64
  have hdim : A.realDim + A.imagDim + A.projDim = A.dim := hA.dims
  have hh31 : h ≤ 31 := by omega
  obtain ⟨-, -, k3⟩ := consts_f64 (h := h) (s := A.projDim) hh31 (by omega) rfl
  have n1 := normOne_nonneg A.dim x
  have hp31 : 2 ^ h ≤ 2 ^ 31 := Nat.pow_le_pow_right (by norm_num) hh31
  have hp31' : (2 : ℝ) ^ h ≤ 2 ^ 31 := pow_le_pow_right₀ (by norm_num) hh31
  have hLn : L ≤ 2 ^ 33 := by omega
  have hLr : (L : ℝ) ≤ 2 ^ 33 := by exact_mod_cast hLn
  have hLu : (L : ℝ) * u F64 ≤ 1 / 2 := by rw [cu]; linarith
  have k1 := pow_sub_one_le (u_nonneg (F := F64)) hLu
  have hx2 : normOne A.dim x ^ 2 ≤ 2 ^ 960 := by
    refine (pow_le_pow_left₀ n1 hx 2).trans_eq ?_
    rw [← pow_mul]
  set B := normOne A.dim x ^ 2 + 1 / 2 ^ 800 with hB
  have hB0 : 1 / 2 ^ 800 ≤ B := by have := pow_nonneg n1 2; linarith
  have hB00 : 0 ≤ B := le_trans (by positivity) hB0
  have hB1 : B ≤ 2 ^ 961 := by
    have : (1 : ℝ) / 2 ^ 800 ≤ 2 ^ 960 := by
      rw [div_le_iff₀ (by positivity), ← pow_add]
      exact one_le_pow₀ (by norm_num)
    rw [pow_succ]
    linarith
  have hpw : ∀ n ≤ L, (1 + u F64) ^ n ≤ 2 := fun n hn => by
    refine (pow_le_pow_right₀ (one_le_one_add_u (F := F64)) hn).trans ?_
    linarith
  have hD := Cx.uflow_nonneg (F := F64)
  have key := C79_mag2 (F := F64) (castOk_flt .f64) hA hd (by rw [cM]; norm_num) (by rw [cu]; positivity) ha (L := L - 1) (B := B) hh (by omega)
    (by
      have e : (3 ^ A.projDim * 4 ^ h + h : ℝ) * (4 * η F64 / u F64) = 3 ^ A.projDim * 4 ^ h * (4 * η F64 / u F64) + h * (4 * η F64 / u F64) := by ring
      have : (0 : ℝ) ≤ h * (4 * η F64 / u F64) := mul_nonneg (Nat.cast_nonneg _) hD
      rw [hB]
      linarith)
    (by rw [cM]; exact hp31'.trans (by norm_num))
    ((mul_le_mul (hpw _ (by omega)) hx n1 (by norm_num)).trans (by rw [cΩ]; norm_num))
    ((mul_le_mul (hpw _ (by omega)) (mul_le_mul hp31' hB1 hB00 (by norm_num)) (by positivity) (by norm_num)).trans (by rw [cΩ]; norm_num))
  rw [show L - 1 + 1 = L by omega] at key
  obtain ⟨m, s, p1, p2, p3, p4, p5⟩ := key
  refine ⟨m, s, p1, p2, p3, p4, p5.trans ?_⟩
  have hL1 : (1 : ℝ) ≤ L := by exact_mod_cast (show 1 ≤ L by omega)
  have g1 := mul_le_mul_of_nonneg_right k1 hB00
  have g2 : (L : ℝ) * u F64 = L / 2 ^ 52 / 2 := by rw [cu]; ring
  rw [g2] at g1
  have g3 : 2 * η F64 ≤ 1 / 4 * (L / 2 ^ 52 * B) := by
    have : (1 : ℝ) / 2 ^ 52 * (1 / 2 ^ 800) ≤ L / 2 ^ 52 * B :=
      mul_le_mul (div_le_div_of_nonneg_right hL1 (by positivity)) hB0 (by positivity) (by positivity)
    refine le_trans ?_ (mul_le_mul_of_nonneg_left this (by norm_num))
    rw [cη]
    norm_num
  linarith

end

namespace Ex

theorem two_half : (2 : ℝ) ^ E.half ≤ FloatModel.M F64 := by
  have hM : (FloatModel.M F64) = 2 ^ 53 := rfl
  rw [hM]
  exact pow_le_pow_right₀ (by norm_num) (by decide)

theorem half_le : (2 : ℝ) ^ E.half ≤ 2 ^ 2 := pow_le_pow_right₀ (by norm_num) (by decide)

/-- the scalar part of `x0 * x1 * ~x0 - flip x2` -/
example := C78_ntrace (F := F64) (castOk_flt .f64) E_wf (by decide) four_le (l := fun _ => 36) (fun _ => sameG) (fun _ => xG_int) (fun _ => xG_norm)
  (.sub (.mul (.mul (.X 0) (.X 1)) (.rev (.X 0))) (.flip (.X 2))) (by
    have hM : (FloatModel.M F64) = 2 ^ 53 := rfl
    simp only [FExpr.Fits, FExpr.size, hM]; norm_num) two_half (by
    have hM : (FloatModel.M F64) = 2 ^ 53 := rfl
    simp only [FExpr.size, hM]
    have := half_le
    norm_num at this ⊢
    linarith)

example := C78_mag2 (F := F64) (castOk_flt .f64) E_wf (by decide) four_le sameG xG_int two_half (by
    have hM : (FloatModel.M F64) = 2 ^ 53 := rfl
    rw [hM]; exact xG_norm.trans (by norm_num)) (by
    have hM : (FloatModel.M F64) = 2 ^ 53 := rfl
    rw [hM]
    have h1 := xG_norm
    have h0 := normOne_nonneg E.dim xG
    refine (mul_le_mul half_le (mul_le_mul h1 h1 h0 (by norm_num)) (mul_nonneg h0 h0) (by norm_num)).trans (by norm_num))

theorem E_tiny : (3 : ℝ) ^ E.projDim * (2 ^ E.half * (2 ^ E.half * Cx.uflow F64)) ≤ 1 := by
  have h : (0 : ℝ) ≤ E.half * Cx.uflow F64 := mul_nonneg (Nat.cast_nonneg _) tiny64.2
  linarith [tiny64.1]

example := C79_ntrace (F := F64) (castOk_flt .f64) E_wf (by decide) four_le (by rw [C69_f64.1]; positivity)
  (l := fun _ => 64) (fun _ => sameF) (fun _ => xF_sum64) exprF rfl rfl rfl (exprF_fits E_tiny) two_half
  (ok64 (by decide) ((mul_le_mul half_le (exprF_size E_tiny) (by
      have := tiny64.2
      simp only [exprF, FExpr.size]; positivity) (by norm_num)).trans
    (le_trans (by norm_num : (2 : ℝ) ^ 2 * 2 ^ 20 ≤ 2 ^ 22) (pow_le_pow_right₀ (by norm_num) (by norm_num)))))

set_option exponentiation.threshold 2000 in
example := C79_mag2_f64 E_wf (by decide) sameF (xF_norm64.trans (by norm_num)) rfl rfl

/-- The normalized trace computed with the transforms is the scalar part. -/
example : (do
    let r : FFTRepr E (Cx F64) ← (dense64 xF).fft
    let m ← r.mag2F (Flt.ofNat .f64)
    return (m.re.toRat, m.im.toRat) : Res (ℚ × ℚ)) = (do return ((← (dense64 xF).mag2).toRat, 0)) := by
  decide +kernel

end Ex

end TClifford
