import Verif.Props.FFTFloatTrace
import Verif.Props.TestsRandom
/-
Traces of transforms of multivectors with complex floating point coefficients (C99), and the random assertions of
`trace_test`, tests/unit.rs:723-744 (C87).
-/

set_option linter.unusedSectionVars false

namespace TClifford

open MV Finset FloatModel

section
variable {F : Type} [Zero F] [One F] [Add F] [Sub F] [Neg F] [Mul F] [Div F] [FloatModel F] [FloatSigns F] [DecidableEq F]
variable {G : Type} [Zero G] [One G] [Add G] [Sub G] [Neg G] [Mul G] [Div G] [FloatModel G] [FloatSigns G] [DecidableEq G]
  [IntoComplex G (Cx F)] [FromComplex G (Cx F)] [ConvModel G F] [IntoComplex (Cx G) (Cx F)] [FromComplex (Cx G) (Cx F)] [ConvC G F]
variable {A : ClAlg} {S' : Type} [CoeffStorage S' ℂ] [LawfulStorage S' ℂ] [WedgeProduct A S']

/-- The trace of the value of an expression, for a relation `Q`. -/
theorem FExpr.traceC {Q : CxRel (Cx F)} (hA : A.WF) (hd : A.dim < 63) {ρ : Nat → MV A (ArrayStorage (Cx G))} {ρ' : Nat → MV A S'}
    {x : Nat → Nat → Cx G} {l : Nat → ℝ} (hρ : ∀ i, SameValuesC (ρ i) (ρ' i) (x i)) (hl : ∀ i, normC A.dim (x i) ≤ l i)
    {E : ℝ} (hE : E = 3 ^ A.projDim * (2 ^ A.half * (2 ^ A.half * Q.D)))
    (hR : ∀ i, ∀ k < 2 ^ A.dim, ∀ v : Cx F, v.Fin → v.val = (x i k).val → Q.R 0 v (x i k).val (Cx.n1 (x i k).val))
    (e : FExpr) (he : e.Fits Q.ok A.half A.projDim E l)
    (hok : Q.ok (e.level A.half A.projDim + 2 ^ A.half) (2 ^ A.half * e.size E l)) :
    ∃ r : FFTRepr A (Cx F), e.evalFFT (fun i => (ρ i).fft) = .ok r ∧ r.arr.d1 = 2 ^ A.half ∧
      (do let p ← e.toG.eval ρ'; p.scalarPart) = .ok (e.exact A (fun i k => (x i k).val) 0) ∧
      Q.R (e.level A.half A.projDim + 2 ^ A.half) r.trace ((2 ^ A.half : ℕ) * e.exact A (fun i k => (x i k).val) 0)
        ((2 ^ A.half : ℕ) * e.size E l) := by
  obtain ⟨r, e1, hr⟩ := FExpr.repFFT (Q := Q) hA hd Cx.neg_neg' ConvC.fft_zero (fun i => (hρ i).valid)
    (x := fun i k => (x i k).val) (b := fun i k => Cx.n1 (x i k).val) hl hE (fun i k hk => by
      rw [(hρ i).val hk]
      obtain ⟨g1, g2⟩ := ConvC.into_ok (F := F) ((hρ i).finite k hk)
      exact hR i k hk _ g1 g2) e he
  refine ⟨r, e1, hr.1.2.1, (FExpr.toG_denotes hA (fun i => (hρ i).valid') (x := fun i k => (x i k).val)
    (fun i k hk => (hρ i).val' hk) e).scalarPart, ?_⟩
  have h := hr.trace hok
  have e0 : cx (K := ℂ) A (e.exact A (fun i k => (x i k).val)) 0 = e.exact A (fun i k => (x i k).val) 0 := by
    unfold cx
    rw [Nat.zero_and, show countOnes 0 = 0 by decide]
    simp only [iPowNeg, one_mul]
    rfl
  rw [e0] at h
  push_cast
  exact h

variable {c : Nat → F}

/-- **C99, traces.** With Gaussian integers as coefficients, the normalized trace of the value of an expression in the transformed
domain is exactly the scalar part of the exact value. -/
theorem C99_fft_ntrace_gaussian (hc : CastOk c) (hA : A.WF) (hd : A.dim < 63) (h4 : 4 ≤ M F) {ρ : Nat → MV A (ArrayStorage (Cx G))} {ρ' : Nat → MV A S'}
    {x : Nat → Nat → Cx G} {l : Nat → ℝ} (hρ : ∀ i, SameValuesC (ρ i) (ρ' i) (x i)) (hz : ∀ i, Gaussian A.dim (x i))
    (hl : ∀ i, normC A.dim (x i) ≤ l i) (e : FExpr)
    (he : e.Fits (fun _ b => b ≤ M F) A.half A.projDim 0 l) (hh : (2 : ℝ) ^ A.half ≤ M F) (hF : 2 ^ A.half * e.size 0 l ≤ M F) :
    ∃ (r : FFTRepr A (Cx F)) (s : ℂ), e.evalFFT (fun i => (ρ i).fft) = .ok r ∧ (do let p ← e.toG.eval ρ'; p.scalarPart) = .ok s ∧
      fin (r.ntraceF c).re ∧ fin (r.ntraceF c).im ∧ re (r.ntraceF c).re = s.re ∧ re (r.ntraceF c).im = s.im := by
  have hint := FExpr.exact_gint (A := A) (x := fun i k => (x i k).val) (fun i k hk => hz i k hk) e 0 (Nat.two_pow_pos _)
  have hnorm := FExpr.exact_normC hA (x := fun i k => (x i k).val) hl e
  have h0 : Cx.n1 (e.exact A (fun i k => (x i k).val) 0) ≤ e.size 0 l :=
    (single_le_sum (f := fun k => Cx.n1 (e.exact A (fun i k => (x i k).val) k)) (fun _ _ => Cx.n1_nonneg _)
      (mem_range.mpr (Nat.two_pow_pos _))).trans hnorm
  obtain ⟨r, e1, e2, e3, h1, h2, -, -⟩ := FExpr.traceC (F := F) (Q := Cx.exactRel h4) hA hd hρ hl (E := 0) (by
      show (0 : ℝ) = _ * (_ * (_ * (0 : ℝ))); simp)
    (fun i k hk v hv e => ⟨hv, e, hz i k hk, le_rfl⟩) e he hF
  obtain ⟨k1, k2⟩ := Cx.divReal_exact (v := r.trace) (r := c r.arr.d1) (z := e.exact A (fun i k => (x i k).val) 0)
    (N := 2 ^ A.half) (Nat.two_pow_pos _).ne' (by rw [e2]; exact hc _ (by push_cast; exact hh)) h1 h2 hint (by
      have : (1 : ℝ) ≤ 2 ^ A.half := one_le_pow₀ (by norm_num)
      have hs : 0 ≤ e.size 0 l := (Cx.n1_nonneg _).trans h0
      nlinarith)
  exact ⟨r, _, e1, e3, k1.1, k1.2, congrArg Complex.re k2, congrArg Complex.im k2⟩

/-- **C99, traces.** The error of the normalized trace of the value of an expression; `L` counts the roundings and `B` bounds
the value. -/
theorem C99_fft_ntrace (hc : CastOk c) (hA : A.WF) (hd : A.dim < 63) (h4 : 4 ≤ M F) (hu : 0 < u F)
    {ρ : Nat → MV A (ArrayStorage (Cx G))} {ρ' : Nat → MV A S'} {x : Nat → Nat → Cx G} {l : Nat → ℝ}
    (hρ : ∀ i, SameValuesC (ρ i) (ρ' i) (x i)) (hl : ∀ i, normC A.dim (x i) ≤ l i) (e : FExpr) {E B : ℝ} {L : Nat}
    (hE : E = 3 ^ A.projDim * (2 ^ A.half * (2 ^ A.half * Cx.uflow F)))
    (hB : B = e.size E l) (hL : L = e.level A.half A.projDim + 2 ^ A.half)
    (he : e.Fits (fun l b => (1 + u F) ^ l * b ≤ Ω F) A.half A.projDim E l)
    (hh : (2 : ℝ) ^ A.half ≤ M F) (hF : (1 + u F) ^ L * (2 ^ A.half * B) ≤ Ω F) :
    ∃ (r : FFTRepr A (Cx F)) (s : ℂ), e.evalFFT (fun i => (ρ i).fft) = .ok r ∧ (do let p ← e.toG.eval ρ'; p.scalarPart) = .ok s ∧
      fin (r.ntraceF c).re ∧ fin (r.ntraceF c).im ∧
      |re (r.ntraceF c).re - s.re| + |re (r.ntraceF c).im - s.im| ≤ ((1 + u F) ^ (L + 1) - 1) * B + 2 * η F := by
  obtain ⟨r, e1, e2, e3, h1⟩ := FExpr.traceC (F := F) (Q := Cx.nearRel h4 hu) hA hd hρ hl hE
    (fun i k hk v hv e => ⟨hv, le_rfl, by rw [e, sub_self, Cx.n1_zero]; simp⟩) e he (by rw [hB, hL] at hF; exact hF)
  rw [← hL, ← hB] at h1
  have h1' : Cx.Near L r.trace ((2 ^ A.half : ℕ) * e.exact A (fun i k => (x i k).val) 0) ((2 ^ A.half : ℕ) * B) := h1
  have hB0 : 0 ≤ B := by
    have := h1'.nonneg
    have h2 : (0 : ℝ) < (2 ^ A.half : ℕ) := by exact_mod_cast Nat.two_pow_pos _
    exact nonneg_of_mul_nonneg_right this h2
  obtain ⟨k1, k2⟩ := Cx.divReal_near (r := c r.arr.d1) (Nat.two_pow_pos A.half).ne' (by rw [e2]; exact hc _ (by push_cast; exact hh)) h1' (by
    refine le_trans (mul_le_mul_of_nonneg_left ?_ (zero_le_one.trans (Cx.one_le_pow' (F := F) L))) hF
    exact le_mul_of_one_le_left hB0 (one_le_pow₀ (by norm_num)))
  exact ⟨r, _, e1, e3, k1.1, k1.2, k2⟩

end

/-! ### tests/unit.rs:736-744 -/

section
variable {A : ClAlg}

/-- The normalized trace of the transform of a random multivector. -/
theorem random_ntrace (hA : A.WF) (hd : A.dim ≤ 7) {a : MV A (ArrayStorage (Cx F64))} (ha : a.Valid) (ua : a.UnitC) :
    ∃ (r : FFTRepr A (Cx F64)), a.fft = .ok r ∧ (r.ntraceF (Flt.ofNat .f64)).Fin ∧ (a.val 0).Fin ∧
      |re (r.ntraceF (Flt.ofNat .f64)).re - re (a.val 0).re| + |re (r.ntraceF (Flt.ofNat .f64)).im - re (a.val 0).im| ≤ 3 / 4 / 10 ^ 12 := by
  obtain ⟨a', sa, na⟩ := unit_sameC ha (by omega) ua
  obtain ⟨cu, cη, cM, -⟩ := C69_f64
  have hn7 : normC A.dim a.val ≤ 256 := na.trans (by
    have : (2 : ℝ) ^ A.dim ≤ 2 ^ 7 := pow_le_pow_right₀ (by norm_num) hd
    linarith)
  have hh4 : A.half ≤ 4 := by
    have := hA.nn_le
    unfold ClAlg.half; omega
  have hp4 : 2 ^ A.half ≤ 2 ^ 4 := Nat.pow_le_pow_right (by norm_num) hh4
  have hp4' : (2 : ℝ) ^ A.half ≤ 2 ^ 4 := pow_le_pow_right₀ (by norm_num) hh4
  obtain ⟨r, s, e1, e2, e3, e4, e5⟩ := C99_fft_ntrace (F := F64) (G := F64) (castOk_flt .f64) hA (by omega) Ex.four_le (by rw [cu]; positivity)
    (ρ := fun _ => a) (ρ' := fun _ => a') (x := fun _ => a.val) (l := fun _ => 256) (fun _ => sa) (fun _ => hn7) (.X 0) rfl rfl rfl
    (by
      simp only [FExpr.Fits]
      exact Ex.ok64 (by omega) (le_big (by norm_num))) (by rw [cM]; exact hp4'.trans (by norm_num))
    (Ex.ok64 (by simp only [FExpr.level]; omega) (le_big (by
      simp only [FExpr.size]
      exact (mul_le_mul_of_nonneg_right hp4' (by norm_num)).trans (by norm_num))))
  refine ⟨r, e1, ⟨e3, e4⟩, sa.finite 0 (Nat.two_pow_pos _), ?_⟩
  have hs : s = a'.val 0 := by
    have h : a'.scalarPart = .ok s := e2
    rw [scalarPart_ok sa.valid'] at h
    injection h with h
    exact h.symm
  have hv := sa.val' (Nat.two_pow_pos A.dim)
  have h1 : s.re = re (a.val 0).re := by rw [hs, hv]; rfl
  have h2 : s.im = re (a.val 0).im := by rw [hs, hv]; rfl
  rw [h1, h2] at e5
  refine e5.trans ?_
  simp only [FExpr.size, FExpr.level]
  have hpow := pow_u (L := A.half + 2 ^ A.half + 1) (n := 21) (by omega)
  have hη : 2 * η F64 ≤ 1 / 2 ^ 100 := by
    rw [cη, show (1075 : ℕ) = 975 + 100 from rfl, pow_add]
    rw [mul_one_div, div_le_div_iff₀ (by positivity) (by positivity), one_mul]
    exact mul_le_mul_of_nonneg_right (le_trans (by norm_num) (pow_le_pow_right₀ (by norm_num) (show 1 ≤ 975 by norm_num))) (by positivity)
  refine (add_le_add (mul_le_mul_of_nonneg_right (sub_le_sub_right hpow 1) (by norm_num)) hη).trans ?_
  norm_num

/-- **C87.** The random assertions of `trace_test`, tests/unit.rs:736-744, in every algebra with at most seven generators: the trace of
the transform, divided by the side of the matrices, is the scalar part up to `1e-12`, and `approx_eq` accepts the scalar
`ntrace()` for the part of grade 0. -/
theorem C87_random_trace {hyp : F64 → F64 → F64} (hh : HypotOk hyp) [HashOrder (Cx F64)] (hA : A.WF) (hd : A.dim ≤ 7)
    {a : MV A (ArrayStorage (Cx F64))} (ha : a.Valid) (ua : a.UnitC) :
    (do
      let r : FFTRepr A (Cx F64) ← a.fft
      let s ← a.getByIdx 0
      let d := r.trace.divReal (Flt.ofNat .f64 r.arr.d1) - s
      return decide (hyp d.re d.im < (Flt.ofRat (1 / 10 ^ 12) : F64))) = (.ok true : Res Bool) ∧
    (do
      let r : FFTRepr A (Cx F64) ← a.fft
      let t : MV A (SparseStorage (Cx F64)) ← fromScalar (r.ntraceF (Flt.ofNat .f64))
      let g ← a.gradeExtract 0
      let g' ← g.toSparse
      t.approxEq (fun z : Cx F64 => hyp z.re z.im) g' (Flt.ofRat (1 / 10 ^ 12))) = .ok true := by
  obtain ⟨r, e1, ht, h0, hle⟩ := random_ntrace hA hd ha ua
  have hg := ha.get (Nat.two_pow_pos A.dim)
  constructor
  · rw [e1, hg]
    show Except.ok (decide _) = _
    congr 1
    rw [decide_eq_true_eq]
    have n1 := abs_nonneg (re (r.ntraceF (Flt.ofNat .f64)).re - re (a.val 0).re)
    have n2 := abs_nonneg (re (r.ntraceF (Flt.ofNat .f64)).im - re (a.val 0).im)
    obtain ⟨k1, k2⟩ := sub_close ht.1 h0.1 le_rfl (by linarith)
    obtain ⟨j1, j2⟩ := sub_close ht.2 h0.2 le_rfl (by linarith)
    have hs : Cx.n1 (r.ntraceF (Flt.ofNat .f64) - a.val 0).val ≤ (1 + 1 / 2 ^ 53) * (3 / 4 / 10 ^ 12) := by
      refine (add_le_add k2 j2).trans ?_
      rw [← mul_add]
      exact mul_le_mul_of_nonneg_left hle (by norm_num)
    obtain ⟨l1, -, l3⟩ := HypotOk.le hh (v := r.ntraceF (Flt.ofNat .f64) - a.val 0) ⟨k1, j1⟩ hs
      (le_trans (by norm_num) (one_le_pow₀ (by norm_num : (1 : ℝ) ≤ 2)))
    exact flt_lt l1 eps12.1 (lt_of_le_of_lt l3 (lt_of_le_of_lt (by norm_num) eps12.2))
  · obtain ⟨t, f1, vt, ft⟩ := fromScalar_denotes (A := A) (S := SparseStorage (Cx F64)) ha.supp (r.ntraceF (Flt.ofNat .f64))
    obtain ⟨g, f2, vg, fg⟩ := gradeExtractAs_denotes (S' := ArrayStorage (Cx F64)) ha ha.supp (k := 0) (by norm_num)
    obtain ⟨g', f3, vg', fg'⟩ := toStorageType_denotes (S' := SparseStorage (Cx F64)) vg vg.supp
    have f2' : a.gradeExtract 0 = .ok g := f2
    have f3' : g.toSparse = .ok g' := f3
    simp only [e1, f1, f2', f3', bind, Except.bind]
    refine approxEq_c64 hh vt vg' (d := 3 / 4 / 10 ^ 12) (by norm_num) eps12.1 (lt_of_le_of_lt (by norm_num) eps12.2) fun k hk => ?_
    rw [ft k hk, fg' k hk, fg k hk]
    beta_reduce
    by_cases hk0 : k = 0
    · subst hk0
      rw [if_pos (by decide)]
      exact ⟨ht, h0, hle⟩
    · rw [if_neg (by
        intro h
        rw [countOnes_eq_cnt hk] at h
        exact hk0 (Nat.eq_of_testBit_eq fun j => by
          rw [Nat.zero_testBit]
          rcases lt_or_ge j A.dim with hj | hj
          · exact cnt_eq_zero h j hj
          · exact Nat.testBit_lt_two_pow (lt_of_lt_of_le hk (Nat.pow_le_pow_right (by norm_num) hj))))]
      have : single 0 (r.ntraceF (Flt.ofNat .f64)) k = 0 := if_neg hk0
      rw [this]
      refine ⟨Cx.zero_Fin.1, Cx.zero_Fin.1, ?_⟩
      simp only [sub_self, abs_zero, _root_.add_zero]
      norm_num

end

namespace Ex

example [HashOrder (TClifford.Cx F64)] := C87_random_trace hypotOk A7_wf (by decide) (mUC_unit (A := A7) (by decide) 0).1 (mUC_unit (by decide) 0).2

/-- `x0 * x1 * ~x0 - flip x2` -/
example := C99_fft_ntrace_gaussian (F := F64) (castOk_flt .f64) E_wf (by decide) four_le (fun _ => sameGC) (fun _ => xGC_gauss) (l := fun _ => 80)
  (fun _ => xGC_norm) (.sub (.mul (.mul (.X 0) (.X 1)) (.rev (.X 0))) (.flip (.X 2))) (by
    have hM : (FloatModel.M F64) = 2 ^ 53 := rfl
    simp only [FExpr.Fits, FExpr.size, hM]; norm_num) two_half (by
    have hM : (FloatModel.M F64) = 2 ^ 53 := rfl
    simp only [FExpr.size, hM]
    have := half_le
    norm_num at this ⊢
    linarith)

example := C99_fft_ntrace (F := F64) (castOk_flt .f64) E_wf (by decide) four_le (by rw [C69_f64.1]; positivity)
  (l := fun _ => 64) (fun _ => sameFC) (fun _ => xFC_norm) exprF rfl rfl rfl (exprF_fits E_tiny) two_half
  (ok64 (by decide) ((mul_le_mul half_le (exprF_size E_tiny) (by
      have := tiny64.2
      simp only [exprF, FExpr.size]; positivity) (by norm_num)).trans
    (le_trans (by norm_num : (2 : ℝ) ^ 2 * 2 ^ 20 ≤ 2 ^ 22) (pow_le_pow_right₀ (by norm_num) (by norm_num)))))

end Ex

end TClifford
