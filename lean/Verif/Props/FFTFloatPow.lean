import Verif.Props.FFTFloat
import Verif.Props.FloatExpr
/-
Powers and sandwich products through the transforms in floating point: C78 (integers are exact) and C79 (rounding errors).
-/

set_option linter.unusedSectionVars false

namespace TClifford

open MV Finset FloatModel

/-- The square-and-multiply scheme of `pow` as an expression. -/
def FExpr.powE (e : FExpr) (n : Nat) : FExpr :=
  if n ≤ 1 then e
  else if n &&& 1 = 0 then .mul (powE e (n >>> 1)) (powE e (n >>> 1))
  else .mul (.mul (powE e (n >>> 1)) (powE e (n >>> 1))) e
  termination_by n
  decreasing_by all_goals rw [Nat.shiftRight_one]; omega

namespace FExpr

section
variable {A : ClAlg} {K : Type} [Zero K] [One K] [Add K] [Sub K] [Neg K] [Mul K] [Div K] [DecidableEq K] [HasI K]

theorem powE_evalFFT (ρ : Nat → Res (FFTRepr A K)) (i : Nat) {n : Nat} (hn : 0 < n) :
    ((X i).powE n).evalFFT ρ = (do (← ρ i).pow n) := by
  induction n using Nat.strong_induction_on with
  | _ n ih =>
    unfold powE
    by_cases h1 : n = 1
    · subst h1
      rw [if_pos (by omega : 1 ≤ 1)]
      show ρ i = _
      cases ρ i with
      | error e => rfl
      | ok r => show _ = r.pow 1; unfold FFTRepr.pow; rfl
    · have h2 := ih (n >>> 1) (by rw [Nat.shiftRight_one]; omega) (by rw [Nat.shiftRight_one]; omega)
      rw [if_neg (by omega : ¬ n ≤ 1)]
      cases hr : ρ i with
      | error e =>
        rw [hr] at h2
        split <;> simp only [evalFFT, h2] <;> rfl
      | ok r =>
        rw [hr] at h2
        have h2' : ((X i).powE (n >>> 1)).evalFFT ρ = r.pow (n >>> 1) := h2
        show _ = r.pow n
        conv_rhs => unfold FFTRepr.pow
        rw [if_neg (by omega : ¬ n = 0), if_neg h1]
        by_cases h3 : n &&& 1 = 0
        · simp only [if_pos h3, evalFFT, h2']
          cases r.pow (n >>> 1) <;> rfl
        · simp only [if_neg h3, evalFFT, h2', hr]
          cases r.pow (n >>> 1) with
          | error e => rfl
          | ok y => show (do let z ← y.mul y; let w ← Except.ok r; z.mul w) = _; rfl

end

theorem powE_toG (e : FExpr) (n : Nat) : (e.powE n).toG = e.toG.powE n := by
  induction n using Nat.strong_induction_on with
  | _ n ih =>
    unfold powE GExpr.powE
    by_cases h1 : n ≤ 1
    · rw [if_pos h1, if_pos h1]
    · have h2 := ih (n >>> 1) (by rw [Nat.shiftRight_one]; omega)
      rw [if_neg h1, if_neg h1]
      split <;> simp only [toG, h2]

theorem size_toG (E : ℝ) (l : Nat → ℝ) (e : FExpr) : e.size E l = e.toG.size E l := by
  induction e <;> simp only [size, toG, GExpr.size, *]

theorem powE_level (h s i : Nat) {n : Nat} (hn : 0 < n) : ((X i).powE n).level h s = n * h + (n - 1) * (2 + 2 ^ h + s) := by
  induction n using Nat.strong_induction_on with
  | _ n ih =>
    unfold powE
    by_cases h1 : n ≤ 1
    · rw [if_pos h1, show n = 1 by omega]; simp [level]
    · have h2 := ih (n >>> 1) (by rw [Nat.shiftRight_one]; omega) (by rw [Nat.shiftRight_one]; omega)
      rw [if_neg h1]
      rw [Nat.shiftRight_one] at *
      rw [and_one_mod]
      obtain ⟨m, hm⟩ : ∃ m, n / 2 = m + 1 := ⟨n / 2 - 1, by omega⟩
      by_cases hp : n % 2 = 0
      · rw [if_pos hp]
        simp only [level, h2]
        rw [show n - 1 = 2 * m + 1 by omega, show n = 2 * (m + 1) by omega, show 2 * (m + 1) / 2 = m + 1 by omega, Nat.add_sub_cancel]
        ring
      · rw [if_neg hp]
        simp only [level, h2]
        rw [show n - 1 = 2 * m + 2 by omega, show n = 2 * (m + 1) + 1 by omega, show (2 * (m + 1) + 1) / 2 = m + 1 by omega, Nat.add_sub_cancel]
        ring

theorem powE_fits {P : ℝ → Prop} (hP : ∀ b b', b ≤ b' → P b' → P b) {h s : Nat} {E : ℝ} (hE : 0 ≤ E) {l : Nat → ℝ} (i : Nat)
    (hl : 1 ≤ l i) {n : Nat} (hn : 0 < n) (hp : P ((l i + E) ^ n)) : ((X i).powE n).Fits (fun _ b => P b) h s E l := by
  have hX : P (l i) := hP _ _ (by
    calc l i ≤ l i + E := by linarith
      _ = (l i + E) ^ 1 := (pow_one _).symm
      _ ≤ (l i + E) ^ n := pow_le_pow_right₀ (by linarith) hn) hp
  have hw := GExpr.powE_within hP (N := 0) hE i hl hn hp
  change ((toG (X i)).powE n).Within _ _ _ _ at hw
  rw [← powE_toG] at hw
  clear hn hp
  induction n using Nat.strong_induction_on with
  | _ n ih =>
    unfold powE at hw ⊢
    by_cases h1 : n ≤ 1
    · rw [if_pos h1]; exact hX
    · rw [if_neg h1] at hw ⊢
      have hlt : n >>> 1 < n := by rw [Nat.shiftRight_one]; omega
      by_cases h3 : n &&& 1 = 0
      · rw [if_pos h3] at hw ⊢
        simp only [Fits, toG, GExpr.Within, size_toG] at hw ⊢
        exact ⟨ih _ hlt hw.1, ih _ hlt hw.1, hw.2.2⟩
      · rw [if_neg h3] at hw ⊢
        simp only [Fits, toG, GExpr.Within, size_toG, GExpr.size] at hw ⊢
        exact ⟨⟨ih _ hlt hw.1.1, ih _ hlt hw.1.1, hw.1.2.2⟩, hX, hw.2.2⟩

theorem Fits.imp {P Q : Nat → ℝ → Prop} {h s : Nat} {E : ℝ} {l : Nat → ℝ} {e : FExpr}
    (hPQ : ∀ L ≤ e.level h s, ∀ b, P L b → Q L b) (he : e.Fits P h s E l) : e.Fits Q h s E l := by
  induction e with
  | X i => exact hPQ _ le_rfl _ he
  | add e f ihe ihf | sub e f ihe ihf =>
    exact ⟨ihe (fun L hL => hPQ L (hL.trans ((le_max_left _ _).trans (Nat.le_succ _)))) he.1,
      ihf (fun L hL => hPQ L (hL.trans ((le_max_right _ _).trans (Nat.le_succ _)))) he.2.1, hPQ _ le_rfl _ he.2.2⟩
  | mul e f ihe ihf =>
    exact ⟨ihe (fun L hL => hPQ L (hL.trans (by show _ ≤ _ + _ + _ + _ + _; have := Nat.two_pow_pos h; omega))) he.1,
      ihf (fun L hL => hPQ L (hL.trans (by show _ ≤ _ + _ + _ + _ + _; have := Nat.two_pow_pos h; omega))) he.2.1, hPQ _ le_rfl _ he.2.2⟩
  | neg e ih | rev e ih | flip e ih => exact ih hPQ he

end FExpr

section
variable {F : Type} [Zero F] [One F] [Add F] [Sub F] [Neg F] [Mul F] [Div F] [FloatModel F] [FloatSigns F] [DecidableEq F]
variable {T : Type} [Zero T] [One T] [Add T] [Sub T] [Neg T] [Mul T] [Div T] [FloatModel T] [DecidableEq T]
  [IntoComplex T (Cx F)] [FromComplex T (Cx F)] [ConvModel T F]
variable {A : ClAlg} {S' : Type} [CoeffStorage S' ℝ] [LawfulStorage S' ℝ] [WedgeProduct A S']
  {a : MV A (ArrayStorage T)} {a' : MV A S'} {x : Nat → T}

/-- Powers through the transforms. -/
def MV.powFFT (F : Type) [Zero F] [One F] [Add F] [Sub F] [Neg F] [Mul F] [Div F] [DecidableEq F] {T : Type} [Zero T] [One T]
    [Add T] [Sub T] [Neg T] [Mul T] [DecidableEq T] [IntoComplex T (Cx F)] [FromComplex T (Cx F)] (a : MV A (ArrayStorage T)) (n : Nat) :
    Res (MV A (ArrayStorage T)) := do
  let r : FFTRepr A (Cx F) ← a.fft
  let s ← r.pow n
  s.ifft

theorem FExpr.powE_via {n : Nat} (hn : 0 < n) : ((X 0).powE n).viaFFT (Cx F) (fun _ => a) = a.powFFT F n := by
  unfold viaFFT MV.powFFT
  rw [powE_evalFFT _ _ hn, bind_assoc]

/-- **C78, powers.** -/
theorem C78_pow (hA : A.WF) (hd : A.dim < 63) (h4 : 4 ≤ M F) (ha : SameValues a a' x) (hz : ∀ j < 2 ^ A.dim, ∃ m : ℤ, re (x j) = m)
    {N : ℝ} (h1 : 1 ≤ N) (hN : normOne A.dim x ≤ N) {n : Nat} (hn : 0 < n) (hF : 4 * N ^ n ≤ M F) (hT : N ^ n ≤ M T) :
    ExactZ (a.powFFT F n) (a'.pow n) (N ^ n) := by
  have hp : 0 ≤ N ^ n := by positivity
  have sz : ((FExpr.X 0).powE n).size 0 (fun _ => N) = N ^ n := by
    rw [FExpr.size_toG, FExpr.powE_toG]
    have := GExpr.powE_size le_rfl (l := fun _ => N) 0 h1 hn
    simp only [_root_.add_zero] at this
    exact le_antisymm this.2 this.1
  have h := C78_expression (F := F) hA hd h4 (ρ := fun _ => a) (ρ' := fun _ => a') (x := fun _ => x) (l := fun _ => N) (fun _ => ha)
    (fun _ => hz) (fun _ => hN) ((FExpr.X 0).powE n)
    (FExpr.powE_fits (P := fun b => b ≤ M F) (fun b b' h h' => h.trans h') le_rfl 0 h1 hn (by
      show (N + 0) ^ n ≤ M F
      rw [_root_.add_zero]; linarith)) (by rw [sz]; exact hF) (by rw [sz]; exact hT)
  rw [FExpr.powE_via hn, FExpr.powE_toG, sz] at h
  change ExactZ _ (((GExpr.X 0).powE n).eval _) _ at h
  rw [GExpr.powE_eval _ _ hn] at h
  exact h

end

section
variable {A : ClAlg} {S' : Type} [CoeffStorage S' ℝ] [LawfulStorage S' ℝ] [WedgeProduct A S'] {a' b' : MV A S'}

set_option exponentiation.threshold 2000 in
/-- **C79, powers in `f64`.** With `h = ⌈(p+q)/2⌉` and `s` the number of null directions, `L = n h + (n-1)(2^h + s + 2) + 3 h`
roundings. -/
theorem C79_pow_f64 (hA : A.WF) (hd : A.dim < 63) {a : MV A (ArrayStorage F64)} {x : Nat → F64} (ha : SameValues a a' x)
    {N : ℝ} (h1 : 1 ≤ N) (hN : normOne A.dim x ≤ N) {n h L : Nat} (hn : 0 < n) (hh : h = (A.realDim + A.imagDim + 1) / 2)
    (hL : L = n * h + (n - 1) * (2 + 2 ^ h + A.projDim) + 3 * h) (hL' : L ≤ 2 ^ 52) (hΩ : N ^ n ≤ 2 ^ 1000) :
    NearR (a.powFFT F64 n) (a'.pow n) (fun _ _ => True) (fun _ _ => L / 2 ^ 52 * N ^ n) := by
  obtain ⟨cu, cη, cM, cΩ, -⟩ := C69_f64
  have hdim : A.realDim + A.imagDim + A.projDim = A.dim := hA.dims
  obtain ⟨-, -, k3⟩ := consts_f64 (h := h) (s := A.projDim) (by omega) (by omega) rfl
  have hh' : h = A.half := hh
  subst hh'
  have hLr : (L : ℝ) ≤ 2 ^ 52 := by exact_mod_cast hL'
  have small : (L : ℝ) * u F64 ≤ 1 / 2 := by rw [cu]; linarith
  have hnr : (n : ℝ) ≤ 2 ^ 53 := by
    have : n - 1 ≤ (n - 1) * (2 + 2 ^ A.half + A.projDim) := Nat.le_mul_of_pos_right _ (by have := Nat.two_pow_pos A.half; omega)
    exact_mod_cast (show n ≤ 2 ^ 53 by omega)
  have hD := Cx.uflow_nonneg (F := F64)
  have e4 : (3 : ℝ) ^ A.projDim * (2 ^ A.half * (2 ^ A.half * Cx.uflow F64)) = 3 ^ A.projDim * 4 ^ A.half * Cx.uflow F64 := by
    rw [show (4 : ℝ) = 2 * 2 by norm_num, mul_pow]; ring
  obtain ⟨E, hE⟩ : ∃ E : ℝ, E = 3 ^ A.projDim * 4 ^ A.half * Cx.uflow F64 := ⟨_, rfl⟩
  obtain ⟨D, hD'⟩ : ∃ D : ℝ, D = A.half * Cx.uflow F64 := ⟨_, rfl⟩
  have hE0 : 0 ≤ E := by rw [hE]; positivity
  have hD0 : 0 ≤ D := by rw [hD']; positivity
  have hED : E + D ≤ 1 / 2 ^ 800 := by
    rw [hE, hD']
    refine le_of_eq_of_le ?_ k3
    unfold Cx.uflow
    ring
  have t0 : (1 : ℝ) / 2 ^ 800 * 2 ^ 53 ≤ 1 / 12 := by norm_num
  have hnE : (n : ℝ) * E ≤ 1 / 12 := by
    refine le_trans ?_ t0
    rw [mul_comm]
    exact mul_le_mul (by linarith) hnr (by positivity) (by positivity)
  have hD1 : D ≤ 1 / 12 := by
    refine le_trans ?_ t0
    have : (1 : ℝ) / 2 ^ 800 ≤ 1 / 2 ^ 800 * 2 ^ 53 := le_mul_of_one_le_right (by positivity) (by norm_num)
    linarith
  have hp := one_add_pow_le hE0 n (by linarith)
  have hnE0 : 0 ≤ (n : ℝ) * E := by positivity
  rw [← mul_pow] at hp
  have hp' : (1 + E) ^ n ≤ 7 / 6 := by nlinarith only [hp, hnE, hnE0]
  have hN1 : 1 ≤ N ^ n := one_le_pow₀ h1
  have hNE : (N + E) ^ n + D ≤ 4 / 3 * N ^ n := by
    have h2 : N + E ≤ N * (1 + E) := by nlinarith only [h1, hE0]
    have := pow_le_pow_left₀ (by linarith) h2 n
    rw [mul_pow] at this
    nlinarith only [this, hp', hN1, hD1]
  have k1 := pow_sub_one_le (u_nonneg (F := F64)) small
  have k2 := one_le_pow₀ (one_le_one_add_u (F := F64)) (n := L)
  have sz := GExpr.powE_size hE0 (l := fun _ => N) 0 h1 hn
  change _ ≤ ((FExpr.X 0).toG.powE n).size _ _ ∧ ((FExpr.X 0).toG.powE n).size _ _ + _ ≤ _ at sz
  rw [← FExpr.powE_toG, ← FExpr.size_toG] at sz
  have hs0 : 0 ≤ ((FExpr.X 0).powE n).size E (fun _ => N) := le_trans (by positivity) sz.1
  have hB : ((FExpr.X 0).powE n).size E (fun _ => N) + D ≤ 4 / 3 * N ^ n := by linarith [sz.2]
  have big : ∀ b : ℝ, b ≤ 4 * (4 / 3 * N ^ n) → (1 + u F64) ^ L * b ≤ Ω F64 := fun b hb => by
    refine (mul_le_mul_of_nonneg_left (hb.trans (show _ ≤ 8 * 2 ^ 1000 by linarith)) (by linarith)).trans
      ((mul_le_mul_of_nonneg_right (show (1 + u F64) ^ L ≤ 2 by linarith) (by positivity)).trans ?_)
    rw [cΩ]; norm_num
  have lev := FExpr.powE_level A.half A.projDim 0 hn
  have fits := FExpr.powE_fits (P := fun b => b ≤ 4 * (4 / 3 * N ^ n)) (fun b b' h h' => h.trans h') (h := A.half) (s := A.projDim) hE0
    (l := fun _ => N) 0 h1 hn (by show (N + E) ^ n ≤ _; linarith)
  have key := C79_expression (F := F64) hA hd (by rw [cM]; norm_num) (by rw [cu]; positivity) (by rw [cM]; positivity)
    (ρ := fun _ => a) (ρ' := fun _ => a') (x := fun _ => x) (l := fun _ => N) (fun _ => ha) (fun _ => hN) ((FExpr.X 0).powE n)
    (hE.trans e4.symm) rfl (L := L) (by rw [lev]; exact hL) (fits.imp fun l hl b hb => by
      by_cases h0 : 0 ≤ b
      · exact (mul_le_mul_of_nonneg_right (pow_le_pow_right₀ one_le_one_add_u (by omega)) h0).trans (big b hb)
      · have : (1 + u F64) ^ l * b ≤ 0 := mul_nonpos_of_nonneg_of_nonpos (zero_le_one.trans (one_le_pow₀ one_le_one_add_u)) (by linarith)
        have := big 0 (by linarith)
        linarith)
    (big _ (by rw [← hD']; linarith)) (big _ (by rw [← hD']; linarith))
  rw [FExpr.powE_via hn, FExpr.powE_toG] at key
  change NearR _ (((GExpr.X 0).powE n).eval _) _ _ at key
  rw [GExpr.powE_eval _ _ hn] at key
  obtain ⟨r, r', z, w, p1, p2, p3, p4, p5, p6, p7⟩ := key
  refine ⟨r, r', z, w, p1, p2, p3, p4, p5, p6, fun k hk _ => ⟨(p7 k hk trivial).1, (p7 k hk trivial).2.trans ?_⟩⟩
  have c1 : ConvModel.cu F64 F64 = 0 := rfl
  have c2 : ConvModel.cη F64 F64 = 0 := rfl
  rw [c1, c2, ← hD']
  have e2 : (L : ℝ) / 2 ^ 52 = 2 * (L * u F64) := by rw [cu]; ring
  rw [e2]
  have hx : 0 ≤ (L : ℝ) * u F64 := mul_nonneg (Nat.cast_nonneg _) u_nonneg
  have := mul_le_mul k1 hB (by linarith) (by linarith)
  linarith

end

namespace Ex

theorem pow5 : 4 * (36 : ℝ) ^ 9 ≤ FloatModel.M F64 ∧ (36 : ℝ) ^ 9 ≤ FloatModel.M F64 := by
  have hM : (FloatModel.M F64) = 2 ^ 53 := rfl
  rw [hM]; norm_num

example := C78_pow (F := F64) E_wf (by decide) four_le sameG xG_int (by norm_num) xG_norm (n := 9) (by norm_num) pow5.1 pow5.2

set_option exponentiation.threshold 2000 in
example := C79_pow_f64 E_wf (by decide) sameF (N := 64) (by norm_num) xF_norm64 (n := 100) (by norm_num) rfl rfl (by decide) (by
  rw [show (64 : ℝ) = 2 ^ 6 by norm_num, ← pow_mul]
  exact pow_le_pow_right₀ (by norm_num) (by norm_num))

/-- `x0 * x1 * ~x0 - flip x2` -/
example := C78_expression (F := F64) E_wf (by decide) four_le (l := fun _ => 36) (fun _ => sameG) (fun _ => xG_int) (fun _ => xG_norm)
  (.sub (.mul (.mul (.X 0) (.X 1)) (.rev (.X 0))) (.flip (.X 2))) (by
    have hM : (FloatModel.M F64) = 2 ^ 53 := rfl
    simp only [FExpr.Fits, FExpr.size, hM]; norm_num) (by
    have hM : (FloatModel.M F64) = 2 ^ 53 := rfl
    simp only [FExpr.size, hM]; norm_num) (by
    have hM : (FloatModel.M F64) = 2 ^ 53 := rfl
    simp only [FExpr.size, hM]; norm_num)

end Ex

end TClifford
