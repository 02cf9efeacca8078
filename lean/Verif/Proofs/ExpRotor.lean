import Verif.Proofs.Rotor
import Verif.Proofs.ExpBound
import Verif.Props.Center
import Verif.Proofs.Trace
import Mathlib.LinearAlgebra.Matrix.Block
/-
The exponential in the ring `GA`: its reverse, and sandwich products with the exponential of a bivector.
-/

set_option linter.unusedSectionVars false

namespace TClifford

open Finset

/-- Blades commute up to a sign. -/
theorem bsgn_comm (σ : Nat → ℤ) (n a b : Nat) :
    bsgn σ n a b = sg ((par n a && par n b) ^^ par n (a &&& b)) * bsgn σ n b a := by
  induction n with
  | zero => simp [par, sg]
  | succ n ih =>
    simp only [bsgn_succ, par_succ, ih, Nat.testBit_and]
    cases a.testBit n <;> cases b.testBit n <;> cases par n a <;> cases par n b <;> cases par n (a &&& b) <;> simp [sg]

/-- A blade of grade two commutes with a blade, or the grade of their product is the grade of that blade. -/
theorem bsgn_comm_two (σ : Nat → ℤ) {n a b : Nat} (ha : cnt n a = 2) (h : cnt n (a ^^^ b) ≠ cnt n b) :
    bsgn σ n b a = bsgn σ n a b := by
  rw [bsgn_comm σ n b a, Nat.and_comm]
  have h1 := cnt_xor n a b
  have h2 := cnt_and_le n a b
  have h3 : cnt n (a &&& b) % 2 = 0 := by omega
  have h4 : par n a = false := by rw [par_eq, ha]; rfl
  have h5 : par n (a &&& b) = false := by rw [par_eq, h3]; rfl
  rw [h4, h5]
  simp [sg]

section banach
variable {𝕜 G : Type} [RCLike 𝕜] [NormedRing G] [NormedAlgebra 𝕜 G] [CompleteSpace G]

/-- Left multiplication with the exponential. -/
theorem exp_mulLeft (b x : G) : NormedSpace.exp (ContinuousLinearMap.mul 𝕜 G b) x = NormedSpace.exp b * x := by
  have h1 := (NormedSpace.exp_series_hasSum_exp' (𝕂 := 𝕜) (ContinuousLinearMap.mul 𝕜 G b)).mapL (ContinuousLinearMap.apply 𝕜 G x)
  have h2 := (NormedSpace.exp_series_hasSum_exp' (𝕂 := 𝕜) b).mul_right x
  have : ∀ j : Nat, ((ContinuousLinearMap.mul 𝕜 G b) ^ j) x = b ^ j * x := by
    intro j
    induction j with
    | zero => simp
    | succ j ih =>
      rw [pow_succ', pow_succ', mul_assoc, ← ih]
      rfl
  refine h1.unique (h2.congr_fun fun j => ?_)
  show ((j.factorial : 𝕜)⁻¹) • ((ContinuousLinearMap.mul 𝕜 G b) ^ j) x = _
  rw [this, smul_mul_assoc]

/-- Right multiplication with the exponential. -/
theorem exp_mulRight (b x : G) : NormedSpace.exp ((ContinuousLinearMap.mul 𝕜 G).flip b) x = x * NormedSpace.exp b := by
  have h1 := (NormedSpace.exp_series_hasSum_exp' (𝕂 := 𝕜) ((ContinuousLinearMap.mul 𝕜 G).flip b)).mapL (ContinuousLinearMap.apply 𝕜 G x)
  have h2 := (NormedSpace.exp_series_hasSum_exp' (𝕂 := 𝕜) b).mul_left x
  have : ∀ j : Nat, (((ContinuousLinearMap.mul 𝕜 G).flip b) ^ j) x = x * b ^ j := by
    intro j
    induction j with
    | zero => simp
    | succ j ih =>
      rw [pow_succ', pow_succ, ← mul_assoc, ← ih]
      rfl
  refine h1.unique (h2.congr_fun fun j => ?_)
  show ((j.factorial : 𝕜)⁻¹) • (((ContinuousLinearMap.mul 𝕜 G).flip b) ^ j) x = _
  rw [this, mul_smul_comm]

/-- `exp(-b) x exp(b)` is the sum of the iterated commutators of `x` with `b`, divided by factorials. -/
theorem hasSum_conj (b x : G) :
    HasSum (fun j : Nat => ((j.factorial : 𝕜)⁻¹) • ((fun y => y * b - b * y)^[j] x)) (NormedSpace.exp (-b) * x * NormedSpace.exp b) := by
  let : NormedAlgebra ℚ (G →L[𝕜] G) := NormedAlgebra.restrictScalars ℚ 𝕜 _
  have hc : Commute ((ContinuousLinearMap.mul 𝕜 G).flip b) (ContinuousLinearMap.mul 𝕜 G (-b)) := by
    refine ContinuousLinearMap.ext fun y => ?_
    show -b * y * b = -b * (y * b)
    rw [mul_assoc]
  have h1 := (NormedSpace.exp_series_hasSum_exp' (𝕂 := 𝕜) ((ContinuousLinearMap.mul 𝕜 G).flip b + ContinuousLinearMap.mul 𝕜 G (-b))).mapL
    (ContinuousLinearMap.apply 𝕜 G x)
  rw [NormedSpace.exp_add_of_commute hc] at h1
  have e : (ContinuousLinearMap.apply 𝕜 G x) (NormedSpace.exp ((ContinuousLinearMap.mul 𝕜 G).flip b) * NormedSpace.exp (ContinuousLinearMap.mul 𝕜 G (-b))) =
      NormedSpace.exp (-b) * x * NormedSpace.exp b := by
    show NormedSpace.exp ((ContinuousLinearMap.mul 𝕜 G).flip b) (NormedSpace.exp (ContinuousLinearMap.mul 𝕜 G (-b)) x) = _
    rw [exp_mulLeft, exp_mulRight]
  rw [e] at h1
  have h : ∀ (j : Nat) (y : G), (((ContinuousLinearMap.mul 𝕜 G).flip b + ContinuousLinearMap.mul 𝕜 G (-b)) ^ j) y = (fun y => y * b - b * y)^[j] y := by
    intro j
    induction j with
    | zero => intro y; rfl
    | succ j ih =>
      intro y
      rw [pow_succ, Function.iterate_succ_apply, ← ih]
      have : y * b - b * y = y * b + -b * y := by rw [neg_mul, sub_eq_add_neg]
      rw [this]
      rfl
  refine h1.congr_fun fun j => ?_
  rw [← h]
  rfl

end banach

namespace GA
variable {σ : Nat → ℤ} {n : Nat}

section
variable {T : Type} [CommRing T]

theorem fn_mul (x y : GA σ n T) {k : Nat} (hk : k < 2 ^ n) : (x * y).fn k = geo σ n x.fn y.fn k := fn_of _ hk

/-- The commutator with a bivector keeps grades. -/
theorem comm_hom {b x : GA σ n T} {k : Nat} (hb : IsHom 2 b) (hx : IsHom k x) : IsHom k (x * b - b * x) := by
  intro m hm hc
  have hsub : (x * b - b * x).fn m = (x * b).fn m - (b * x).fn m := by
    unfold fn
    rw [dif_pos hm, dif_pos hm, dif_pos hm]
    rfl
  rw [hsub, fn_mul _ _ hm, fn_mul _ _ hm, sub_eq_zero]
  unfold geo
  rw [← sum_xor hm]
  refine sum_congr rfl fun i hi => ?_
  rw [Nat.xor_assoc, Nat.xor_self, Nat.xor_zero]
  rw [mem_range] at hi
  have hj : i ^^^ m < 2 ^ n := Nat.xor_lt_two_pow hi hm
  by_cases h2 : cnt n i = 2
  · by_cases hk : cnt n (i ^^^ m) = k
    · rw [bsgn_comm_two σ h2, mul_comm]
      rw [← Nat.xor_assoc, Nat.xor_self, Nat.zero_xor, hk]
      exact hc
    · rw [hx _ hj hk, zero_mul, mul_zero, smul_zero, smul_zero]
  · rw [hb _ hi h2, zero_mul, mul_zero, smul_zero, smul_zero]

/-- A null generator commutes with every bivector. -/
theorem comm_null {b : GA σ n T} (hb : IsHom 2 b) {p : Nat} (hp : p < n) (h0 : σ p = 0) : Commute (e p) b := by
  rw [← of_fn b, of_eq_sum]
  refine Commute.sum_right _ _ _ fun i hi => ?_
  rw [mem_range] at hi
  by_cases h2 : cnt n i = 2
  · refine Commute.smul_right ?_ _
    have hp2 : 2 ^ p < 2 ^ n := Nat.pow_lt_pow_right (by norm_num) hp
    show bl (2 ^ p) * bl i = bl i * bl (2 ^ p)
    rw [bl_mul_bl hp2, bl_mul_bl hi, Nat.xor_comm, bsgn_e_comm σ hp]
    by_cases hi : i.testBit p = true
    · have := bsgn_e_sq σ (K := i) hp
      rw [if_pos hi, h0, mul_zero, mul_self_eq_zero] at this
      rw [this, mul_zero]
    · rw [if_neg hi, par_eq, h2]
      simp [sg]
  · rw [hb _ hi h2, zero_smul]
    exact Commute.zero_right _

theorem rev_hom_two {b : GA σ n T} (hb : IsHom 2 b) : rev b = -b := by
  rw [← of_fn b, rev_of, ← of_neg]
  refine of_congr fun i hi => ?_
  by_cases h2 : cnt n i = 2
  · rw [rsg_eq, h2]
    simp
  · rw [hb _ hi h2]
    simp

theorem flip_hom_two {b : GA σ n T} (hb : IsHom 2 b) : flip b = b := by
  conv_rhs => rw [← of_fn b]
  refine of_congr fun i hi => ?_
  by_cases h2 : cnt n i = 2
  · unfold flp
    rw [par_eq, h2]
    simp [sg]
  · unfold flp
    rw [hb _ hi h2]
    simp

end

section
variable {𝕜 : Type} [RCLike 𝕜] [UnitSig σ]

open NormedSpace (exp)

theorem continuous_coef (i : Nat) : Continuous (coef (σ := σ) (n := n) (𝕜 := 𝕜) i) := LinearMap.continuous_of_finiteDimensional _

/-- Linear maps that keep powers keep the exponential. -/
theorem map_exp_lin (f : GA σ n 𝕜 →ₗ[𝕜] GA σ n 𝕜) {x y : GA σ n 𝕜} (h : ∀ k : Nat, f (x ^ k) = y ^ k) : f (exp x) = exp y := by
  have h1 := (NormedSpace.exp_series_hasSum_exp' (𝕂 := 𝕜) x).map f (LinearMap.continuous_of_finiteDimensional f)
  refine h1.unique ((NormedSpace.exp_series_hasSum_exp' (𝕂 := 𝕜) y).congr_fun fun k => ?_)
  show f _ = _
  rw [map_smul, h]

theorem rev_exp (x : GA σ n 𝕜) : rev (exp x) = exp (rev x) := map_exp_lin rev fun k => rev_pow x k

/-- The grade involution as a linear map. -/
def flipL : GA σ n 𝕜 →ₗ[𝕜] GA σ n 𝕜 where
  toFun := flip
  map_add' x y := by
    induction x using ind with | h f => ?_
    induction y using ind with | h g => ?_
    rw [← of_add, flip_of, flip_of, flip_of, ← of_add]
    exact of_congr fun i _ => smul_add _ _ _
  map_smul' c x := by
    induction x using ind with | h f => ?_
    rw [← of_smul, flip_of, flip_of, RingHom.id_apply, ← of_smul]
    exact of_congr fun i _ => (mul_smul_comm _ _ _).symm

theorem flip_pow (x : GA σ n 𝕜) (k : Nat) : flip (x ^ k) = flip x ^ k := by
  induction k with
  | zero => rw [pow_zero, pow_zero, flip_one]
  | succ k ih => rw [pow_succ, pow_succ, flip_mul, ih]

theorem flip_exp (x : GA σ n 𝕜) : flip (exp x) = exp (flip x) := map_exp_lin flipL fun k => flip_pow x k

theorem exp_neg_mul (x : GA σ n 𝕜) : exp (-x) * exp x = 1 := by
  let : NormedAlgebra ℚ (GA σ n 𝕜) := NormedAlgebra.restrictScalars ℚ 𝕜 _
  rw [← NormedSpace.exp_add_of_commute (Commute.neg_left (Commute.refl x)), neg_add_cancel, NormedSpace.exp_zero]

theorem exp_mul_neg (x : GA σ n 𝕜) : exp x * exp (-x) = 1 := by
  have := exp_neg_mul (-x)
  rwa [neg_neg] at this

/-- Sandwich products with the exponential of a bivector keep grades. -/
theorem exp_sandwich_hom {b x : GA σ n 𝕜} {k : Nat} (hb : IsHom 2 b) (hx : IsHom k x) : IsHom k (exp (-b) * x * exp b) := by
  intro i hi hc
  have h := (hasSum_conj (𝕜 := 𝕜) b x).map (coef i) (continuous_coef i)
  refine h.unique ((hasSum_zero (α := 𝕜) (β := Nat)).congr_fun fun j => ?_)
  have hj : ∀ j : Nat, IsHom k ((fun y => y * b - b * y)^[j] x) := by
    intro j
    induction j with
    | zero => exact hx
    | succ j ih => rw [Function.iterate_succ_apply']; exact comm_hom hb ih
  exact (IsHom.smul (hj j) _) i hi hc

/-- The sandwich product with the exponential as a linear map. -/
noncomputable def expL (b : GA σ n 𝕜) : GA σ n 𝕜 →ₗ[𝕜] GA σ n 𝕜 where
  toFun x := exp (-b) * x * exp b
  map_add' x y := by rw [mul_add, add_mul]
  map_smul' c x := by rw [mul_smul_comm, smul_mul_assoc, RingHom.id_apply]

theorem exp_dot (b x y : GA σ n 𝕜) : dot (expL b x) (expL b y) = dot x y := by
  show (exp (-b) * x * exp b * (exp (-b) * y * exp b)).fn 0 = (x * y).fn 0
  have h : exp (-b) * x * exp b * (exp (-b) * y * exp b) = exp (-b) * (x * (exp b * exp (-b)) * y * exp b) := by simp only [mul_assoc]
  rw [h, exp_mul_neg, mul_one, fn_mul_comm, mul_assoc, exp_mul_neg, mul_one]

theorem expL_mul (b x y : GA σ n 𝕜) : expL b (x * y) = expL b x * expL b y := by
  show exp (-b) * (x * y) * exp b = exp (-b) * x * exp b * (exp (-b) * y * exp b)
  have h : exp (-b) * x * exp b * (exp (-b) * y * exp b) = exp (-b) * x * (exp b * exp (-b)) * y * exp b := by simp only [mul_assoc]
  rw [h, exp_mul_neg, mul_one]
  simp only [mul_assoc]

theorem gr_expL {b : GA σ n 𝕜} (hb : IsHom 2 b) (k : Nat) (x : GA σ n 𝕜) : gr k (expL b x) = expL b (gr k x) := by
  conv_lhs => rw [← sum_gr x, map_sum, gr_sum]
  have h : ∀ j, gr k (expL b (gr j x)) = if k = j then expL b (gr j x) else 0 := fun j => gr_of_hom (exp_sandwich_hom hb (gr_hom j x)) k
  rw [sum_congr rfl fun j _ => h j, sum_ite_eq]
  split
  · rfl
  · rename_i hk
    rw [mem_range, not_lt] at hk
    have h0 : gr k x = 0 := vext_fn fun i hi => by
      unfold gr
      rw [fn_of _ hi, if_neg, fn_zero]
      have := cnt_le n i
      omega
    rw [h0, map_zero]

theorem expL_wdg {b : GA σ n 𝕜} (hb : IsHom 2 b) (x y : GA σ n 𝕜) : expL b (wdg x y) = wdg (expL b x) (expL b y) := by
  conv_lhs => rw [← sum_gr x, ← sum_gr y, wdg_sum_left, map_sum]
  conv_rhs => rw [← sum_gr x, ← sum_gr y, map_sum, map_sum, wdg_sum_left]
  refine sum_congr rfl fun j _ => ?_
  rw [wdg_sum_right, wdg_sum_right, map_sum]
  refine sum_congr rfl fun k _ => ?_
  rw [← gr_mul (gr_hom j x) (gr_hom k y), ← gr_expL hb, expL_mul]
  exact gr_mul (exp_sandwich_hom hb (gr_hom j x)) (exp_sandwich_hom hb (gr_hom k y))

theorem exp_two_nsmul (b : GA σ n 𝕜) : exp ((2 : 𝕜)⁻¹ • b) * exp ((2 : 𝕜)⁻¹ • b) = exp b := by
  let : NormedAlgebra ℚ (GA σ n 𝕜) := NormedAlgebra.restrictScalars ℚ 𝕜 _
  rw [← NormedSpace.exp_add_of_commute (Commute.refl _), ← two_smul 𝕜, smul_smul, mul_inv_cancel₀ two_ne_zero, one_smul]

theorem expL_half (b x : GA σ n 𝕜) : expL b x = expL ((2 : 𝕜)⁻¹ • b) (expL ((2 : 𝕜)⁻¹ • b) x) := by
  show exp (-b) * x * exp b = exp (-((2 : 𝕜)⁻¹ • b)) * (exp (-((2 : 𝕜)⁻¹ • b)) * x * exp ((2 : 𝕜)⁻¹ • b)) * exp ((2 : 𝕜)⁻¹ • b)
  rw [← exp_two_nsmul b, ← exp_two_nsmul (-b), smul_neg]
  simp only [mul_assoc]

variable [DecidableEq 𝕜]

theorem exp_orth {b : GA σ n 𝕜} (hb : IsHom 2 b) :
    (matOf (expL b)).transpose * Matrix.diagonal (fun i : Fin n => (σ i : 𝕜)) * matOf (expL b) = Matrix.diagonal (fun i : Fin n => (σ i : 𝕜)) := by
  have h := matOf_orth (c := (1 : 𝕜)) (expL b) (fun i => exp_sandwich_hom hb (isVec_e i.2)) (fun i j => by rw [exp_dot, one_mul])
  rwa [one_smul] at h

theorem exp_null {b : GA σ n 𝕜} (hb : IsHom 2 b) {p : Nat} (hp : p < n) (h0 : σ p = 0) : expL b (e p) = e p := by
  show exp (-b) * e p * exp b = e p
  have h : Commute (e p) (exp b) := (comm_null hb hp h0).exp_right
  rw [mul_assoc, h.eq, ← mul_assoc, exp_neg_mul, one_mul]

/-- The square of the determinant of such a sandwich product is one. -/
theorem exp_det_sq {b : GA σ n 𝕜} (hb : IsHom 2 b) : (matOf (expL b)).det * (matOf (expL b)).det = 1 := by
  set M := matOf (expL b) with hM
  have hcol : ∀ i j : Fin n, σ j = 0 → M i j = if i = j then 1 else 0 := by
    intro i j hj
    show (expL b (e j)).fn (2 ^ (i : Nat)) = _
    rw [exp_null hb j.2 hj, fn_e i.2]
    simp only [Fin.ext_iff]
  have hdet := Matrix.twoBlockTriangular_det M (fun i => σ i = 0) (fun i hi j hj => by
    rw [hcol i j hj, if_neg]
    rintro rfl
    exact hi hj)
  have h1 : M.toSquareBlockProp (fun i : Fin n => σ i = 0) = 1 := by
    funext i j
    rw [Matrix.one_apply]
    show M i j = _
    rw [hcol _ _ j.2]
    simp only [Subtype.ext_iff]
  rw [h1, Matrix.det_one, one_mul] at hdet
  rw [hdet]
  set N := M.toSquareBlockProp (fun i : Fin n => ¬ σ i = 0) with hN
  have horth := exp_orth hb
  have hN2 : N.transpose * Matrix.diagonal (fun i : {i : Fin n // ¬ σ i = 0} => (σ i : 𝕜)) * N = Matrix.diagonal (fun i : {i : Fin n // ¬ σ i = 0} => (σ i : 𝕜)) := by
    funext i j
    have h := congrFun (congrFun horth i) j
    rw [Matrix.mul_assoc, Matrix.mul_apply] at h ⊢
    simp only [Matrix.diagonal_mul, Matrix.transpose_apply, ← hM] at h ⊢
    have e1 : ∑ k : {i : Fin n // ¬ σ i = 0}, N k i * ((σ k : 𝕜) * N k j) = ∑ k : Fin n, M k i * ((σ k : 𝕜) * M k j) := by
      rw [← Finset.sum_filter_of_ne (p := fun k : Fin n => ¬ σ k = 0)]
      · exact (Finset.sum_subtype (p := fun k : Fin n => ¬ σ k = 0) (univ.filter fun k : Fin n => ¬ σ k = 0) (fun k => by simp)
          (fun k => M k i * ((σ k : 𝕜) * M k j))).symm
      · intro k _ hk h0
        rw [h0] at hk
        simp at hk
    rw [e1, h, Matrix.diagonal_apply, Matrix.diagonal_apply]
    simp only [Subtype.ext_iff]
  have hd := congrArg Matrix.det hN2
  rw [Matrix.det_mul, Matrix.det_mul, Matrix.det_transpose, Matrix.det_diagonal] at hd
  have hne : ∏ i : {i : Fin n // ¬ σ i = 0}, (σ i : 𝕜) ≠ 0 := Finset.prod_ne_zero_iff.mpr fun i _ => by exact_mod_cast i.2
  have : (N.det * N.det) * ∏ i : {i : Fin n // ¬ σ i = 0}, (σ i : 𝕜) = 1 * ∏ i : {i : Fin n // ¬ σ i = 0}, (σ i : 𝕜) := by
    rw [one_mul, mul_right_comm]
    exact hd
  exact mul_right_cancel₀ hne this

/-- Sandwich products with exponentials of bivectors have determinant one. -/
theorem exp_det {b : GA σ n 𝕜} (hb : IsHom 2 b) : (matOf (expL b)).det = 1 := by
  have hb' : IsHom 2 ((2 : 𝕜)⁻¹ • b) := hb.smul _
  have h : matOf (expL b) = matOf (expL ((2 : 𝕜)⁻¹ • b)) * matOf (expL ((2 : 𝕜)⁻¹ • b)) := by
    rw [← matOf_comp (expL ((2 : 𝕜)⁻¹ • b)) (expL ((2 : 𝕜)⁻¹ • b)) fun x hx => exp_sandwich_hom hb' hx]
    exact congrArg matOf (funext fun x => expL_half b x)
  rw [h, Matrix.det_mul, exp_det_sq hb']

omit [UnitSig σ] [DecidableEq 𝕜] in
theorem norm_rev (x : GA σ n 𝕜) : ‖rev x‖ = ‖x‖ := by
  induction x using ind with | h f => ?_
  rw [rev_of, norm_of, norm_of]
  refine sum_congr rfl fun i _ => ?_
  rw [rsg_eq]
  split <;> simp

/-- How far something close to the exponential of a bivector is from a rotor. -/
theorem rotor_error {b x : GA σ n 𝕜} (hb : IsHom 2 b) {d : ℝ} (h : ‖x - exp b‖ ≤ d) :
    ‖rev x * x - 1‖ ≤ d * (2 * Real.exp ‖b‖ + d) := by
  have h1 : rev (exp b) * exp b = 1 := by rw [rev_exp, rev_hom_two hb, exp_neg_mul]
  have h2 : rev x * x - 1 = rev (x - exp b) * x + rev (exp b) * (x - exp b) := by
    rw [map_sub, sub_mul, mul_sub, h1]
    abel
  have h3 := norm_exp_le 𝕜 b
  have h4 : ‖x‖ ≤ Real.exp ‖b‖ + d := by
    have := norm_add_le (x - exp b) (exp b)
    rw [sub_add_cancel] at this
    linarith
  have h0 : 0 ≤ d := (norm_nonneg _).trans h
  rw [h2]
  calc ‖rev (x - exp b) * x + rev (exp b) * (x - exp b)‖
      ≤ ‖rev (x - exp b)‖ * ‖x‖ + ‖rev (exp b)‖ * ‖x - exp b‖ := (norm_add_le _ _).trans (add_le_add (norm_mul_le _ _) (norm_mul_le _ _))
    _ ≤ d * (Real.exp ‖b‖ + d) + Real.exp ‖b‖ * d := by
        rw [norm_rev, norm_rev]
        gcongr
    _ = _ := by ring

end
end GA
end TClifford
