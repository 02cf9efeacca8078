import Verif.Props.Float
import Verif.Props.ExpBound
/-
Rounding errors of whole multivectors, measured by the sum of the absolute values of the coefficients.
-/

set_option linter.unusedSectionVars false

namespace TClifford

open Finset FloatModel MV

variable {F : Type} [Zero F] [One F] [Add F] [Sub F] [Neg F] [Mul F] [Div F] [FloatModel F] [DecidableEq F]
  {S : Type} [CoeffStorage S F] [LawfulStorage S F] {A : ClAlg}

namespace MV

/-- Valid, and all coefficients finite. -/
def Fine (v : MV A S) : Prop := v.Valid ∧ ∀ i < 2 ^ A.dim, fin (v.val i)

/-- The values as an element of the algebra over the reals. -/
noncomputable def gaR (v : MV A S) : GA A.sigma A.dim ℝ := GA.of fun i => re (v.val i)

theorem norm_gaR (v : MV A S) : ‖v.gaR‖ = ∑ i ∈ range (2 ^ A.dim), |re (v.val i)| := GA.norm_of _

theorem gaR_fn (v : MV A S) {i : Nat} (hi : i < 2 ^ A.dim) : v.gaR.fn i = re (v.val i) := GA.fn_of _ hi

theorem norm_sub_le_sum {v : MV A S} {f : Nat → ℝ} {e : Nat → ℝ} (h : ∀ i < 2 ^ A.dim, |re (v.val i) - f i| ≤ e i) :
    ‖v.gaR - GA.of f‖ ≤ ∑ i ∈ range (2 ^ A.dim), e i := by
  rw [gaR, ← GA.of_sub, GA.norm_of]
  exact sum_le_sum fun i hi => h i (mem_range.mp hi)

theorem abs_val_le (v : MV A S) {i : Nat} (hi : i < 2 ^ A.dim) : |re (v.val i)| ≤ ‖v.gaR‖ := by
  rw [norm_gaR]
  exact single_le_sum (f := fun i => |re (v.val i)|) (fun _ _ => abs_nonneg _) (mem_range.mpr hi)

theorem add_err {x y : MV A S} (hx : x.Fine) (hy : y.Fine) (h : ‖x.gaR‖ + ‖y.gaR‖ ≤ Ω F) :
    ∃ r, x.add y = .ok r ∧ r.Fine ∧ ‖r.gaR - (x.gaR + y.gaR)‖ ≤ u F * (‖x.gaR‖ + ‖y.gaR‖) := by
  obtain ⟨r, h1, h2, h3⟩ := add_denotes hx.1 hy.1
  have key : ∀ i < 2 ^ A.dim, fin (r.val i) ∧ |re (r.val i) - (re (x.val i) + re (y.val i))| ≤ u F * (|re (x.val i)| + |re (y.val i)|) := by
    intro i hi
    have e : r.val i = x.val i + y.val i := h3 i hi
    have hb := abs_add_le (re (x.val i)) (re (y.val i))
    obtain ⟨g1, g2⟩ := add_ok (hx.2 i hi) (hy.2 i hi) (by
      have := abs_val_le x hi
      have := abs_val_le y hi
      linarith)
    rw [e]
    exact ⟨g1, g2.trans (mul_le_mul_of_nonneg_left hb u_nonneg)⟩
  refine ⟨r, h1, ⟨h2, fun i hi => (key i hi).1⟩, ?_⟩
  have := norm_sub_le_sum (v := r) fun i hi => (key i hi).2
  rw [GA.of_add, ← mul_sum, sum_add_distrib, ← norm_gaR, ← norm_gaR] at this
  exact this

theorem smul_err {x : MV A S} (hx : x.Fine) {t : F} (ht : fin t) (h : ‖x.gaR‖ * |re t| ≤ Ω F) :
    ∃ r, x.smul t = .ok r ∧ r.Fine ∧ ‖r.gaR - re t • x.gaR‖ ≤ u F * (‖x.gaR‖ * |re t|) + 2 ^ A.dim * η F := by
  obtain ⟨r, h1, h2, h3⟩ := smul_fl hx.1 ht
  have key : ∀ i < 2 ^ A.dim, fin (r.val i) ∧ |re (r.val i) - re t * re (x.val i)| ≤ u F * (|re (x.val i)| * |re t|) + η F := by
    intro i hi
    have e : r.val i = x.val i * t := h3 i hi
    obtain ⟨g1, g2⟩ := mul_ok (hx.2 i hi) ht (by
      rw [abs_mul]
      exact (mul_le_mul_of_nonneg_right (abs_val_le x hi) (abs_nonneg _)).trans h)
    rw [e, mul_comm (re t), ← abs_mul]
    exact ⟨g1, g2⟩
  refine ⟨r, h1, ⟨h2, fun i hi => (key i hi).1⟩, ?_⟩
  have := norm_sub_le_sum (v := r) fun i hi => (key i hi).2
  rw [sum_add_distrib, ← mul_sum, ← sum_mul, ← norm_gaR, sum_const, card_range, nsmul_eq_mul] at this
  rw [show re t • x.gaR = GA.of (fun i => re t * re (x.val i)) from (GA.of_smul _ _).symm]
  push_cast at this
  exact this

/-- Relative part of the error of a product. -/
noncomputable def gMul (F : Type) [Zero F] [One F] [Add F] [Sub F] [Neg F] [Mul F] [Div F] [FloatModel F] (A : ClAlg) : ℝ :=
  (1 + u F) ^ (2 ^ A.dim + 1) - 1

/-- Absolute part of the error of a product. -/
noncomputable def hMul (F : Type) [Zero F] [One F] [Add F] [Sub F] [Neg F] [Mul F] [Div F] [FloatModel F] (A : ClAlg) : ℝ :=
  2 ^ A.dim * (η F * 2 ^ A.dim * (1 + u F) ^ (2 ^ A.dim))

theorem gMul_nonneg : 0 ≤ gMul F A := by
  unfold gMul
  have := one_le_pow_u (F := F) (2 ^ A.dim + 1)
  linarith

theorem hMul_nonneg : 0 ≤ hMul F A := by
  unfold hMul
  have := u_nonneg (F := F)
  have := η_nonneg (F := F)
  positivity

theorem u_le_gMul : 2 * u F ≤ gMul F A := by
  unfold gMul
  have h0 := u_nonneg (F := F)
  have h1 : (1 + u F) ^ 2 ≤ (1 + u F) ^ (2 ^ A.dim + 1) :=
    pow_le_pow_right₀ (by linarith) (by have := Nat.two_pow_pos A.dim; omega)
  nlinarith

theorem η_le_hMul : 2 ^ A.dim * η F ≤ hMul F A := by
  unfold hMul
  have h0 := u_nonneg (F := F)
  have h1 := η_nonneg (F := F)
  have h2 := one_le_pow_u (F := F) (2 ^ A.dim)
  have h3 : (1 : ℝ) ≤ 2 ^ A.dim := one_le_pow₀ (by norm_num)
  have : η F ≤ η F * 2 ^ A.dim * (1 + u F) ^ (2 ^ A.dim) := by
    rw [mul_assoc]
    exact le_mul_of_one_le_right h1 (one_le_mul_of_one_le_of_one_le h3 h2)
  exact mul_le_mul_of_nonneg_left this (by positivity)

theorem mul_err (hA : A.WF) {x y : MV A S} (hx : x.Fine) (hy : y.Fine)
    (h : ‖x.gaR‖ * ‖y.gaR‖ * (1 + gMul F A) + hMul F A ≤ Ω F) :
    ∃ r, x.naiveMulImpl y = .ok r ∧ r.Fine ∧ ‖r.gaR - x.gaR * y.gaR‖ ≤ gMul F A * (‖x.gaR‖ * ‖y.gaR‖) + hMul F A := by
  obtain ⟨r, h1, h2, h3⟩ := mul_inv sumInv_acc hA hx.1 hy.1 hx.2 hy.2
  set N : ℕ := 2 ^ A.dim with hN
  let M : Nat → ℝ := fun k => absSum (range N) x.val (fun i => y.val (i ^^^ k))
  have hMs : ∑ k ∈ range N, M k = ‖x.gaR‖ * ‖y.gaR‖ := by
    show ∑ k ∈ range N, ∑ i ∈ range N, |re (x.val i)| * |re (y.val (i ^^^ k))| = _
    rw [norm_gaR, norm_gaR, sum_mul, sum_comm]
    refine sum_congr rfl fun i hi => ?_
    rw [← mul_sum]
    congr 1
    simp only [Nat.xor_comm i]
    exact sum_xor (mem_range.mp hi) (fun j => |re (y.val j)|)
  have hM0 : ∀ k, 0 ≤ M k := fun k => absSum_nonneg _ _ _
  have hMle : ∀ k < N, M k ≤ ‖x.gaR‖ * ‖y.gaR‖ := fun k hk => by
    rw [← hMs]
    exact single_le_sum (f := M) (fun k _ => hM0 k) (mem_range.mpr hk)
  have herr : ∀ k, errB F (M k) (nTerms (range N) x.val (fun i => y.val (i ^^^ k))) ≤
      M k * gMul F A + η F * N * (1 + u F) ^ N := by
    intro k
    refine (errB_mono (hM0 k) le_rfl (n' := N) ?_).trans (le_of_eq ?_)
    · unfold nTerms
      exact (card_filter_le _ _).trans (by rw [card_range])
    · unfold errB gMul; rw [hN]
  have h0 := u_nonneg (F := F)
  have hη := η_nonneg (F := F)
  have hN1 : (1 : ℝ) ≤ 2 ^ A.dim := one_le_pow₀ (by norm_num)
  have hh : η F * N * (1 + u F) ^ N ≤ hMul F A := by
    unfold hMul
    rw [hN]; push_cast
    exact le_mul_of_one_le_left (by positivity) hN1
  have key : ∀ k < N, fin (r.val k) ∧ |re (r.val k) - geo A.sigma A.dim (fun i => re (x.val i)) (fun i => re (y.val i)) k| ≤
      M k * gMul F A + η F * N * (1 + u F) ^ N := by
    intro k hk
    obtain ⟨g1, g2⟩ := Acc.of_sum (subset_refl _) (h3 k hk) (fun i hi =>
      bsgn_sigma_abs hA (mem_range.mp hi) (Nat.xor_lt_two_pow (mem_range.mp hi) hk)) (fun i h1 h2 => absurd h1 h2) (by
        have e1 := herr k
        have e2 := hMle k hk
        have e3 := mul_le_mul_of_nonneg_right e2 (gMul_nonneg (F := F) (A := A))
        show M k + errB F (M k) _ ≤ _
        linarith)
    exact ⟨g1, g2.trans (herr k)⟩
  refine ⟨r, h1, ⟨h2, fun i hi => (key i hi).1⟩, ?_⟩
  have := norm_sub_le_sum (v := r) fun i hi => (key i hi).2
  rw [GA.of_mul, sum_add_distrib, ← sum_mul, hMs, sum_const, card_range, nsmul_eq_mul] at this
  refine this.trans (le_of_eq ?_)
  unfold hMul
  rw [hN]
  push_cast
  ring

/-! ### Majorants -/

/-- `v` is the computed value of `G`, with `k` rounding steps of relative error `δ` behind it; `B` bounds everything that has
been added up. -/
structure NearV (δ : ℝ) (v : MV A S) (G : GA A.sigma A.dim ℝ) (B : ℝ) (k : ℕ) : Prop where
  fine : v.Fine
  bound : ‖G‖ ≤ B
  err : ‖v.gaR - G‖ ≤ B * ((1 + δ) ^ k - 1)

variable {δ : ℝ} {x y : MV A S} {G H : GA A.sigma A.dim ℝ} {B C : ℝ} {k l : ℕ}

theorem NearV.nonneg (h : NearV δ x G B k) : 0 ≤ B := (norm_nonneg _).trans h.bound

theorem NearV.norm_le (h : NearV δ x G B k) : ‖x.gaR‖ ≤ B * (1 + δ) ^ k := by
  have h1 := h.err
  have h2 := h.bound
  have h3 := norm_le_norm_add_norm_sub' x.gaR G
  nlinarith

theorem NearV.mono (hδ : 0 ≤ δ) (h : NearV δ x G B k) (hBC : B ≤ C) (hkl : k ≤ l) : NearV δ x G C l := by
  have h0 := h.nonneg
  have h1 : (1 + δ) ^ k ≤ (1 + δ) ^ l := pow_le_pow_right₀ (by linarith) hkl
  have h2 : (1 : ℝ) ≤ (1 + δ) ^ k := one_le_pow₀ (by linarith)
  refine ⟨h.fine, h.bound.trans hBC, h.err.trans ?_⟩
  exact mul_le_mul hBC (by linarith) (by linarith) (by linarith)

theorem NearV.mul (hA : A.WF) (hδ : 0 ≤ δ) (hx : NearV δ x G B k) (hy : NearV δ y H C l)
    (hd : gMul F A * (B * C) + hMul F A ≤ δ * (B * C)) (ho : B * C * (1 + δ) ^ (k + l + 1) ≤ Ω F) :
    ∃ r, x.naiveMulImpl y = .ok r ∧ NearV δ r (G * H) (B * C) (k + l + 1) := by
  have hB := hx.nonneg
  have hC := hy.nonneg
  have g0 := gMul_nonneg (F := F) (A := A)
  have h0 := hMul_nonneg (F := F) (A := A)
  have h1 : (1 : ℝ) ≤ (1 + δ) ^ k := one_le_pow₀ (by linarith)
  have h2 : (1 : ℝ) ≤ (1 + δ) ^ l := one_le_pow₀ (by linarith)
  have hP : ‖x.gaR‖ * ‖y.gaR‖ ≤ B * C * (1 + δ) ^ (k + l) := by
    rw [pow_add]
    calc ‖x.gaR‖ * ‖y.gaR‖ ≤ (B * (1 + δ) ^ k) * (C * (1 + δ) ^ l) :=
          mul_le_mul hx.norm_le hy.norm_le (norm_nonneg _) (by positivity)
      _ = _ := by ring
  have h12 : (1 : ℝ) ≤ (1 + δ) ^ (k + l) := one_le_pow₀ (by linarith)
  -- the rounding of the product
  have hE : gMul F A * (‖x.gaR‖ * ‖y.gaR‖) + hMul F A ≤ δ * (B * C * (1 + δ) ^ (k + l)) := by
    have e1 := mul_le_mul_of_nonneg_left hP g0
    have e2 : hMul F A ≤ (δ * (B * C) - gMul F A * (B * C)) * (1 + δ) ^ (k + l) :=
      le_trans (by linarith) (le_mul_of_one_le_right (by linarith) h12)
    nlinarith
  obtain ⟨r, r1, r2, r3⟩ := mul_err hA hx.fine hy.fine (by
    have : B * C * (1 + δ) ^ (k + l + 1) = B * C * (1 + δ) ^ (k + l) + δ * (B * C * (1 + δ) ^ (k + l)) := by rw [pow_succ]; ring
    nlinarith)
  refine ⟨r, r1, r2, (norm_mul_le _ _).trans (mul_le_mul hx.bound hy.bound (norm_nonneg _) hB), ?_⟩
  have e : r.gaR - G * H = (r.gaR - x.gaR * y.gaR) + ((x.gaR - G) * y.gaR + G * (y.gaR - H)) := by noncomm_ring
  have f1 : ‖(x.gaR - G) * y.gaR‖ ≤ B * ((1 + δ) ^ k - 1) * (C * (1 + δ) ^ l) :=
    (norm_mul_le _ _).trans (mul_le_mul hx.err hy.norm_le (norm_nonneg _) (mul_nonneg hB (by linarith)))
  have f2 : ‖G * (y.gaR - H)‖ ≤ B * (C * ((1 + δ) ^ l - 1)) :=
    (norm_mul_le _ _).trans (mul_le_mul hx.bound hy.err (norm_nonneg _) hB)
  rw [e]
  refine (norm_add_le _ _).trans ((add_le_add (r3.trans hE) ((norm_add_le _ _).trans (add_le_add f1 f2))).trans (le_of_eq ?_))
  rw [pow_succ, pow_add]; ring

theorem NearV.add (hδ : 0 ≤ δ) (hu : u F ≤ δ) (hx : NearV δ x G B k) (hy : NearV δ y H C k)
    (ho : (B + C) * (1 + δ) ^ k ≤ Ω F) :
    ∃ r, x.add y = .ok r ∧ NearV δ r (G + H) (B + C) (k + 1) := by
  have hB := hx.nonneg
  have hC := hy.nonneg
  have h1 := hx.norm_le
  have h2 := hy.norm_le
  obtain ⟨r, r1, r2, r3⟩ := add_err hx.fine hy.fine (by nlinarith)
  refine ⟨r, r1, r2, (norm_add_le _ _).trans (add_le_add hx.bound hy.bound), ?_⟩
  have e : r.gaR - (G + H) = (r.gaR - (x.gaR + y.gaR)) + ((x.gaR - G) + (y.gaR - H)) := by abel
  have hk : (1 : ℝ) ≤ (1 + δ) ^ k := one_le_pow₀ (by linarith)
  have f1 : u F * (‖x.gaR‖ + ‖y.gaR‖) ≤ δ * ((B + C) * (1 + δ) ^ k) :=
    mul_le_mul hu (by linarith) (by positivity) hδ
  rw [e]
  refine (norm_add_le _ _).trans ((add_le_add (r3.trans f1) ((norm_add_le _ _).trans (add_le_add hx.err hy.err))).trans (le_of_eq ?_))
  rw [pow_succ]; ring

/-- Multiplication by a number `t` that is itself the rounded value of `c > 0`, with `l` rounding steps. -/
theorem NearV.smul (hδ : 0 ≤ δ) (hx : NearV δ x G B k) {t : F} (ht : fin t) {c : ℝ} (hc : 0 ≤ c)
    (hct : |re t - c| ≤ c * ((1 + δ) ^ l - 1))
    (hd : u F * (B * c) + 2 ^ A.dim * η F ≤ δ * (B * c)) (ho : B * c * (1 + δ) ^ (k + l) ≤ Ω F) :
    ∃ r, x.smul t = .ok r ∧ NearV δ r (c • G) (B * c) (k + l + 1) := by
  have hB := hx.nonneg
  have h1 : (1 : ℝ) ≤ (1 + δ) ^ k := one_le_pow₀ (by linarith)
  have h2 : (1 : ℝ) ≤ (1 + δ) ^ l := one_le_pow₀ (by linarith)
  have h12 : (1 : ℝ) ≤ (1 + δ) ^ (k + l) := one_le_pow₀ (by linarith)
  have hu := u_nonneg (F := F)
  have hη := η_nonneg (F := F)
  have hN : (0 : ℝ) < 2 ^ A.dim := by positivity
  have hta : |re t| ≤ c * (1 + δ) ^ l := by
    have : |re t| ≤ |re t - c| + |c| := by
      have := abs_add_le (re t - c) c
      rwa [sub_add_cancel] at this
    rw [abs_of_nonneg hc] at this
    linarith
  have hP : ‖x.gaR‖ * |re t| ≤ B * c * (1 + δ) ^ (k + l) := by
    rw [pow_add]
    calc ‖x.gaR‖ * |re t| ≤ (B * (1 + δ) ^ k) * (c * (1 + δ) ^ l) :=
          mul_le_mul hx.norm_le hta (abs_nonneg _) (by positivity)
      _ = _ := by ring
  have hE : u F * (‖x.gaR‖ * |re t|) + 2 ^ A.dim * η F ≤ δ * (B * c * (1 + δ) ^ (k + l)) := by
    have e1 := mul_le_mul_of_nonneg_left hP hu
    have e2 : 2 ^ A.dim * η F ≤ (δ * (B * c) - u F * (B * c)) * (1 + δ) ^ (k + l) :=
      le_trans (by linarith) (le_mul_of_one_le_right (by nlinarith [mul_nonneg hN.le hη]) h12)
    nlinarith
  obtain ⟨r, r1, r2, r3⟩ := smul_err hx.fine ht (hP.trans ho)
  refine ⟨r, r1, r2, ?_, ?_⟩
  · rw [norm_smul, Real.norm_of_nonneg hc, mul_comm]
    exact mul_le_mul_of_nonneg_right hx.bound hc
  · have e : r.gaR - c • G = (r.gaR - re t • x.gaR) + ((re t - c) • x.gaR + c • (x.gaR - G)) := by
      rw [sub_smul, smul_sub]; abel
    have f1 : ‖(re t - c) • x.gaR‖ ≤ c * ((1 + δ) ^ l - 1) * (B * (1 + δ) ^ k) := by
      rw [norm_smul, Real.norm_eq_abs]
      exact mul_le_mul hct hx.norm_le (norm_nonneg _) (mul_nonneg hc (by linarith))
    have f2 : ‖c • (x.gaR - G)‖ ≤ c * (B * ((1 + δ) ^ k - 1)) := by
      rw [norm_smul, Real.norm_of_nonneg hc]
      exact mul_le_mul_of_nonneg_left hx.err hc
    rw [e]
    refine (norm_add_le _ _).trans ((add_le_add (r3.trans hE) ((norm_add_le _ _).trans (add_le_add f1 f2))).trans (le_of_eq ?_))
    rw [pow_succ, pow_add]; ring

/-- Integer powers. -/
theorem NearV.pow (hA : A.WF) (hδ : gMul F A + hMul F A ≤ δ) (hx : NearV δ x G B k) (hB : 1 ≤ B) {n : Nat} (hn : 1 ≤ n)
    (ho : B ^ n * (1 + δ) ^ (n * (k + 1)) ≤ Ω F) :
    ∃ r, x.pow n = .ok r ∧ NearV δ r (G ^ n) (B ^ n) (n * (k + 1) - 1) := by
  have g0 := gMul_nonneg (F := F) (A := A)
  have h0 := hMul_nonneg (F := F) (A := A)
  have hδ0 : 0 ≤ δ := by linarith
  have hdd : ∀ {t : ℝ}, 1 ≤ t → gMul F A * t + hMul F A ≤ δ * t := fun {t} ht => by nlinarith
  induction n using Nat.strong_induction_on with
  | _ n ih =>
    rw [MV.pow, if_neg (by omega)]
    by_cases h1 : n = 1
    · rw [if_pos h1]; subst h1
      exact ⟨x, rfl, by simpa using hx⟩
    rw [if_neg h1]
    have hs : n >>> 1 = n / 2 := Nat.shiftRight_one n
    have ha : n &&& 1 = n % 2 := Nat.and_one_is_mod n
    rw [hs, ha]
    have hle : ∀ {i j : ℕ}, i ≤ n → j ≤ n * (k + 1) → B ^ i * (1 + δ) ^ j ≤ Ω F := fun {i j} hi hj =>
      le_trans (mul_le_mul (pow_le_pow_right₀ hB hi) (pow_le_pow_right₀ (by linarith) hj) (by positivity) (by positivity)) ho
    obtain ⟨z, z1, z2⟩ := ih (n / 2) (by omega) (by omega) (hle (by omega) (Nat.mul_le_mul_right _ (by omega)))
    have hj : 1 ≤ n / 2 * (k + 1) := Nat.mul_pos (by omega) (by omega)
    have hBz : 1 ≤ B ^ (n / 2) := one_le_pow₀ hB
    have e2 : n / 2 * (k + 1) - 1 + (n / 2 * (k + 1) - 1) + 1 = 2 * (n / 2) * (k + 1) - 1 := by
      rw [mul_assoc]; omega
    obtain ⟨w, w1, w2⟩ := z2.mul hA hδ0 z2 (hdd (one_le_mul_of_one_le_of_one_le hBz hBz)) (by
      rw [← pow_add, e2]
      exact hle (by omega) ((Nat.sub_le _ _).trans (Nat.mul_le_mul_right _ (by omega))))
    rw [← pow_add, ← pow_add, ← two_mul, e2] at w2
    rw [z1]
    show ∃ r, (if n % 2 = 0 then z.naiveMulImpl z else do
      let y ← z.naiveMulImpl z
      y.naiveMulImpl x) = .ok r ∧ _
    by_cases hm : n % 2 = 0
    · rw [if_pos hm]
      have : 2 * (n / 2) = n := by omega
      rw [this] at w2
      exact ⟨w, w1, w2⟩
    · rw [if_neg hm, w1]
      show ∃ r, w.naiveMulImpl x = .ok r ∧ _
      have hn2 : 2 * (n / 2) + 1 = n := by omega
      have e3 : 2 * (n / 2) * (k + 1) - 1 + k + 1 = n * (k + 1) - 1 := by
        have : n * (k + 1) = 2 * (n / 2) * (k + 1) + (k + 1) := by conv_lhs => rw [← hn2, Nat.add_mul, one_mul]
        have : 1 ≤ 2 * (n / 2) * (k + 1) := Nat.mul_pos (by omega) (by omega)
        omega
      obtain ⟨r, r1, r2⟩ := w2.mul hA hδ0 hx (hdd (one_le_mul_of_one_le_of_one_le (one_le_pow₀ hB) hB)) (by
        rw [← pow_succ, e3, hn2]
        exact hle le_rfl (Nat.sub_le _ _))
      rw [← pow_succ, ← pow_succ, e3, hn2] at r2
      exact ⟨r, r1, r2⟩

end MV

end TClifford
