import Verif.Model.FFTExpF
import Verif.Props.FFTFloatTrace
import Verif.Props.FloatExp
import Verif.Proofs.ExpRotor
import Verif.Proofs.Trace
/-
`exp` in the transformed domain with `f64`: the rounding errors of its steps.
-/

set_option linter.unusedSectionVars false

namespace TClifford

open MV Finset FloatModel

namespace CxRel
variable {K : Type} [Zero K] [One K] [Add K] [Sub K] [Neg K] [Mul K] [Div K] [HasI K] {Q : CxRel K} {A : ClAlg}

/-- Entries multiplied by a real number, with an absolute error. -/
theorem Mat.scale {m l l' : Nat} {V V' : Nat → Nat → K} {X X' : Nat → Nat → ℂ} {b τ d : ℝ} (hτ : 0 ≤ τ) (h : Q.Mat m l V X b)
    (h' : ∀ i < 2 ^ m, ∀ j < 2 ^ m, ∀ c ≤ b, Q.R l (V i j) (X i j) c → Q.R l' (V' i j) (X' i j) (τ * c + d)) :
    Q.Mat m l' V' X' (τ * b + 2 ^ m * d) := by
  obtain ⟨β, h1, h2, h3⟩ := h
  refine ⟨fun i j => τ * β i j + d, fun i hi j hj => h' i hi j hj _ ?_ (h1 i hi j hj), fun i hi => ?_, fun j hj => ?_⟩
  · exact (single_le_sum (f := β i) (fun j hj => Q.nonneg (h1 i hi j (mem_range.mp hj))) (mem_range.mpr hj)).trans (h2 i hi)
  · rw [sum_add_distrib, ← mul_sum, sum_const, card_range, nsmul_eq_mul]
    push_cast
    have := mul_le_mul_of_nonneg_left (h2 i hi) hτ
    linarith
  · rw [sum_add_distrib, ← mul_sum, sum_const, card_range, nsmul_eq_mul]
    push_cast
    have := mul_le_mul_of_nonneg_left (h3 j hj) hτ
    linarith

theorem Rep.scale {l l' : Nat} {r : FFTRepr A K} {f : Nat → ℂ} {b τ d : ℝ} {g : K → K} (hτ : 0 ≤ τ) (h : Q.Rep A l r f b)
    (h' : ∀ v z, ∀ c ≤ b, Q.R l v z c → Q.R l' (g v) (z * τ) (τ * c + d)) :
    Q.Rep A l' ⟨r.arr.map g⟩ (fun k => f k * τ) (τ * b + 2 ^ A.projDim * (2 ^ A.half * d)) := by
  obtain ⟨h0, c, h1, h2⟩ := h
  refine ⟨h0, fun w => τ * c w + 2 ^ A.half * d, ?_, fun w hw => ?_⟩
  · rw [sum_add_distrib, ← mul_sum, sum_const, card_range, nsmul_eq_mul]
    push_cast
    have := mul_le_mul_of_nonneg_left h1 hτ
    linarith
  · have hc : c w ≤ b := (single_le_sum (f := c) (fun w hw => (h2 w (mem_range.mp hw)).nonneg) (mem_range.mpr hw)).trans h1
    refine (h2 w hw).scale hτ fun i hi j hj e he hR => ?_
    rw [FL_smul]
    exact h' _ _ e (he.trans hc) hR

end CxRel

namespace Cx
variable {F : Type} [Zero F] [One F] [Add F] [Sub F] [Neg F] [Mul F] [Div F] [FloatModel F] [FloatSigns F]

theorem n1_mul_real (z : ℂ) (t : ℝ) : n1 (z * t) = n1 z * |t| := by
  unfold n1
  simp [abs_mul]
  ring

/-- Multiplication by a real number. -/
theorem Near.mulReal (hu : 0 < u F) {l : Nat} {v : Cx F} {z : ℂ} {b : ℝ} (h : Near l v z b) {t : F} {τ : ℝ} (hτ : 0 ≤ τ) (ht : fin t)
    (htτ : |FloatModel.re t - τ| ≤ ((1 + u F) ^ 2 - 1) * τ) (hok : (1 + u F) ^ (l + 2) * (τ * b) ≤ Ω F) :
    Near (l + 3) (v.mulReal t) (z * τ) (τ * b + uflow F) := by
  have hu0 := hu.le
  have hb := h.nonneg
  have hn := n1_nonneg v.val
  have hT : |FloatModel.re t| ≤ (1 + u F) ^ 2 * τ := by
    have := abs_sub_abs_le_abs_sub (FloatModel.re t) τ
    rw [abs_of_nonneg hτ] at this
    linarith
  have hs : n1 (v.val * (FloatModel.re t : ℝ)) ≤ (1 + u F) ^ (l + 2) * (τ * b) := by
    rw [n1_mul_real]
    refine (mul_le_mul h.size hT (abs_nonneg _) (by positivity)).trans_eq ?_
    rw [pow_add]; ring
  have e1 : (v.val * (FloatModel.re t : ℝ)).re = FloatModel.re v.re * FloatModel.re t := by simp [val]
  have e2 : (v.val * (FloatModel.re t : ℝ)).im = FloatModel.re v.im * FloatModel.re t := by simp [val]
  have j1 := FloatModel.mul_ok h.1.1 ht (by rw [← e1]; exact (abs_re_le _).trans (hs.trans hok))
  have j2 := FloatModel.mul_ok h.1.2 ht (by rw [← e2]; exact (abs_im_le _).trans (hs.trans hok))
  refine Near.round (l := l + 2) (m := 1) (t := v.val * (FloatModel.re t : ℝ)) (s := τ * b) (d := uflow F) ⟨j1.1, j2.1⟩ ?_ uflow_nonneg le_rfl ?_ ?_
  · rw [n1_mul_real, abs_of_nonneg hτ, mul_comm]
    exact mul_le_mul_of_nonneg_left h.2.1 hτ
  · have e : v.val * (FloatModel.re t : ℝ) - z * τ = (v.val - z) * (FloatModel.re t : ℝ) + z * ((FloatModel.re t - τ : ℝ) : ℂ) := by
      push_cast; ring
    rw [e]
    refine (n1_add _ _).trans ?_
    rw [n1_mul_real, n1_mul_real]
    have g1 := mul_le_mul h.2.2 hT (abs_nonneg _) (mul_nonneg (by have := one_le_pow' (F := F) l; linarith) hb)
    have g2 := mul_le_mul h.2.1 htτ (abs_nonneg _) hb
    refine (add_le_add g1 g2).trans_eq ?_
    rw [pow_add]; ring
  · rw [pow_one, add_sub_cancel_left, u_uflow hu]
    have g := mul_le_mul_of_nonneg_left hs hu0
    rw [← e1] at j1
    rw [← e2] at j2
    have k := n1_sub_le (z := (v.mulReal t).val) (y := v.val * (FloatModel.re t : ℝ)) j1.2 j2.2
    refine k.trans ?_
    have e3 : n1 (v.val * (FloatModel.re t : ℝ)) = |(v.val * (FloatModel.re t : ℝ)).re| + |(v.val * (FloatModel.re t : ℝ)).im| := rfl
    have hη := FloatModel.η_nonneg (F := F)
    rw [e3, mul_add] at g
    linarith

/-- Division by a positive integer. -/
theorem Near.divReal (hu : 0 < u F) {l : Nat} {v : Cx F} {z : ℂ} {b : ℝ} (h : Near l v z b) {t : F} {m : Nat} (hm : 0 < m) (ht : fin t)
    (htm : FloatModel.re t = m) (hok : (1 + u F) ^ l * ((m : ℝ)⁻¹ * b) ≤ Ω F) :
    Near (l + 1) (v.divReal t) (z * ((m : ℝ)⁻¹ : ℝ)) ((m : ℝ)⁻¹ * b + uflow F) := by
  have hm0 : (0 : ℝ) < m := by exact_mod_cast hm
  have hi : (0 : ℝ) ≤ (m : ℝ)⁻¹ := by positivity
  have hs : n1 (v.val * ((m : ℝ)⁻¹ : ℝ)) ≤ (1 + u F) ^ l * ((m : ℝ)⁻¹ * b) := by
    rw [n1_mul_real, abs_of_nonneg hi]
    refine (mul_le_mul_of_nonneg_right h.size hi).trans_eq (by ring)
  have e1 : (v.val * ((m : ℝ)⁻¹ : ℝ)).re = FloatModel.re v.re / FloatModel.re t := by
    rw [htm, Complex.re_mul_ofReal, div_eq_mul_inv]; rfl
  have e2 : (v.val * ((m : ℝ)⁻¹ : ℝ)).im = FloatModel.re v.im / FloatModel.re t := by
    rw [htm, Complex.im_mul_ofReal, div_eq_mul_inv]; rfl
  have j1 := FloatModel.div_ok h.1.1 ht (by rw [htm]; exact hm0.ne') (by rw [← e1]; exact (abs_re_le _).trans (hs.trans hok))
  have j2 := FloatModel.div_ok h.1.2 ht (by rw [htm]; exact hm0.ne') (by rw [← e2]; exact (abs_im_le _).trans (hs.trans hok))
  refine Near.round (l := l) (m := 1) (t := v.val * ((m : ℝ)⁻¹ : ℝ)) (s := (m : ℝ)⁻¹ * b) (d := uflow F) ⟨j1.1, j2.1⟩ ?_ uflow_nonneg le_rfl ?_ ?_
  · rw [n1_mul_real, abs_of_nonneg hi, mul_comm]
    exact mul_le_mul_of_nonneg_left h.2.1 hi
  · rw [← sub_mul, n1_mul_real, abs_of_nonneg hi]
    exact (mul_le_mul_of_nonneg_right h.2.2 hi).trans_eq (by ring)
  · rw [pow_one, add_sub_cancel_left, u_uflow hu]
    have g := mul_le_mul_of_nonneg_left hs hu.le
    rw [← e1] at j1
    rw [← e2] at j2
    have k := n1_sub_le (z := (v.divReal t).val) (y := v.val * ((m : ℝ)⁻¹ : ℝ)) j1.2 j2.2
    refine k.trans ?_
    have e3 : n1 (v.val * ((m : ℝ)⁻¹ : ℝ)) = |(v.val * ((m : ℝ)⁻¹ : ℝ)).re| + |(v.val * ((m : ℝ)⁻¹ : ℝ)).im| := rfl
    have hη := FloatModel.η_nonneg (F := F)
    rw [e3, mul_add] at g
    linarith

end Cx

/-! ### Elements of the algebra -/

theorem four_le_M64 : (4 : ℝ) ≤ M F64 := by
  rw [C69_f64.2.2.1]; norm_num

theorem u64_pos : 0 < u F64 := by
  rw [C69_f64.1]; positivity

/-- The relation with rounding errors, for `f64`. -/
noncomputable abbrev nearQ : CxRel (Cx F64) := Cx.nearRel four_le_M64 u64_pos

variable {A : ClAlg}

/-- `r` represents `y` with `l` roundings and size `b`. -/
def RepG (l : Nat) (r : FFTRepr A (Cx F64)) (y : GA A.sigma A.dim ℝ) (b : ℝ) : Prop := nearQ.Rep A l r (cx A y.fn) b

/-- The absolute error of a product. -/
noncomputable def uflowE (A : ClAlg) : ℝ := 3 ^ A.projDim * (2 ^ A.half * (2 ^ A.half * Cx.uflow F64))

theorem uflowE_nonneg : 0 ≤ uflowE A := by
  have := Cx.uflow_nonneg (F := F64)
  unfold uflowE
  positivity

theorem uflowE_ge : 2 ^ A.projDim * (2 ^ A.half * Cx.uflow F64) ≤ uflowE A := by
  have h := Cx.uflow_nonneg (F := F64)
  unfold uflowE
  have h1 : (2 : ℝ) ^ A.projDim ≤ 3 ^ A.projDim := pow_le_pow_left₀ (by norm_num) (by norm_num) _
  have h2 : (1 : ℝ) ≤ 2 ^ A.half := one_le_pow₀ (by norm_num)
  have h3 : 2 ^ A.half * Cx.uflow F64 ≤ 2 ^ A.half * (2 ^ A.half * Cx.uflow F64) :=
    mul_le_mul_of_nonneg_left (le_mul_of_one_le_left h h2) (by positivity)
  exact mul_le_mul h1 h3 (by positivity) (by positivity)

/-- Roundings of a product. -/
def mulC (A : ClAlg) : Nat := 2 + 2 ^ A.half + A.projDim

theorem RepG.mono {l l' : Nat} {r : FFTRepr A (Cx F64)} {y : GA A.sigma A.dim ℝ} {b b' : ℝ} (h : RepG l r y b) (hl : l ≤ l') (hb : b ≤ b') :
    RepG l' r y b' := CxRel.Rep.mono h hl hb

theorem RepG.nonneg {l : Nat} {r : FFTRepr A (Cx F64)} {y : GA A.sigma A.dim ℝ} {b : ℝ} (h : RepG l r y b) : 0 ≤ b := CxRel.Rep.nonneg h

theorem RepG.mul (hA : A.WF) {l l' : Nat} {r s : FFTRepr A (Cx F64)} {y z : GA A.sigma A.dim ℝ} {b c : ℝ}
    (hr : RepG l r y b) (hs : RepG l' s z c) (hok : nearQ.ok (l + l' + mulC A) (b * c + uflowE A)) :
    ∃ t, r.mul s = .ok t ∧ RepG (l + l' + mulC A) t (y * z) (b * c + uflowE A) := by
  have e : l + l' + mulC A = l + l' + 2 + 2 ^ A.half + A.projDim := by unfold mulC; omega
  rw [e] at hok ⊢
  obtain ⟨t, h1, h2⟩ := CxRel.Rep.mul hA Cx.neg_neg' hr hs hok
  refine ⟨t, h1, CxRel.Rep.congr hA h2 fun k hk => ?_⟩
  rw [← cx_geo hA _ _ hk]
  exact cx_congr (GA.fn_mul y z hk)

theorem RepG.add (hA : A.WF) {l : Nat} {r s : FFTRepr A (Cx F64)} {y z : GA A.sigma A.dim ℝ} {b c : ℝ}
    (hr : RepG l r y b) (hs : RepG l s z c) (hok : nearQ.ok (l + 1) (b + c)) :
    ∃ t, r.add s = .ok t ∧ RepG (l + 1) t (y + z) (b + c) := by
  obtain ⟨t, h1, h2⟩ := CxRel.Rep.add hr hs hok
  refine ⟨t, h1, CxRel.Rep.congr hA h2 fun k hk => ?_⟩
  have := congrFun (cx_add (K := ℂ) A y.fn z.fn) k
  rw [← this]
  exact cx_congr (GA.fn_add_apply y z k)

theorem RepG.smulG (hA : A.WF) {l l' : Nat} {r : FFTRepr A (Cx F64)} {y : GA A.sigma A.dim ℝ} {b τ : ℝ} {g : Cx F64 → Cx F64} (hτ : 0 ≤ τ)
    (hr : RepG l r y b) (h' : ∀ v z, ∀ c ≤ b, Cx.Near l v z c → Cx.Near l' (g v) (z * τ) (τ * c + Cx.uflow F64)) :
    RepG l' ⟨r.arr.map g⟩ (τ • y) (τ * b + uflowE A) := by
  have h := CxRel.Rep.scale (Q := nearQ) (l' := l') (d := Cx.uflow F64) (g := g) hτ hr h'
  refine CxRel.Rep.congr hA (CxRel.Rep.mono h le_rfl (add_le_add le_rfl uflowE_ge)) fun k hk => ?_
  have := congrFun (cx_mul (K := ℂ) A y.fn τ) k
  refine Eq.trans ?_ this
  exact cx_congr (by rw [GA.fn_smul_apply, mul_comm])

theorem RepG.mulReal (hA : A.WF) {l : Nat} {r : FFTRepr A (Cx F64)} {y : GA A.sigma A.dim ℝ} {b τ : ℝ} {t : F64} (hτ : 0 ≤ τ)
    (hr : RepG l r y b) (ht : fin t) (htτ : |re t - τ| ≤ ((1 + u F64) ^ 2 - 1) * τ) (hok : nearQ.ok (l + 2) (τ * b)) :
    RepG (l + 3) (r.mulReal t) (τ • y) (τ * b + uflowE A) :=
  hr.smulG hA hτ fun _ _ _ hc h => h.mulReal u64_pos hτ ht htτ (nearQ.ok_mono hok le_rfl (mul_le_mul_of_nonneg_left hc hτ))

theorem RepG.divReal (hA : A.WF) {l m : Nat} {r : FFTRepr A (Cx F64)} {y : GA A.sigma A.dim ℝ} {b : ℝ} {t : F64} (hm : 0 < m)
    (hr : RepG l r y b) (ht : fin t) (htm : re t = m) (hok : nearQ.ok l ((m : ℝ)⁻¹ * b)) :
    RepG (l + 1) (r.divReal t) ((m : ℝ)⁻¹ • y) ((m : ℝ)⁻¹ * b + uflowE A) :=
  hr.smulG hA (by positivity) fun _ _ _ hc h => h.divReal u64_pos hm ht htm
    (nearQ.ok_mono hok le_rfl (mul_le_mul_of_nonneg_left hc (by positivity)))

theorem RepG.one (hA : A.WF) (hd : A.dim < 63) : RepG 0 (FFTRepr.one : FFTRepr A (Cx F64)) (1 : GA A.sigma A.dim ℝ) 1 := by
  have h := one_represents (K := ℂ) hA hd
  refine CxRel.Rep.congr hA (f := single 0 1) ⟨⟨wcount_eq hA hd, matrixSide_eq hA hd, matrixSide_eq hA hd⟩, fun w => if w = 0 then 1 else 0, ?_, ?_⟩ ?_
  · rw [sum_ite_eq' (range _) 0]; split <;> simp
  · intro w hw
    refine ⟨fun i j => if w = 0 ∧ i = j then 1 else 0, fun i hi j hj => ?_, fun i hi => ?_, fun j hj => ?_⟩
    · rw [← h.2 w hw i hi j hj]
      show Cx.Near 0 (if w = 0 ∧ i = j then 1 else 0) (if w = 0 ∧ i = j then 1 else 0) (if w = 0 ∧ i = j then 1 else 0)
      split
      · have hv : (1 : Cx F64).val = 1 := Complex.ext re_one re_zero
        exact ⟨⟨fin_one, fin_zero⟩, by rw [Cx.n1_one], by rw [hv, sub_self, Cx.n1_zero]; simp⟩
      · exact nearQ.zero
    · by_cases h0 : w = 0
      · simp [h0, hi]
      · simp [h0]
    · by_cases h0 : w = 0
      · simp [h0, hj]
      · simp [h0]
  · intro k hk
    rw [← cx_single (T := ℝ) A]
    refine cx_congr ?_
    rw [GA.one_def]
    exact GA.fn_of _ hk

/-- No overflow. -/
theorem okF {l : Nat} {b : ℝ} (hl : l ≤ 2 ^ 51) (hb : b ≤ 2 ^ 1000) : nearQ.ok l b := by
  obtain ⟨cu, cη, cM, cΩ, -⟩ := C69_f64
  refine nearQ.ok_mono (l' := l) (b' := 2 ^ 1000) ?_ le_rfl hb
  show (1 + u F64) ^ l * 2 ^ 1000 ≤ Ω F64
  have hl' : (l : ℝ) ≤ 2 ^ 51 := by exact_mod_cast hl
  have hlu : (l : ℝ) * u F64 ≤ 1 / 4 := by rw [cu]; linarith
  have h := pow_sub_one_le (u_nonneg (F := F64)) (L := l) (by linarith)
  have h2 : (1 + u F64) ^ l ≤ 2 := by linarith
  refine (mul_le_mul_of_nonneg_right h2 (by positivity)).trans ?_
  rw [cΩ, show (2 : ℝ) ^ 1000 = 2 ^ 29 * 2 ^ 971 by rw [← pow_add], ← mul_assoc]
  exact mul_le_mul_of_nonneg_right (by norm_num) (by positivity)

theorem uflow_step {p q E : ℝ} (hE : 0 ≤ E) (hp : 1 + E ≤ p) (hq : 1 + E ≤ q) : (p - E) * (q - E) + E ≤ p * q - E := by
  nlinarith

/-- Powers. -/
theorem RepG.pow (hA : A.WF) {l : Nat} {r : FFTRepr A (Cx F64)} {y : GA A.sigma A.dim ℝ} {b : ℝ} (hb : 1 ≤ b)
    (hr : RepG l r y b) {n : Nat} (hn : 0 < n) (hl : n * l + (n - 1) * mulC A ≤ 2 ^ 51) (hB : (b + uflowE A) ^ n ≤ 2 ^ 1000) :
    ∃ t, r.pow n = .ok t ∧ RepG (n * l + (n - 1) * mulC A) t (y ^ n) ((b + uflowE A) ^ n - uflowE A) := by
  have hE := uflowE_nonneg (A := A)
  set E := uflowE A
  have h1 : 1 ≤ b + E := by linarith
  obtain ⟨W, hW⟩ : ∃ W : ℝ, W = 2 ^ 1000 := ⟨_, rfl⟩
  have okW : ∀ {l : Nat} {b : ℝ}, l ≤ 2 ^ 51 → b ≤ W → nearQ.ok l b := fun h1 h2 => okF h1 (by rw [← hW]; exact h2)
  rw [← hW] at hB
  clear hW
  induction n using Nat.strong_induction_on with
  | _ n ih =>
    unfold FFTRepr.pow
    rw [if_neg (by omega : ¬ n = 0)]
    by_cases hn1 : n = 1
    · subst hn1
      exact ⟨r, by rw [if_pos rfl], by simpa using hr⟩
    · rw [if_neg hn1, Nat.shiftRight_one]
      obtain ⟨m, hm⟩ : ∃ m, n / 2 = m + 1 := ⟨n / 2 - 1, by omega⟩
      have hle : (m + 1) * l + (m + 1 - 1) * mulC A ≤ n * l + (n - 1) * mulC A :=
        Nat.add_le_add (Nat.mul_le_mul_right _ (by omega)) (Nat.mul_le_mul_right _ (by omega))
      have hpm : (b + E) ^ (m + 1) ≤ W := (pow_le_pow_right₀ h1 (by omega)).trans hB
      obtain ⟨x, e1, hx⟩ := ih (m + 1) (by omega) (by omega) (hle.trans hl) hpm
      rw [hm, e1]
      show ∃ t, (if n &&& 1 = 0 then x.mul x else do let y ← x.mul x; y.mul r) = .ok t ∧ _
      have hk1 : b + E ≤ (b + E) ^ (m + 1) := le_self_pow₀ h1 (by omega)
      -- the square
      have hsq : ((b + E) ^ (m + 1) - E) * ((b + E) ^ (m + 1) - E) + E ≤ (b + E) ^ (2 * (m + 1)) - E := by
        rw [two_mul, pow_add (b + E) (m + 1) (m + 1)]
        exact uflow_step hE (by linarith) (by linarith)
      have hl2 : (m + 1) * l + (m + 1 - 1) * mulC A + ((m + 1) * l + (m + 1 - 1) * mulC A) + mulC A =
          (2 * (m + 1)) * l + (2 * (m + 1) - 1) * mulC A := by
        rw [show 2 * (m + 1) - 1 = 2 * m + 1 by omega, Nat.add_sub_cancel]; ring
      have hle2 : (2 * (m + 1)) * l + (2 * (m + 1) - 1) * mulC A ≤ n * l + (n - 1) * mulC A :=
        Nat.add_le_add (Nat.mul_le_mul_right _ (by omega)) (Nat.mul_le_mul_right _ (by omega))
      have hp2 : (b + E) ^ (2 * (m + 1)) ≤ W := (pow_le_pow_right₀ h1 (by omega)).trans hB
      obtain ⟨z, e2, hz⟩ := hx.mul hA hx (okW (by rw [hl2]; exact hle2.trans hl) (by linarith))
      rw [hl2, ← pow_add, ← two_mul] at hz
      have hz := hz.mono le_rfl hsq
      rw [and_one_mod]
      by_cases hp : n % 2 = 0
      · have hn2 : n = 2 * (m + 1) := by omega
        rw [if_pos hp, hn2]
        exact ⟨z, e2, hz⟩
      · have hn2 : n = 2 * (m + 1) + 1 := by omega
        have hl3 : (2 * (m + 1)) * l + (2 * (m + 1) - 1) * mulC A + l + mulC A =
            (2 * (m + 1) + 1) * l + (2 * (m + 1) + 1 - 1) * mulC A := by
          rw [show 2 * (m + 1) - 1 = 2 * m + 1 by omega, Nat.add_sub_cancel]; ring
        have hk2 : b + E ≤ (b + E) ^ (2 * (m + 1)) := le_self_pow₀ h1 (by omega)
        have hcu : ((b + E) ^ (2 * (m + 1)) - E) * b + E ≤ (b + E) ^ (2 * (m + 1) + 1) - E := by
          rw [pow_succ]
          have := uflow_step hE (p := (b + E) ^ (2 * (m + 1))) (q := b + E) (by linarith) (by linarith)
          rwa [add_sub_cancel_right] at this
        rw [hn2] at hl hB
        obtain ⟨w, e3, hw⟩ := hz.mul hA hr (okW (by rw [hl3]; exact hl) (by linarith))
        rw [hl3, ← pow_succ] at hw
        rw [if_neg hp, hn2, e2]
        exact ⟨w, e3, hw.mono le_rfl hcu⟩

/-! ### The loop -/

namespace FFTRepr

theorem taylorF_18 (x : FFTRepr A (Cx F64)) (fuel i : Nat) (res p : FFTRepr A (Cx F64)) :
    taylorF x fuel (expCoefF 18) i res p = some (.ok res) := by
  cases fuel <;> rw [taylorF, if_neg (by rw [expCoefF_18]; decide)]

theorem taylorF_succ (x : FFTRepr A (Cx F64)) {k : Nat} (hk : k < 18) (fuel : Nat) (res p : FFTRepr A (Cx F64)) :
    taylorF x (fuel + 1) (expCoefF k) (k + 1) res p =
      match (do
        let res ← res.add (p.mulReal (expCoefF (k + 1)))
        let p ← p.mul x
        return (res, p) : Res (FFTRepr A (Cx F64) × FFTRepr A (Cx F64))) with
      | .error e => some (.error e)
      | .ok (res, p) => taylorF x fuel (expCoefF (k + 1)) (k + 1 + 1) res p := by
  have e : expCoefF (k + 1) = expCoefF k / Flt.ofRat ((k + 1 : ℕ) : ℚ) := rfl
  rw [taylorF, if_pos (expCoefF_gt k hk), e]
  generalize expCoefF k / Flt.ofRat ((k + 1 : ℕ) : ℚ) = c
  dsimp only
  cases (do
    let res ← res.add (p.mulReal c)
    let p ← p.mul x
    return (res, p) : Res (FFTRepr A (Cx F64) × FFTRepr A (Cx F64))) <;> rfl

theorem taylorF_zero (x : FFTRepr A (Cx F64)) {k : Nat} (hk : k < 18) (i : Nat) (res p : FFTRepr A (Cx F64)) :
    taylorF x 0 (expCoefF k) i res p = none := by
  rw [taylorF, if_pos (expCoefF_gt k hk)]

/-- The loop stops after 18 iterations at the latest, earlier only with an error. -/
theorem taylorF_fuel (x : FFTRepr A (Cx F64)) (d : Nat) : ∀ {k : Nat}, k + d = 18 → ∀ (res p : FFTRepr A (Cx F64)),
    (∀ fuel < d, taylorF x fuel (expCoefF k) (k + 1) res p = none ∨
      ∃ e, taylorF x fuel (expCoefF k) (k + 1) res p = some (.error e)) ∧
    ∃ r, ∀ fuel ≥ d, taylorF x fuel (expCoefF k) (k + 1) res p = some r := by
  induction d with
  | zero =>
    intro k hk res p
    have hk : k = 18 := by omega
    subst hk
    exact ⟨fun _ h => absurd h (by omega), _, fun fuel _ => taylorF_18 x fuel _ res p⟩
  | succ d ih =>
    intro k hk res p
    constructor
    · intro fuel hf
      cases fuel with
      | zero => exact .inl (taylorF_zero x (by omega) _ _ _)
      | succ fuel =>
        rw [taylorF_succ x (by omega)]
        split
        · exact .inr ⟨_, rfl⟩
        · rename_i res' p' _
          exact (ih (k := k + 1) (by omega) res' p').1 fuel (by omega)
    · cases h : (do
        let res ← res.add (p.mulReal (expCoefF (k + 1)))
        let p ← p.mul x
        return (res, p) : Res (FFTRepr A (Cx F64) × FFTRepr A (Cx F64))) with
      | error e =>
        refine ⟨.error e, fun fuel hf => ?_⟩
        obtain ⟨fuel, rfl⟩ := Nat.exists_eq_succ_of_ne_zero (show fuel ≠ 0 by omega)
        rw [Nat.succ_eq_add_one, taylorF_succ x (by omega), h]
      | ok q =>
        obtain ⟨r, hr⟩ := (ih (k := k + 1) (by omega) q.1 q.2).2
        refine ⟨r, fun fuel hf => ?_⟩
        obtain ⟨fuel, rfl⟩ := Nat.exists_eq_succ_of_ne_zero (show fuel ≠ 0 by omega)
        rw [Nat.succ_eq_add_one, taylorF_succ x (by omega), h]
        exact hr fuel (by omega)

/-- The loop, from iteration `k` on. -/
theorem taylorF_near (hA : A.WF) {n : FFTRepr A (Cx F64)} {x : GA A.sigma A.dim ℝ} {σ : ℝ} {l0 : Nat} (hσ : 1 + uflowE A ≤ σ)
    (hn : RepG l0 n x (σ - uflowE A)) (hl : 19 * (l0 + mulC A) + 30 ≤ 2 ^ 51) (hB : σ ^ 19 ≤ 2 ^ 999) (hB' : Real.exp σ ≤ 2 ^ 999)
    (hE1 : uflowE A ≤ 1) (d : Nat) : ∀ {k : Nat}, k + d = 18 → ∀ {res p : FFTRepr A (Cx F64)},
    RepG (k * (l0 + mulC A + 1) + 3) res (∑ j ∈ range (k + 1), ((j.factorial : ℝ)⁻¹) • x ^ j)
      (∑ j ∈ range (k + 1), σ ^ j / j.factorial + k * uflowE A) →
    RepG ((k + 1) * l0 + k * mulC A) p (x ^ (k + 1)) (σ ^ (k + 1) - uflowE A) → ∀ fuel ≥ d,
    ∃ r, taylorF n fuel (expCoefF k) (k + 1) res p = some (.ok r) ∧
      RepG (18 * (l0 + mulC A + 1) + 3) r (∑ j ∈ range 19, ((j.factorial : ℝ)⁻¹) • x ^ j) (Real.exp σ + 18 * uflowE A) := by
  have hE := uflowE_nonneg (A := A)
  set E := uflowE A
  have hσ1 : 1 ≤ σ := by linarith
  have hsum : ∀ k, ∑ j ∈ range k, σ ^ j / j.factorial ≤ Real.exp σ := fun k => Real.sum_le_exp_of_nonneg (by linarith) k
  obtain ⟨W, hW⟩ : ∃ W : ℝ, W = 2 ^ 999 := ⟨_, rfl⟩
  have okW : ∀ {l : Nat} {b : ℝ}, l ≤ 2 ^ 51 → b ≤ W + W → nearQ.ok l b := fun {l b} h1 h2 => okF h1 (by
    refine h2.trans (le_of_eq ?_)
    rw [hW, ← two_mul]
    exact (pow_succ' (2 : ℝ) 999).symm)
  have hbig1 : (100 : ℝ) ≤ W := by
    rw [hW]
    exact le_trans (by norm_num) (pow_le_pow_right₀ (by norm_num) (show 7 ≤ 999 by norm_num))
  rw [← hW] at hB hB'
  clear hW
  induction d with
  | zero =>
    intro k hk res p hres hp fuel _
    have hk : k = 18 := by omega
    subst hk
    exact ⟨res, taylorF_18 n fuel _ res p, hres.mono le_rfl (add_le_add (hsum _) (by norm_num))⟩
  | succ d ih =>
    intro k hk res p hres hp fuel hf
    obtain ⟨fuel, rfl⟩ := Nat.exists_eq_succ_of_ne_zero (show fuel ≠ 0 by omega)
    rw [Nat.succ_eq_add_one, taylorF_succ n (by omega)]
    have hfk2 : (1 : ℝ) ≤ (k + 1).factorial := by exact_mod_cast Nat.factorial_pos _
    have hfk : (0 : ℝ) < (k + 1).factorial := by linarith
    have hc0 : (0 : ℝ) ≤ 1 / (k + 1).factorial := by positivity
    have hc1 : (1 : ℝ) / (k + 1).factorial ≤ 1 := by rw [div_le_one hfk]; exact hfk2
    obtain ⟨c1, c2⟩ := C88_coefficients.1 (k + 1) (by omega)
    have hpk : σ ^ (k + 1) ≤ W := (pow_le_pow_right₀ hσ1 (by omega)).trans hB
    have hpk2 : σ ^ (k + 1 + 1) ≤ W := (pow_le_pow_right₀ hσ1 (by omega)).trans hB
    have hps : σ ≤ σ ^ (k + 1) := le_self_pow₀ hσ1 (by omega)
    -- levels
    have hm1 : k * (l0 + mulC A + 1) ≤ 17 * (l0 + mulC A + 1) := Nat.mul_le_mul_right _ (by omega)
    have hm2 : (k + 1) * l0 ≤ 18 * l0 := Nat.mul_le_mul_right _ (by omega)
    have hm3 : k * mulC A ≤ 17 * mulC A := Nat.mul_le_mul_right _ (by omega)
    have hm4 : (k + 1) * l0 + k * mulC A ≤ k * (l0 + mulC A + 1) + l0 := by
      rw [show k * (l0 + mulC A + 1) = k * l0 + k * mulC A + k by ring, show (k + 1) * l0 = k * l0 + l0 by ring]; omega
    -- the term
    have t2 := hp.mulReal hA (t := expCoefF (k + 1)) hc0 c1 (by
      refine c2.trans (mul_le_mul_of_nonneg_right ?_ hc0)
      rw [C69_f64.1]; norm_num) (okW (by omega) (by
        have : 1 / ((k + 1).factorial : ℝ) * (σ ^ (k + 1) - E) ≤ 1 * (σ ^ (k + 1) - E) :=
          mul_le_mul_of_nonneg_right hc1 (by linarith)
        linarith))
    -- the sum
    have hle : (1 : ℝ) / (k + 1).factorial * (σ ^ (k + 1) - E) + E ≤ σ ^ (k + 1) / (k + 1).factorial + E := by
      rw [mul_sub, one_div_mul_eq_div]
      have := mul_nonneg hc0 hE
      linarith
    have hB2 : ∑ j ∈ range (k + 1), σ ^ j / j.factorial + k * E + (σ ^ (k + 1) / (k + 1).factorial + E) =
        ∑ j ∈ range (k + 1 + 1), σ ^ j / j.factorial + (k + 1 : ℕ) * E := by
      rw [sum_range_succ _ (k + 1)]; push_cast; ring
    obtain ⟨r, r1, r2⟩ := RepG.add hA (l := k * (l0 + mulC A + 1) + l0 + 3) (hres.mono (by omega) le_rfl) (t2.mono (by omega) hle) (okW (by omega) (by
      rw [hB2]
      have h1 := hsum (k + 1 + 1)
      have h2 : ((k + 1 : ℕ) : ℝ) * E ≤ 18 * 1 := mul_le_mul (by exact_mod_cast (by omega : k + 1 ≤ 18)) hE1 hE (by norm_num)
      linarith))
    rw [hB2, one_div, ← sum_range_succ (fun j : ℕ => ((j.factorial : ℝ)⁻¹) • x ^ j) (k + 1)] at r2
    have r3 := r2.mono (l' := (k + 1) * (l0 + mulC A + 1) + 3) (by
      rw [show (k + 1) * (l0 + mulC A + 1) = k * (l0 + mulC A + 1) + l0 + mulC A + 1 by ring]; omega) le_rfl
    -- the power
    have hpw : (σ ^ (k + 1) - E) * (σ - E) + E ≤ σ ^ (k + 1 + 1) - E := by
      rw [pow_succ σ (k + 1)]
      exact uflow_step hE (by linarith) hσ
    obtain ⟨q, q1, q2⟩ := hp.mul hA hn (okW (by omega) (by linarith))
    rw [← pow_succ] at q2
    have q3 := q2.mono (l' := (k + 1 + 1) * l0 + (k + 1) * mulC A) (le_of_eq (by ring)) hpw
    have hdo : (do
        let res ← res.add (p.mulReal (expCoefF (k + 1)))
        let p ← p.mul n
        return (res, p) : Res (FFTRepr A (Cx F64) × FFTRepr A (Cx F64))) = .ok (r, q) := by
      rw [r1]
      show (do
        let p ← p.mul n
        return (r, p) : Res (FFTRepr A (Cx F64) × FFTRepr A (Cx F64))) = _
      rw [q1]
      rfl
    rw [hdo]
    exact ih (by omega) r3 q3 fuel (by omega)

end FFTRepr

end TClifford
