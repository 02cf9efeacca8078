import Verif.Proofs.FFTRelRev
import Verif.Proofs.Float
/-
Complex floating point numbers: the exact relation (integers) and the relation with rounding errors.
-/

set_option linter.unusedSectionVars false

namespace TClifford

open Finset FloatModel

/-- Laws of IEEE arithmetic, beyond the standard model, that the transforms rely on. -/
class FloatSigns (F : Type) [Zero F] [One F] [Add F] [Sub F] [Neg F] [Mul F] [Div F] [FloatModel F] : Prop where
  neg_neg : ∀ x : F, - -x = x
  mul_one : ∀ {x : F}, fin x → x * 1 = x
  one_mul : ∀ {x : F}, fin x → 1 * x = x
  mul_neg_one : ∀ {x : F}, fin x → x * -1 = -x
  neg_one_mul : ∀ {x : F}, fin x → -1 * x = -x
  zero_sub : ∀ {x : F}, fin x → 0 - x = -x
  div_int : ∀ {x y : F} {m n : ℤ}, fin x → fin y → re x = m * n → re y = n → n ≠ 0 → |(m : ℝ)| ≤ M F →
    fin (x / y) ∧ re (x / y) = m

section
variable {F : Type} [Zero F] [One F] [Add F] [Sub F] [Neg F] [Mul F] [Div F] [FloatModel F]

instance [DecidableEq F] : CoeffLaws (Cx F) where
  add_zero x := by
    have h1 := CoeffLaws.add_zero x.re
    have h2 := CoeffLaws.add_zero x.im
    exact Cx.ext' h1 h2
  sub_zero x := by
    have h1 := CoeffLaws.sub_zero x.re
    have h2 := CoeffLaws.sub_zero x.im
    exact Cx.ext' h1 h2

namespace Cx

/-- Both parts are finite. -/
def Fin (v : Cx F) : Prop := fin v.re ∧ fin v.im

/-- The value. -/
noncomputable def val (v : Cx F) : ℂ := ⟨FloatModel.re v.re, FloatModel.re v.im⟩

/-- Sum of the absolute values of the two parts. -/
noncomputable def n1 (z : ℂ) : ℝ := |z.re| + |z.im|

theorem n1_nonneg (z : ℂ) : 0 ≤ n1 z := by unfold n1; positivity
theorem n1_zero : n1 0 = 0 := by simp [n1]
theorem n1_one : n1 1 = 1 := by simp [n1]
theorem n1_neg (z : ℂ) : n1 (-z) = n1 z := by simp [n1]
theorem n1_add (z y : ℂ) : n1 (z + y) ≤ n1 z + n1 y := by
  unfold n1
  have h1 := abs_add_le z.re y.re
  have h2 := abs_add_le z.im y.im
  simp only [Complex.add_re, Complex.add_im]
  linarith
theorem n1_sub (z y : ℂ) : n1 (z - y) ≤ n1 z + n1 y := by
  rw [sub_eq_add_neg, ← n1_neg y]; exact n1_add _ _
theorem n1_mul (z y : ℂ) : n1 (z * y) ≤ n1 z * n1 y := by
  unfold n1
  have h1 := abs_sub (z.re * y.re) (z.im * y.im)
  have h2 := abs_add_le (z.re * y.im) (z.im * y.re)
  simp only [abs_mul] at h1 h2
  simp only [Complex.mul_re, Complex.mul_im]
  calc _ ≤ (|z.re| * |y.re| + |z.im| * |y.im|) + (|z.re| * |y.im| + |z.im| * |y.re|) := add_le_add h1 h2
    _ = _ := by ring
theorem n1_half (z : ℂ) : n1 (z / 2) = n1 z / 2 := by
  have e1 : (z / 2).re = z.re / 2 := by simp
  have e2 : (z / 2).im = z.im / 2 := by simp
  unfold n1
  rw [e1, e2, abs_div, abs_div, abs_two]; ring

theorem abs_re_le (z : ℂ) : |z.re| ≤ n1 z := by unfold n1; linarith [abs_nonneg z.im]
theorem abs_im_le (z : ℂ) : |z.im| ≤ n1 z := by unfold n1; linarith [abs_nonneg z.re]

theorem n1_mul_I (z : ℂ) : n1 (z * Complex.I) = n1 z := by
  unfold n1; simp [add_comm]

theorem iPow_cases (n : Nat) : (iPow n = (1 : ℂ) ∧ iPow n = (1 : Cx F)) ∨ (iPow n = Complex.I ∧ iPow n = (HasI.I : Cx F)) ∨
    (iPow n = (-1 : ℂ) ∧ iPow n = (-1 : Cx F)) ∨ (iPow n = -Complex.I ∧ iPow n = (-HasI.I : Cx F)) := by
  have h : n % 4 < 4 := Nat.mod_lt _ (by norm_num)
  unfold iPow
  generalize n % 4 = k at *
  interval_cases k
  · exact Or.inl ⟨rfl, rfl⟩
  · exact Or.inr (Or.inl ⟨rfl, rfl⟩)
  · exact Or.inr (Or.inr (Or.inl ⟨rfl, rfl⟩))
  · exact Or.inr (Or.inr (Or.inr ⟨rfl, rfl⟩))

theorem iPowNeg_eq {K : Type} [One K] [Neg K] [HasI K] (n : Nat) : (iPowNeg n : K) = iPow (3 * n) := by
  unfold iPowNeg iPow
  have h : n % 4 < 4 := Nat.mod_lt _ (by norm_num)
  rw [Nat.mul_mod]
  generalize n % 4 = k at *
  interval_cases k <;> rfl

theorem n1_mul_iPow (z : ℂ) (n : Nat) : n1 (z * iPow n) = n1 z := by
  have h : n % 4 < 4 := Nat.mod_lt _ (by norm_num)
  unfold iPow
  generalize n % 4 = k at *
  interval_cases k
  · show n1 (z * 1) = _
    rw [mul_one]
  · exact n1_mul_I z
  · show n1 (z * -1) = _
    rw [mul_neg, mul_one, n1_neg]
  · show n1 (z * -Complex.I) = _
    rw [mul_neg, n1_neg, n1_mul_I]

variable [FloatSigns F]

theorem neg_zero' : (-0 : F) = 0 := by
  obtain ⟨h1, h2⟩ := FloatModel.neg_ok (F := F) FloatModel.fin_zero
  exact FloatModel.re_inj h1 FloatModel.fin_zero (by rw [h2, FloatModel.re_zero, neg_zero])

theorem neg_Fin {v : Cx F} (h : v.Fin) : (-v).Fin ∧ (-v).val = -v.val := by
  have h1 := FloatModel.neg_ok h.1
  have h2 := FloatModel.neg_ok h.2
  exact ⟨⟨h1.1, h2.1⟩, Complex.ext h1.2 h2.2⟩

theorem mul_one' {v : Cx F} (h : v.Fin) : v * 1 = v := by
  refine ext' ?_ ?_
  · show v.re * 1 - v.im * 0 = v.re
    rw [FloatSigns.mul_one h.1, FloatModel.mul_zero h.2, CoeffLaws.sub_zero]
  · show v.re * 0 + v.im * 1 = v.im
    rw [FloatSigns.mul_one h.2, FloatModel.mul_zero h.1, FloatModel.zero_add]

theorem one_mul' {v : Cx F} (h : v.Fin) : 1 * v = v := by
  refine ext' ?_ ?_
  · show 1 * v.re - 0 * v.im = v.re
    rw [FloatSigns.one_mul h.1, FloatModel.zero_mul h.2, CoeffLaws.sub_zero]
  · show 1 * v.im + 0 * v.re = v.im
    rw [FloatSigns.one_mul h.2, FloatModel.zero_mul h.1, CoeffLaws.add_zero]

theorem mul_neg_one' {v : Cx F} (h : v.Fin) : v * -1 = -v := by
  refine ext' ?_ ?_
  · show v.re * -1 - v.im * -0 = -v.re
    rw [neg_zero', FloatSigns.mul_neg_one h.1, FloatModel.mul_zero h.2, CoeffLaws.sub_zero]
  · show v.re * -0 + v.im * -1 = -v.im
    rw [neg_zero', FloatSigns.mul_neg_one h.2, FloatModel.mul_zero h.1, FloatModel.zero_add]

theorem neg_one_mul' {v : Cx F} (h : v.Fin) : -1 * v = -v := by
  refine ext' ?_ ?_
  · show -1 * v.re - -0 * v.im = -v.re
    rw [neg_zero', FloatSigns.neg_one_mul h.1, FloatModel.zero_mul h.2, CoeffLaws.sub_zero]
  · show -1 * v.im + -0 * v.re = -v.im
    rw [neg_zero', FloatSigns.neg_one_mul h.2, FloatModel.zero_mul h.1, CoeffLaws.add_zero]

theorem mul_I' {v : Cx F} (h : v.Fin) : v * HasI.I = ⟨-v.im, v.re⟩ := by
  refine ext' ?_ ?_
  · show v.re * 0 - v.im * 1 = -v.im
    rw [FloatSigns.mul_one h.2, FloatModel.mul_zero h.1, FloatSigns.zero_sub h.2]
  · show v.re * 1 + v.im * 0 = v.re
    rw [FloatSigns.mul_one h.1, FloatModel.mul_zero h.2, CoeffLaws.add_zero]

theorem I_mul' {v : Cx F} (h : v.Fin) : HasI.I * v = ⟨-v.im, v.re⟩ := by
  refine ext' ?_ ?_
  · show 0 * v.re - 1 * v.im = -v.im
    rw [FloatSigns.one_mul h.2, FloatModel.zero_mul h.1, FloatSigns.zero_sub h.2]
  · show 0 * v.im + 1 * v.re = v.re
    rw [FloatSigns.one_mul h.1, FloatModel.zero_mul h.2, FloatModel.zero_add]

theorem mul_neg_I' {v : Cx F} (h : v.Fin) : v * -HasI.I = ⟨v.im, -v.re⟩ := by
  refine ext' ?_ ?_
  · show v.re * -0 - v.im * -1 = v.im
    rw [neg_zero', FloatSigns.mul_neg_one h.2, FloatModel.mul_zero h.1, FloatSigns.zero_sub (FloatModel.neg_ok h.2).1,
      FloatSigns.neg_neg]
  · show v.re * -1 + v.im * -0 = -v.re
    rw [neg_zero', FloatSigns.mul_neg_one h.1, FloatModel.mul_zero h.2, CoeffLaws.add_zero]

theorem neg_I_mul' {v : Cx F} (h : v.Fin) : -HasI.I * v = ⟨v.im, -v.re⟩ := by
  refine ext' ?_ ?_
  · show -0 * v.re - -1 * v.im = v.im
    rw [neg_zero', FloatSigns.neg_one_mul h.2, FloatModel.zero_mul h.1, FloatSigns.zero_sub (FloatModel.neg_ok h.2).1,
      FloatSigns.neg_neg]
  · show -0 * v.im + -1 * v.re = -v.re
    rw [neg_zero', FloatSigns.neg_one_mul h.1, FloatModel.zero_mul h.2, FloatModel.zero_add]

theorem mul_iPow_ok {v : Cx F} (h : v.Fin) (n : Nat) : (v * iPow n).Fin ∧ (v * iPow n).val = v.val * iPow n := by
  have h1 := FloatModel.neg_ok h.1
  have h2 := FloatModel.neg_ok h.2
  rcases iPow_cases (F := F) n with e | e | e | e
  all_goals rw [e.1, e.2]
  · rw [mul_one' h, mul_one]; exact ⟨h, rfl⟩
  · rw [mul_I' h]
    exact ⟨⟨h2.1, h.1⟩, Complex.ext (by simp [val, h2.2]) (by simp [val])⟩
  · rw [mul_neg_one' h, mul_neg, mul_one]; exact neg_Fin h
  · rw [mul_neg_I' h]
    exact ⟨⟨h.2, h1.1⟩, Complex.ext (by simp [val]) (by simp [val, h1.2])⟩

theorem iPow_mul_ok {v : Cx F} (h : v.Fin) (n : Nat) : (iPow n * v).Fin ∧ (iPow n * v).val = iPow n * v.val := by
  have h1 := FloatModel.neg_ok h.1
  have h2 := FloatModel.neg_ok h.2
  rcases iPow_cases (F := F) n with e | e | e | e
  all_goals rw [e.1, e.2]
  · rw [one_mul' h, one_mul]; exact ⟨h, rfl⟩
  · rw [I_mul' h]
    exact ⟨⟨h2.1, h.1⟩, Complex.ext (by simp [val, h2.2]) (by simp [val])⟩
  · rw [neg_one_mul' h, neg_mul, one_mul]; exact neg_Fin h
  · rw [neg_I_mul' h]
    exact ⟨⟨h.2, h1.1⟩, Complex.ext (by simp [val]) (by simp [val, h1.2])⟩

theorem neg_neg' (v : Cx F) : - -v = v := ext' (FloatSigns.neg_neg _) (FloatSigns.neg_neg _)

theorem zero_Fin : (0 : Cx F).Fin ∧ (0 : Cx F).val = 0 :=
  ⟨⟨FloatModel.fin_zero, FloatModel.fin_zero⟩, Complex.ext FloatModel.re_zero FloatModel.re_zero⟩

/-! ### Integers -/

/-- Gaussian integers. -/
def GInt (z : ℂ) : Prop := (∃ m : ℤ, z.re = m) ∧ ∃ n : ℤ, z.im = n

theorem GInt.add {z y : ℂ} (h : GInt z) (h' : GInt y) : GInt (z + y) := by
  obtain ⟨⟨a, ha⟩, b, hb⟩ := h
  obtain ⟨⟨c, hc⟩, d, hd⟩ := h'
  exact ⟨⟨a + c, by simp [ha, hc]⟩, b + d, by simp [hb, hd]⟩

theorem GInt.neg {z : ℂ} (h : GInt z) : GInt (-z) := by
  obtain ⟨⟨a, ha⟩, b, hb⟩ := h
  exact ⟨⟨-a, by simp [ha]⟩, -b, by simp [hb]⟩

theorem GInt.mul {z y : ℂ} (h : GInt z) (h' : GInt y) : GInt (z * y) := by
  obtain ⟨⟨a, ha⟩, b, hb⟩ := h
  obtain ⟨⟨c, hc⟩, d, hd⟩ := h'
  exact ⟨⟨a * c - b * d, by simp [ha, hb, hc, hd]⟩, a * d + b * c, by simp [ha, hb, hc, hd]⟩

theorem GInt.iPow (n : Nat) : GInt (iPow n) := by
  have h : n % 4 < 4 := Nat.mod_lt _ (by norm_num)
  unfold TClifford.iPow
  generalize n % 4 = k at *
  interval_cases k
  · show GInt 1
    exact ⟨⟨1, by simp⟩, 0, by simp⟩
  · show GInt Complex.I
    exact ⟨⟨0, by simp⟩, 1, by simp⟩
  · show GInt (-1)
    exact ⟨⟨-1, by simp⟩, 0, by simp⟩
  · show GInt (-Complex.I)
    exact ⟨⟨0, by simp⟩, -1, by simp⟩

theorem re_add (z y : ℂ) : (z + y).re = z.re + y.re := rfl

/-- Exact arithmetic on Gaussian integers. -/
theorem add_gint {v w : Cx F} (hv : v.Fin) (hw : w.Fin) (gv : GInt v.val) (gw : GInt w.val) (h : n1 (v.val + w.val) ≤ M F) :
    (v + w).Fin ∧ (v + w).val = v.val + w.val := by
  obtain ⟨⟨a, ha⟩, b, hb⟩ := gv
  obtain ⟨⟨c, hc⟩, d, hd⟩ := gw
  have h1 := (abs_re_le _).trans h
  have h2 := (abs_im_le _).trans h
  simp only [Complex.add_re, Complex.add_im, ha, hb, hc, hd] at h1 h2
  have k1 := FloatModel.add_int hv.1 hw.1 ha hc h1
  have k2 := FloatModel.add_int hv.2 hw.2 hb hd h2
  exact ⟨⟨k1.1, k2.1⟩, Complex.ext (by rw [Complex.add_re, ha, hc]; exact k1.2) (by rw [Complex.add_im, hb, hd]; exact k2.2)⟩

theorem sub_gint {v w : Cx F} (hv : v.Fin) (hw : w.Fin) (gv : GInt v.val) (gw : GInt w.val) (h : n1 (v.val - w.val) ≤ M F) :
    (v - w).Fin ∧ (v - w).val = v.val - w.val := by
  obtain ⟨⟨a, ha⟩, b, hb⟩ := gv
  obtain ⟨⟨c, hc⟩, d, hd⟩ := gw
  have h1 := (abs_re_le _).trans h
  have h2 := (abs_im_le _).trans h
  simp only [Complex.sub_re, Complex.sub_im, ha, hb, hc, hd] at h1 h2
  have k1 := FloatModel.sub_int hv.1 hw.1 ha hc h1
  have k2 := FloatModel.sub_int hv.2 hw.2 hb hd h2
  exact ⟨⟨k1.1, k2.1⟩, Complex.ext (by rw [Complex.sub_re, ha, hc]; exact k1.2) (by rw [Complex.sub_im, hb, hd]; exact k2.2)⟩

theorem mul_gint {v w : Cx F} (hv : v.Fin) (hw : w.Fin) (gv : GInt v.val) (gw : GInt w.val) (h : n1 v.val * n1 w.val ≤ M F) :
    (v * w).Fin ∧ (v * w).val = v.val * w.val := by
  obtain ⟨⟨a, ha⟩, b, hb⟩ := gv
  obtain ⟨⟨c, hc⟩, d, hd⟩ := gw
  unfold n1 at h
  rw [ha, hb, hc, hd] at h
  have e : (|(a : ℝ)| + |(b : ℝ)|) * (|(c : ℝ)| + |(d : ℝ)|) = |(a * c : ℝ)| + |(a * d : ℝ)| + |(b * c : ℝ)| + |(b * d : ℝ)| := by
    rw [abs_mul, abs_mul, abs_mul, abs_mul]; ring
  rw [e] at h
  have p1 := abs_nonneg (a * c : ℝ)
  have p2 := abs_nonneg (a * d : ℝ)
  have p3 := abs_nonneg (b * c : ℝ)
  have p4 := abs_nonneg (b * d : ℝ)
  have k1 := FloatModel.mul_int hv.1 hw.1 ha hc (by linarith)
  have k2 := FloatModel.mul_int hv.2 hw.2 hb hd (by linarith)
  have k3 := FloatModel.mul_int hv.1 hw.2 ha hd (by linarith)
  have k4 := FloatModel.mul_int hv.2 hw.1 hb hc (by linarith)
  have j1 := FloatModel.sub_int (m := a * c) (n := b * d) k1.1 k2.1 (by rw [k1.2]; push_cast; rfl) (by rw [k2.2]; push_cast; rfl) (by
    push_cast
    have := abs_sub (a * c : ℝ) (b * d)
    linarith)
  have j2 := FloatModel.add_int (m := a * d) (n := b * c) k3.1 k4.1 (by rw [k3.2]; push_cast; rfl) (by rw [k4.2]; push_cast; rfl) (by
    push_cast
    have := abs_add_le (a * d : ℝ) (b * c)
    linarith)
  refine ⟨⟨j1.1, j2.1⟩, Complex.ext ?_ ?_⟩
  · rw [Complex.mul_re, ha, hb, hc, hd]
    have := j1.2
    push_cast at this
    exact this
  · rw [Complex.mul_im, ha, hb, hc, hd]
    have := j2.2
    push_cast at this
    exact this

theorem two_ok (h4 : 4 ≤ M F) : fin (1 + 1 : F) ∧ FloatModel.re (1 + 1 : F) = 2 ∧ (1 + 1 : Cx F) = ⟨1 + 1, 0⟩ := by
  have h := FloatModel.add_int (F := F) (m := 1) (n := 1) FloatModel.fin_one FloatModel.fin_one (by rw [FloatModel.re_one]; simp)
    (by rw [FloatModel.re_one]; simp) (by norm_num; linarith)
  refine ⟨h.1, by rw [h.2]; norm_num, ext' rfl ?_⟩
  show (0 + 0 : F) = 0
  exact FloatModel.zero_add _

theorem four_ok (h4 : 4 ≤ M F) : fin (normSq (1 + 1 : Cx F)) ∧ FloatModel.re (normSq (1 + 1 : Cx F)) = 4 := by
  obtain ⟨h1, h2, h3⟩ := two_ok h4
  rw [h3]
  show fin ((1 + 1) * (1 + 1) + 0 * 0 : F) ∧ FloatModel.re ((1 + 1) * (1 + 1) + 0 * 0 : F) = 4
  rw [FloatModel.zero_mul FloatModel.fin_zero, CoeffLaws.add_zero]
  have h := FloatModel.mul_int (F := F) (m := 2) (n := 2) h1 h1 (by rw [h2]; norm_num) (by rw [h2]; norm_num) (by norm_num; exact h4)
  exact ⟨h.1, by rw [h.2]; norm_num⟩

/-- Division by two: the two parts of the quotient. -/
theorem div_two (h4 : 4 ≤ M F) {v : Cx F} (h : v.Fin) :
    v / (1 + 1) = ⟨v.re * (1 + 1) / normSq (1 + 1 : Cx F), v.im * (1 + 1) / normSq (1 + 1 : Cx F)⟩ := by
  obtain ⟨-, -, e⟩ := two_ok h4
  refine ext' ?_ ?_
  · show (v.re * (1 + 1 : Cx F).re + v.im * (1 + 1 : Cx F).im) / _ = _
    rw [e]
    show (v.re * (1 + 1) + v.im * 0) / _ = _
    rw [FloatModel.mul_zero h.2, CoeffLaws.add_zero]
  · show (v.im * (1 + 1 : Cx F).re - v.re * (1 + 1 : Cx F).im) / _ = _
    rw [e]
    show (v.im * (1 + 1) - v.re * 0) / _ = _
    rw [FloatModel.mul_zero h.1, CoeffLaws.sub_zero]

theorem half_gint (h4 : 4 ≤ M F) {v : Cx F} (hv : v.Fin) (g : GInt (v.val / 2)) (h : 2 * n1 v.val ≤ M F) :
    (v / (1 + 1)).Fin ∧ (v / (1 + 1)).val = v.val / 2 := by
  obtain ⟨⟨a, ha⟩, b, hb⟩ := g
  have n0 := n1_nonneg v.val
  have e1 : (v.val / 2).re = v.val.re / 2 := by simp
  have e2 : (v.val / 2).im = v.val.im / 2 := by simp
  have ha' : FloatModel.re v.re = ((2 * a : ℤ) : ℝ) := by
    have : v.val.re / 2 = a := by rw [← e1]; exact ha
    push_cast
    show v.val.re = _
    linarith
  have hb' : FloatModel.re v.im = ((2 * b : ℤ) : ℝ) := by
    have : v.val.im / 2 = b := by rw [← e2]; exact hb
    push_cast
    show v.val.im = _
    linarith
  have l1 : |FloatModel.re v.re| ≤ n1 v.val := abs_re_le v.val
  have l2 : |FloatModel.re v.im| ≤ n1 v.val := abs_im_le v.val
  obtain ⟨t1, t2, -⟩ := two_ok h4
  obtain ⟨f1, f2⟩ := four_ok h4
  have k1 := FloatModel.mul_int (n := 2) hv.1 t1 ha' (by rw [t2]; norm_num) (by
    rw [← ha']; push_cast; rw [abs_mul, abs_two]; linarith)
  have k2 := FloatModel.mul_int (n := 2) hv.2 t1 hb' (by rw [t2]; norm_num) (by
    rw [← hb']; push_cast; rw [abs_mul, abs_two]; linarith)
  rw [div_two h4 hv]
  have la : |(a : ℝ)| ≤ M F := by
    rw [ha'] at l1; push_cast at l1; rw [abs_mul, abs_two] at l1
    linarith [abs_nonneg (a : ℝ)]
  have lb : |(b : ℝ)| ≤ M F := by
    rw [hb'] at l2; push_cast at l2; rw [abs_mul, abs_two] at l2
    linarith [abs_nonneg (b : ℝ)]
  have j1 := FloatSigns.div_int (m := a) (n := 4) k1.1 f1 (by rw [k1.2]; push_cast; ring) (by rw [f2]; norm_num) (by norm_num) la
  have j2 := FloatSigns.div_int (m := b) (n := 4) k2.1 f1 (by rw [k2.2]; push_cast; ring) (by rw [f2]; norm_num) (by norm_num) lb
  exact ⟨⟨j1.1, j2.1⟩, Complex.ext (by rw [ha]; exact j1.2) (by rw [hb]; exact j2.2)⟩

/-- The relation for integers: the computed number is exact. -/
noncomputable def exactRel (h4 : 4 ≤ M F) : CxRel (Cx F) where
  R _ v z b := v.Fin ∧ v.val = z ∧ GInt z ∧ n1 z ≤ b
  G := GInt
  ok _ b := b ≤ M F
  D := 0
  D_nonneg := le_rfl
  G_add := GInt.add
  G_neg := GInt.neg
  G_zero := ⟨⟨0, by simp⟩, 0, by simp⟩
  G_iPow n h := h.mul (GInt.iPow n)
  ok_mono h _ hb := hb.trans h
  nonneg h := (n1_nonneg _).trans h.2.2.2
  mono h _ hb := ⟨h.1, h.2.1, h.2.2.1, h.2.2.2.trans hb⟩
  zero := ⟨zero_Fin.1, zero_Fin.2, ⟨⟨0, by simp⟩, 0, by simp⟩, by rw [n1_zero]⟩
  neg h := by
    obtain ⟨h1, rfl, h3, h4⟩ := h
    exact ⟨(neg_Fin h1).1, (neg_Fin h1).2, h3.neg, by rw [n1_neg]; exact h4⟩
  add h h' hok := by
    obtain ⟨h1, rfl, h3, h4⟩ := h
    obtain ⟨g1, rfl, g3, g4⟩ := h'
    have hn := (n1_add _ _).trans (add_le_add h4 g4)
    obtain ⟨k1, k2⟩ := add_gint h1 g1 h3 g3 (hn.trans hok)
    exact ⟨k1, k2, h3.add g3, hn⟩
  sub h h' hok := by
    obtain ⟨h1, rfl, h3, h4⟩ := h
    obtain ⟨g1, rfl, g3, g4⟩ := h'
    have hn := (n1_sub _ _).trans (add_le_add h4 g4)
    obtain ⟨k1, k2⟩ := sub_gint h1 g1 h3 g3 (hn.trans hok)
    exact ⟨k1, k2, by rw [sub_eq_add_neg]; exact h3.add g3.neg, hn⟩
  mul h h' hok := by
    obtain ⟨h1, rfl, h3, h4⟩ := h
    obtain ⟨g1, rfl, g3, g4⟩ := h'
    have hm := mul_le_mul h4 g4 (n1_nonneg _) ((n1_nonneg _).trans h4)
    rw [_root_.add_zero] at hok ⊢
    obtain ⟨k1, k2⟩ := mul_gint h1 g1 h3 g3 (hm.trans hok)
    exact ⟨k1, k2, h3.mul g3, (n1_mul _ _).trans hm⟩
  half h hG hok := by
    obtain ⟨h1, rfl, h3, h5⟩ := h
    rw [_root_.add_zero] at hok ⊢
    obtain ⟨k1, k2⟩ := half_gint h4 h1 hG (by linarith)
    exact ⟨k1, k2, hG, by rw [n1_half]; linarith⟩
  mul_iPow n h := by
    obtain ⟨h1, rfl, h3, h4⟩ := h
    obtain ⟨k1, k2⟩ := mul_iPow_ok h1 n
    exact ⟨k1, k2, h3.mul (GInt.iPow n), by rw [n1_mul_iPow]; exact h4⟩
  mul_iPowNeg n h := by
    obtain ⟨h1, rfl, h3, h4⟩ := h
    obtain ⟨k1, k2⟩ := mul_iPow_ok h1 (3 * n)
    rw [iPowNeg_eq, iPowNeg_eq]
    exact ⟨k1, k2, h3.mul (GInt.iPow _), by rw [n1_mul_iPow]; exact h4⟩
  iPow_mul n h := by
    obtain ⟨h1, rfl, h3, h4⟩ := h
    obtain ⟨k1, k2⟩ := iPow_mul_ok h1 n
    exact ⟨k1, k2, (GInt.iPow n).mul h3, by rw [mul_comm, n1_mul_iPow]; exact h4⟩
  iPowNeg_mul n h := by
    obtain ⟨h1, rfl, h3, h4⟩ := h
    obtain ⟨k1, k2⟩ := iPow_mul_ok h1 (3 * n)
    rw [iPowNeg_eq, iPowNeg_eq]
    exact ⟨k1, k2, (GInt.iPow _).mul h3, by rw [mul_comm, n1_mul_iPow]; exact h4⟩


/-! ### Rounding errors -/

/-- `n1` of a difference from bounds for the parts. -/
theorem n1_sub_le {z y : ℂ} {p q : ℝ} (h1 : |z.re - y.re| ≤ p) (h2 : |z.im - y.im| ≤ q) : n1 (z - y) ≤ p + q := by
  unfold n1
  rw [Complex.sub_re, Complex.sub_im]
  exact add_le_add h1 h2

theorem add_err {v w : Cx F} (hv : v.Fin) (hw : w.Fin) (h : n1 (v.val + w.val) ≤ Ω F) :
    (v + w).Fin ∧ n1 ((v + w).val - (v.val + w.val)) ≤ u F * n1 (v.val + w.val) := by
  have k1 := FloatModel.add_ok hv.1 hw.1 ((abs_re_le _).trans h)
  have k2 := FloatModel.add_ok hv.2 hw.2 ((abs_im_le _).trans h)
  refine ⟨⟨k1.1, k2.1⟩, (n1_sub_le k1.2 k2.2).trans_eq ?_⟩
  unfold n1
  rw [mul_add]
  rfl

theorem sub_err {v w : Cx F} (hv : v.Fin) (hw : w.Fin) (h : n1 (v.val - w.val) ≤ Ω F) :
    (v - w).Fin ∧ n1 ((v - w).val - (v.val - w.val)) ≤ u F * n1 (v.val - w.val) := by
  have k1 := FloatModel.sub_ok hv.1 hw.1 ((abs_re_le _).trans h)
  have k2 := FloatModel.sub_ok hv.2 hw.2 ((abs_im_le _).trans h)
  refine ⟨⟨k1.1, k2.1⟩, (n1_sub_le k1.2 k2.2).trans_eq ?_⟩
  unfold n1
  rw [mul_add]
  rfl

/-- One part of a product. -/
theorem mul_part {p q s t ps pq : ℝ} {e : ℝ} (h1 : |ps - p * s| ≤ e * |p * s| + η F) (h2 : |pq - q * t| ≤ e * |q * t| + η F) :
    |ps - pq - (p * s - q * t)| ≤ e * (|p * s| + |q * t|) + 2 * η F ∧
    |ps + pq - (p * s + q * t)| ≤ e * (|p * s| + |q * t|) + 2 * η F := by
  constructor
  · have := abs_sub (ps - p * s) (pq - q * t)
    rw [show ps - pq - (p * s - q * t) = ps - p * s - (pq - q * t) by ring]
    linarith
  · have := abs_add_le (ps - p * s) (pq - q * t)
    rw [show ps + pq - (p * s + q * t) = ps - p * s + (pq - q * t) by ring]
    linarith

theorem mul_err {v w : Cx F} (hv : v.Fin) (hw : w.Fin) (h : (1 + u F) * (n1 v.val * n1 w.val) + 4 * η F ≤ Ω F) :
    (v * w).Fin ∧ n1 ((v * w).val - v.val * w.val) ≤ ((1 + u F) ^ 2 - 1) * (n1 v.val * n1 w.val) + 4 * η F * (1 + u F) := by
  have hu := FloatModel.u_nonneg (F := F)
  have hη := FloatModel.η_nonneg (F := F)
  set a := FloatModel.re v.re with ha
  set b := FloatModel.re v.im with hb
  set c := FloatModel.re w.re with hc
  set d := FloatModel.re w.im with hd
  have e : n1 v.val * n1 w.val = |a * c| + |b * d| + |a * d| + |b * c| := by
    unfold n1
    show (|a| + |b|) * (|c| + |d|) = _
    rw [abs_mul, abs_mul, abs_mul, abs_mul]; ring
  rw [e] at h ⊢
  have p1 := abs_nonneg (a * c)
  have p2 := abs_nonneg (b * d)
  have p3 := abs_nonneg (a * d)
  have p4 := abs_nonneg (b * c)
  have hP : 0 ≤ u F * (|a * c| + |b * d| + |a * d| + |b * c|) := by positivity
  have k1 := FloatModel.mul_ok hv.1 hw.1 (by rw [← ha, ← hc]; nlinarith)
  have k2 := FloatModel.mul_ok hv.2 hw.2 (by rw [← hb, ← hd]; nlinarith)
  have k3 := FloatModel.mul_ok hv.1 hw.2 (by rw [← ha, ← hd]; nlinarith)
  have k4 := FloatModel.mul_ok hv.2 hw.1 (by rw [← hb, ← hc]; nlinarith)
  have m1 := (mul_part (F := F) k1.2 k2.2).1
  have m2 := (mul_part (F := F) k3.2 k4.2).2
  rw [← ha, ← hb, ← hc, ← hd] at m1 m2
  have hQ1 : 0 ≤ u F * (|a * c| + |b * d|) := by positivity
  have hQ2 : 0 ≤ u F * (|a * d| + |b * c|) := by positivity
  have s1 : |FloatModel.re (v.re * w.re) - FloatModel.re (v.im * w.im)| ≤ (1 + u F) * (|a * c| + |b * d|) + 2 * η F := by
    have t1 := abs_sub_abs_le_abs_sub (FloatModel.re (v.re * w.re) - FloatModel.re (v.im * w.im)) (a * c - b * d)
    have t2 := abs_sub (a * c) (b * d)
    linarith
  have s2 : |FloatModel.re (v.re * w.im) + FloatModel.re (v.im * w.re)| ≤ (1 + u F) * (|a * d| + |b * c|) + 2 * η F := by
    have t1 := abs_sub_abs_le_abs_sub (FloatModel.re (v.re * w.im) + FloatModel.re (v.im * w.re)) (a * d + b * c)
    have t2 := abs_add_le (a * d) (b * c)
    linarith
  have j1 := FloatModel.sub_ok k1.1 k2.1 (s1.trans (by linarith))
  have j2 := FloatModel.add_ok k3.1 k4.1 (s2.trans (by linarith))
  refine ⟨⟨j1.1, j2.1⟩, ?_⟩
  have g1 : |(v * w).val.re - (v.val * w.val).re| ≤ u F * ((1 + u F) * (|a * c| + |b * d|) + 2 * η F) +
      (u F * (|a * c| + |b * d|) + 2 * η F) := by
    have t := abs_sub_le (FloatModel.re (v.re * w.re - v.im * w.im))
      (FloatModel.re (v.re * w.re) - FloatModel.re (v.im * w.im)) (a * c - b * d)
    have t2 := mul_le_mul_of_nonneg_left s1 hu
    rw [Complex.mul_re]
    show |FloatModel.re (v.re * w.re - v.im * w.im) - (a * c - b * d)| ≤ _
    linarith [j1.2]
  have g2 : |(v * w).val.im - (v.val * w.val).im| ≤ u F * ((1 + u F) * (|a * d| + |b * c|) + 2 * η F) +
      (u F * (|a * d| + |b * c|) + 2 * η F) := by
    have t := abs_sub_le (FloatModel.re (v.re * w.im + v.im * w.re))
      (FloatModel.re (v.re * w.im) + FloatModel.re (v.im * w.re)) (a * d + b * c)
    have t2 := mul_le_mul_of_nonneg_left s2 hu
    rw [Complex.mul_im]
    show |FloatModel.re (v.re * w.im + v.im * w.re) - (a * d + b * c)| ≤ _
    linarith [j2.2]
  refine (n1_sub_le g1 g2).trans_eq ?_
  ring

/-- One part of the half. -/
theorem half_part (h4 : 4 ≤ M F) {x : F} (hx : fin x) {b : ℝ} (hb : |FloatModel.re x| ≤ b) (h : 2 * b * (1 + u F) + η F ≤ Ω F) :
    fin (x * (1 + 1) / normSq (1 + 1 : Cx F)) ∧
    |FloatModel.re (x * (1 + 1) / normSq (1 + 1 : Cx F)) - FloatModel.re x / 2| ≤
      ((1 + u F) ^ 2 - 1) * (|FloatModel.re x| / 2) + η F * (5 / 4 + u F / 4) := by
  have hu := FloatModel.u_nonneg (F := F)
  have hη := FloatModel.η_nonneg (F := F)
  obtain ⟨t1, t2, -⟩ := two_ok h4
  obtain ⟨f1, f2⟩ := four_ok h4
  have n0 := abs_nonneg (FloatModel.re x)
  have hP : 0 ≤ u F * |FloatModel.re x| := by positivity
  have hP' : u F * |FloatModel.re x| ≤ u F * b := mul_le_mul_of_nonneg_left hb hu
  have e : |FloatModel.re x * 2| = 2 * |FloatModel.re x| := by rw [abs_mul, abs_two]; ring
  have k := FloatModel.mul_ok hx t1 (by rw [t2, e]; nlinarith)
  rw [t2, e] at k
  set y := FloatModel.re (x * (1 + 1)) with hy
  have s : |y| ≤ 2 * |FloatModel.re x| * (1 + u F) + η F := by
    have t1 := abs_sub_abs_le_abs_sub y (FloatModel.re x * 2)
    rw [e] at t1
    linarith [k.2]
  have e4 : |y / 4| = |y| / 4 := by rw [abs_div]; norm_num
  have n2 := abs_nonneg y
  have j := FloatModel.div_ok k.1 f1 (by rw [f2]; norm_num) (by rw [f2, ← hy, e4]; nlinarith)
  rw [f2, ← hy, e4] at j
  refine ⟨j.1, ?_⟩
  have e5 : |y / 4 - FloatModel.re x / 2| = |y - FloatModel.re x * 2| / 4 := by
    rw [show y / 4 - FloatModel.re x / 2 = (y - FloatModel.re x * 2) / 4 by ring, abs_div]; norm_num
  have t := abs_sub_le (FloatModel.re (x * (1 + 1) / normSq (1 + 1 : Cx F))) (y / 4) (FloatModel.re x / 2)
  rw [e5] at t
  have t2 := mul_le_mul_of_nonneg_left s hu
  nlinarith [j.2, k.2]

theorem half_err (h4 : 4 ≤ M F) {v : Cx F} (hv : v.Fin) (h : 2 * n1 v.val * (1 + u F) + η F ≤ Ω F) :
    (v / (1 + 1)).Fin ∧
    n1 ((v / (1 + 1)).val - v.val / 2) ≤ ((1 + u F) ^ 2 - 1) * (n1 v.val / 2) + η F * (5 / 2 + u F / 2) := by
  have e1 : (v.val / 2).re = v.val.re / 2 := by simp
  have e2 : (v.val / 2).im = v.val.im / 2 := by simp
  have k1 := half_part h4 hv.1 (abs_re_le v.val) h
  have k2 := half_part h4 hv.2 (abs_im_le v.val) h
  rw [div_two h4 hv]
  have g1 := k1.2
  have g2 := k2.2
  refine ⟨⟨k1.1, k2.1⟩, (n1_sub_le (p := ((1 + u F) ^ 2 - 1) * (|FloatModel.re v.re| / 2) + η F * (5 / 4 + u F / 4))
    (q := ((1 + u F) ^ 2 - 1) * (|FloatModel.re v.im| / 2) + η F * (5 / 4 + u F / 4)) (by rw [e1]; exact g1) (by rw [e2]; exact g2)).trans_eq ?_⟩
  unfold n1
  show ((1 + u F) ^ 2 - 1) * (|FloatModel.re v.re| / 2) + η F * (5 / 4 + u F / 4) +
    (((1 + u F) ^ 2 - 1) * (|FloatModel.re v.im| / 2) + η F * (5 / 4 + u F / 4)) =
    ((1 + u F) ^ 2 - 1) * ((|FloatModel.re v.re| + |FloatModel.re v.im|) / 2) + η F * (5 / 2 + u F / 2)
  ring

/-- The relation with `l` roundings: the error is at most `(1+u)^l - 1` times the size. -/
def Near (l : Nat) (v : Cx F) (z : ℂ) (b : ℝ) : Prop :=
  v.Fin ∧ n1 z ≤ b ∧ n1 (v.val - z) ≤ ((1 + u F) ^ l - 1) * b

theorem one_le_pow' (l : Nat) : 1 ≤ (1 + u F) ^ l := one_le_pow₀ (by linarith [FloatModel.u_nonneg (F := F)])

theorem pow_le' {l l' : Nat} (h : l ≤ l') : (1 + u F) ^ l ≤ (1 + u F) ^ l' :=
  pow_le_pow_right₀ (by linarith [FloatModel.u_nonneg (F := F)]) h

theorem Near.nonneg {l : Nat} {v : Cx F} {z : ℂ} {b : ℝ} (h : Near l v z b) : 0 ≤ b := (n1_nonneg _).trans h.2.1

theorem Near.size {l : Nat} {v : Cx F} {z : ℂ} {b : ℝ} (h : Near l v z b) : n1 v.val ≤ (1 + u F) ^ l * b := by
  have := n1_add (v.val - z) z
  rw [sub_add_cancel] at this
  linarith [h.2.1, h.2.2]

theorem Near.mono {l l' : Nat} {v : Cx F} {z : ℂ} {b b' : ℝ} (h : Near l v z b) (hl : l ≤ l') (hb : b ≤ b') :
    Near l' v z b' := by
  refine ⟨h.1, h.2.1.trans hb, h.2.2.trans ?_⟩
  have h1 := one_le_pow' (F := F) l
  exact mul_le_mul (by linarith [pow_le' (F := F) hl]) hb h.nonneg (by linarith [one_le_pow' (F := F) l'])

theorem Near.unit {l : Nat} {v v' : Cx F} {z : ℂ} {b : ℝ} (h : Near l v z b) (n : Nat) (h1 : v'.Fin) (h2 : v'.val = v.val * iPow n) :
    Near l v' (z * iPow n) b := by
  refine ⟨h1, by rw [n1_mul_iPow]; exact h.2.1, ?_⟩
  rw [h2, ← sub_mul, n1_mul_iPow]
  exact h.2.2

/-- Rounding after an exact operation. -/
theorem Near.round {l m : Nat} {v : Cx F} {t z : ℂ} {b s d : ℝ} (hv : v.Fin) (hz : n1 z ≤ s) (h0 : 0 ≤ d) (hs : s + d ≤ b)
    (ht : n1 (t - z) ≤ ((1 + u F) ^ l - 1) * s)
    (hr : n1 (v.val - t) ≤ ((1 + u F) ^ m - 1) * ((1 + u F) ^ l * s) + ((1 + u F) ^ m - 1) * d) : Near (l + m) v z b := by
  have hs0 := (n1_nonneg z).trans hz
  refine ⟨hv, by linarith, ?_⟩
  have k := n1_add (v.val - t) (t - z)
  rw [sub_add_sub_cancel] at k
  have hm := one_le_pow' (F := F) (l + m)
  have h1 : ((1 + u F) ^ m - 1) * d ≤ ((1 + u F) ^ (l + m) - 1) * d :=
    mul_le_mul_of_nonneg_right (by linarith [pow_le' (F := F) (Nat.le_add_left m l)]) h0
  have h2 : ((1 + u F) ^ (l + m) - 1) * (s + d) ≤ ((1 + u F) ^ (l + m) - 1) * b :=
    mul_le_mul_of_nonneg_left hs (by linarith)
  have e : ((1 + u F) ^ m - 1) * ((1 + u F) ^ l * s) + ((1 + u F) ^ l - 1) * s = ((1 + u F) ^ (l + m) - 1) * s := by
    rw [pow_add]; ring
  rw [mul_add] at h2
  linarith

/-- The absolute error of underflow, in terms of the relative error. -/
noncomputable def uflow (F : Type) [Zero F] [One F] [Add F] [Sub F] [Neg F] [Mul F] [Div F] [FloatModel F] : ℝ := 4 * η F / u F

theorem uflow_nonneg : 0 ≤ uflow F := by
  have hu := FloatModel.u_nonneg (F := F)
  have hη := FloatModel.η_nonneg (F := F)
  unfold uflow
  positivity

theorem u_uflow (hu : 0 < u F) : u F * uflow F = 4 * η F := by
  unfold uflow
  field_simp

noncomputable def nearRel (h4 : 4 ≤ M F) (hu : 0 < u F) : CxRel (Cx F) where
  R := Near
  G _ := True
  ok l b := (1 + u F) ^ l * b ≤ Ω F
  D := uflow F
  D_nonneg := uflow_nonneg
  G_add _ _ := trivial
  G_neg _ := trivial
  G_zero := trivial
  G_iPow _ _ := trivial
  ok_mono {l l' b b'} h hl hb := by
    rcases le_or_gt 0 b with h0 | h0
    · exact (mul_le_mul (pow_le' hl) hb h0 (by linarith [one_le_pow' (F := F) l'])).trans h
    · refine le_trans ?_ (FloatModel.Ω_nonneg (F := F))
      exact mul_nonpos_of_nonneg_of_nonpos (by linarith [one_le_pow' (F := F) l]) h0.le
  nonneg h := h.nonneg
  mono h hl hb := h.mono hl hb
  zero := ⟨zero_Fin.1, by rw [n1_zero], by rw [zero_Fin.2, sub_self, n1_zero]; simp⟩
  neg h := ⟨(neg_Fin h.1).1, by rw [n1_neg]; exact h.2.1, by
    rw [(neg_Fin h.1).2, ← neg_sub', n1_neg]; exact h.2.2⟩
  add {l v z b w y c} h h' hok := by
    have e : (v.val + w.val) - (z + y) = (v.val - z) + (w.val - y) := by ring
    have hs : n1 (v.val + w.val) ≤ (1 + u F) ^ l * (b + c) := by
      rw [mul_add]; exact (n1_add _ _).trans (add_le_add h.size h'.size)
    obtain ⟨k1, k2⟩ := add_err h.1 h'.1 (hs.trans (le_trans (mul_le_mul_of_nonneg_right (pow_le' (Nat.le_succ l))
      (add_nonneg h.nonneg h'.nonneg)) hok))
    refine Near.round (t := v.val + w.val) (d := 0) (s := b + c) k1 ((n1_add _ _).trans (add_le_add h.2.1 h'.2.1)) le_rfl (by rw [_root_.add_zero]) ?_ ?_
    · rw [e, mul_add]; exact (n1_add _ _).trans (add_le_add h.2.2 h'.2.2)
    · rw [pow_one, add_sub_cancel_left, MulZeroClass.mul_zero, _root_.add_zero]
      exact k2.trans (mul_le_mul_of_nonneg_left hs hu.le)
  sub {l v z b w y c} h h' hok := by
    have e : (v.val - w.val) - (z - y) = (v.val - z) - (w.val - y) := by ring
    have hs : n1 (v.val - w.val) ≤ (1 + u F) ^ l * (b + c) := by
      rw [mul_add]; exact (n1_sub _ _).trans (add_le_add h.size h'.size)
    obtain ⟨k1, k2⟩ := sub_err h.1 h'.1 (hs.trans (le_trans (mul_le_mul_of_nonneg_right (pow_le' (Nat.le_succ l))
      (add_nonneg h.nonneg h'.nonneg)) hok))
    refine Near.round (t := v.val - w.val) (d := 0) (s := b + c) k1 ((n1_sub _ _).trans (add_le_add h.2.1 h'.2.1)) le_rfl (by rw [_root_.add_zero]) ?_ ?_
    · rw [e, mul_add]; exact (n1_sub _ _).trans (add_le_add h.2.2 h'.2.2)
    · rw [pow_one, add_sub_cancel_left, MulZeroClass.mul_zero, _root_.add_zero]
      exact k2.trans (mul_le_mul_of_nonneg_left hs hu.le)
  mul {l l' v z b w y c} h h' hok := by
    have hD := u_uflow hu
    have hD0 := uflow_nonneg (F := F)
    have hη := FloatModel.η_nonneg (F := F)
    have bc := mul_nonneg h.nonneg h'.nonneg
    have hP : n1 v.val * n1 w.val ≤ (1 + u F) ^ (l + l') * (b * c) := by
      refine (mul_le_mul h.size h'.size (n1_nonneg _) ((n1_nonneg _).trans h.size)).trans_eq ?_
      rw [pow_add]; ring
    have hpw := one_le_pow' (F := F) (l + l')
    have hX : 0 ≤ (1 + u F) ^ (l + l') * (b * c) := by positivity
    have hov : (1 + u F) * (n1 v.val * n1 w.val) + 4 * η F ≤ Ω F := by
      refine le_trans ?_ hok
      rw [pow_add]
      have g1 : (1 + u F) * (n1 v.val * n1 w.val) ≤ (1 + u F) * ((1 + u F) ^ (l + l') * (b * c)) :=
        mul_le_mul_of_nonneg_left hP (by linarith)
      have g2 : 1 * (2 * u F * uflow F) ≤ (1 + u F) ^ (l + l') * ((1 + u F) ^ 2 * uflow F) := by
        refine mul_le_mul hpw ?_ (by positivity) (by positivity)
        nlinarith
      have g3 : (1 + u F) * ((1 + u F) ^ (l + l') * (b * c)) ≤ (1 + u F) ^ 2 * ((1 + u F) ^ (l + l') * (b * c)) := by
        apply mul_le_mul_of_nonneg_right _ hX
        nlinarith
      nlinarith
    obtain ⟨k1, k2⟩ := mul_err h.1 h'.1 hov
    have e : v.val * w.val - z * y = (v.val - z) * w.val + z * (w.val - y) := by ring
    refine Near.round (t := v.val * w.val) (d := uflow F) (s := b * c) k1 ?_ hD0 le_rfl ?_ ?_
    · exact (n1_mul _ _).trans (mul_le_mul h.2.1 h'.2.1 (n1_nonneg _) h.nonneg)
    · rw [e]
      refine (n1_add _ _).trans ?_
      have g1 := (n1_mul (v.val - z) w.val).trans (mul_le_mul h.2.2 h'.size (n1_nonneg _) ((n1_nonneg _).trans h.2.2))
      have g2 := (n1_mul z (w.val - y)).trans (mul_le_mul h.2.1 h'.2.2 (n1_nonneg _) h.nonneg)
      refine (add_le_add g1 g2).trans_eq ?_
      rw [pow_add]; ring
    · refine k2.trans (add_le_add (mul_le_mul_of_nonneg_left hP ?_) ?_)
      · linarith [one_le_pow' (F := F) 2]
      · nlinarith
  half {l v z b} h _ hok := by
    have hD := u_uflow hu
    have hD0 := uflow_nonneg (F := F)
    have hη := FloatModel.η_nonneg (F := F)
    have hpw := one_le_pow' (F := F) l
    have hX : 0 ≤ (1 + u F) ^ l * b := mul_nonneg (by linarith) h.nonneg
    have hov : 2 * n1 v.val * (1 + u F) + η F ≤ Ω F := by
      refine le_trans ?_ hok
      rw [pow_add]
      have g1 : 2 * n1 v.val * (1 + u F) ≤ 2 * ((1 + u F) ^ l * b) * (1 + u F) :=
        mul_le_mul_of_nonneg_right (by linarith [h.size]) (by linarith)
      have g2 : 1 * (2 * u F * uflow F) ≤ (1 + u F) ^ l * ((1 + u F) ^ 2 * uflow F) := by
        refine mul_le_mul hpw ?_ (by positivity) (by positivity)
        nlinarith
      have g3 : (1 + u F) * ((1 + u F) ^ l * b) ≤ (1 + u F) ^ 2 * ((1 + u F) ^ l * b) := by
        apply mul_le_mul_of_nonneg_right _ hX
        nlinarith
      nlinarith
    obtain ⟨k1, k2⟩ := half_err h4 h.1 hov
    refine Near.round (t := v.val / 2) (d := uflow F) (s := b / 2) k1 ?_ hD0 le_rfl ?_ ?_
    · rw [n1_half]; linarith [h.2.1]
    · rw [← sub_div, n1_half]; linarith [h.2.2]
    · refine k2.trans (add_le_add (mul_le_mul_of_nonneg_left ?_ ?_) ?_)
      · linarith [h.size]
      · linarith [one_le_pow' (F := F) 2]
      · nlinarith
  mul_iPow n h := h.unit n (mul_iPow_ok h.1 n).1 (mul_iPow_ok h.1 n).2
  mul_iPowNeg n h := by
    rw [iPowNeg_eq, iPowNeg_eq]
    exact h.unit _ (mul_iPow_ok h.1 _).1 (mul_iPow_ok h.1 _).2
  iPow_mul n h := by
    rw [mul_comm (iPow n : ℂ)]
    exact h.unit n (iPow_mul_ok h.1 n).1 (by rw [mul_comm]; exact (iPow_mul_ok h.1 n).2)
  iPowNeg_mul n h := by
    rw [iPowNeg_eq, iPowNeg_eq, mul_comm (iPow _ : ℂ)]
    exact h.unit _ (iPow_mul_ok h.1 _).1 ((iPow_mul_ok h.1 _).2.trans (mul_comm _ _))

end Cx

/-- Conversion of coefficients of the type `T` to and from complex numbers with parts of the type `F`. -/
class ConvModel (T F : Type) [Zero T] [One T] [Add T] [Sub T] [Neg T] [Mul T] [Div T] [FloatModel T]
    [Zero F] [One F] [Add F] [Sub F] [Neg F] [Mul F] [Div F] [FloatModel F] [IntoComplex T (Cx F)] [FromComplex T (Cx F)] where
  into_ok : ∀ {x : T}, fin x → (IntoComplex.into x : Cx F).Fin ∧ (IntoComplex.into x : Cx F).val = (FloatModel.re x : ℂ)
  from_int : ∀ {v : Cx F} {m : ℤ}, v.Fin → FloatModel.re v.re = m → |(m : ℝ)| ≤ M T →
    fin (FromComplex.from_ v : T) ∧ FloatModel.re (FromComplex.from_ v : T) = m
  /-- relative and absolute error of the conversion -/
  cu : ℝ
  cη : ℝ
  cu_nonneg : 0 ≤ cu
  from_ok : ∀ {v : Cx F}, v.Fin → |FloatModel.re v.re| ≤ Ω T → fin (FromComplex.from_ v : T) ∧
    |FloatModel.re (FromComplex.from_ v : T) - FloatModel.re v.re| ≤ cu * |FloatModel.re v.re| + cη

namespace ConvModel
variable {T : Type} [Zero T] [One T] [Add T] [Sub T] [Neg T] [Mul T] [Div T] [FloatModel T]
  [FloatSigns F] [IntoComplex T (Cx F)] [FromComplex T (Cx F)] [ConvModel T F]

omit [FloatSigns F] in
theorem into_zero : (IntoComplex.into (0 : T) : Cx F) = 0 := by
  obtain ⟨h1, h2⟩ := ConvModel.into_ok (T := T) (F := F) FloatModel.fin_zero
  rw [FloatModel.re_zero] at h2
  have e1 := congrArg Complex.re h2
  have e2 := congrArg Complex.im h2
  refine Cx.ext' (FloatModel.re_inj h1.1 FloatModel.fin_zero ?_) (FloatModel.re_inj h1.2 FloatModel.fin_zero ?_)
  · exact Eq.trans e1 (FloatModel.re_zero (F := F)).symm
  · exact Eq.trans e2 (FloatModel.re_zero (F := F)).symm

theorem iPow_mul_zero (n : Nat) : (iPow n * 0 : Cx F) = 0 := by
  obtain ⟨h1, h2⟩ := Cx.iPow_mul_ok (Cx.zero_Fin (F := F)).1 n
  rw [Cx.zero_Fin.2, MulZeroClass.mul_zero] at h2
  have e1 := congrArg Complex.re h2
  have e2 := congrArg Complex.im h2
  refine Cx.ext' (FloatModel.re_inj h1.1 FloatModel.fin_zero ?_) (FloatModel.re_inj h1.2 FloatModel.fin_zero ?_)
  · exact Eq.trans e1 (FloatModel.re_zero (F := F)).symm
  · exact Eq.trans e2 (FloatModel.re_zero (F := F)).symm

theorem fft_zero (n : Nat) : iPowNeg n * IntoComplex.into (0 : T) = (0 : Cx F) := by
  rw [into_zero, Cx.iPowNeg_eq, iPow_mul_zero]

theorem ifft_zero (h : 0 ≤ M T) (n : Nat) : (FromComplex.from_ (iPow n * 0 : Cx F) : T) = 0 := by
  rw [iPow_mul_zero]
  obtain ⟨h1, h2⟩ := ConvModel.from_int (T := T) (F := F) (v := 0) (m := 0) Cx.zero_Fin.1 (by
    rw [Int.cast_zero]; exact FloatModel.re_zero) (by simpa using h)
  exact FloatModel.re_inj h1 FloatModel.fin_zero (by rw [h2, FloatModel.re_zero, Int.cast_zero])

end ConvModel

/-- The conversions of `f64`. -/
noncomputable instance : ConvModel F F where
  into_ok h := ⟨⟨h, FloatModel.fin_zero⟩, Complex.ext rfl (by
    show FloatModel.re (0 : F) = _
    rw [FloatModel.re_zero, Complex.ofReal_im])⟩
  from_int h e _ := ⟨h.1, e⟩
  cu := 0
  cη := 0
  cu_nonneg := le_rfl
  from_ok {v} h _ := ⟨h.1, by
    show |FloatModel.re v.re - _| ≤ _
    rw [sub_self, abs_zero]; simp⟩

end

namespace Flt
variable {f : Fmt}

theorem repr_neg {x : ℚ} (h : f.Repr x) : f.Repr (-x) := ⟨by rw [f.rnd_neg, h.1], by rw [abs_neg]; exact h.2⟩

theorem neg_num' (x : { x : ℚ // f.Repr x }) : (-num x : Flt f) = num ⟨-x.1, repr_neg x.2⟩ := by
  rw [neg_num]
  exact ofRat_repr ⟨-x.1, repr_neg x.2⟩

theorem one_eq : ∃ o : { x : ℚ // f.Repr x }, (1 : Flt f) = num o ∧ o.1 = 1 := by
  obtain ⟨o, h⟩ := cases_fin (FloatModel.fin_one (F := Flt f))
  have h1 := FloatModel.re_one (F := Flt f)
  rw [h] at h1
  exact ⟨o, h, by exact_mod_cast (show ((o.1 : ℚ) : ℝ) = 1 from h1)⟩

instance : FloatSigns (Flt f) where
  neg_neg x := by
    match x with
    | nonFinite => rfl
    | num x =>
      rw [neg_num', neg_num']
      congr 1
      exact Subtype.ext (_root_.neg_neg _)
  mul_one := by
    intro x hx
    obtain ⟨x, rfl⟩ := cases_fin hx
    obtain ⟨o, e1, e2⟩ := one_eq (f := f)
    rw [e1, mul_num, e2, _root_.mul_one, ofRat_repr]
  one_mul := by
    intro x hx
    obtain ⟨x, rfl⟩ := cases_fin hx
    obtain ⟨o, e1, e2⟩ := one_eq (f := f)
    rw [e1, mul_num, e2, _root_.one_mul, ofRat_repr]
  mul_neg_one := by
    intro x hx
    obtain ⟨x, rfl⟩ := cases_fin hx
    obtain ⟨o, e1, e2⟩ := one_eq (f := f)
    rw [e1, neg_num', mul_num, neg_num]
    show ofRat (x.1 * -o.1) = _
    rw [e2, _root_.mul_neg, _root_.mul_one]
  neg_one_mul := by
    intro x hx
    obtain ⟨x, rfl⟩ := cases_fin hx
    obtain ⟨o, e1, e2⟩ := one_eq (f := f)
    rw [e1, neg_num', mul_num, neg_num]
    show ofRat (-o.1 * x.1) = _
    rw [e2, _root_.neg_mul, _root_.one_mul]
  zero_sub := by
    intro x hx
    obtain ⟨x, rfl⟩ := cases_fin hx
    rw [zero_eq, sub_num, neg_num, _root_.zero_sub]
  div_int := by
    intro x y m n hx hy ex ey hn hm
    obtain ⟨x, rfl⟩ := cases_fin hx
    obtain ⟨y, rfl⟩ := cases_fin hy
    have ex' : x.1 = m * n := by
      have h : ((x.1 : ℚ) : ℝ) = ((m * n : ℤ) : ℝ) := by push_cast; exact ex
      rw [int_of_cast h]; push_cast; rfl
    have ey' : y.1 = n := int_of_cast ey
    have hn' : (n : ℚ) ≠ 0 := by exact_mod_cast hn
    have hm' : |m| ≤ 2 ^ f.p := by
      have : |(m : ℝ)| ≤ 2 ^ f.p := hm
      exact_mod_cast this
    rw [div_num, if_neg (by rw [ey']; exact hn'), ex', ey', mul_div_assoc, div_self hn', _root_.mul_one]
    obtain ⟨h1, h2⟩ := ofRat_int hm'
    refine ⟨h1, ?_⟩
    show ((toRat _ : ℚ) : ℝ) = _
    rw [h2]; simp

/-- A wider format contains the numbers of a narrower one. -/
theorem repr_wider {f g : Fmt} (hp : f.p ≤ g.p) (he : g.emin ≤ f.emin) (hm : f.maxFin ≤ g.maxFin) {x : ℚ} (h : f.Repr x) : g.Repr x := by
  obtain ⟨m, e, hm'⟩ := f.rnd_form x
  rw [h.1] at e
  refine ⟨?_, h.2.trans hm⟩
  rw [e]
  exact g.rnd_fixed (hm'.trans (pow_le_pow_right₀ (by norm_num) hp)) (he.trans (f.emin_le_lastBit x))

theorem cast_wider {f g : Fmt} (hp : f.p ≤ g.p) (he : g.emin ≤ f.emin) (hm : f.maxFin ≤ g.maxFin) {x : Flt f} (h : Fin x) :
    Fin (cast x : Flt g) ∧ (cast x : Flt g).toRat = x.toRat := by
  obtain ⟨x, rfl⟩ := cases_fin h
  have e : (cast (num x) : Flt g) = num ⟨x.1, repr_wider hp he hm x.2⟩ := ofRat_repr (f := g) ⟨x.1, repr_wider hp he hm x.2⟩
  rw [e]
  exact ⟨fin_num _, rfl⟩

theorem maxFin_f32_le : Fmt.f32.maxFin ≤ Fmt.f64.maxFin := by
  unfold Fmt.maxFin
  have h1 : ((2 : ℚ) ^ Fmt.f32.p - 1) ≤ ((2 : ℚ) ^ Fmt.f64.p - 1) := by
    show (2 : ℚ) ^ 24 - 1 ≤ 2 ^ 53 - 1
    norm_num
  have h2 : (2 : ℚ) ^ Fmt.f32.emax ≤ (2 : ℚ) ^ Fmt.f64.emax := zpow_le_zpow_right₀ (by norm_num) (by decide)
  exact mul_le_mul h1 h2 (by positivity) (by show (0 : ℚ) ≤ 2 ^ 53 - 1; norm_num)

theorem cast_f64 {x : F32} (h : Fin x) : Fin (cast x : F64) ∧ (cast x : F64).toRat = x.toRat :=
  cast_wider (by decide) (by decide) maxFin_f32_le h

/-- The conversions of `f32`. -/
noncomputable instance : ConvModel F32 F64 where
  into_ok {x} h := by
    obtain ⟨h1, h2⟩ := cast_f64 h
    refine ⟨⟨h1, FloatModel.fin_zero⟩, Complex.ext ?_ ?_⟩
    · show (((cast x : F64).toRat : ℚ) : ℝ) = _
      rw [h2]; rfl
    · show FloatModel.re (0 : F64) = _
      rw [FloatModel.re_zero, Complex.ofReal_im]
  from_int {v m} h e hm := by
    obtain ⟨x, hx⟩ := cases_fin h.1
    rw [hx] at e
    have e' : x.1 = m := int_of_cast e
    have hm' : |m| ≤ 2 ^ Fmt.f32.p := by
      have : |(m : ℝ)| ≤ 2 ^ Fmt.f32.p := hm
      exact_mod_cast this
    show Fin (cast v.re : F32) ∧ (((cast v.re : F32).toRat : ℚ) : ℝ) = _
    rw [hx]
    show Fin (ofRat x.1 : F32) ∧ (((ofRat x.1 : F32).toRat : ℚ) : ℝ) = _
    rw [e']
    obtain ⟨h1, h2⟩ := ofRat_int hm'
    exact ⟨h1, by rw [h2]; simp⟩
  cu := (Fmt.f32.unitRoundoff : ℝ)
  cη := (Fmt.f32.halfMin : ℝ)
  cu_nonneg := FloatModel.u_nonneg (F := F32)
  from_ok {v} h hb := by
    obtain ⟨x, hx⟩ := cases_fin h.1
    rw [hx] at hb ⊢
    have hb' : |x.1| ≤ Fmt.f32.maxFin := by
      have : |((x.1 : ℚ) : ℝ)| ≤ ((Fmt.f32.maxFin : ℚ) : ℝ) := hb
      exact_mod_cast this
    show Fin (cast v.re : F32) ∧ |(((cast v.re : F32).toRat : ℚ) : ℝ) - ((x.1 : ℚ) : ℝ)| ≤ _ * |((x.1 : ℚ) : ℝ)| + _
    rw [hx]
    show Fin (ofRat x.1 : F32) ∧ |(((ofRat x.1 : F32).toRat : ℚ) : ℝ) - ((x.1 : ℚ) : ℝ)| ≤ _
    obtain ⟨h1, h2⟩ := ofRat_ok hb'
    refine ⟨h1, ?_⟩
    rw [h2]
    have := err_cast (Fmt.f32.rnd_err x.1)
    push_cast at this
    exact this

end Flt

end TClifford
