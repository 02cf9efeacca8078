import Verif.Proofs.Float
import Verif.Model.Int
/-
Machine integers with overflow checks are an instance of the arithmetic model used for floating point numbers, with
exact addition, subtraction and multiplication.
-/

namespace TClifford

namespace CInt

variable {w : Nat}

/-- The largest value. -/
def top (w : Nat) : ℤ := 2 ^ (w - 1) - 1

/-- The values apart from the smallest one, whose negative is not representable. -/
def Ok (x : CInt w) : Prop := ∃ m : ℤ, x = ofInt m ∧ |m| ≤ top w

theorem fits_of_abs {m : ℤ} (h : |m| ≤ top w) : IFits w m := by
  have h1 := abs_le.mp h
  unfold top at h1
  unfold IFits
  constructor
  · linarith [h1.1]
  · linarith [h1.2]

theorem toInt_ofInt {m : ℤ} (h : IFits w m) : (ofInt m : CInt w).toInt = m := by
  unfold ofInt; rw [dif_pos h]; rfl

theorem op2_ofInt (g : ℤ → ℤ → ℤ) {m n : ℤ} (hm : IFits w m) (hn : IFits w n) :
    op2 g (ofInt m) (ofInt n) = (ofInt (g m n) : CInt w) := by
  unfold ofInt; rw [dif_pos hm, dif_pos hn]; rfl

theorem add_ofInt {m n : ℤ} (hm : IFits w m) (hn : IFits w n) : (ofInt m + ofInt n : CInt w) = ofInt (m + n) := op2_ofInt _ hm hn
theorem sub_ofInt {m n : ℤ} (hm : IFits w m) (hn : IFits w n) : (ofInt m - ofInt n : CInt w) = ofInt (m - n) := op2_ofInt _ hm hn
theorem mul_ofInt {m n : ℤ} (hm : IFits w m) (hn : IFits w n) : (ofInt m * ofInt n : CInt w) = ofInt (m * n) := op2_ofInt _ hm hn

theorem neg_ofInt {m : ℤ} (hm : IFits w m) : (-ofInt m : CInt w) = ofInt (-m) := by
  show neg (ofInt m) = _
  unfold ofInt; rw [dif_pos hm]; rfl

theorem div_ofInt {m n : ℤ} (hm : IFits w m) (hn : IFits w n) (h0 : n ≠ 0) : (ofInt m / ofInt n : CInt w) = ofInt (m.tdiv n) := by
  show div (ofInt m) (ofInt n) = _
  unfold ofInt; rw [dif_pos hm, dif_pos hn]
  show (if n = 0 then _ else _) = _
  rw [if_neg h0]; rfl

theorem eq_ofInt {x : CInt w} (h : x ≠ .overflow) : x = ofInt x.toInt := by
  cases x with
  | num x => unfold toInt ofInt; rw [dif_pos x.2]
  | overflow => exact absurd rfl h

theorem fits_zero : IFits w 0 := by unfold IFits; constructor <;> [skip; positivity]; have : (0 : ℤ) < 2 ^ (w - 1) := by positivity
                                    linarith

theorem overflow_add (x : CInt w) : .overflow + x = (.overflow : CInt w) := by cases x <;> rfl
theorem add_overflow (x : CInt w) : x + .overflow = (.overflow : CInt w) := by cases x <;> rfl
theorem sub_overflow (x : CInt w) : x - .overflow = (.overflow : CInt w) := by cases x <;> rfl
theorem overflow_sub (x : CInt w) : .overflow - x = (.overflow : CInt w) := by cases x <;> rfl

theorem top_nonneg : 0 ≤ top w := by
  unfold top
  have : (1 : ℤ) ≤ 2 ^ (w - 1) := one_le_pow₀ (by norm_num)
  linarith

theorem Ok.toInt {x : CInt w} (h : x.Ok) : x = ofInt x.toInt ∧ |x.toInt| ≤ top w ∧ IFits w x.toInt := by
  obtain ⟨m, rfl, h⟩ := h
  have := fits_of_abs h
  rw [toInt_ofInt this]
  exact ⟨rfl, h, this⟩

theorem ok_ofInt {m : ℤ} (h : |m| ≤ top w) : (ofInt m : CInt w).Ok ∧ (ofInt m : CInt w).toInt = m :=
  ⟨⟨m, rfl, h⟩, toInt_ofInt (fits_of_abs h)⟩

theorem one_le_top (h : 1 < w) : 1 ≤ top w := by
  unfold top
  have : (2 : ℤ) ^ 1 ≤ 2 ^ (w - 1) := pow_le_pow_right₀ (by norm_num) (by omega)
  linarith

theorem cast_le {m : ℤ} (h : |(m : ℝ)| ≤ (top w : ℝ)) : |m| ≤ top w := by exact_mod_cast h

/-- |trunc(m/n) - m/n| ≤ 1 -/
theorem tdiv_err (m : ℤ) {n : ℤ} (h0 : n ≠ 0) : |((m.tdiv n : ℤ) : ℝ) - (m : ℝ) / n| ≤ 1 := by
  have h1 := Int.mul_tdiv_add_tmod m n
  have h2 : |m.tmod n| < |n| := by
    have := Int.natAbs_tmod m n
    have h3 : (m.natAbs % n.natAbs) < n.natAbs := Nat.mod_lt _ (Int.natAbs_pos.mpr h0)
    rw [Int.abs_eq_natAbs, Int.abs_eq_natAbs, this]
    exact_mod_cast h3
  have hn : (n : ℝ) ≠ 0 := by exact_mod_cast h0
  have e : ((m.tdiv n : ℤ) : ℝ) - (m : ℝ) / n = -((m.tmod n : ℤ) : ℝ) / n := by
    rw [eq_div_iff hn, sub_mul, div_mul_cancel₀ _ hn]
    have : (m : ℝ) = n * (m.tdiv n : ℤ) + (m.tmod n : ℤ) := by exact_mod_cast h1.symm
    rw [this]; ring
  rw [e, abs_div, abs_neg, div_le_one (abs_pos.mpr hn)]
  exact_mod_cast h2.le

theorem tdiv_abs_le {m n : ℤ} : |m.tdiv n| ≤ |m| := by
  rw [Int.abs_eq_natAbs, Int.abs_eq_natAbs, Int.natAbs_tdiv]
  exact_mod_cast Nat.div_le_self _ _

noncomputable instance instFloatModel [hw : Fact (1 < w)] : FloatModel (CInt w) where
  add_zero x := by
    by_cases h : x = .overflow
    · rw [h]; exact overflow_add _
    · rw [eq_ofInt h]
      have hf : IFits w x.toInt := by cases x with
        | num x => exact x.2
        | overflow => exact absurd rfl h
      exact (add_ofInt hf fits_zero).trans (by rw [add_zero])
  sub_zero x := by
    by_cases h : x = .overflow
    · rw [h]; exact overflow_sub _
    · rw [eq_ofInt h]
      have hf : IFits w x.toInt := by cases x with
        | num x => exact x.2
        | overflow => exact absurd rfl h
      exact (sub_ofInt hf fits_zero).trans (by rw [sub_zero])
  fin := Ok
  re x := x.toInt
  u := 0
  η := 1
  Ω := top w
  u_nonneg := le_refl _
  η_nonneg := by norm_num
  fin_zero := ⟨0, rfl, by rw [abs_zero]; exact top_nonneg⟩
  re_zero := by
    show ((ofInt 0 : CInt w).toInt : ℝ) = 0
    rw [toInt_ofInt fits_zero]; norm_num
  fin_one := ⟨1, rfl, by rw [abs_one]; exact one_le_top hw.out⟩
  re_one := by
    show ((ofInt 1 : CInt w).toInt : ℝ) = 1
    rw [toInt_ofInt (fits_of_abs (by rw [abs_one]; exact one_le_top hw.out))]; norm_num
  re_inj hx hy h := by
    rw [hx.toInt.1, hy.toInt.1]
    congr 1
    exact_mod_cast h
  Ω_nonneg := by exact_mod_cast top_nonneg
  zero_add x := by
    by_cases h : x = .overflow
    · rw [h]; exact add_overflow _
    · rw [eq_ofInt h]
      have hf : IFits w x.toInt := by cases x with
        | num x => exact x.2
        | overflow => exact absurd rfl h
      exact (add_ofInt fits_zero hf).trans (by rw [zero_add])
  zero_mul hx := by rw [hx.toInt.1]; exact (mul_ofInt fits_zero hx.toInt.2.2).trans (by rw [zero_mul]; rfl)
  mul_zero hx := by rw [hx.toInt.1]; exact (mul_ofInt hx.toInt.2.2 fits_zero).trans (by rw [mul_zero]; rfl)
  zero_div {x} hx h0 := by
    have h1 : x.toInt ≠ 0 := by
      intro h
      apply h0
      rw [hx.toInt.1, h]; rfl
    rw [hx.toInt.1]
    exact (div_ofInt fits_zero hx.toInt.2.2 h1).trans (by rw [Int.zero_tdiv]; rfl)
  neg_ok {x} hx := by
    have h := ok_ofInt (w := w) (m := -x.toInt) (by rw [abs_neg]; exact hx.toInt.2.1)
    have e : -x = ofInt (-x.toInt) := by conv_lhs => rw [hx.toInt.1]
                                         exact neg_ofInt hx.toInt.2.2
    rw [e, h.2]
    exact ⟨h.1, by push_cast; rfl⟩
  add_ok {x y} hx hy hb := by
    have h := ok_ofInt (w := w) (m := x.toInt + y.toInt) (cast_le (by push_cast; exact hb))
    have e : x + y = ofInt (x.toInt + y.toInt) := by conv_lhs => rw [hx.toInt.1, hy.toInt.1]
                                                     exact add_ofInt hx.toInt.2.2 hy.toInt.2.2
    rw [e, h.2]
    exact ⟨h.1, by push_cast; simp⟩
  sub_ok {x y} hx hy hb := by
    have h := ok_ofInt (w := w) (m := x.toInt - y.toInt) (cast_le (by push_cast; exact hb))
    have e : x - y = ofInt (x.toInt - y.toInt) := by conv_lhs => rw [hx.toInt.1, hy.toInt.1]
                                                     exact sub_ofInt hx.toInt.2.2 hy.toInt.2.2
    rw [e, h.2]
    exact ⟨h.1, by push_cast; simp⟩
  mul_ok {x y} hx hy hb := by
    have h := ok_ofInt (w := w) (m := x.toInt * y.toInt) (cast_le (by push_cast; exact hb))
    have e : x * y = ofInt (x.toInt * y.toInt) := by conv_lhs => rw [hx.toInt.1, hy.toInt.1]
                                                     exact mul_ofInt hx.toInt.2.2 hy.toInt.2.2
    rw [e, h.2]
    exact ⟨h.1, by push_cast; simp⟩
  div_ok {x y} hx hy h0 _ := by
    have h0 : y.toInt ≠ 0 := fun h => h0 (by rw [h]; norm_num)
    have h := ok_ofInt (w := w) (m := x.toInt.tdiv y.toInt) (tdiv_abs_le.trans hx.toInt.2.1)
    have e : x / y = ofInt (x.toInt.tdiv y.toInt) := by conv_lhs => rw [hx.toInt.1, hy.toInt.1]
                                                        exact div_ofInt hx.toInt.2.2 hy.toInt.2.2 h0
    rw [e, h.2]
    exact ⟨h.1, by rw [zero_mul, zero_add]; exact tdiv_err _ h0⟩
  M := top w
  add_int {x y m n} hx hy em en hb := by
    have em : x.toInt = m := by exact_mod_cast em
    have en : y.toInt = n := by exact_mod_cast en
    have h := ok_ofInt (w := w) (m := m + n) (cast_le (by push_cast; exact hb))
    have e : x + y = ofInt (m + n) := by
      rw [← em, ← en]
      conv_lhs => rw [hx.toInt.1, hy.toInt.1]
      exact add_ofInt hx.toInt.2.2 hy.toInt.2.2
    rw [e, h.2]
    exact ⟨h.1, by push_cast; rfl⟩
  sub_int {x y m n} hx hy em en hb := by
    have em : x.toInt = m := by exact_mod_cast em
    have en : y.toInt = n := by exact_mod_cast en
    have h := ok_ofInt (w := w) (m := m - n) (cast_le (by push_cast; exact hb))
    have e : x - y = ofInt (m - n) := by
      rw [← em, ← en]
      conv_lhs => rw [hx.toInt.1, hy.toInt.1]
      exact sub_ofInt hx.toInt.2.2 hy.toInt.2.2
    rw [e, h.2]
    exact ⟨h.1, by push_cast; rfl⟩
  mul_int {x y m n} hx hy em en hb := by
    have em : x.toInt = m := by exact_mod_cast em
    have en : y.toInt = n := by exact_mod_cast en
    have h := ok_ofInt (w := w) (m := m * n) (cast_le (by push_cast; exact hb))
    have e : x * y = ofInt (m * n) := by
      rw [← em, ← en]
      conv_lhs => rw [hx.toInt.1, hy.toInt.1]
      exact mul_ofInt hx.toInt.2.2 hy.toInt.2.2
    rw [e, h.2]
    exact ⟨h.1, by push_cast; rfl⟩

end CInt

end TClifford
