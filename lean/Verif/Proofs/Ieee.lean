import Verif.Model.Ieee
import Verif.Proofs.Float
/-
The IEEE values and the simplified ones of Verif/Model/Float.lean.
-/

namespace TClifford

namespace Ieee
variable {f : Fmt}

/-- `x` is finite with the value `a`. -/
def Is (x : Ieee f) (a : ℚ) : Prop := x.val? = some a

theorem Is.repr {x : Ieee f} {a : ℚ} (h : x.Is a) : f.Repr a := by
  cases x with
  | num y => injection h with h; rw [← h]; exact y.2
  | negZero => injection h with h; rw [← h]; exact ⟨f.rnd_zero, by rw [abs_zero]; exact f.maxFin_pos.le⟩
  | inf s => simp [Is, val?] at h
  | nan => simp [Is, val?] at h

theorem Is.unique {x : Ieee f} {a b : ℚ} (h : x.Is a) (h' : x.Is b) : a = b := Option.some.inj (h.symm.trans h')

theorem is_zero' (s : Bool) : (zero s : Ieee f).Is 0 := by cases s <;> rfl

theorem is_zero : (0 : Ieee f).Is 0 := is_zero' false

/-- A rounded result. -/
theorem is_round (s : Bool) {x : ℚ} (h : |x| ≤ f.maxFin) : (round s x : Ieee f).Is (f.rnd x) := by
  unfold round
  split
  · rename_i h0
    rw [h0]; exact is_zero' s
  · rw [dif_pos (f.repr_rnd h)]; rfl

theorem is_one : (1 : Ieee f).Is 1 := by
  have h1 : (1 : ℚ) ≤ 2 ^ f.p := one_le_pow₀ (by norm_num)
  have := is_round (f := f) false (x := 1) (by rw [abs_one]; exact h1.trans f.two_pow_le_maxFin)
  have h2 := f.rnd_int (m := 1) (by rw [abs_one]; exact_mod_cast h1)
  rw [Int.cast_one] at h2
  rwa [h2] at this

theorem add_eq {x y : Ieee f} {a b : ℚ} (hx : x.Is a) (hy : y.Is b) : x + y = round (x.signBit && y.signBit) (a + b) := by
  show add x y = _
  cases x <;> cases y <;> simp_all [Is, val?, add]

theorem neg_is {x : Ieee f} {a : ℚ} (hx : x.Is a) : (-x).Is (-a) := by
  have hr := hx.repr
  show (neg x).Is (-a)
  cases x with
  | num y =>
    injection hx with hx
    rw [← hx]
    have := is_round (f := f) true (x := -y.1) (by rw [abs_neg]; exact y.2.2)
    rwa [f.rnd_neg, y.2.1] at this
  | negZero => injection hx with hx; rw [← hx, neg_zero]; exact is_zero' false
  | inf s => simp [Is, val?] at hx
  | nan => simp [Is, val?] at hx

theorem add_is {x y : Ieee f} {a b : ℚ} (hx : x.Is a) (hy : y.Is b) (h : |a + b| ≤ f.maxFin) : (x + y).Is (f.rnd (a + b)) := by
  rw [add_eq hx hy]; exact is_round _ h

theorem sub_is {x y : Ieee f} {a b : ℚ} (hx : x.Is a) (hy : y.Is b) (h : |a - b| ≤ f.maxFin) : (x - y).Is (f.rnd (a - b)) := by
  have := add_is hx (neg_is hy) (by rwa [← sub_eq_add_neg])
  rwa [← sub_eq_add_neg] at this

theorem mul_eq {x y : Ieee f} {a b : ℚ} (hx : x.Is a) (hy : y.Is b) : x * y = round (xor x.signBit y.signBit) (a * b) := by
  show mul x y = _
  unfold mul
  rw [hx, hy]

theorem mul_is {x y : Ieee f} {a b : ℚ} (hx : x.Is a) (hy : y.Is b) (h : |a * b| ≤ f.maxFin) : (x * y).Is (f.rnd (a * b)) := by
  rw [mul_eq hx hy]; exact is_round _ h

theorem div_eq {x y : Ieee f} {a b : ℚ} (hx : x.Is a) (hy : y.Is b) (h0 : b ≠ 0) : x / y = round (xor x.signBit y.signBit) (a / b) := by
  show div x y = _
  unfold div
  rw [hx, hy]
  exact if_neg h0

theorem div_is {x y : Ieee f} {a b : ℚ} (hx : x.Is a) (hy : y.Is b) (h0 : b ≠ 0) (h : |a / b| ≤ f.maxFin) :
    (x / y).Is (f.rnd (a / b)) := by
  rw [div_eq hx hy h0]; exact is_round _ h

/-- Adding and subtracting zero changes nothing but the sign of a zero. -/
theorem add_zero_is {x y : Ieee f} {a : ℚ} (hx : x.Is a) (hy : y.Is 0) : (x + y).Is a := by
  have := add_is hx hy (by rw [add_zero]; exact hx.repr.2)
  rwa [add_zero, hx.repr.1] at this

theorem sub_zero_is {x y : Ieee f} {a : ℚ} (hx : x.Is a) (hy : y.Is 0) : (x - y).Is a := by
  have := sub_is hx hy (by rw [sub_zero]; exact hx.repr.2)
  rwa [sub_zero, hx.repr.1] at this

theorem mul_zero_is {x y : Ieee f} {a : ℚ} (hx : x.Is a) (hy : y.Is 0) : (x * y).Is 0 := by
  have := mul_is hx hy (by rw [mul_zero, abs_zero]; exact f.maxFin_pos.le)
  rwa [mul_zero, f.rnd_zero] at this

theorem zero_mul_is {x y : Ieee f} {b : ℚ} (hx : x.Is 0) (hy : y.Is b) : (x * y).Is 0 := by
  have := mul_is hx hy (by rw [zero_mul, abs_zero]; exact f.maxFin_pos.le)
  rwa [zero_mul, f.rnd_zero] at this

theorem zero_div_is {x y : Ieee f} {b : ℚ} (hx : x.Is 0) (hy : y.Is b) (h0 : b ≠ 0) : (x / y).Is 0 := by
  have := div_is hx hy h0 (by rw [zero_div, abs_zero]; exact f.maxFin_pos.le)
  rwa [zero_div, f.rnd_zero] at this

theorem mul_one_is {x y : Ieee f} {a : ℚ} (hx : x.Is a) (hy : y.Is 1) : (x * y).Is a := by
  have := mul_is hx hy (by rw [mul_one]; exact hx.repr.2)
  rwa [mul_one, hx.repr.1] at this

theorem abs_is {x : Ieee f} {a : ℚ} (hx : x.Is a) : x.abs.Is |a| := by
  cases x with
  | num y =>
    injection hx with hx
    subst hx
    unfold abs signBit
    by_cases h : y.1 < 0
    · simp only [h, decide_true, if_true]
      rw [abs_of_neg h]
      exact neg_is rfl
    · simp only [h, decide_false]
      rw [abs_of_nonneg (not_lt.mp h)]
      rfl
  | negZero =>
    injection hx with hx
    subst hx
    rw [abs_zero]
    exact is_zero' false
  | inf s => simp [Is, val?] at hx
  | nan => simp [Is, val?] at hx

theorem eq_is {x y : Ieee f} {a b : ℚ} (hx : x.Is a) (hy : y.Is b) : x.eq y = decide (a = b) := by
  unfold eq
  rw [hx, hy]

theorem gt_is {x y : Ieee f} {a b : ℚ} (hx : x.Is a) (hy : y.Is b) : x.gt y = decide (b < a) := by
  cases x <;> cases y <;> simp_all [Is, val?, gt]

/-! ### Forgetting signs of zeros and kinds of non-finite values -/

theorem toFlt_is {x : Ieee f} {a : ℚ} (hx : x.Is a) : x.toFlt = .num ⟨a, hx.repr⟩ := by
  cases x with
  | num y => injection hx with hx; subst hx; rfl
  | negZero => injection hx with hx; subst hx; exact Flt.zero_eq
  | inf s => simp [Is, val?] at hx
  | nan => simp [Is, val?] at hx

theorem toFlt_none {x : Ieee f} (hx : x.val? = none) : x.toFlt = .nonFinite := by
  cases x <;> simp_all [val?, toFlt]

theorem toFlt_zero (s : Bool) : (zero s : Ieee f).toFlt = 0 := by
  cases s
  · exact Flt.zero_eq.symm
  · rfl

theorem toFlt_round (s : Bool) (x : ℚ) : (round s x : Ieee f).toFlt = Flt.ofRat x := by
  unfold round
  split
  · rename_i h
    rw [toFlt_zero]
    have h0 : f.Repr (f.rnd x) := by rw [h]; exact ⟨f.rnd_zero, by rw [abs_zero]; exact f.maxFin_pos.le⟩
    unfold Flt.ofRat
    rw [dif_pos h0, Flt.zero_eq]
    congr 1
    exact Subtype.ext h.symm
  · unfold Flt.ofRat
    split
    · rfl
    · rfl

theorem toFlt_eq_zero {x : Ieee f} : x.toFlt = 0 ↔ x.eq 0 = true := by
  cases x with
  | num y =>
    have := eq_is (x := num y) (y := (0 : Ieee f)) rfl is_zero
    rw [this, Flt.zero_eq]
    simp [toFlt, Subtype.ext_iff]
  | negZero => simp [toFlt, eq_is (x := (negZero : Ieee f)) rfl is_zero]
  | inf s =>
    have : (inf s : Ieee f).eq 0 = false := by unfold eq; rw [show (0 : Ieee f).val? = some 0 from is_zero]; rfl
    rw [this]; simp [toFlt, Flt.zero_eq]
  | nan =>
    have : (nan : Ieee f).eq 0 = false := by unfold eq; rw [show (0 : Ieee f).val? = some 0 from is_zero]; rfl
    rw [this]; simp [toFlt, Flt.zero_eq]

theorem cases_val (x : Ieee f) : (∃ a, x.Is a) ∨ (x.val? = none) := by
  cases h : x.val? with
  | none => exact .inr rfl
  | some a => exact .inl ⟨a, h⟩

theorem toFlt_neg (x : Ieee f) : (-x).toFlt = -x.toFlt := by
  cases x with
  | num y => exact toFlt_round _ _
  | negZero =>
    show (zero false : Ieee f).toFlt = -(0 : Flt f)
    rw [toFlt_zero, Flt.zero_eq, Flt.neg_num]
    simp only [neg_zero]
    exact Flt.zero_eq.symm.trans rfl
  | inf s => rfl
  | nan => rfl

theorem toFlt_add (x y : Ieee f) : (x + y).toFlt = x.toFlt + y.toFlt := by
  rcases cases_val x with ⟨a, ha⟩ | ha
  · rcases cases_val y with ⟨b, hb⟩ | hb
    · rw [add_eq ha hb, toFlt_round, toFlt_is ha, toFlt_is hb, Flt.add_num]
    · rw [toFlt_is ha, toFlt_none hb]
      show (add x y).toFlt = .nonFinite
      cases x <;> cases y <;> simp_all [Is, val?, add, toFlt]
  · have : x.toFlt + y.toFlt = .nonFinite := by rw [toFlt_none ha]; cases y.toFlt <;> rfl
    rw [this]
    show (add x y).toFlt = .nonFinite
    cases x <;> cases y <;> try first | rfl | simp_all [Is, val?, add, toFlt]
    rename_i s t
    by_cases h : s = t <;> simp [h]

theorem toFlt_sub (x y : Ieee f) : (x - y).toFlt = x.toFlt - y.toFlt := by
  show (x + -y).toFlt = _
  rw [toFlt_add, toFlt_neg]
  cases hx : x.toFlt with
  | nonFinite => cases y.toFlt <;> rfl
  | num a =>
    cases hy : y.toFlt with
    | nonFinite => rfl
    | num b =>
      rw [Flt.neg_num, Flt.sub_num]
      have hr : f.Repr (-b.1) := ⟨by rw [f.rnd_neg, b.2.1], by rw [abs_neg]; exact b.2.2⟩
      rw [show (-b.1 : ℚ) = (⟨-b.1, hr⟩ : { x : ℚ // f.Repr x }).1 from rfl, Flt.ofRat_repr, Flt.add_num, sub_eq_add_neg]

theorem toFlt_mul (x y : Ieee f) : (x * y).toFlt = x.toFlt * y.toFlt := by
  rcases cases_val x with ⟨a, ha⟩ | ha
  · rcases cases_val y with ⟨b, hb⟩ | hb
    · rw [mul_eq ha hb, toFlt_round, toFlt_is ha, toFlt_is hb, Flt.mul_num]
    · rw [toFlt_is ha, toFlt_none hb]
      show (mul x y).toFlt = .nonFinite
      unfold mul
      rw [ha, hb]
      dsimp only
      split <;> rfl
  · have : x.toFlt * y.toFlt = .nonFinite := by rw [toFlt_none ha]; cases y.toFlt <;> rfl
    rw [this]
    show (mul x y).toFlt = .nonFinite
    unfold mul
    rw [ha]
    cases y.val? <;> (dsimp only; split <;> rfl)

/-- Division by anything finite. -/
theorem toFlt_div (x : Ieee f) {y : Ieee f} {b : ℚ} (hb : y.Is b) : (x / y).toFlt = x.toFlt / y.toFlt := by
  rcases cases_val x with ⟨a, ha⟩ | ha
  · rw [toFlt_is ha, toFlt_is hb, Flt.div_num]
    by_cases h0 : b = 0
    · rw [if_pos h0]
      show (div x y).toFlt = _
      unfold div
      rw [ha, hb]
      dsimp only
      rw [if_pos h0]
      split <;> rfl
    · rw [if_neg h0, div_eq ha hb h0, toFlt_round]
  · have : x.toFlt / y.toFlt = .nonFinite := by rw [toFlt_none ha]; cases y.toFlt <;> rfl
    rw [this]
    show (div x y).toFlt = .nonFinite
    unfold div
    rw [ha, hb]
    dsimp only
    split <;> rfl

end Ieee

end TClifford
