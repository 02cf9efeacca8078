import Verif.Props.Examples
import Verif.Spec.Arrays
import Mathlib.Data.Real.Basic
import Mathlib.Algebra.Field.ZMod
/-
Concrete real and complex multivectors and arrays used to show that the hypotheses of the theorems can be met, and a
finite field with a square root of `-1` in which the model can be evaluated.
-/

namespace TClifford.Ex

/-- A dense multivector of `E` with real coefficients. -/
noncomputable def eR : MV E (ArrayStorage ℝ) := ⟨⟨3, ⟨8, fun i => (i + 1) / 2⟩⟩⟩

/-- A dense multivector of `E` with real coefficients. -/
noncomputable def eR' : MV E (ArrayStorage ℝ) := ⟨⟨3, ⟨8, fun i => 3 - i⟩⟩⟩

theorem eR_valid : eR.Valid := ⟨by decide, rfl, rfl⟩
theorem eR'_valid : eR'.Valid := ⟨by decide, rfl, rfl⟩

/-- A dense multivector of `M` (signature `[+,-,0]`) with real coefficients. -/
noncomputable def mR : MV M (ArrayStorage ℝ) := ⟨⟨3, ⟨8, fun i => (i + 1) / 2⟩⟩⟩

/-- A dense multivector of `M` with real coefficients. -/
noncomputable def mR' : MV M (ArrayStorage ℝ) := ⟨⟨3, ⟨8, fun i => 3 - i⟩⟩⟩

theorem mR_valid : mR.Valid := ⟨by decide, rfl, rfl⟩
theorem mR'_valid : mR'.Valid := ⟨by decide, rfl, rfl⟩

/-- A dense multivector of `A7` (signature `[+,-,+,-,+,0,0]`) with complex coefficients. -/
noncomputable def a7Z : MV A7 (ArrayStorage ℂ) := ⟨⟨7, ⟨128, fun i => i + Complex.I⟩⟩⟩

/-- A dense multivector of `A7` with complex coefficients. -/
noncomputable def a7Z' : MV A7 (ArrayStorage ℂ) := ⟨⟨7, ⟨128, fun i => 3 - i * Complex.I⟩⟩⟩

theorem a7Z_valid : a7Z.Valid := ⟨by decide, rfl, rfl⟩
theorem a7Z'_valid : a7Z'.Valid := ⟨by decide, rfl, rfl⟩

/-- `declare_algebra!(A4, [+, -, +, -])`. -/
def A4 : ClAlg := (declareAlgebra [.plus, .minus, .plus, .minus] []).get rfl

theorem A4_decl : declareAlgebra [.plus, .minus, .plus, .minus] [] = some A4 := rfl

theorem A4_wf : A4.WF := declareAlgebra_wf A4_decl

/-- A dense multivector of `A4` with real coefficients. -/
noncomputable def a4R : MV A4 (ArrayStorage ℝ) := ⟨⟨4, ⟨16, fun i => (i + 1) / 2⟩⟩⟩

/-- A dense multivector of `A4` with real coefficients. -/
noncomputable def a4R' : MV A4 (ArrayStorage ℝ) := ⟨⟨4, ⟨16, fun i => 3 - i⟩⟩⟩

theorem a4R_valid : a4R.Valid := ⟨by decide, rfl, rfl⟩
theorem a4R'_valid : a4R'.Valid := ⟨by decide, rfl, rfl⟩

/-- An even multivector of `E`: `2 + 3 yx - 5 zy`. -/
noncomputable def eEven : MV E (ArrayStorage ℝ) :=
  ⟨⟨3, ⟨8, fun i => if i = 0 then 2 else if i = 3 then 3 else if i = 6 then -5 else 0⟩⟩⟩

theorem eEven_valid : eEven.Valid := ⟨by decide, rfl, rfl⟩

theorem eEven_even : ∀ k < 2 ^ E.dim, countOnes k % 2 = 1 → eEven.val k = 0 := by
  intro k hk h
  have hk : k < 8 := hk
  show (if k < 8 then (if k = 0 then (2 : ℝ) else if k = 3 then 3 else if k = 6 then -5 else 0) else 0) = 0
  have h0 : k ≠ 0 := by rintro rfl; revert h; decide
  have h3 : k ≠ 3 := by rintro rfl; revert h; decide
  have h6 : k ≠ 6 := by rintro rfl; revert h; decide
  simp [h0, h3, h6]

/-- An array of eight complex numbers. -/
noncomputable def arr8 : Arr1 ℂ := ⟨8, fun i => i + 2 * Complex.I⟩

/-- A four by four complex matrix. -/
noncomputable def mat4 : Arr2 ℂ := ⟨4, 4, fun i j => i + j * Complex.I⟩

/-- Two two by two complex matrices. -/
noncomputable def arr3 : Arr3 ℂ := ⟨2, 2, 2, fun k i j => k + i - j * Complex.I⟩

instance : Fact (Nat.Prime 5) := ⟨by decide⟩

/-- In the field with five elements, `2 * 2 = -1`. -/
instance : ImagUnit (ZMod 5) := { I := 2, I_mul_I := by decide }

/-- `declare_algebra!(P1, [+])`. -/
def P1 : ClAlg := (declareAlgebra [.plus] []).get rfl

theorem P1_wf : P1.WF := declareAlgebra_wf (sig := [.plus]) (names := []) rfl

/-- `2 + e` in `P1` over the field with five elements. -/
def p1 : MV P1 (ArrayStorage (ZMod 5)) := ⟨⟨1, ⟨2, fun i => if i = 0 then 2 else 1⟩⟩⟩

/-- `4 + 3 e`, the inverse of `p1`. -/
def p1' : MV P1 (ArrayStorage (ZMod 5)) := ⟨⟨1, ⟨2, fun i => if i = 0 then 4 else 3⟩⟩⟩

theorem p1_valid : p1.Valid := ⟨by decide, rfl, rfl⟩
theorem p1'_valid : p1'.Valid := ⟨by decide, rfl, rfl⟩

/-- `3 + x` in `E` over the field with five elements. -/
def eF : MV E (ArrayStorage (ZMod 5)) := ⟨⟨3, ⟨8, fun i => if i = 0 then 3 else if i = 1 then 1 else 0⟩⟩⟩

theorem eF_valid : eF.Valid := ⟨by decide, rfl, rfl⟩

/-- A definite "norm" on the field with five elements. -/
theorem val5 (x : ZMod 5) : x.val = 0 ↔ x = 0 := by revert x; decide

end TClifford.Ex
