import Verif.Model.Multivector
import Mathlib.Analysis.SpecialFunctions.Pow.Real
/-
Models src/quaternion.rs (the storage is in `Verif/Model/Storage.lean`).
-/

namespace TClifford

/-- `declare_algebra!(pub QuaternionAlgebra, [-,-], ["I", "J"])`, src/quaternion.rs:90, written out;
`Verif/Props/Quaternion.lean` proves that it is what `declareAlgebra` returns. -/
def QuaternionAlgebra : ClAlg where
  dim := 2
  realMask := 0
  imagMask := 3
  projMask := 0
  realDim := 0
  imagDim := 2
  projDim := 0
  axisName := axisNameFunc ["I", "J"]

/-- `Quaternion<T>`, src/quaternion.rs:94. -/
abbrev Quat (T : Type) := MV QuaternionAlgebra (QStorage T)

namespace Quat
variable {T : Type} [Zero T] [One T] [Add T] [Sub T] [Neg T] [Mul T]

/-- `Quaternion::i()`, src/quaternion.rs:101-109. -/
def i : Quat T := ⟨⟨0, 1, 0, 0⟩⟩

/-- `Quaternion::j()`, src/quaternion.rs:110-118. -/
def j : Quat T := ⟨⟨0, 0, 1, 0⟩⟩

/-- `Quaternion::k()`, src/quaternion.rs:119-127. -/
def k : Quat T := ⟨⟨0, 0, 0, -1⟩⟩

/-- `conj`, src/quaternion.rs:128-142. -/
def conj (a : Quat T) : Quat T := ⟨⟨a.coeffs.c0, -a.coeffs.c1, -a.coeffs.c2, -a.coeffs.c3⟩⟩

/-- The square of `Norm::norm`, src/quaternion.rs:149-155 (the square root is taken at the end), with the coefficient
norm as a parameter. -/
def norm2 {N : Type} [Add N] [Mul N] [Zero N] (norm : T → N) (a : Quat T) : N :=
  [a.coeffs.c0, a.coeffs.c1, a.coeffs.c2, a.coeffs.c3].foldl (fun s c => s + norm c * norm c) 0

/-- `Norm::norm`, src/quaternion.rs:145-156. -/
noncomputable def norm (norm : T → ℝ) (a : Quat T) : ℝ := Real.sqrt (norm2 norm a)

end Quat

end TClifford
