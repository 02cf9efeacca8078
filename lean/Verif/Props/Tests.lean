import Verif.Props.Examples
import Verif.Proofs.GradeIter
import Verif.Model.Cx
import Verif.Model.FFT
import Verif.Model.Display
import Verif.Model.Quaternion
import Verif.Model.MatrixInv
/-
C87, first part: the tests of the crate with given (not random) inputs, tests/unit.rs and the `test` modules of src, run in
the model.  They check the model rather than the crate: the expected values come from the crate, and the kernel computes
what the model returns.  Coefficients are the floating point numbers of Verif/Model/Float.lean, as in the tests, except where
noted.  Assertions on random inputs are consequences of theorems for all inputs; see Verif/Props/TestsDual.lean
and Verif/Props/TestsAll.lean.

The assertions that call `exp` are in Verif/Props/TestsExp.lean, those of src/clifft/tests.rs in
Verif/Props/TestsClifft.lean and here, and those on labels, signs, quaternions and matrix inverses in
Verif/Props/TestsMore.lean.  `dc_test`, `fast_wedge_test` and `fft_repr_test` are in ComplexifyFloat.lean, WedgeFloat.lean and
FFTGenerators.lean; `fft_inv_test`, `pga_test` and `irrep_test`, with real numbers, in InverseWeak.lean, PgaRotor.lean and
HalfSpinPow.lean; `fmt_test` in FloatDisplay.lean.
-/

set_option maxRecDepth 100000

namespace TClifford
namespace Tests
open MV

/-- `Multivector<T, A>` -/
abbrev D (A : ClAlg) (T : Type) := MV A (ArrayStorage T)

/-- `SparseMultivector<T, A>` -/
abbrev Sp (A : ClAlg) (T : Type) := MV A (SparseStorage T)

instance {α : Type} [DecidableEq α] : DecidableEq (Res α)
  | .ok a, .ok b => if h : a = b then isTrue (by rw [h]) else isFalse (by simpa using h)
  | .error a, .error b => if h : a = b then isTrue (by rw [h]) else isFalse (by simpa using h)
  | .ok _, .error _ => isFalse nofun
  | .error _, .ok _ => isFalse nofun

section
variable {A : ClAlg} {S T : Type} [Zero T] [One T] [Add T] [Sub T] [Neg T] [Mul T] [DecidableEq T] [CoeffStorage S T]

/-- `a + b` -/
def padd (a b : Res (MV A S)) : Res (MV A S) := do (← a).add (← b)
/-- `a - b` -/
def psub (a b : Res (MV A S)) : Res (MV A S) := do (← a).sub (← b)
/-- `a * b` -/
def pmul (a b : Res (MV A S)) : Res (MV A S) := do (← a).naiveMulImpl (← b)
/-- `a * t` -/
def psmul (a : Res (MV A S)) (t : T) : Res (MV A S) := do (← a).smul t
/-- `-a` -/
def pneg (a : Res (MV A S)) : Res (MV A S) := do (← a).neg
/-- `a == b` -/
def peq (a b : Res (MV A S)) : Res Bool := do return (← a).beq (← b)
/-- `a / t` -/
def psdiv [Div T] (a : Res (MV A S)) (t : T) : Res (MV A S) := do (← a).sdiv t
/-- `a / b` -/
def pdiv [Div T] (a b : Res (MV A S)) : Res (MV A S) := do (← a).div (← b)
end

@[inherit_doc] local infixl:65 " +ₚ " => padd
@[inherit_doc] local infixl:65 " -ₚ " => psub
@[inherit_doc] local infixl:70 " *ₚ " => pmul
@[inherit_doc] local infixl:70 " *ₛ " => psmul
@[inherit_doc] local infixl:70 " /ₛ " => psdiv
@[inherit_doc] local infixl:70 " /ₚ " => pdiv
@[inherit_doc] local prefix:75 "∼" => pneg
@[inherit_doc] local infix:50 " ==ₚ " => peq

/-- An `f64` literal. -/
def f (q : ℚ) : F64 := .ofRat q

/-- An `f32` literal. -/
def g (q : ℚ) : F32 := .ofRat q

/-! ### tests/unit.rs:74-98, basic_test -/

/-- `declare_algebra!(Cl3, [+,+,+], ["x","y","z"])` -/
def Cl3 : ClAlg := (declareAlgebra [.plus, .plus, .plus] ["x", "y", "z"]).get rfl

/-- `MV::basis()` -/
def e3 (n : Nat) : Res (D Cl3 F64) := basisVec n

/-- `r = x + y + z + x * y` -/
def basicR : Res (D Cl3 F64) := e3 0 +ₚ e3 1 +ₚ e3 2 +ₚ e3 0 *ₚ e3 1

section
variable [HashOrder F64]
/-- `to_sparse` -/
def sp3 (a : Res (D Cl3 F64)) : Res (Sp Cl3 F64) := do (← a).toSparse
/-- `b: SMV = r.grade_extract_as(2)` -/
def basicB : Res (Sp Cl3 F64) := do (← basicR).gradeExtractAs 2
/-- The assertions of `basic_test`. -/
def basicTest : List (Res Bool) :=
  [basicB ==ₚ sp3 (e3 0) *ₚ sp3 (e3 1),
   (do (← basicB).rev) ==ₚ sp3 (e3 1) *ₚ sp3 (e3 0),
   (do (← basicB).dual) ==ₚ ∼ (sp3 (e3 2)),
   sp3 (do (← basicR).flip) ==ₚ do (← sp3 basicR).flip]
end

/-- The array of coefficients of `r`. -/
def basicArr : Arr1 F64 := match basicR with
  | .ok r => r.coeffs.array
  | .error _ => ⟨0, fun _ => 0⟩

/-- `grade_iter` is defined by well-founded recursion, which the kernel does not unfold. -/
theorem basicB_eq [HashOrder F64] : basicB = .ok (([6, 5, 3].map fun i => (i, basicArr.get i)).foldl
    (fun (ret : Sp Cl3 F64) p => ret.setByIdx p.1 p.2) ⟨SparseStorage.new 3⟩) := by
  have h : basicR = .ok ⟨⟨3, basicArr⟩⟩ := by
    have h3 : (match basicR with | .ok r => decide (r.coeffs.dim = 3) | .error _ => false) = true := by decide +kernel
    unfold basicArr
    cases hr : basicR with
    | error e => rw [hr] at h3; exact absurd h3 (by simp)
    | ok r =>
      rw [hr] at h3
      obtain ⟨⟨d, arr⟩⟩ := r
      have h3 : d = 3 := by simpa using h3
      rw [h3]
  have h' : gradeIterList 3 2 = [6, 5, 3] := by rw [gradeIterList_eq (by norm_num)]; decide
  show (do (← basicR).gradeExtractAs 2 : Res (Sp Cl3 F64)) = _
  rw [h, ← h']
  rfl

/-- **C87.** `basic_test`, for two iteration orders of the hash maps. -/
theorem C87_basic : @basicTest ⟨fun l => l, fun _ => .rfl⟩ = [.ok true, .ok true, .ok true, .ok true] ∧
    @basicTest Ex.revOrder = [.ok true, .ok true, .ok true, .ok true] := by
  unfold basicTest
  simp only [basicB_eq]
  decide +kernel

/-! ### tests/unit.rs:332-353, division_test -/

/-- `declare_algebra!(H, [-,-], ["J", "I"])` -/
def H : ClAlg := (declareAlgebra [.minus, .minus] ["J", "I"]).get rfl
/-- `H::basis::<f64>()` -/
def eH (n : Nat) : Res (D H F64) := basisVec n
/-- `CQ::one()` -/
def oneH : Res (D H F64) := one
/-- The assertions of `division_test`. -/
def divisionTest : List (Res Bool) :=
  [oneH /ₚ eH 1 ==ₚ ∼(eH 1), oneH /ₚ eH 0 ==ₚ ∼(eH 0),
   oneH /ₚ (eH 1 *ₚ eH 0 *ₛ f 300) ==ₚ ∼(eH 1 *ₚ eH 0 /ₛ f 300)]

/-- **C87.** `division_test`. -/
theorem C87_division : divisionTest = [.ok true, .ok true, .ok true] := by decide +kernel

/-! ### tests/unit.rs:355-382, wedge_test -/

/-- `declare_algebra!(Gr4, [0, 0, 0, 0], ["w", "x", "y", "z"])` -/
def Gr4 : ClAlg := (declareAlgebra [.null, .null, .null, .null] ["w", "x", "y", "z"]).get rfl
/-- `a` -/
def wA : Res (D Gr4 F64) := fromVector [f 1, f 2, f 3, f 4]
/-- `b` -/
def wB : Res (D Gr4 F64) := fromVector [f 4, f 3, f 2, f 1]
/-- `expected_c` -/
def wC : Res (D Gr4 F64) :=
  fromIndexedIter [(0b0011, f 5), (0b0101, f 10), (0b0110, f 5), (0b1001, f 15), (0b1010, f 10), (0b1100, f 5)]
/-- The assertions of `wedge_test`. -/
def wedgeTest [HashOrder F64] : List (Res Bool) :=
  [wC ==ₚ (do (← wA).naiveWedgeImpl (← wB)),
   (do (← wC).toSparse) ==ₚ (do (← (← wA).toSparse).naiveWedgeImpl (← (← wB).toSparse)),
   wC ==ₚ wA *ₚ wB]

/-- **C87.** `wedge_test`. -/
theorem C87_wedge : @wedgeTest ⟨fun l => l, fun _ => .rfl⟩ = [.ok true, .ok true, .ok true] ∧
    @wedgeTest Ex.revOrder = [.ok true, .ok true, .ok true] := by
  decide +kernel

/-! ### tests/unit.rs:384-435, vee_test -/

/-- `u1` -/
def vU1 : Res (D Cl3 F64) :=
  e3 2 +ₚ e3 1 -ₚ e3 0 *ₚ e3 1 *ₛ f 3 -ₚ e3 0 *ₚ e3 2 *ₛ f 2 +ₚ e3 1 *ₚ e3 2
/-- `u2` -/
def vU2 : Res (D Cl3 F64) :=
  e3 0 *ₚ e3 1 *ₚ e3 2 -ₚ e3 0 *ₚ e3 1 *ₛ f 7 -ₚ e3 0 *ₚ e3 2 *ₛ f 2 +ₚ e3 1 *ₚ e3 2 *ₛ f 3
/-- `expected` -/
def vExp : Res (D Cl3 F64) :=
  e3 0 +ₚ e3 1 *ₛ f 2 -ₚ e3 2 *ₛ f 3 -ₚ e3 0 *ₚ e3 1 *ₛ f 3 +ₚ e3 0 *ₚ e3 2 -ₚ e3 1 *ₚ e3 2 *ₛ f 8 -ₚ
    e3 0 *ₚ e3 1 *ₚ e3 2 *ₛ f 5
/-- The assertions of `vee_test` without random inputs. -/
def veeTest : List (Res Bool) :=
  [(do (← (← vU1).dual).wedge (← (← vU2).dual)) ==ₚ vExp, (do (← (← vU1).meet (← vU2)).dual) ==ₚ vExp]

/-- **C87.** `vee_test`. -/
theorem C87_vee : veeTest = [.ok true, .ok true] := by decide +kernel

/-! ### tests/unit.rs:516-545, dual_test -/

/-- `declare_algebra!(ST, [-,+,+,+])` -/
def ST : ClAlg := (declareAlgebra [.minus, .plus, .plus, .plus] []).get rfl
/-- `t + x` -/
def stA : Res (D ST F32) := basisVec 0 +ₚ basisVec 1
/-- `declare_algebra!(TestA, [+,+,+,-,-,0,0])` -/
def TestA : ClAlg := (declareAlgebra [.plus, .plus, .plus, .minus, .minus, .null, .null] []).get rfl
/-- `v1, ..., v7` -/
def v (n : Nat) : Res (D TestA F32) := basisVec (n - 1)
/-- `a` -/
def duA : Res (D TestA F32) :=
  (∼(v 3)) *ₛ g 5 +ₚ v 1 *ₚ v 5 *ₚ v 6 -ₚ v 1 *ₚ v 4 *ₚ v 6 *ₚ v 7 +ₚ v 2 *ₚ v 3 *ₚ v 6 *ₚ v 7 +ₚ
    v 2 *ₚ v 4 *ₚ v 5 *ₚ v 6 *ₚ v 7 *ₛ g 4 +ₚ v 1 *ₚ v 2 *ₚ v 3 *ₚ v 4 *ₚ v 5 *ₚ v 6 *ₛ g 2
/-- `expected` -/
def duExp : Res (D TestA F32) :=
  ∼(v 7 *ₛ g 2 -ₚ v 1 *ₚ v 3 *ₛ g 4 +ₚ v 1 *ₚ v 4 *ₚ v 5 -ₚ v 2 *ₚ v 3 *ₚ v 5 +ₚ v 2 *ₚ v 3 *ₚ v 4 *ₚ v 7 -ₚ
    v 1 *ₚ v 2 *ₚ v 4 *ₚ v 5 *ₚ v 6 *ₚ v 7 *ₛ g 5)
/-- The assertions of `dual_test` without random inputs and `exp`. -/
def dualTest : List (Res Bool) :=
  [stA ==ₚ (do (← (← stA).dual).undual), stA ==ₚ (do (← (← stA).undual).dual),
   (do (← duA).dual) ==ₚ duExp, (do (← (← duA).undual).dual) ==ₚ duA, duA ==ₚ (do (← duExp).undual)]

/-- **C87.** `dual_test`; the last assertions compare with Grassmann.jl. -/
theorem C87_dual : dualTest = [.ok true, .ok true, .ok true, .ok true, .ok true] := by decide +kernel

/-! ### tests/unit.rs:558-586, magnitude_test -/

/-- `declare_algebra!(A, [+,+,+,-,-,-,0,0])` -/
def Mg : ClAlg := (declareAlgebra [.plus, .plus, .plus, .minus, .minus, .minus, .null, .null] []).get rfl
/-- `A::basis::<f64>()` -/
def eM (n : Nat) : Res (D Mg F64) := basisVec n
/-- `mag2` -/
def pmag2 (a : Res (D Mg F64)) : Res F64 := do (← a).mag2

/-- **C87.** `magnitude_test` without `exp` and random inputs. -/
theorem C87_magnitude : pmag2 (eM 0 +ₚ eM 1 +ₚ eM 6) = .ok (f 2) ∧ pmag2 (eM 0 *ₚ eM 2 +ₚ eM 6 *ₚ eM 3) = .ok (f 1) ∧
    pmag2 (eM 4 *ₚ eM 5 *ₚ eM 7) = .ok (f 0) ∧ pmag2 (eM 0 *ₚ (eM 1 +ₚ eM 3)) = .ok (f 0) := by
  decide +kernel

/-! ### tests/unit.rs:723-744, trace_test -/

/-- `declare_algebra!(Cl22, [+,-,+,-])` -/
def Cl22 : ClAlg := (declareAlgebra [.plus, .minus, .plus, .minus] []).get rfl
/-- `aa` -/
def trAA : Res (FFTRepr Cl22 (Cx F64)) :=
  FFTRepr.fromArray2 ⟨4, 4, fun i j => if i = j then ⟨f (i + 1), 0⟩ else 0⟩

/-- **C87.** `trace_test` for the diagonal matrix. -/
theorem C87_trace : (do return (← trAA).trace.re / f 4 : Res F64) =
    (do (← ((← trAA).ifft : Res (D Cl22 F64))).getByIdx 0 : Res F64) := by
  decide +kernel

/-! ### src/clifft/tests.rs -/

/-- A unit vector of `Complex64`. -/
def unitArr (n k : Nat) : Arr1 (Cx F64) := ⟨n, fun i => if i = k then 1 else 0⟩
/-- `clifft(arr)` has the given entries, and `iclifft` of it is `arr`. -/
def expectedValues (n k : Nat) (m : List (List (Cx F64))) : Res Bool := do
  let c : Arr2 (Cx F64) ← clifft (unitArr n k)
  let back ← iclifft c
  return (List.range c.rows).map (fun i => (List.range c.cols).map (fun j => c.get i j)) = m &&
    back.beq (unitArr n k)

/-- `Complex64::i()` -/
def ci : Cx F64 := ⟨0, 1⟩

/-- **C87.** `expected_values_test`. -/
theorem C87_expected_values :
    expectedValues 16 8 [[0, 0, ci, 0], [0, 0, 0, ci], [-ci, 0, 0, 0], [0, -ci, 0, 0]] = .ok true ∧
    expectedValues 16 4 [[0, 0, 1, 0], [0, 0, 0, 1], [1, 0, 0, 0], [0, 1, 0, 0]] = .ok true ∧
    expectedValues 64 2
      [[0, ci, 0, 0, 0, 0, 0, 0], [-ci, 0, 0, 0, 0, 0, 0, 0], [0, 0, 0, -ci, 0, 0, 0, 0], [0, 0, ci, 0, 0, 0, 0, 0],
       [0, 0, 0, 0, 0, -ci, 0, 0], [0, 0, 0, 0, ci, 0, 0, 0], [0, 0, 0, 0, 0, 0, 0, ci], [0, 0, 0, 0, 0, 0, -ci, 0]] =
      .ok true := by
  decide +kernel

/-- The error of a computation, if there is one. -/
def err {α : Type} : Res α → Option Err
  | .ok _ => none
  | .error e => some e

/-- **C87.** `corner_cases_test`. -/
theorem C87_corner_cases : err (clifft (K := Cx F64) (⟨0, fun _ => 0⟩ : Arr1 F64)) = some (.cl .InvalidShape) ∧
    err (iclifft (⟨1, 0, fun _ _ => 0⟩ : Arr2 (Cx F64))) = some (.cl .InvalidShape) ∧
    err (clifft (K := Cx F64) (⟨3, fun i => ⟨f (i + 1), 0⟩⟩ : Arr1 (Cx F64))) = some (.cl .InvalidShape) ∧
    err (imaginaryFlip (⟨2, 3, fun i j => ⟨f (3 * i + j + 1), 0⟩⟩ : Arr2 (Cx F64))) = some (.cl .InvalidShape) := by
  decide +kernel

/-! ### src/complexification.rs:242-269, even_test -/

/-- `declare_algebra!(A, [+,+,-,0,0], ["a", "b", "c", "p", "q"])` -/
def Ev : ClAlg := (declareAlgebra [.plus, .plus, .minus, .null, .null] ["a", "b", "c", "p", "q"]).get rfl
/-- `declare_algebra!(B, [+,+,-,-,0,0])` -/
def EvB : ClAlg := (declareAlgebra [.plus, .plus, .minus, .minus, .null, .null] []).get rfl

/-- **C87.** `even_test`. -/
theorem C87_even : (Ev.even.realDim, Ev.even.imagDim, Ev.even.projDim) = (3, 1, 2) ∧
    (Ev.even.realMask, Ev.even.imagMask, Ev.even.projMask) = (0b001011, 0b000100, 0b110000) ∧
    Ev.complexification.even.realDim = 4 ∧
    (EvB.even.realDim, EvB.even.imagDim, EvB.even.projDim) = (EvB.realDim, EvB.imagDim, EvB.projDim) ∧
    (EvB.even.realMask, EvB.even.imagMask, EvB.even.projMask) = (EvB.realMask, EvB.imagMask, EvB.projMask) ∧
    (List.range 6).map Ev.even.axisName = ["a", "b", "c", "?", "p", "q"] ∧
    Ev.complexification.even.axisName 2 = "(i*c)" := by
  decide +kernel

/-! ### src/quaternion.rs:168-207, quat_test -/

/-- `a` -/
def quA : Res (Quat F64) := .ok Quat.i +ₚ .ok Quat.j *ₛ f 2 +ₚ .ok Quat.k *ₛ f 3 +ₚ one
/-- `b` -/
def quB : Res (Quat (Cx F64)) := .ok Quat.i +ₚ .ok Quat.j *ₛ ⟨f 2, 0⟩ +ₚ .ok Quat.k *ₛ ⟨f 3, 0⟩ +ₚ one

/-- **C87.** `quat_test`, except for the matrices and nested quaternions. -/
theorem C87_quat : (quA ==ₚ quA) = .ok true ∧ ((do return Quat.conj (← quA)) ==ₚ (do (← (← quA).rev).flip)) = .ok true ∧
    ((do return Quat.conj (← quB)) ==ₚ (do (← (← quB).rev).flip)) = .ok true ∧
    ((.ok Quat.i : Res (Quat (Cx F64))) /ₚ .ok Quat.j ==ₚ ∼(.ok Quat.k)) = .ok true := by
  decide +kernel

/-! ### src/fftrepr/matrix.rs:97-141, minv_test, over the rationals -/

/-- A 3 by 3 matrix. -/
def mat3 (l : List ℚ) : Arr2 ℚ := ⟨3, 3, fun i j => l.getD (3 * i + j) 0⟩
/-- `matrix_inv` finds an inverse and its product with the matrix is the identity. -/
def minvOk (m : Arr2 ℚ) : Bool :=
  match matrixInv (fun x : ℚ => |x|) m with
  | none => false
  | some w => (List.range 3).all fun i => (List.range 3).all fun j =>
      ((List.range 3).map fun k => w.get i k * m.get k j).sum = if i = j then 1 else 0

/-- **C87.** `minv_test`, in exact arithmetic. -/
theorem C87_minv : ([[1 / 10 ^ 14, 2, 3, 3, 0, 5, 5, 7, 0], [1 / 10 ^ 14, 2, 3, 1 / 10 ^ 15, 1, 5, 5, 7, 0],
      [1, 0, 1000, 0, 1, 0, 1000, 0, 1 / 10 ^ 19], [1, 0, 0, 0, 1, 0, 0, 0, 1 / 10 ^ 19],
      [1 / 10 ^ 16, 0, 0, 0, 1 / 10 ^ 16, 0, 0, 0, 1 / 10 ^ 16],
      [1 / 10 ^ 16, 1 / 10 ^ 16, 1 / 10 ^ 16, 1 / 10 ^ 15, 1 / 10 ^ 13, 1 / 10 ^ 16, 1 / 10 ^ 14, 1 / 10 ^ 16,
        1 / 10 ^ 16]].all fun l => minvOk (mat3 l)) = true := by
  decide +kernel

end Tests
end TClifford
