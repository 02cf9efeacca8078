import Verif.Props.Tests
import Verif.Props.TestsExp
import Verif.Model.FloatPga
import Verif.Model.FloatDiv
import Verif.Proofs.FloatInv
/-
C87, sixth part: further tests of the crate with given inputs, evaluated in the model.
-/

set_option maxRecDepth 100000

namespace TClifford
namespace Tests
open MV

@[inherit_doc] local infixl:65 " +ₚ " => padd
@[inherit_doc] local infixl:65 " -ₚ " => psub
@[inherit_doc] local infixl:70 " *ₚ " => pmul
@[inherit_doc] local infixl:70 " *ₛ " => psmul
@[inherit_doc] local infixl:70 " /ₛ " => psdiv
@[inherit_doc] local infixl:70 " /ₚ " => pdiv
@[inherit_doc] local prefix:75 "∼" => pneg
@[inherit_doc] local infix:50 " ==ₚ " => peq

/-! ### src/algebra.rs:455-484, test_labels and test_signs -/

/-- `declare_algebra!(ST, [-,+,+,+], ["t", "x", "y", "z"])` -/
def STL : ClAlg := (declareAlgebra [.minus, .plus, .plus, .plus] ["t", "x", "y", "z"]).get rfl

/-- **C87.** `test_labels`. -/
theorem C87_labels : STL.bladeLabel 0b0000 = "" ∧ STL.bladeLabel 0b0001 = "t" ∧ STL.bladeLabel 0b0010 = "x" ∧
    STL.bladeLabel 0b0100 = "y" ∧ STL.bladeLabel 0b1011 = "z^x^t" := by
  decide +kernel

/-- `declare_algebra!(Cl22, [-,+,-,+])` -/
def SG : ClAlg := (declareAlgebra [.minus, .plus, .minus, .plus] []).get rfl

/-- **C87.** `test_signs`. -/
theorem C87_signs :
    SG.bladeGeoProductSign 0b0001 0b0001 = .ok .Minus ∧ SG.bladeGeoProductSign 0b0010 0b0010 = .ok .Plus ∧
    SG.bladeGeoProductSign 0b0100 0b0100 = .ok .Minus ∧ SG.bladeGeoProductSign 0b1000 0b1000 = .ok .Plus ∧
    SG.bladeGeoProductSign 0b1001 0b0001 = .ok .Minus ∧ SG.bladeGeoProductSign 0b1010 0b0010 = .ok .Plus ∧
    SG.bladeGeoProductSign 0b0101 0b0100 = .ok .Plus ∧ SG.bladeGeoProductSign 0b1001 0b1000 = .ok .Minus ∧
    SG.bladeGeoProductSign 0b0001 0b1001 = .ok .Plus ∧ SG.bladeGeoProductSign 0b0010 0b1010 = .ok .Minus ∧
    SG.bladeGeoProductSign 0b0100 0b0101 = .ok .Minus ∧ SG.bladeGeoProductSign 0b1000 0b1001 = .ok .Plus := by
  decide +kernel

/-! ### src/test.rs:14-33, basis_test -/

/-- `declare_algebra!(Cl44, [+,+,+,+,-,-,-,-], ["e1", "e2", "e3", "e4", "g1", "g2", "g3", "g4"])` -/
def Cl44 : ClAlg := (declareAlgebra [.plus, .plus, .plus, .plus, .minus, .minus, .minus, .minus]
  ["e1", "e2", "e3", "e4", "g1", "g2", "g3", "g4"]).get rfl

section
variable [HashOrder (Cx F64)]
/-- `b[i]` -/
def bS (i : Nat) : Res (Sp Cl44 (Cx F64)) := basisVec i
/-- The assertions of `basis_test` for `i`; `sig[i]` is 1 for `i < 4` and -1 otherwise. -/
def basisTest (i : Nat) : List (Res Bool) :=
  (bS i *ₚ bS i ==ₚ fromScalar ⟨if i < 4 then f 1 else f (-1), 0⟩) ::
    (List.range i).map fun j => bS i *ₚ bS j ==ₚ ∼(bS j *ₚ bS i)
end

/-- **C87.** `basis_test`, for two iteration orders of the hash maps. -/
theorem C87_basis : ∀ i < 8, (∀ r ∈ @basisTest ⟨fun l => l, fun _ => .rfl⟩ i, r = .ok true) ∧
    (∀ r ∈ @basisTest Ex.revOrder i, r = .ok true) := by
  decide +kernel

/-! ### tests/unit.rs:516-519, dual_test in two dimensions -/

/-- `declare_algebra!(Cl2, [+,+])` -/
def Cl2 : ClAlg := (declareAlgebra [.plus, .plus] []).get rfl

/-- **C87.** `x == x.dual().undual()` in `Cl2`. -/
theorem C87_dual_two : ((basisVec 0 : Res (D Cl2 F32)) ==ₚ do (← (← basisVec (A := Cl2) (S := ArrayStorage F32) 0).dual).undual) = .ok true := by
  decide +kernel

/-! ### tests/unit.rs:783-803, examples_test -/

/-- `declare_algebra!(PGA2, [+,+,0], ["x", "y", "n"])` -/
def PGA2 : ClAlg := (declareAlgebra [.plus, .plus, .null] ["x", "y", "n"]).get rfl

/-- `intersection.pga_extract_point()` -/
def intersection : Res (List F64) := do
  let ax : D PGA2 F64 ← pgaPointG Flt.sqrt [f 10, f 0]
  let ay : D PGA2 F64 ← pgaPointG Flt.sqrt [f 0, f 8]
  let line1 ← ax.meet ay
  let line2 : D PGA2 F64 ← pgaHyperplaneG Flt.sqrt [f (-2), f 5, f (-10)]
  pgaExtractPointG 2 (← line1.wedge line2)

/-- **C87.** `examples_test`: the point `[5., 4.]`. -/
theorem C87_intersection : intersection = .ok [f 5, f 4] := by decide +kernel

/-! ### src/quaternion.rs:168-207, quat_test -/

/-- The product of two 2 by 2 matrices of quaternions. -/
def qdot (p q : List (Res (Quat (Cx F64)))) : List (Res (Quat (Cx F64))) :=
  (List.range 4).map fun n => p.getD (n / 2 * 2) one *ₚ q.getD (n % 2) one +ₚ p.getD (n / 2 * 2 + 1) one *ₚ q.getD (n % 2 + 2) one

/-- `p0` -/
def qp0 : List (Res (Quat (Cx F64))) := [MV.default, one, one, MV.default]
/-- `p1` -/
def qp1 : List (Res (Quat (Cx F64))) := [MV.default, .ok Quat.k, ∼(.ok Quat.k), MV.default]
/-- `p2` -/
def qp2 : List (Res (Quat (Cx F64))) := [∼(.ok Quat.k), MV.default, MV.default, .ok Quat.k]

/-- **C87.** `quat_test`, matrices. -/
theorem C87_quat_matrices : (∀ n < 4, ((qdot qp0 qp1).getD n one ==ₚ qp2.getD n one) = .ok true) ∧
    ∀ n < 4, ((qdot qp1 qp0).getD n one ==ₚ ∼(qp2.getD n one)) = .ok true := by
  decide +kernel

/-! ### Nested multivectors

A multivector as a coefficient, in a form the kernel can compare: the list of its coefficients.  The operations are those of
the model; Verif/Props/Nested.lean treats nested multivectors in general. -/

/-- `Multivector<T, A>` as a coefficient type. -/
structure Inner (A : ClAlg) (T : Type) where
  coeffs : List T
  deriving DecidableEq

namespace Inner
variable {A : ClAlg} {T : Type} [Zero T] [One T] [Add T] [Sub T] [Neg T] [Mul T] [DecidableEq T]

/-- The multivector. -/
def mv (x : Inner A T) : D A T := ⟨⟨A.dim, ⟨x.coeffs.length, fun k => x.coeffs.getD k 0⟩⟩⟩
/-- The coefficients of a computed multivector; no operation of the tests fails, and a failure would give the empty list. -/
def of (r : Res (D A T)) : Inner A T := match r with
  | .ok a => ⟨(List.range a.coeffs.array.len).map a.coeffs.array.get⟩
  | .error _ => ⟨[]⟩

instance : Zero (Inner A T) := ⟨of MV.default⟩
instance : One (Inner A T) := ⟨of MV.one⟩
instance : Add (Inner A T) := ⟨fun x y => of (x.mv.add y.mv)⟩
instance : Sub (Inner A T) := ⟨fun x y => of (x.mv.sub y.mv)⟩
instance : Neg (Inner A T) := ⟨fun x => of x.mv.neg⟩
instance : Mul (Inner A T) := ⟨fun x y => of (x.mv.naiveMulImpl y.mv)⟩
end Inner

/-- `Quaternion<T>` as a coefficient type. -/
structure InnerQ (T : Type) where
  s : QStorage T
  deriving DecidableEq

namespace InnerQ
variable {T : Type} [Zero T] [One T] [Add T] [Sub T] [Neg T] [Mul T] [Div T] [DecidableEq T]

/-- The result of an operation, which never fails. -/
def of (r : Res (Quat T)) : InnerQ T := match r with
  | .ok a => ⟨a.coeffs⟩
  | .error _ => ⟨⟨0, 0, 0, 0⟩⟩

instance : Zero (InnerQ T) := ⟨of MV.default⟩
instance : One (InnerQ T) := ⟨of MV.one⟩
instance : Add (InnerQ T) := ⟨fun x y => of (MV.add (⟨x.s⟩ : Quat T) ⟨y.s⟩)⟩
instance : Sub (InnerQ T) := ⟨fun x y => of (MV.sub (⟨x.s⟩ : Quat T) ⟨y.s⟩)⟩
instance : Neg (InnerQ T) := ⟨fun x => of (MV.neg (⟨x.s⟩ : Quat T))⟩
instance : Mul (InnerQ T) := ⟨fun x y => of (MV.naiveMulImpl (⟨x.s⟩ : Quat T) ⟨y.s⟩)⟩
instance : Div (InnerQ T) := ⟨fun x y => of (MV.divG (⟨x.s⟩ : Quat T) ⟨y.s⟩)⟩
end InnerQ

/-! ### tests/unit.rs:689-721, rcho_test -/

/-- `declare_algebra!(C, [-], ["i"])` -/
def RC : ClAlg := (declareAlgebra [.minus] ["i"]).get rfl
/-- `declare_algebra!(H, [-,-], ["I", "J"])` -/
def RH : ClAlg := (declareAlgebra [.minus, .minus] ["I", "J"]).get rfl
/-- `declare_algebra!(O, [-,-,-,-,-,-], ["e1", "e2", "e3", "e4", "e5", "e6"])` -/
def RO : ClAlg := (declareAlgebra [.minus, .minus, .minus, .minus, .minus, .minus] ["e1", "e2", "e3", "e4", "e5", "e6"]).get rfl

/-- `CH` -/
abbrev CH := Inner RH (Inner RC F64)

section
variable [HashOrder CH]
/-- `CHO` -/
abbrev CHO := Sp RO CH
/-- `i` -/
def choI : Res CHO := fromScalar (Inner.of (fromScalar (Inner.of (basisVec 0))))
/-- `qi`, `qj` -/
def choQ (n : Nat) : Res CHO := fromScalar (Inner.of (basisVec n))
/-- `e`: one, the basis, and the product of these. -/
def choE : List (Res CHO) :=
  let e := one :: (List.range 6).map (basisVec ·)
  e ++ [e.foldl pmul one]
/-- `rcho_basis` -/
def rchoBasis : List (Res CHO) :=
  [one, choI].flatMap fun c => [one, choQ 0, choQ 1, choQ 0 *ₚ choQ 1].flatMap fun q => choE.map fun e => e *ₚ q *ₚ c
/-- `product == one` -/
def rchoTest : Res Bool := rchoBasis.foldl pmul one ==ₚ one
end

/-- **C87.** `rcho_test`, for two iteration orders of the hash maps. -/
theorem C87_rcho : @rchoTest ⟨fun l => l, fun _ => .rfl⟩ = .ok true ∧ @rchoTest Ex.revOrder = .ok true ∧
    (@rchoBasis ⟨fun l => l, fun _ => .rfl⟩).length = 64 := by
  decide +kernel

/-! ### src/quaternion.rs:193-205, quat_test -/

/-- `Quaternion<Quaternion<f64>>`, with all values of `f64`. -/
abbrev QQ := Quat (InnerQ (Ieee Fmt.f64))

/-- Some coefficient is NaN, that is, `x != x`. -/
def InnerQ.ne (x : InnerQ (Ieee Fmt.f64)) : Bool := !(x.s.c0.eq x.s.c0 && x.s.c1.eq x.s.c1 && x.s.c2.eq x.s.c2 && x.s.c3.eq x.s.c3)

/-- `&x / &x` -/
def qqOne : Res QQ := do (← one (A := QuaternionAlgebra) (S := QStorage (InnerQ (Ieee Fmt.f64)))).divG (← one)
/-- `1 / (1 + i I)` in H x H -/
def qqNan : Res QQ := do (← one).divG (← (.ok Quat.i : Res QQ) *ₛ ⟨Quat.i.coeffs⟩ +ₚ one)
/-- `1 / (1 + i I)` in H x C -/
def qcNan : Res (Quat (Cx (Ieee Fmt.f64))) := do (← one).divG (← one +ₚ (.ok Quat.i : Res (Quat (Cx (Ieee Fmt.f64)))) *ₛ ⟨0, 1⟩)

/-- **C87.** `quat_test`, nested quaternions. -/
theorem C87_quat_nested : (qqOne ==ₚ one) = .ok true ∧ (do return (← (← qqNan).getByIdx 0).ne) = (.ok true : Res Bool) ∧
    (do return !((← (← qcNan).getByIdx 0).re.eq (← (← qcNan).getByIdx 0).re)) = (.ok true : Res Bool) := by
  decide +kernel

/-! ### src/fftrepr/matrix.rs:97-173, minv_test

The products `minv.dot(&m)` are summed from left to right here; ndarray may use another order and fused operations. -/

section
variable {T : Type} [Zero T] [One T] [Add T] [Sub T] [Mul T] [Div T]
/-- A 3 by 3 matrix. -/
def matT (l : List T) : Arr2 T := ⟨3, 3, fun i j => l.getD (3 * i + j) 0⟩
/-- `matrix_inv` finds an inverse, and all entries of its product with the matrix minus the identity have norm below
`1e-12`. -/
def minvTest (t : InvTests T (Ieee Fmt.f64)) (norm : T → Ieee Fmt.f64) (m : Arr2 T) : Bool :=
  match matrixInvG t norm m with
  | none => false
  | some w => (List.range 3).all fun i => (List.range 3).all fun j =>
      (Ieee.round false (1 / 10 ^ 12)).gt (norm ((0 + w.get i 0 * m.get 0 j + w.get i 1 * m.get 1 j + w.get i 2 * m.get 2 j) - if i = j then 1 else 0))
end

/-- An `f64` literal, with all values of `f64`. -/
def fi (q : ℚ) : Ieee Fmt.f64 := .round (q < 0) q

/-- `is_zero`, `x != x` and `>` for `f64`. -/
def testsF : InvTests (Ieee Fmt.f64) (Ieee Fmt.f64) where
  isZero x := x.eq 0
  isNaN x := !x.eq x
  isZeroNorm x := x.eq 0
  gt := Ieee.gt

/-- `is_zero` and `x != x` for `Quaternion<f64>`. -/
def testsQ : InvTests (InnerQ (Ieee Fmt.f64)) (Ieee Fmt.f64) where
  isZero x := x.s.c0.eq 0 && x.s.c1.eq 0 && x.s.c2.eq 0 && x.s.c3.eq 0
  isNaN := InnerQ.ne
  isZeroNorm x := x.eq 0
  gt := Ieee.gt

/-- **C87.** `minv_test` for `f64`. -/
theorem C87_minv_f64 : ∀ l ∈ [[1 / 10 ^ 14, 2, 3, 3, 0, 5, 5, 7, 0], [1 / 10 ^ 14, 2, 3, 1 / 10 ^ 15, 1, 5, 5, 7, 0],
      [1, 0, 1000, 0, 1, 0, 1000, 0, 1 / 10 ^ 19], [1, 0, 0, 0, 1, 0, 0, 0, 1 / 10 ^ 19],
      [1 / 10 ^ 16, 0, 0, 0, 1 / 10 ^ 16, 0, 0, 0, 1 / 10 ^ 16],
      [1 / 10 ^ 16, 1 / 10 ^ 16, 1 / 10 ^ 16, 1 / 10 ^ 15, 1 / 10 ^ 13, 1 / 10 ^ 16, 1 / 10 ^ 14, 1 / 10 ^ 16, 1 / 10 ^ 16]],
    minvTest testsF Ieee.abs (matT (l.map fi)) = true := by
  decide +kernel

/-- `Quaternion<f64>` units. -/
def qI : InnerQ (Ieee Fmt.f64) := ⟨Quat.i.coeffs⟩
@[inherit_doc qI] def qJ : InnerQ (Ieee Fmt.f64) := ⟨Quat.j.coeffs⟩
@[inherit_doc qI] def qK : InnerQ (Ieee Fmt.f64) := ⟨Quat.k.coeffs⟩

/-- `Quaternion::norm` -/
def qNorm (x : InnerQ (Ieee Fmt.f64)) : Ieee Fmt.f64 := (Quat.norm2 Ieee.abs (⟨x.s⟩ : Quat (Ieee Fmt.f64))).sqrt

/-- **C87.** `minv_test` for quaternions. -/
theorem C87_minv_quat : ∀ l ∈ [[qI, qJ, qJ, qK, qK, qJ, 1, qI, qJ],
      [qI, qJ, qJ, qK, InnerQ.of (fromScalar (fi (1 / 10 ^ 16))), qJ, 1, 0, 0]],
    minvTest testsQ qNorm (matT l) = true := by
  decide +kernel

end Tests
end TClifford
