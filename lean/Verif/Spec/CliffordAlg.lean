import Verif.Spec.Words
import Mathlib.LinearAlgebra.CliffordAlgebra.Basic
import Mathlib.LinearAlgebra.QuadraticForm.Basic
/-
Specification: the element of Mathlib's Clifford algebra that a family of coefficients stands for.
-/

namespace TClifford.Spec

open Finset

variable {T : Type} [CommRing T] {n : Nat}

/-- The diagonal quadratic form of a declared signature: the sum of `± v_i²`, generators marked `0` contributing nothing. -/
def declForm (T : Type) [CommRing T] (n : Nat) (sig : List Sym) : QuadraticForm T (Fin n → T) :=
  QuadraticMap.weightedSumSquares T (fun i : Fin n => ((squareOf sig i : ℤ) : T))

/-- The generators of the Clifford algebra: images of the standard basis vectors. -/
def gen (Q : QuadraticForm T (Fin n → T)) (i : Nat) : CliffordAlgebra Q :=
  if h : i < n then CliffordAlgebra.ι Q (Pi.single ⟨i, h⟩ 1) else 0

/-- The ordered product of the generators of a blade, highest generator first. -/
def bladeC (Q : QuadraticForm T (Fin n → T)) (a : Nat) : CliffordAlgebra Q := ((word n a).map (gen Q)).prod

/-- The element with given coefficients. -/
def toCl (Q : QuadraticForm T (Fin n → T)) (f : Nat → T) : CliffordAlgebra Q := ∑ i ∈ range (2 ^ n), f i • bladeC Q i

end TClifford.Spec
