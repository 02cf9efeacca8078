import Verif.Model.NdArray
import Verif.Model.Clifft
import Mathlib.Algebra.Ring.Defs
import Mathlib.Data.Complex.Basic
/-
Equality of array-valued computations, and what is assumed about the conversions between a coefficient type and the
complex numbers.
-/

namespace TClifford

/-- Both computations succeed and return equal arrays. -/
def Same1 {T : Type} (x y : Res (Arr1 T)) : Prop :=
  ∃ a b, x = .ok a ∧ y = .ok b ∧ a.len = b.len ∧ ∀ i < a.len, a.get i = b.get i

/-- Both computations succeed and return equal matrices. -/
def Same2 {T : Type} (x y : Res (Arr2 T)) : Prop :=
  ∃ a b, x = .ok a ∧ y = .ok b ∧ a.rows = b.rows ∧ a.cols = b.cols ∧ ∀ i < a.rows, ∀ j < a.cols, a.get i j = b.get i j

/-- Both computations succeed and return equal three-dimensional arrays. -/
def Same3 {T : Type} (x y : Res (Arr3 T)) : Prop :=
  ∃ a b, x = .ok a ∧ y = .ok b ∧ a.dims = b.dims ∧
    ∀ k < a.d0, ∀ i < a.d1, ∀ j < a.d2, a.get k i j = b.get k i j

/-- The conversion into the complex numbers respects the ring operations. -/
class LawfulInto (T K : Type) [Ring T] [Ring K] [IntoComplex T K] : Prop where
  into_add : ∀ s t : T, (IntoComplex.into (s + t) : K) = IntoComplex.into s + IntoComplex.into t
  into_mul : ∀ s t : T, (IntoComplex.into (s * t) : K) = IntoComplex.into s * IntoComplex.into t
  into_one : (IntoComplex.into (1 : T) : K) = 1

/-- The conversion out of the complex numbers is additive, compatible with multiplication by numbers of the coefficient
type, and sends 1 to 1 (real part, or identity). -/
class LawfulComplex (T K : Type) [Ring T] [Ring K] [IntoComplex T K] [FromComplex T K] : Prop extends LawfulInto T K where
  from_add : ∀ z w : K, (FromComplex.from_ (z + w) : T) = FromComplex.from_ z + FromComplex.from_ w
  from_into_mul : ∀ (t : T) (z : K), (FromComplex.from_ (IntoComplex.into t * z) : T) = t * FromComplex.from_ z
  from_one : (FromComplex.from_ (1 : K) : T) = 1

section
variable {T K : Type} [Ring T] [Ring K] [IntoComplex T K]

/-- The conversion as a ring homomorphism. -/
def intoHom (T K : Type) [Ring T] [Ring K] [IntoComplex T K] [LawfulInto T K] : T →+* K where
  toFun := IntoComplex.into
  map_one' := LawfulInto.into_one
  map_mul' := LawfulInto.into_mul
  map_add' := LawfulInto.into_add
  map_zero' := by
    have h := LawfulInto.into_add (K := K) (0 : T) 0
    rw [add_zero] at h
    exact (add_eq_left.mp h.symm)

theorem into_eq [LawfulInto T K] (t : T) : (IntoComplex.into t : K) = intoHom T K t := rfl

theorem into_zero [LawfulInto T K] : (IntoComplex.into (0 : T) : K) = 0 := (intoHom T K).map_zero

theorem from_into [FromComplex T K] [LawfulComplex T K] (t : T) : (FromComplex.from_ (IntoComplex.into t : K) : T) = t := by
  have := LawfulComplex.from_into_mul (K := K) t (1 : K)
  rwa [mul_one, LawfulComplex.from_one, mul_one] at this

theorem from_zero [FromComplex T K] [LawfulComplex T K] : (FromComplex.from_ (0 : K) : T) = 0 := by
  have := LawfulComplex.from_add (T := T) (0 : K) 0
  rw [add_zero] at this
  exact (add_eq_left.mp this.symm)

end

/-- `Complex64` as coefficient type. -/
instance {K : Type} [Ring K] : LawfulComplex K K where
  into_add _ _ := rfl
  into_mul _ _ := rfl
  into_one := rfl
  from_add _ _ := rfl
  from_into_mul _ _ := rfl
  from_one := rfl

/-- The imaginary unit of `ℂ`. -/
instance : ImagUnit ℂ := { I := Complex.I, I_mul_I := Complex.I_mul_I }

/-- `IntoComplex64 for f64`, src/types.rs:105-109. -/
instance : IntoComplex ℝ ℂ := ⟨fun x => (x : ℂ)⟩

/-- `FromComplex for f64`, src/types.rs:95-99. -/
instance : FromComplex ℝ ℂ := ⟨Complex.re⟩

instance : LawfulComplex ℝ ℂ where
  into_add := Complex.ofReal_add
  into_mul := Complex.ofReal_mul
  into_one := Complex.ofReal_one
  from_add := Complex.add_re
  from_into_mul t z := Complex.re_ofReal_mul t z
  from_one := Complex.one_re

end TClifford
