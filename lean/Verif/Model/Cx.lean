import Verif.Model.Clifft
import Verif.Model.Float
/-
Complex numbers over a floating point type: `num::complex::Complex<F>` (Cargo.toml: `num`), which the transforms use with
`F = f64` (src/types.rs:70-127, src/clifft/mod.rs:3).  The arithmetic is that of the crate num-complex:
`(a + ib)(c + id) = (ac - bd) + i(ad + bc)` and `(a + ib)/(c + id) = ((ac + bd) + i(bc - ad)) / (cc + dd)`, every
operation rounded.
-/

namespace TClifford

/-- `Complex<F>`. -/
structure Cx (F : Type) : Type where
  re : F
  im : F
  deriving DecidableEq

namespace Cx

variable {F : Type}

@[ext] theorem ext' {x y : Cx F} (h : x.re = y.re) (h' : x.im = y.im) : x = y := by
  cases x; cases y; simp_all

instance [Zero F] : Zero (Cx F) := ⟨⟨0, 0⟩⟩
instance [Zero F] [One F] : One (Cx F) := ⟨⟨1, 0⟩⟩
instance [Add F] : Add (Cx F) := ⟨fun x y => ⟨x.re + y.re, x.im + y.im⟩⟩
instance [Sub F] : Sub (Cx F) := ⟨fun x y => ⟨x.re - y.re, x.im - y.im⟩⟩
instance [Neg F] : Neg (Cx F) := ⟨fun x => ⟨-x.re, -x.im⟩⟩
instance [Add F] [Sub F] [Mul F] : Mul (Cx F) :=
  ⟨fun x y => ⟨x.re * y.re - x.im * y.im, x.re * y.im + x.im * y.re⟩⟩

/-- `norm_sqr` of num-complex. -/
def normSq [Add F] [Mul F] (x : Cx F) : F := x.re * x.re + x.im * x.im

instance [Add F] [Sub F] [Mul F] [Div F] : Div (Cx F) :=
  ⟨fun x y => ⟨(x.re * y.re + x.im * y.im) / y.normSq, (x.im * y.re - x.re * y.im) / y.normSq⟩⟩

/-- `Complex64 { re: 0., im: 1. }`, src/clifft/mod.rs:242, src/complexification.rs:123. -/
instance [Zero F] [One F] : HasI (Cx F) := ⟨⟨0, 1⟩⟩

/-- `IntoComplex64 for f64`, src/types.rs:105-109. -/
instance [Zero F] : IntoComplex F (Cx F) := ⟨fun x => ⟨x, 0⟩⟩

/-- `FromComplex for f64`, src/types.rs:95-99. -/
instance : FromComplex F (Cx F) := ⟨Cx.re⟩

end Cx

/-- `as f32` and `as f64`: conversion to another format, rounded to nearest. -/
def Flt.cast {f g : Fmt} : Flt f → Flt g
  | .num x => .ofRat x.1
  | .nonFinite => .nonFinite

/-- `as f64` of an integer: rounded to nearest. -/
def Flt.ofNat (f : Fmt) (n : Nat) : Flt f := .ofRat n

/-- Division of a complex number by a real one (`Div<T> for Complex<T>` of num-complex): both parts are divided. -/
def Cx.divReal {F : Type} [Div F] (z : Cx F) (r : F) : Cx F := ⟨z.re / r, z.im / r⟩

/-- `IntoComplex64 for f32`, src/types.rs:111-115. -/
instance : IntoComplex F32 (Cx F64) := ⟨fun x => ⟨x.cast, 0⟩⟩

/-- `FromComplex for f32`, src/types.rs:89-93. -/
instance : FromComplex F32 (Cx F64) := ⟨fun c => c.re.cast⟩

/-- `IntoComplex64 for Complex32`, src/types.rs:117-121. -/
instance : IntoComplex (Cx F32) (Cx F64) := ⟨fun c => ⟨c.re.cast, c.im.cast⟩⟩

/-- `FromComplex for Complex32`, src/types.rs:74-81. -/
instance : FromComplex (Cx F32) (Cx F64) := ⟨fun c => ⟨c.re.cast, c.im.cast⟩⟩

end TClifford
