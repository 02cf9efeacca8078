import Verif.Model.FloatDisplay
import Verif.Model.Cx
/-
Models how the crate num-complex writes `Complex<f64>` and `Complex<f32>` (`Display`, `LowerExp`, `UpperExp`), which is what
`$fmt_trait::fmt` in src/lib.rs:565-573 calls for complex coefficients: the two parts without their signs, a sign between them
(and one in front of a negative real part, or with the `+` flag) and an `i` at the end.  The flag `#` has no effect on it.  Written
after num-complex 0.4 (the source is not part of /repo); zeros and values that are not finite as in Verif/Model/FloatDisplay.lean.
-/

namespace TClifford

/-- `x < 0` -/
def Flt.isNeg {f : Fmt} : Flt f → Bool
  | .num x => x.1 < 0
  | .nonFinite => false

/-- The text of `x` without its sign. -/
def Flt.absText {f : Fmt} (e : Option Char) : Flt f → String
  | .num x => magText f e |x.1|
  | .nonFinite => "NaN"

/-- `Display`, `LowerExp` and `UpperExp` for `Complex<f64>` and `Complex<f32>`. -/
def Cx.text {f : Fmt} (e : Option Char) (plus : Bool) (z : Cx (Flt f)) : String :=
  Flt.signText plus z.re.isNeg ++ z.re.absText e ++ (if z.im.isNeg then "-" else "+") ++ z.im.absText e ++ "i"

end TClifford
