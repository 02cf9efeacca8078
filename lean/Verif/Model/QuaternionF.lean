import Verif.Model.Quaternion
import Verif.Model.FloatExp
/-
`Norm for Quaternion<f64>` with rounding.  `powi(2)` is modelled as `x * x`.
-/

namespace TClifford

/-- `Norm::norm`, src/quaternion.rs:145-156, for `f64` coefficients (their `norm` is `abs`, src/lib.rs:620-630). -/
def Quat.normF {f : Fmt} (a : Quat (Flt f)) : Flt f := (a.norm2 Flt.abs).sqrt

end TClifford
