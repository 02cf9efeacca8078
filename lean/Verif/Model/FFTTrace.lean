import Verif.Model.FFT
import Verif.Model.Cx
/-
The normalized trace with the arithmetic of num-complex: the complex trace is divided by a real number.  (`FFTRepr.ntrace`
of Model/FFT.lean divides by a complex number, which is the same without rounding.)
-/

namespace TClifford

namespace FFTRepr

variable {A : ClAlg} {F : Type} [Zero F] [One F] [Add F] [Sub F] [Neg F] [Mul F] [Div F]

/-- `ntrace`, src/fftrepr/mod.rs:232-235; `ofNat` is `as f64`. -/
def ntraceF (ofNat : Nat → F) (r : FFTRepr A (Cx F)) : Cx F := r.trace.divReal (ofNat r.arr.d1)

/-- `mag2`, src/fftrepr/mod.rs:258-260. -/
def mag2F [DecidableEq F] (ofNat : Nat → F) (r : FFTRepr A (Cx F)) : Res (Cx F) := do
  let s ← r.rev
  let p ← s.mul r
  return p.ntraceF ofNat

end FFTRepr

end TClifford
