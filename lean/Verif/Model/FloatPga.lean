import Verif.Model.FloatExp
import Verif.Model.Ieee
/-
src/pga.rs with floating point numbers (`PGAMV` is implemented for `f64` only), given their square root.  Verif/Model/Pga.lean
has the same functions in exact arithmetic.  Division is that of the numbers and never an error: division by zero gives
infinities or NaN.

`T = F64` (Verif/Model/Float.lean) has one zero and one value for all that is not finite, and is used where everything stays
finite; `T = Ieee f64` (Verif/Model/Ieee.lean) has all values.  In the latter, `-0` counts as a non-zero coefficient in
enumerations, unlike in Rust; the only difference is the sign of zeros of the result.
-/

namespace TClifford

/-- `f64::sqrt` of all values: `√-0 = -0`, `√inf = inf`, and NaN for the other numbers with a sign. -/
def Ieee.sqrt {f : Fmt} : Ieee f → Ieee f
  | .num x => if x.1 < 0 then .nan else .round false (Flt.sqrtRat f x.1)
  | .negZero => .negZero
  | .inf s => if s then .nan else .inf false
  | .nan => .nan

namespace MV
variable {A : ClAlg} {S T : Type} [Zero T] [One T] [Add T] [Sub T] [Neg T] [Mul T] [Div T] [DecidableEq T] [CoeffStorage S T]

/-- `mv / t`, src/ops.rs:87-102, for numbers that can be divided by zero. -/
def sdivG (a : MV A S) (t : T) : Res (MV A S) := do
  let ret ← default (A := A) (S := S)
  return a.coeffEnumerate.foldl (fun (ret : MV A S) p => ret.setByIdx p.1 (p.2 / t)) ret

/-- `coords.iter().map(|c| c * c).sum::<f64>().sqrt()`, src/pga.rs:26 and 34. -/
def euclMagG (sqrt : T → T) (coords : List T) : T := sqrt ((coords.map (fun c => c * c)).foldl (· + ·) 0)

/-- `pga_point`, src/pga.rs:24-30. -/
def pgaPointG (sqrt : T → T) (coords : List T) : Res (MV A S) := do
  let mag := euclMagG sqrt coords
  let v ← fromVector (coords ++ [1])
  let p ← v.dual
  p.sdivG mag

/-- `pga_hyperplane`, src/pga.rs:32-37. -/
def pgaHyperplaneG (sqrt : T → T) (coeffs : List T) : Res (MV A S) := do
  let mag := euclMagG sqrt coeffs
  let p ← fromVector coeffs
  p.sdivG mag

/-- `pga_translation`, src/pga.rs:39-49. -/
def pgaTranslationG (direction : List T) : Res (MV A S) := do
  let eIdx := A.projMask
  let bivec : MV A S ← fromIndexedIter (direction.zipIdx.map (fun p => (eIdx ||| ushl 1 p.2, p.1 / (1 + 1))))
  return bivec.setByIdx 0 1

/-- `pga_extract_point`, src/pga.rs:51-55. -/
def pgaExtractPointG (spcDim : Nat) (a : MV A S) : Res (List T) := do
  let sd ← a.dual
  let scale ← sd.getByIdx A.projMask
  (List.range spcDim).mapM (fun n => do return (← sd.getByIdx (ushl 1 n)) / scale)

end MV

end TClifford
