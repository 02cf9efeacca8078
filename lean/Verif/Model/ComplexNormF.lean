import Verif.Model.Cx
import Verif.Model.FloatDiv
/-
Conjugation and normalization of multivectors with complex floating point coefficients.
-/

namespace TClifford

/-- `conj` of num-complex, which src/lib.rs:469 and 492 call: the sign of the imaginary part is changed. -/
def Cx.conjF {F : Type} [Neg F] (z : Cx F) : Cx F := ⟨z.re, -z.im⟩

namespace MV
variable {A : ClAlg} {S T : Type} [Zero T] [One T] [Add T] [Sub T] [Neg T] [Mul T] [Div T] [DecidableEq T] [CoeffStorage S T]

/-- `revcm`, src/lib.rs:497-505, with the division of the numbers, which is never an error. -/
def revcmG (conj : T → T) (a : MV A S) : Res (MV A S) := do
  let r ← a.revc conj
  let m ← a.cmag2 conj
  r.sdivG m

end MV

end TClifford
