import Verif.Model.FloatPga
/-
Division of multivectors with floating point coefficients: the functions of Verif/Model/Multivector.lean with the division of the
numbers, which is never an error.
-/

namespace TClifford

namespace MV
variable {A : ClAlg} {S T : Type} [Zero T] [One T] [Add T] [Sub T] [Neg T] [Mul T] [Div T] [DecidableEq T] [CoeffStorage S T]

/-- `a / b` in a division algebra, src/ops.rs:50-68. -/
def divG (a b : MV A S) : Res (MV A S) := do
  let r ← b.rev
  let rhsConj ← r.flip
  let prod ← b.naiveMulImpl rhsConj
  let rhsNorm ← prod.getByIdx 0
  let s ← CoeffStorage.coeffMapMut (T := T) rhsConj.coeffs (fun c => .ok (c / rhsNorm))
  a.naiveMulImpl ⟨s⟩

/-- `revm`, src/lib.rs:478-483. -/
def revmG (a : MV A S) : Res (MV A S) := do
  let r ← a.rev
  let m ← a.mag2
  r.sdivG m

end MV

end TClifford
