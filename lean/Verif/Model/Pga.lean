import Verif.Model.Multivector
import Mathlib.Analysis.SpecialFunctions.Pow.Real
/-
Models src/pga.rs over the real numbers.  The trait bound `A: PGAlgebra<SPC_DIM>` is a hypothesis of the theorems.
-/

namespace TClifford

namespace MV
variable {A : ClAlg} {S : Type} [DecidableEq ℝ] [CoeffStorage S ℝ]

/-- `coords.iter().map(|c| c * c).sum::<f64>().sqrt()`, src/pga.rs:26 and 34. -/
noncomputable def euclMag (coords : List ℝ) : ℝ := Real.sqrt ((coords.map (fun c => c * c)).sum)

/-- `pga_point`, src/pga.rs:24-30. -/
noncomputable def pgaPoint (coords : List ℝ) : Res (MV A S) := do
  let mag := euclMag coords
  let v ← fromVector (coords ++ [1])
  let p ← v.dual
  p.sdiv mag

/-- `pga_hyperplane`, src/pga.rs:32-37. -/
noncomputable def pgaHyperplane (coeffs : List ℝ) : Res (MV A S) := do
  let mag := euclMag coeffs
  let p ← fromVector coeffs
  p.sdiv mag

/-- `pga_translation`, src/pga.rs:39-49. -/
noncomputable def pgaTranslation (direction : List ℝ) : Res (MV A S) := do
  let eIdx := A.projMask
  let bivec : MV A S ← fromIndexedIter (direction.zipIdx.map (fun p => (eIdx ||| ushl 1 p.2, p.1 / 2)))
  return bivec.setByIdx 0 1

/-- `pga_extract_point`, src/pga.rs:51-55. -/
noncomputable def pgaExtractPoint (spcDim : Nat) (a : MV A S) : Res (List ℝ) := do
  let sd ← a.dual
  let scale ← sd.getByIdx A.projMask
  (List.range spcDim).mapM (fun n => do fdiv (← sd.getByIdx (ushl 1 n)) scale)

end MV

end TClifford
