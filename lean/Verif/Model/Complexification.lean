import Verif.Model.Multivector
import Verif.Model.Clifft
/-
Models src/complexification.rs.
-/

namespace TClifford

namespace ClAlg

/-- `Complexification<A>`, src/complexification.rs:14-37. -/
def complexification (A : ClAlg) : ClAlg where
  dim := A.dim
  realMask := A.realMask ||| A.imagMask
  imagMask := 0
  projMask := A.projMask
  -- default methods, src/algebra.rs:21-29
  realDim := countOnes (A.realMask ||| A.imagMask)
  imagDim := countOnes 0
  projDim := countOnes A.projMask
  axisName n := if ushl 1 n &&& A.imagMask ≠ 0 then "(i*" ++ A.axisName n ++ ")" else A.axisName n

/-- `Even<A>`, src/complexification.rs:44-108. -/
def even (A : ClAlg) : ClAlg where
  dim := if (A.realDim + A.imagDim) % 2 = 0 then A.dim else A.dim + 1
  realMask :=
    if (A.realDim + A.imagDim) % 2 = 0 then A.realMask else A.realMask ||| ushl 1 (A.realDim + A.imagDim)
  imagMask := A.imagMask
  projMask := if (A.realDim + A.imagDim) % 2 = 0 then A.projMask else ushl A.projMask 1
  realDim := if (A.realDim + A.imagDim) % 2 = 0 then A.realDim else A.realDim + 1
  imagDim := A.imagDim
  projDim := A.projDim
  axisName n :=
    if (A.realDim + A.imagDim) % 2 = 0 then A.axisName n
    else if n = A.realDim + A.imagDim then "?"
    else if n > A.realDim + A.imagDim then A.axisName (n - 1)
    else A.axisName n

end ClAlg

namespace MV
variable {A : ClAlg} {S S' T K : Type} [Zero T] [One T] [Add T] [Sub T] [Neg T] [Mul T] [DecidableEq T]
  [Zero K] [One K] [Add K] [Sub K] [Neg K] [Mul K] [DecidableEq K] [HasI K]

/-- `complexified_iter`, src/complexification.rs:117-134. -/
def complexifiedIter [CoeffStorage S T] [IntoComplex T K] (a : MV A S) : List (Nat × K) :=
  a.coeffEnumerate.map (fun p => (p.1, iPowNeg (countOnes (p.1 &&& A.imagMask)) * IntoComplex.into p.2))

/-- `complexify`, src/complexification.rs:136-146. -/
def complexify [CoeffStorage S T] [IntoComplex T K] [CoeffStorage S' K] (a : MV A S) :
    Res (MV A.complexification S') :=
  unwrap (fromIndexedIter (T := K) a.complexifiedIter)

/-- `decomplexify`, src/complexification.rs:154-176. -/
def decomplexify [CoeffStorage S K] [FromComplex T K] [CoeffStorage S' T] (a : MV A.complexification S) :
    Res (MV A S') :=
  unwrap (fromIndexedIter (a.coeffEnumerate.map
    (fun p => (p.1, (FromComplex.from_ (iPow (countOnes (p.1 &&& A.imagMask)) * p.2) : T)))))

/-- `into_original`, src/complexification.rs:185-209. -/
def intoOriginal [CoeffStorage S T] (a : MV A.even S) : Res (MV A S) :=
  if A.dim = A.even.dim then .ok ⟨a.coeffs⟩
  else
    let effectiveProjMask := ushl A.projMask 1
    let effectiveFullMask := effectiveProjMask ||| A.realMask ||| A.imagMask
    unwrap (fromIndexedIter (a.coeffEnumerate.filterMap (fun p =>
      if p.1 &&& unot effectiveFullMask ≠ 0 then none
      else some (((p.1 &&& effectiveProjMask) >>> 1) ||| (p.1 &&& (A.realMask ||| A.imagMask)), p.2))))

end MV

end TClifford
