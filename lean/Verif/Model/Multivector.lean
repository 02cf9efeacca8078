import Verif.Model.Algebra
import Verif.Model.Storage
import Mathlib.Algebra.Field.Defs
/-
Models src/lib.rs and src/ops.rs: the multivector type generic over the coefficient storage.
`exp` is modelled in `Verif/Model/Exp.lean`, formatting in `Verif/Model/Display.lean`.
-/

namespace TClifford


/-- `MultivectorBase<T, A, Storage>`, src/lib.rs:47-57.  The algebra is a (phantom) type parameter. -/
structure MV (A : ClAlg) (S : Type) where
  coeffs : S

namespace MV

variable {A : ClAlg} {S S' : Type} {T : Type} [Zero T] [One T] [Add T] [Sub T] [Neg T] [Mul T] [DecidableEq T] [CoeffStorage S T] [CoeffStorage S' T]

/-- `Default::default` (also `Zero::zero`), src/lib.rs:508-521, 600-602. -/
def default : Res (MV A S) := do
  let s ← CoeffStorage.new (S := S) (T := T) A.dim
  return ⟨s⟩

/-- `set_by_idx`, src/lib.rs:252-256. -/
def setByIdx (a : MV A S) (idx : Nat) (value : T) : MV A S := ⟨CoeffStorage.setByIdx a.coeffs idx value⟩

/-- `get_by_idx`, src/lib.rs:258-261. -/
def getByIdx (a : MV A S) (idx : Nat) : Res T := CoeffStorage.getByIdx a.coeffs idx

/-- `coeff_enumerate`, src/lib.rs:114-120. -/
def coeffEnumerate (a : MV A S) : List (Nat × T) := CoeffStorage.coeffEnumerate a.coeffs

/-- `grade_enumerate`, src/lib.rs:122-128. -/
def gradeEnumerate (a : MV A S) (grade : Nat) : List (Nat × T) := CoeffStorage.gradeEnumerate a.coeffs grade

/-- `from_scalar`, src/lib.rs:65-69. -/
def fromScalar (scalar : T) : Res (MV A S) := do
  let ret ← default (A := A) (S := S)
  return ret.setByIdx 0 scalar

/-- `One::one`, src/lib.rs:609-618. -/
def one : Res (MV A S) := fromScalar (A := A) (S := S) (1 : T)

/-- `from_vector`, src/lib.rs:71-85 (and `from_vector_ref`, 87-92).  The loop carries `(n, ret)`. -/
def fromVector (vecCoeffs : List T) : Res (MV A S) := do
  let ret ← default (A := A) (S := S)
  let (n, ret) ← vecCoeffs.foldlM (fun (st : Nat × MV A S) c =>
    if st.1 ≥ A.dim then .error (.cl .InvalidShape)
    else .ok (st.1 + 1, st.2.setByIdx (ushl 1 st.1) c)) (0, ret)
  if n ≠ A.dim then .error (.cl .InvalidShape) else return ret

/-- `from_indexed_iter`, src/lib.rs:94-103 (and `from_indexed_iter_ref`, 105-112). -/
def fromIndexedIter (iter : List (Nat × T)) : Res (MV A S) := do
  let ret ← default (A := A) (S := S)
  iter.foldlM (fun (ret : MV A S) p =>
    if p.1 ≥ ushl 1 A.dim then .error (.cl .IndexOutOfBounds)
    else .ok (ret.setByIdx p.1 p.2)) ret

/-- `extract_vector`, src/lib.rs:135-142. -/
def extractVector (a : MV A S) : Res (List T) := (List.range A.dim).mapM (fun i => a.getByIdx (ushl 1 i))

/-- `grade_extract_as`, src/lib.rs:144-157. -/
def gradeExtractAs (a : MV A S) (grade : Nat) : Res (MV A S') := do
  let ret ← default (A := A) (S := S')
  return (a.gradeEnumerate grade).foldl (fun (ret : MV A S') p => ret.setByIdx p.1 p.2) ret

/-- `grade_extract`, src/lib.rs:130-133. -/
def gradeExtract (a : MV A S) (grade : Nat) : Res (MV A S) := gradeExtractAs a grade

/-- `to_storage_type`, src/lib.rs:159-171. -/
def toStorageType (a : MV A S) : Res (MV A S') := do
  let ret ← default (A := A) (S := S')
  return a.coeffEnumerate.foldl (fun (ret : MV A S') p => if p.2 ≠ 0 then ret.setByIdx p.1 p.2 else ret) ret

/-- `add_impl`, src/lib.rs:173-179; operator `+`, src/ops.rs:8-19. -/
def add (a b : MV A S) : Res (MV A S) := do
  let s ← CoeffStorage.add (T := T) a.coeffs b.coeffs
  return ⟨s⟩

/-- `sub_impl`, src/lib.rs:181-187; operator `-`, src/ops.rs:21-32. -/
def sub (a b : MV A S) : Res (MV A S) := do
  let s ← CoeffStorage.sub (T := T) a.coeffs b.coeffs
  return ⟨s⟩

/-- `neg_impl`, src/lib.rs:189-191; unary `-`, src/ops.rs:104-112. -/
def neg (a : MV A S) : Res (MV A S) :=
  unwrap (fromIndexedIter (a.coeffEnumerate.map (fun p => (p.1, -p.2))))

/-- `PartialEq::eq`, src/lib.rs:523-532. -/
def beq (a b : MV A S) : Bool := CoeffStorage.beq (T := T) a.coeffs b.coeffs

/-- `is_zero`, src/lib.rs:604-606. -/
def isZero (a : MV A S) : Bool := a.coeffEnumerate.all (fun p => decide (p.2 = 0))

/-- The `match sign { Null => {}, Plus => set(idx, c + x*y), Minus => set(idx, c - x*y) }` statement shared by
src/lib.rs:198-203, 225-230 and 241-246; `c` is read before the sign is matched. -/
def accumulate (ret : MV A S) (idx : Nat) (sign : Res Sign) (x y : T) : Res (MV A S) := do
  let c ← ret.getByIdx idx
  match (← sign) with
  | .Null => return ret
  | .Plus => return ret.setByIdx idx (c + x * y)
  | .Minus => return ret.setByIdx idx (c - x * y)

/-- `naive_wedge_impl`, src/lib.rs:193-207. -/
def naiveWedgeImpl (a b : MV A S) : Res (MV A S) := do
  let ret ← default (A := A) (S := S)
  a.coeffEnumerate.foldlM (fun (ret : MV A S) p =>
    b.coeffEnumerate.foldlM (fun (ret : MV A S) q =>
      ret.accumulate (p.1 ^^^ q.1) (A.bladeWedgeProductSign p.1 q.1) p.2 q.2) ret) ret

/-- The sign of src/lib.rs:215-223. -/
def meetSign (A : ClAlg) (mask selfIdx rhsIdx : Nat) : Res Sign := do
  let selfDualIdx := mask &&& unot selfIdx
  let rhsDualIdx := mask &&& unot rhsIdx
  let dualIdx := mask &&& unot (selfIdx ^^^ rhsIdx)
  let s1 ← A.bladeWedgeProductSign selfDualIdx rhsDualIdx
  let s2 ← A.bladeWedgeProductSign selfDualIdx selfIdx
  let s3 ← A.bladeWedgeProductSign rhsDualIdx rhsIdx
  let s4 ← A.bladeWedgeProductSign (selfIdx ^^^ rhsIdx) dualIdx
  return s1 * s2 * s3 * s4

/-- `naive_meet_impl`, src/lib.rs:209-234.  (In Rust the sign is computed before the old coefficient is read; both are
pure.) -/
def naiveMeetImpl (a b : MV A S) : Res (MV A S) := do
  let ret ← default (A := A) (S := S)
  let mask := A.realMask ||| A.imagMask ||| A.projMask
  a.coeffEnumerate.foldlM (fun (ret : MV A S) p =>
    b.coeffEnumerate.foldlM (fun (ret : MV A S) q =>
      ret.accumulate (mask &&& unot (p.1 ^^^ q.1)) (meetSign A mask p.1 q.1) p.2 q.2) ret) ret

/-- `naive_mul_impl`, src/lib.rs:236-250; operator `*`, src/ops.rs:34-45. -/
def naiveMulImpl (a b : MV A S) : Res (MV A S) := do
  let ret ← default (A := A) (S := S)
  a.coeffEnumerate.foldlM (fun (ret : MV A S) p =>
    b.coeffEnumerate.foldlM (fun (ret : MV A S) q =>
      ret.accumulate (p.1 ^^^ q.1) (A.bladeGeoProductSign p.1 q.1) p.2 q.2) ret) ret

/-- `scalar_part`, src/lib.rs:263-266. -/
def scalarPart (a : MV A S) : Res T := a.getByIdx 0

/-- `approx_eq`, src/lib.rs:268-277, with coefficient norms in an ordered type. -/
def approxEq {N : Type} [LT N] [DecidableLT N] (norm : T → N) (a b : MV A S) (precision : N) : Res Bool := do
  let diff ← a.sub b
  return diff.coeffEnumerate.all (fun p => decide (norm p.2 < precision))

/-- `pow`, src/lib.rs:279-294. -/
def pow (a : MV A S) (n : Nat) : Res (MV A S) :=
  if n = 0 then one (T := T)
  else if n = 1 then .ok a
  else do
    let x ← pow a (n >>> 1)
    if n &&& 1 = 0 then x.naiveMulImpl x
    else do
      let y ← x.naiveMulImpl x
      y.naiveMulImpl a
  termination_by n
  decreasing_by rw [Nat.shiftRight_one]; omega

/-- `flip`, src/lib.rs:329-343. -/
def flip (a : MV A S) : Res (MV A S) := do
  let ret ← default (A := A) (S := S)
  return a.coeffEnumerate.foldl (fun (ret : MV A S) p =>
    ret.setByIdx p.1 (if countOnes p.1 % 2 = 0 then p.2 else -p.2)) ret

/-- `flip_subspace`, src/lib.rs:345-359. -/
def flipSubspace (a : MV A S) (mask : Nat) : Res (MV A S) := do
  let ret ← default (A := A) (S := S)
  return a.coeffEnumerate.foldl (fun (ret : MV A S) p =>
    ret.setByIdx p.1 (if countOnes (p.1 &&& mask) % 2 = 0 then p.2 else -p.2)) ret

/-- `rev_c`, src/lib.rs:361-368. -/
def revC (idx : Nat) (coeff : T) : T :=
  if countOnes idx % 4 = 0 ∨ countOnes idx % 4 = 1 then coeff else -coeff

/-- `rev`, src/lib.rs:370-377. -/
def rev (a : MV A S) : Res (MV A S) := do
  let ret ← default (A := A) (S := S)
  return a.coeffEnumerate.foldl (fun (ret : MV A S) p => ret.setByIdx p.1 (revC p.1 p.2)) ret

/-- `dual`, src/lib.rs:379-395. -/
def dual (a : MV A S) : Res (MV A S) := do
  let mask := A.projMask ||| A.imagMask ||| A.realMask
  let ret ← default (A := A) (S := S)
  a.coeffEnumerate.foldlM (fun (ret : MV A S) p => do
    let dualIdx := unot p.1 &&& mask
    match (← A.bladeWedgeProductSign dualIdx p.1) with
    | .Null => .error .panic
    | .Plus => return ret.setByIdx dualIdx p.2
    | .Minus => return ret.setByIdx dualIdx (-p.2)) ret

/-- `undual`, src/lib.rs:397-413. -/
def undual (a : MV A S) : Res (MV A S) := do
  let mask := A.projMask ||| A.imagMask ||| A.realMask
  let ret ← default (A := A) (S := S)
  a.coeffEnumerate.foldlM (fun (ret : MV A S) p => do
    let dualIdx := unot p.1 &&& mask
    match (← A.bladeWedgeProductSign p.1 dualIdx) with
    | .Null => .error .panic
    | .Plus => return ret.setByIdx dualIdx p.2
    | .Minus => return ret.setByIdx dualIdx (-p.2)) ret

/-- `vsdot`, src/lib.rs:415-422. -/
def vsdot (a b : MV A S) : Res T :=
  a.coeffEnumerate.foldlM (fun ret p => do return ret + p.2 * (← b.getByIdx p.1)) 0

/-- `vdot`, src/lib.rs:424-441. -/
def vdot (a b : MV A S) : Res T :=
  a.coeffEnumerate.foldlM (fun ret p => do
    match (← A.bladeGeoProductSign p.1 p.1) with
    | .Null => return ret
    | .Plus => return ret + p.2 * (← b.getByIdx p.1)
    | .Minus => return ret - p.2 * (← b.getByIdx p.1)) 0

/-- `mag2`, src/lib.rs:443-460. -/
def mag2 (a : MV A S) : Res T :=
  a.coeffEnumerate.foldlM (fun ret p => do
    match (← A.bladeGeoProductSign p.1 p.1) with
    | .Null => return ret
    | .Plus => return ret + revC p.1 p.2 * (← a.getByIdx p.1)
    | .Minus => return ret - revC p.1 p.2 * (← a.getByIdx p.1)) 0

/-- `revc`, src/lib.rs:485-495, with the conjugation of the coefficient type as a parameter. -/
def revc (conj : T → T) (a : MV A S) : Res (MV A S) :=
  unwrap (fromIndexedIter (a.coeffEnumerate.map (fun p => (p.1, revC p.1 (conj p.2)))))

/-- `cmag2`, src/lib.rs:462-473. -/
def cmag2 (conj : T → T) (a : MV A S) : Res T := do
  let conjugate ← unwrap (fromIndexedIter (A := A) (S := S)
    (a.coeffEnumerate.map (fun p => (p.1, revC p.1 (conj p.2)))))
  conjugate.vdot a

/-- Scalar multiplication `mv * t`, src/ops.rs:70-85. -/
def smul (a : MV A S) (t : T) : Res (MV A S) := do
  let ret ← default (A := A) (S := S)
  return a.coeffEnumerate.foldl (fun (ret : MV A S) p => ret.setByIdx p.1 (p.2 * t)) ret

/-- `basis()[n]` / `basis_sparse()[n]`, src/algebra.rs:63-82: `zero().set_by_idx(1 << n, one)`. -/
def basisVec (n : Nat) : Res (MV A S) := do
  let z ← default (A := A) (S := S)
  return z.setByIdx (ushl 1 n) (1 : T)

/-- `basis()`, src/algebra.rs:64-82, src/mv_dense.rs:55-60, src/mv_sparse.rs:23-28. -/
def basis : Res (List (MV A S)) := (List.range A.dim).mapM (fun n => basisVec (T := T) n)

end MV

/-- Division of coefficients, `ref_div`: division by zero does not panic for floats but leaves the field. -/
def fdiv {T : Type} [Zero T] [Div T] [DecidableEq T] (x y : T) : Res T :=
  if y = 0 then .error .nonFinite else .ok (x / y)

namespace MV

variable {A : ClAlg} {S : Type} {T : Type} [Zero T] [One T] [Add T] [Sub T] [Neg T] [Mul T] [Div T] [DecidableEq T] [CoeffStorage S T]

/-- Division by a scalar `mv / t`, src/ops.rs:87-102. -/
def sdiv (a : MV A S) (t : T) : Res (MV A S) := do
  let ret ← default (A := A) (S := S)
  a.coeffEnumerate.foldlM (fun (ret : MV A S) p => do
    let v ← fdiv p.2 t
    return ret.setByIdx p.1 v) ret

/-- `revm`, src/lib.rs:475-483. -/
def revm (a : MV A S) : Res (MV A S) := do
  let r ← a.rev
  let m ← a.mag2
  r.sdiv m

/-- `revcm`, src/lib.rs:497-505. -/
def revcm (conj : T → T) (a : MV A S) : Res (MV A S) := do
  let r ← a.revc conj
  let m ← a.cmag2 conj
  r.sdiv m

/-- Division of multivectors of a division algebra, src/ops.rs:50-68 (the trait bound `A: DivisionAlgebra` is a
hypothesis of the theorems). -/
def div (a b : MV A S) : Res (MV A S) := do
  let r ← b.rev
  let rhsConj ← r.flip
  let prod ← b.naiveMulImpl rhsConj
  let rhsNorm ← prod.getByIdx 0
  let s ← CoeffStorage.coeffMapMut (T := T) rhsConj.coeffs (fun c => fdiv c rhsNorm)
  a.naiveMulImpl ⟨s⟩

end MV

end TClifford
