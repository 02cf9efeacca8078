import Verif.Model.Multivector
/-
Models src/mv_dense.rs (except `fft`/`real_fft`, see `Verif/Model/FFT.lean`) and src/mv_sparse.rs.
-/

namespace TClifford

variable {T : Type} [Zero T] [One T] [Add T] [Sub T] [Neg T] [Mul T] [DecidableEq T]

/-- The in-place grade involution loop, src/mv_dense.rs:177-181. -/
def alphaInplace (a : Arr1 T) : Arr1 T :=
  ⟨a.len, fun idx => if countOnes idx &&& 1 ≠ 0 then -a.get idx else a.get idx⟩

/-- `wedge_impl(a, b, dest)`, src/mv_dense.rs:157-192.  The result is `(a, dest)` after the call.  A view cannot change
its length, hence the explicit `⟨len, get⟩` around the buffers after a recursive call.
For `size == 0` the Rust function would not terminate; buffers always have length `2^dim`. -/
def wedgeImpl (a b dest : Arr1 T) : Arr1 T × Arr1 T :=
  if a.len = 0 then (a, dest)
  else if _h1 : a.len = 1 then (a, dest.set 0 (a.get 0 * b.get 0))
  else
    let half := a.len / 2
    let a01 := a.splitAt half
    let b01 := b.splitAt half
    let d01 := dest.splitAt half
    -- wedge_impl(a1, b0, dest1)
    let r1 := wedgeImpl a01.2 b01.1 d01.2
    let a1 : Arr1 T := ⟨a.len - half, r1.1.get⟩
    let dest1 : Arr1 T := ⟨d01.2.len, r1.2.get⟩
    -- in-place grade involution of a0, then wedge_impl(a0, b1, tmp) where tmp aliases dest0
    let a0 := alphaInplace ⟨half, a.get⟩
    let r2 := wedgeImpl a0 b01.2 d01.1
    let a0 : Arr1 T := ⟨half, r2.1.get⟩
    let tmp : Arr1 T := ⟨d01.1.len, r2.2.get⟩
    -- fill the top and return a0 back to its original state
    let dest1 : Arr1 T := ⟨dest1.len, fun idx => if idx < tmp.len then dest1.get idx + tmp.get idx else dest1.get idx⟩
    let a0 : Arr1 T := ⟨half, fun idx =>
      if idx < tmp.len ∧ countOnes idx &&& 1 ≠ 0 then -a0.get idx else a0.get idx⟩
    -- wedge_impl(a0, b0, dest0)
    let r3 := wedgeImpl a0 b01.1 tmp
    let a0 : Arr1 T := ⟨half, r3.1.get⟩
    let dest0 : Arr1 T := ⟨tmp.len, r3.2.get⟩
    (a0.join a1, dest0.join dest1)
  termination_by a.len
  decreasing_by
    all_goals try simp only [Arr1.splitAt, alphaInplace]
    all_goals omega

namespace MV
variable {A : ClAlg}

/-- Dense `wedge`, src/mv_dense.rs:123-137. -/
def wedgeDense (a b : MV A (ArrayStorage T)) : Res (MV A (ArrayStorage T)) :=
  if A.dim < 6 then a.naiveWedgeImpl b
  else do
    let ret ← default (A := A) (S := ArrayStorage T)
    let r := wedgeImpl a.coeffs.array b.coeffs.array ret.coeffs.array
    return ⟨⟨ret.coeffs.dim, r.2⟩⟩

/-- Dense `meet`, src/mv_dense.rs:139-153. -/
def meetDense (a b : MV A (ArrayStorage T)) : Res (MV A (ArrayStorage T)) :=
  if A.dim < 6 then a.naiveMeetImpl b
  else do
    let ret ← default (A := A) (S := ArrayStorage T)
    let sc ← a.dual
    let bd ← b.dual
    let r := wedgeImpl sc.coeffs.array bd.coeffs.array ret.coeffs.array
    undual (⟨⟨ret.coeffs.dim, r.2⟩⟩ : MV A (ArrayStorage T))

/-- Dense `filter`, src/mv_dense.rs:110-115. -/
def filter (a : MV A (ArrayStorage T)) (f : Nat → T → Bool) : Res (MV A (ArrayStorage T)) :=
  unwrap (fromIndexedIter (a.coeffEnumerate.filter (fun p => f p.1 p.2)))

/-- `to_sparse`, src/mv_dense.rs:62-65. -/
def toSparse [HashOrder T] (a : MV A (ArrayStorage T)) : Res (MV A (SparseStorage T)) := a.toStorageType

variable [HashOrder T]

/-- Sparse `wedge`, src/mv_sparse.rs:76-78. -/
def wedgeSparse (a b : MV A (SparseStorage T)) : Res (MV A (SparseStorage T)) := a.naiveWedgeImpl b

/-- Sparse `meet`, src/mv_sparse.rs:80-82. -/
def meetSparse (a b : MV A (SparseStorage T)) : Res (MV A (SparseStorage T)) := a.naiveMeetImpl b

/-- `to_dense`, src/mv_sparse.rs:30-32. -/
def toDense (a : MV A (SparseStorage T)) : Res (MV A (ArrayStorage T)) := a.toStorageType

/-- `grades_extract`, src/mv_sparse.rs:34-40. -/
def gradesExtract (a : MV A (SparseStorage T)) (grades : List Nat) : Res (MV A (SparseStorage T)) :=
  unwrap (fromIndexedIter (a.coeffEnumerate.filter (fun p => grades.contains (countOnes p.1))))

/-- `filter_inplace`, src/mv_sparse.rs:47-53; the closure may modify the coefficients it keeps. -/
def filterInplaceMut (a : MV A (SparseStorage T)) (f : Nat → T → Option T) : MV A (SparseStorage T) :=
  ⟨{ a.coeffs with coeffs := a.coeffs.coeffs.retain f }⟩

/-- `filter_inplace` (and `filtered`, src/mv_sparse.rs:55-63) with a closure that does not modify the coefficients. -/
def filterInplace (a : MV A (SparseStorage T)) (f : Nat → T → Bool) : MV A (SparseStorage T) :=
  a.filterInplaceMut (fun i c => if f i c then some c else none)

/-- `retain_grades`, src/mv_sparse.rs:42-45. -/
def retainGrades (a : MV A (SparseStorage T)) (grades : List Nat) : MV A (SparseStorage T) :=
  a.filterInplace (fun idx _ => grades.contains (countOnes idx))

/-- `coeff_count`, src/mv_sparse.rs:65-68. -/
def coeffCount (a : MV A (SparseStorage T)) : Nat := a.coeffs.coeffs.len

end MV

/-- `trait WedgeProduct`, src/types.rs:65-68. -/
class WedgeProduct (A : ClAlg) (S : Type) where
  wedge : MV A S → MV A S → Res (MV A S)
  meet : MV A S → MV A S → Res (MV A S)

/-- src/mv_dense.rs:118-154. -/
instance {A : ClAlg} : WedgeProduct A (ArrayStorage T) := ⟨MV.wedgeDense, MV.meetDense⟩

/-- src/mv_sparse.rs:71-83. -/
instance {A : ClAlg} [HashOrder T] : WedgeProduct A (SparseStorage T) := ⟨MV.wedgeSparse, MV.meetSparse⟩

namespace MV
variable {A : ClAlg} {S : Type} [WedgeProduct A S]

/-- `a.wedge(&b)`. -/
def wedge (a b : MV A S) : Res (MV A S) := WedgeProduct.wedge a b

/-- `a.meet(&b)`. -/
def meet (a b : MV A S) : Res (MV A S) := WedgeProduct.meet a b

end MV

end TClifford
