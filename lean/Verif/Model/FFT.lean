import Verif.Model.Dense
import Verif.Model.Complexification
import Verif.Model.MatrixInv
/-
Models src/fftrepr/mod.rs, src/fftrepr/wmul.rs and the `fft`/`real_fft` methods of src/mv_dense.rs.
-/

namespace TClifford

/-- `FFTRepr<A>`, src/fftrepr/mod.rs:37-41. -/
structure FFTRepr (A : ClAlg) (K : Type) where
  arr : Arr3 K

section wmul
variable {K : Type} [Zero K] [Add K] [Sub K] [Neg K] [Mul K]

/-- `wfft_repr_alpha_inplace`, src/fftrepr/wmul.rs:5-11. -/
def wAlphaInplace (a : Arr3 K) : Arr3 K :=
  ⟨a.d0, a.d1, a.d2, fun idx i j =>
    if (countOnes idx + countOnes (i ^^^ j)) &&& 1 = 1 then -a.get idx i j else a.get idx i j⟩

/-- `wmul_impl(a, b, dest)`, src/fftrepr/wmul.rs:13-47.  The result is `(a, dest)` after the call; see `wedgeImpl` for
the convention on views.  `dot` panics on incompatible matrix shapes.
The code has no case for `a.d0 = 0` and would recurse forever; callers pass `2 ^ n` layers, so the first branch is never taken. -/
def wmulImpl (a b dest : Arr3 K) : Res (Arr3 K × Arr3 K) :=
  if a.d0 = 0 then .ok (a, dest)
  else if _h1 : a.d0 = 1 then do
    let p ← (a.layer 0).dot (b.layer 0)
    return (a, dest.setLayer 0 p)
  else do
    let half := a.d0 / 2
    let a01 := a.splitAt half
    let b01 := b.splitAt half
    let d01 := dest.splitAt half
    let keep (n : Nat) (m m' : Arr3 K) : Arr3 K := ⟨n, m.d1, m.d2, m'.get⟩
    let r1 ← wmulImpl a01.2 b01.1 d01.2
    let a1 := keep (a.d0 - half) a r1.1
    let top := keep d01.2.d0 dest r1.2
    let a0 := wAlphaInplace ⟨half, a.d1, a.d2, a.get⟩
    let r2 ← wmulImpl a0 b01.2 d01.1
    let a0 := keep half a r2.1
    let tmp := keep d01.1.d0 dest r2.2
    let top : Arr3 K := ⟨top.d0, top.d1, top.d2, fun k i j => top.get k i j + tmp.get k i j⟩
    let a0 := wAlphaInplace a0
    let r3 ← wmulImpl ⟨half, a0.d1, a0.d2, a0.get⟩ b01.1 tmp
    let a0 := keep half a r3.1
    let bottom := keep tmp.d0 dest r3.2
    return (a0.join a1, bottom.join top)
  termination_by a.d0
  decreasing_by
    all_goals try simp only [Arr3.splitAt, wAlphaInplace]
    all_goals omega

/-- `wmul(a, b)`, src/fftrepr/wmul.rs:50-63. -/
def wmul (a b : Arr3 K) : Res (Arr3 K) :=
  if a.d0 = 1 then do
    let p ← (a.layer 0).dot (b.layer 0)
    -- into_shape_clone(a.dim()) fails if the number of elements differs
    if p.rows * p.cols = a.d0 * a.d1 * a.d2 ∧ p.cols = a.d2 then return ⟨a.d0, a.d1, a.d2, fun _ => p.get⟩
    else .error .panic
  else do
    let r ← wmulImpl a b (Arr3.zeros a.d0 a.d1 a.d2)
    return r.2

end wmul

namespace FFTRepr
variable {A : ClAlg} {K : Type} [Zero K] [One K] [Add K] [Sub K] [Neg K] [Mul K] [Div K] [DecidableEq K] [HasI K]

/-- `1 << (((real_mask | imag_mask).count_ones() + 1) / 2)`, src/fftrepr/mod.rs:370, src/mv_dense.rs:82. -/
def matrixSide (A : ClAlg) : Nat := ushl 1 ((countOnes (A.realMask ||| A.imagMask) + 1) / 2)

/-- `1 << proj_mask.count_ones()`, src/fftrepr/mod.rs:371, src/mv_dense.rs:83. -/
def wcount (A : ClAlg) : Nat := ushl 1 (countOnes A.projMask)

/-- `from_array3`, src/fftrepr/mod.rs:58-69. -/
def fromArray3 (arr : Arr3 K) : Res (FFTRepr A K) :=
  let nonnullDim := countOnes (A.realMask ||| A.imagMask)
  let reprNonnullDim := ((nonnullDim + 1) / 2) * 2
  let matrixSide := ushl 1 (reprNonnullDim / 2)
  let nullSize := (A.projMask >>> nonnullDim) + 1
  if arr.dims ≠ (nullSize, matrixSide, matrixSide) then .error (.cl .InvalidShape)
  else .ok ⟨arr⟩

/-- `into_array3`, src/fftrepr/mod.rs:147-149 (also `view`, 246-248). -/
def intoArray3 (r : FFTRepr A K) : Arr3 K := r.arr

/-- `from_array2`, src/fftrepr/mod.rs:151-160 (trait bound `NonDegenerate` is a hypothesis of the theorems). -/
def fromArray2 (m : Arr2 K) : Res (FFTRepr A K) := fromArray3 (Arr3.ofArr2 m)

/-- `into_array2`, src/fftrepr/mod.rs:162-167. -/
def intoArray2 (r : FFTRepr A K) : Arr2 K := r.arr.layer 0

/-- `Zero::zero`, src/fftrepr/mod.rs:369-373. -/
def zero : FFTRepr A K := ⟨Arr3.zeros (wcount A) (matrixSide A) (matrixSide A)⟩

/-- `One::one`, src/fftrepr/mod.rs:384-390. -/
def one : FFTRepr A K :=
  ⟨wcount A, matrixSide A, matrixSide A, fun k i j => if k = 0 ∧ i = j then 1 else 0⟩

/-- `is_zero`, src/fftrepr/mod.rs:375-377. -/
def isZero (r : FFTRepr A K) : Bool := r.arr.beq (Arr3.zeros r.arr.d0 r.arr.d1 r.arr.d2)

/-- `PartialEq`, src/fftrepr/mod.rs:405-412. -/
def beq (r s : FFTRepr A K) : Bool := r.arr.beq s.arr

/-- `+`, src/fftrepr/mod.rs:301-307. -/
def add (r s : FFTRepr A K) : Res (FFTRepr A K) := do return ⟨← Arr3.zip (· + ·) r.arr s.arr⟩

/-- `-`, src/fftrepr/mod.rs:309-315. -/
def sub (r s : FFTRepr A K) : Res (FFTRepr A K) := do return ⟨← Arr3.zip (· - ·) r.arr s.arr⟩

/-- `*`, src/fftrepr/mod.rs:317-323. -/
def mul (r s : FFTRepr A K) : Res (FFTRepr A K) := do return ⟨← wmul r.arr s.arr⟩

/-- Scalar `*`, src/fftrepr/mod.rs:325-339. -/
def smul (r : FFTRepr A K) (c : K) : FFTRepr A K := ⟨r.arr.map (· * c)⟩

/-- Scalar `/`, src/fftrepr/mod.rs:341-355 (division by zero leaves the field). -/
def sdiv (r : FFTRepr A K) (c : K) : Res (FFTRepr A K) :=
  if c = 0 then .error .nonFinite else .ok ⟨r.arr.map (· / c)⟩

/-- unary `-`, src/fftrepr/mod.rs:357-363. -/
def neg (r : FFTRepr A K) : FFTRepr A K := ⟨r.arr.map (- ·)⟩

/-- `pow`, src/fftrepr/mod.rs:132-145. -/
def pow (r : FFTRepr A K) (n : Nat) : Res (FFTRepr A K) :=
  if n = 0 then .ok one
  else if n = 1 then .ok r
  else do
    let x ← pow r (n >>> 1)
    if n &&& 1 = 0 then x.mul x
    else do
      let y ← x.mul x
      y.mul r
  termination_by n
  decreasing_by rw [Nat.shiftRight_one]; omega

/-- `ifft`, src/fftrepr/mod.rs:78-100. -/
def ifft {T : Type} [Zero T] [One T] [Add T] [Sub T] [Neg T] [Mul T] [DecidableEq T] [FromComplex T K] (r : FFTRepr A K) : Res (MV A (ArrayStorage T)) := do
  let retC ← MV.default (A := A.complexification.even) (S := ArrayStorage K)
  let reprNonnullDim := A.complexification.even.realDim + A.complexification.even.imagDim
  let step := ushl 1 reprNonnullDim
  let arr ← (List.range r.arr.d0).foldlM (fun (arr : Arr1 K) i => do
    let sl ← arr.slice (i * step) ((i + 1) * step)
    let v ← unwrap (iclifftInto (r.arr.layer i) sl)
    return arr.setSlice (i * step) v) retC.coeffs.array
  let ret : MV A.complexification.even (ArrayStorage K) := ⟨⟨retC.coeffs.dim, arr⟩⟩
  let orig ← ret.intoOriginal
  orig.decomplexify

/-- `inv`, src/fftrepr/mod.rs:169-178. -/
def inv {K : Type} [DivisionRing K] [DecidableEq K] {N : Type} [LinearOrder N] [Zero N] (norm : K → N) (r : FFTRepr A K) : Option (FFTRepr A K) := do
  let m ← matrixInv norm (r.arr.layer 0)
  return ⟨Arr3.ofArr2 m⟩

/-- `inv` with any entries, src/fftrepr/mod.rs:169-178. -/
def invG {K : Type} [Zero K] [One K] [Sub K] [Mul K] [Div K] {N : Type} (t : InvTests K N) (norm : K → N) (r : FFTRepr A K) :
    Option (FFTRepr A K) := do
  let m ← matrixInvG t norm (r.arr.layer 0)
  return ⟨Arr3.ofArr2 m⟩

/-- The body of the loop of `rev`, src/fftrepr/mod.rs:185-207. -/
def revLayer (i : Nat) (m : Arr2 K) : Res (Arr2 K) := do
  let v ← unwrap (reversal m)
  match countOnes i % 4 with
  | 0 => return v
  | 1 => return ⟨v.rows, v.cols, fun j k => if countOnes (j ^^^ k) % 2 = 1 then -v.get j k else v.get j k⟩
  | 2 => return ⟨v.rows, v.cols, fun j k => -v.get j k⟩
  | _ => return ⟨v.rows, v.cols, fun j k => if countOnes (j ^^^ k) % 2 = 0 then -v.get j k else v.get j k⟩

/-- `rev`, src/fftrepr/mod.rs:180-210.  `index_axis_mut` panics if `i` is out of range, `assign` if the shapes differ. -/
def rev (r : FFTRepr A K) : Res (FFTRepr A K) := do
  let ret : FFTRepr A K := zero
  let arr ← (List.range r.arr.d0).foldlM (fun (arr : Arr3 K) i => do
    let v ← revLayer i (r.arr.layer i)
    if i < arr.d0 ∧ v.rows = arr.d1 ∧ v.cols = arr.d2 then return arr.setLayer i v else .error .panic) ret.arr
  return ⟨arr⟩

/-- `flip`, src/fftrepr/mod.rs:212-221. -/
def flip (r : FFTRepr A K) : FFTRepr A K := ⟨wAlphaInplace r.arr⟩

/-- `trace`, src/fftrepr/mod.rs:223-230. -/
def trace (r : FFTRepr A K) : K := (List.range r.arr.d1).foldl (fun s i => s + r.arr.get 0 i i) 0

/-- `ntrace`, src/fftrepr/mod.rs:232-235. -/
def ntrace [NatCast K] (r : FFTRepr A K) : K := r.trace / (r.arr.d1 : K)

/-- `mag2`, src/fftrepr/mod.rs:258-260. -/
def mag2 [NatCast K] (r : FFTRepr A K) : Res K := do
  let s ← r.rev
  let p ← s.mul r
  return p.ntrace

/-- `approx_eq`, src/fftrepr/mod.rs:250-252 (for arrays of equal shape). -/
def approxEq {N : Type} [LT N] [DecidableLT N] (norm : K → N) (r s : FFTRepr A K) (precision : N) : Bool :=
  (List.range r.arr.d0).all fun k => (List.range r.arr.d1).all fun i => (List.range r.arr.d2).all fun j =>
    decide (norm (r.arr.get k i j - s.arr.get k i j) < precision)

/-- The inner loop of `into_half_spin_repr` (src/fftrepr/mod.rs:275-282 and 285-292): the entries of a row at the columns
whose number has `parity` set bits modulo 2, written one after another to a row of half the size (checked access). -/
def halfSpinRow (row : Nat → K) (size parity : Nat) : Res (Arr1 K) := do
  let tc ← (List.range size).foldlM (fun (tc : Arr1 K × Nat) j =>
    if countOnes j % 2 = parity then
      if tc.2 < tc.1.len then .ok (tc.1.set tc.2 (row j), tc.2 + 1) else .error .panic
    else .ok tc) (Arr1.zeros (size / 2), 0)
  return tc.1

/-- `m.append(Axis(0), row)` of a matrix and a row of the same width. -/
def appendRow (m : Arr2 K) (row : Arr1 K) : Arr2 K :=
  ⟨m.rows + 1, m.cols, fun i j => if i = m.rows then row.get j else m.get i j⟩

/-- `into_half_spin_repr`, src/fftrepr/mod.rs:262-298. -/
def intoHalfSpinRepr (r : FFTRepr A K) : Res (Arr2 K × Arr2 K) :=
  let m := r.intoArray2
  (List.range m.rows).foldlM (fun (eo : Arr2 K × Arr2 K) i => do
    if countOnes i % 2 = 0 then
      let tmp ← halfSpinRow (m.get i) m.cols 0
      return (appendRow eo.1 tmp, eo.2)
    else
      let tmp ← halfSpinRow (m.get i) m.cols 1
      return (eo.1, appendRow eo.2 tmp)) (Arr2.zeros 0 (m.cols / 2), Arr2.zeros 0 (m.cols / 2))

end FFTRepr

namespace MV
variable {A : ClAlg} {T K : Type} [Zero T] [One T] [Add T] [Sub T] [Neg T] [Mul T] [DecidableEq T]
  [Zero K] [One K] [Add K] [Sub K] [Neg K] [Mul K] [Div K] [DecidableEq K] [HasI K]

/-- `fft`, src/mv_dense.rs:72-94. -/
def fft [IntoComplex T K] (a : MV A (ArrayStorage T)) : Res (FFTRepr A K) := do
  let ret : Arr3 K := Arr3.zeros (FFTRepr.wcount A) (FFTRepr.matrixSide A) (FFTRepr.matrixSide A)
  let cself : MV A.complexification (ArrayStorage K) ← a.complexify
  let view := cself.coeffs.array
  let step := (A.realMask ||| A.imagMask) + 1
  let arr ← (List.range (FFTRepr.wcount A)).foldlM (fun (arr : Arr3 K) i => do
    let v ← view.slice (i * step) ((i + 1) * step)
    let m ← unwrap (clifftInto v (arr.layer i))
    return arr.setLayer i m) ret
  return ⟨arr⟩

/-- `real_fft`, src/mv_dense.rs:96-107 (trait bounds `SplitSignature + NonDegenerate` are hypotheses of the theorems). -/
def realFft (a : MV A (ArrayStorage T)) : Res (Arr2 T) := unwrap (clifftNn a.coeffs.array)

end MV

/-- `FFTRepr::basis()`, src/fftrepr/mod.rs:71-76. -/
def FFTRepr.basis {A : ClAlg} {K : Type} [Zero K] [One K] [Add K] [Sub K] [Neg K] [Mul K]
    [Div K] [DecidableEq K] [HasI K] : Res (List (FFTRepr A K)) :=
  (List.range A.dim).mapM (fun n => do
    let e ← MV.basisVec (A := A) (S := ArrayStorage K) n
    e.fft)

end TClifford
