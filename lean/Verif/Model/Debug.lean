import Verif.Model.FFT
/-
The transforms of src/clifft/mod.rs and their callers as a debug build runs them: `debug_assert!` is active, and `+`, `*`
and `<<` on `usize` panic on overflow.  (`Verif/Model/Clifft.lean` and `Verif/Model/FFT.lean` model the release build.)
The storage functions called by `fft` and `ifft` are those of the release build.
-/

namespace TClifford

/-- `a + b` on `usize`, with overflow check. -/
def uaddD (a b : Nat) : Res Nat := if a + b < usizeSize then .ok (a + b) else .error .panic

/-- `a * b` on `usize`, with overflow check. -/
def umulD (a b : Nat) : Res Nat := if a * b < usizeSize then .ok (a * b) else .error .panic

/-- `a << s` on `usize`, with check of the shift amount. -/
def ushlD (a s : Nat) : Res Nat := if s < 64 then .ok (ushl a s) else .error .panic

/-- `debug_assert!(p)`. -/
def debugAssert (p : Prop) [Decidable p] : Res Unit := if p then .ok () else .error .panic

section
variable {T : Type} [Zero T] [Add T] [Sub T] [Neg T]

/-- `cl_dim(size)`, src/clifft/mod.rs:30-41. -/
def clDimD (size : Nat) : Res Nat :=
  if size = 0 then .error (.cl .InvalidShape)
  else do
    let p ← ushlD 1 (Nat.log2 size)
    if p ≠ size then .error (.cl .InvalidShape) else .ok (Nat.log2 size)

/-- The allocation of `clifft_nn`, src/clifft/mod.rs:50-56. -/
def clifftAllocD (coeffs : Arr1 T) : Res (Arr2 T) := do
  let dim ← clDimD coeffs.len
  let mside ← ushlD 1 (dim / 2)
  return Arr2.zeros mside mside

/-- `clifft_nn_into(coeffs, dest)`, src/clifft/mod.rs:63-115, with the assertions of lines 81 and 82. -/
def clifftNnIntoD (coeffs : Arr1 T) (dest : Arr2 T) : Res (Arr2 T) :=
  let size := coeffs.len
  if size = 1 then
    .ok ⟨dest.rows, dest.cols, fun i j => if i = 0 ∧ j = 0 then coeffs.get 0 else dest.get i j⟩
  else
    match _hd : clDimD size with
    | .error e => .error e
    | .ok dim => do
      let quarterSize := size / 4
      let mside ← ushlD 1 (dim / 2)
      let q := mside / 2
      debugAssert ((← umulD mside mside) = size)
      debugAssert ((← umulD q q) = quarterSize)
      let mv0 := coeffs.splitAt (size / 2)
      let mv00 : Arr1 T := ⟨quarterSize, mv0.1.get⟩
      let mv01 : Arr1 T := ⟨size / 2 - quarterSize, fun i => mv0.1.get (i + quarterSize)⟩
      let mv10 : Arr1 T := ⟨quarterSize, mv0.2.get⟩
      let mv11 : Arr1 T := ⟨size - size / 2 - quarterSize, fun i => mv0.2.get (i + quarterSize)⟩
      let abcd := dest.quarters q q
      let mx00 ← clifftNnIntoD mv00 (← clifftAllocD mv00)
      let mx01 ← clifftNnIntoD mv01 (← clifftAllocD mv01)
      let mx10 ← clifftNnIntoD mv10 (← clifftAllocD mv10)
      let mx11 ← clifftNnIntoD mv11 (← clifftAllocD mv11)
      let put (m : Arr2 T) (f : Nat → Nat → T) : Arr2 T :=
        ⟨m.rows, m.cols, fun i j => if i < q ∧ j < q then f i j else m.get i j⟩
      let a := put abcd.1 (fun i j => mx00.get i j + mx11.get i j)
      let c := put abcd.2.2.1 (fun i j => mx01.get i j - mx10.get i j)
      let b := put abcd.2.1 (fun i j => alpha (mx01.get i j + mx10.get i j) i j)
      let d := put abcd.2.2.2 (fun i j => alpha (mx00.get i j - mx11.get i j) i j)
      return Arr2.joinQuarters a b c d
  termination_by coeffs.len
  decreasing_by
    all_goals
      have h0 : coeffs.len ≠ 0 := by
        intro h
        have hd : clDimD coeffs.len = .ok dim := _hd
        simp [h, clDimD] at hd
      omega

/-- `clifft_nn(coeffs)`, src/clifft/mod.rs:46-61. -/
def clifftNnD (coeffs : Arr1 T) : Res (Arr2 T) := do
  let res ← clifftAllocD coeffs
  clifftNnIntoD coeffs res

end

section
variable {T : Type} [Zero T] [One T] [Add T] [Sub T] [Neg T] [Div T]

/-- `iclifft_nn_into(matrix, dest)`, src/clifft/mod.rs:131-174, with the assertion of line 148. -/
def iclifftNnIntoD (matrix : Arr2 T) (dest : Arr1 T) : Res (Arr1 T) :=
  let mside := matrix.rows
  if badSquare matrix then .error (.cl .InvalidShape)
  else if dest.len < mside * mside then .error .panic
  else if _h1 : mside = 1 then .ok (dest.set 0 (matrix.get 0 0))
  else if _h0 : mside = 0 then .error (.cl .InvalidShape)  -- excluded by the first check
  else do
    let q := mside / 2
    let size ← umulD mside mside
    let qs ← umulD q q
    debugAssert (qs = size / 4)
    let abcd := matrix.quarters q q
    let a : Arr2 T := ⟨q, abcd.1.cols, abcd.1.get⟩
    let b : Arr2 T := ⟨q, abcd.2.1.cols, abcd.2.1.get⟩
    let c : Arr2 T := ⟨mside - q, abcd.2.2.1.cols, abcd.2.2.1.get⟩
    let d : Arr2 T := ⟨mside - q, abcd.2.2.2.cols, abcd.2.2.2.get⟩
    let mvA ← iclifftNnIntoD a (Arr1.zeros a.size)
    let mvB ← iclifftNnIntoD b (Arr1.zeros b.size)
    let mvC ← iclifftNnIntoD c (Arr1.zeros c.size)
    let mvD ← iclifftNnIntoD d (Arr1.zeros d.size)
    let two : T := 1 + 1
    return ⟨dest.len, fun k =>
      if k < size / 2 then
        if k < qs then (mvA.get k + alpha (mvD.get k) k 0) / two
        else if k - qs < qs then (alpha (mvB.get (k - qs)) (k - qs) 0 + mvC.get (k - qs)) / two
        else dest.get k
      else if k - size / 2 < qs then
        (alpha (mvB.get (k - size / 2)) (k - size / 2) 0 - mvC.get (k - size / 2)) / two
      else if k - size / 2 - qs < qs then
        (mvA.get (k - size / 2 - qs) - alpha (mvD.get (k - size / 2 - qs)) (k - size / 2 - qs) 0) / two
      else dest.get k⟩
  termination_by matrix.rows
  decreasing_by all_goals omega

end

section
variable {T K : Type} [Zero K] [One K] [Add K] [Sub K] [Neg K] [Mul K] [Div K] [HasI K] [IntoComplex T K]

/-- The array `arr` of src/clifft/mod.rs:225-248 (and 260-283). -/
def clifftScaledD (coeffs : Arr1 T) : Res (Arr1 K) := do
  let dim ← clDimD coeffs.len
  let dim ← if dim &&& 1 = 1 then uaddD dim 1 else .ok dim
  let size ← ushlD 1 dim
  return ⟨size, fun idx =>
    if idx < coeffs.len then IntoComplex.into (coeffs.get idx) * iPow (countOnes (idx &&& oddMask)) else 0⟩

/-- `clifft(coeffs)`, src/clifft/mod.rs:221-251. -/
def clifftD (coeffs : Arr1 T) : Res (Arr2 K) := do
  let arr ← clifftScaledD (K := K) coeffs
  clifftNnD arr

/-- `clifft_into(coeffs, dest)`, src/clifft/mod.rs:253-286. -/
def clifftIntoD (coeffs : Arr1 T) (dest : Arr2 K) : Res (Arr2 K) := do
  let arr ← clifftScaledD (K := K) coeffs
  clifftNnIntoD arr dest

/-- `iclifft_into(matrix, dest)`, src/clifft/mod.rs:297-316. -/
def iclifftIntoD (matrix : Arr2 K) (dest : Arr1 K) : Res (Arr1 K) := do
  let d ← iclifftNnIntoD matrix dest
  return ⟨d.len, fun idx => d.get idx * iPowNeg (countOnes (idx &&& oddMask))⟩

/-- `iclifft(matrix)`, src/clifft/mod.rs:291-295. -/
def iclifftD (matrix : Arr2 K) : Res (Arr1 K) := iclifftIntoD matrix (Arr1.zeros matrix.size)

end

namespace MV
variable {A : ClAlg} {T K : Type} [Zero T] [One T] [Add T] [Sub T] [Neg T] [Mul T] [DecidableEq T]
  [Zero K] [One K] [Add K] [Sub K] [Neg K] [Mul K] [Div K] [DecidableEq K] [HasI K]

/-- `fft`, src/mv_dense.rs:72-94. -/
def fftD [IntoComplex T K] (a : MV A (ArrayStorage T)) : Res (FFTRepr A K) := do
  let matrixSide ← ushlD 1 ((countOnes (A.realMask ||| A.imagMask) + 1) / 2)
  let wcount ← ushlD 1 (countOnes A.projMask)
  let ret : Arr3 K := Arr3.zeros wcount matrixSide matrixSide
  let cself : MV A.complexification (ArrayStorage K) ← a.complexify
  let view := cself.coeffs.array
  let step ← uaddD (A.realMask ||| A.imagMask) 1
  let arr ← (List.range wcount).foldlM (fun (arr : Arr3 K) i => do
    let lo ← umulD i step
    let hi ← umulD (← uaddD i 1) step
    let v ← view.slice lo hi
    let m ← unwrap (clifftIntoD v (arr.layer i))
    return arr.setLayer i m) ret
  return ⟨arr⟩

/-- `real_fft`, src/mv_dense.rs:96-107. -/
def realFftD (a : MV A (ArrayStorage T)) : Res (Arr2 T) := unwrap (clifftNnD a.coeffs.array)

end MV

namespace FFTRepr
variable {A : ClAlg} {K : Type} [Zero K] [One K] [Add K] [Sub K] [Neg K] [Mul K] [Div K] [DecidableEq K] [HasI K]

/-- `ifft`, src/fftrepr/mod.rs:78-100. -/
def ifftD {T : Type} [Zero T] [One T] [Add T] [Sub T] [Neg T] [Mul T] [DecidableEq T] [FromComplex T K]
    (r : FFTRepr A K) : Res (MV A (ArrayStorage T)) := do
  let retC ← MV.default (A := A.complexification.even) (S := ArrayStorage K)
  let reprNonnullDim ← uaddD A.complexification.even.realDim A.complexification.even.imagDim
  let step ← ushlD 1 reprNonnullDim
  let arr ← (List.range r.arr.d0).foldlM (fun (arr : Arr1 K) i => do
    let lo ← umulD i step
    let hi ← umulD (← uaddD i 1) step
    let sl ← arr.slice lo hi
    let v ← unwrap (iclifftIntoD (r.arr.layer i) sl)
    return arr.setSlice lo v) retC.coeffs.array
  let ret : MV A.complexification.even (ArrayStorage K) := ⟨⟨retC.coeffs.dim, arr⟩⟩
  let orig ← ret.intoOriginal
  orig.decomplexify

/-- `from_array3`, src/fftrepr/mod.rs:58-69 (`count_ones` is `u32`; no overflow for at most 64 generators). -/
def fromArray3D (arr : Arr3 K) : Res (FFTRepr A K) := do
  let nonnullDim := countOnes (A.realMask ||| A.imagMask)
  let reprNonnullDim := ((nonnullDim + 1) / 2) * 2
  let matrixSide ← ushlD 1 (reprNonnullDim / 2)
  let shifted ← if nonnullDim < 64 then .ok (A.projMask >>> nonnullDim) else .error .panic
  let nullSize ← uaddD shifted 1
  if arr.dims ≠ (nullSize, matrixSide, matrixSide) then .error (.cl .InvalidShape)
  else .ok ⟨arr⟩

end FFTRepr

end TClifford
