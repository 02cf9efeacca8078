import Verif.Model.NdArray
import Mathlib.Algebra.Field.Defs
/-
Models src/clifft/mod.rs: the fast Clifford-Fourier transform.
`debug_assert!`s are not modelled (release build).
-/

namespace TClifford

/-- The imaginary unit `Complex64 { re: 0., im: 1. }`. -/
class HasI (K : Type) where
  I : K

/-- In exact arithmetic `Complex64` is modelled by a field with a chosen square root of `-1`. -/
class ImagUnit (K : Type) [Ring K] extends HasI K where
  I_mul_I : I * I = -1

/-- `trait IntoComplex64`, src/types.rs:101-103. -/
class IntoComplex (T K : Type) where
  into : T → K

/-- `trait FromComplex`, src/types.rs:70-72. -/
class FromComplex (T K : Type) where
  from_ : K → T

/-- `IntoComplex64 for Complex64`, src/types.rs:123-127. -/
instance (priority := low) (K : Type) : IntoComplex K K := ⟨id⟩

/-- `FromComplex for Complex64`, src/types.rs:83-87. -/
instance (priority := low) (K : Type) : FromComplex K K := ⟨id⟩

/-- `I_POWERS[n % 4]` of src/clifft/mod.rs:240-245 (also 275-280 and `I_REV_POWERS`, src/complexification.rs:159-164). -/
def iPow {K : Type} [One K] [Neg K] [HasI K] (n : Nat) : K :=
  match n % 4 with
  | 0 => 1
  | 1 => HasI.I
  | 2 => -1
  | _ => -HasI.I

/-- `I_POWERS[n % 4]` of src/clifft/mod.rs:305-310 (also src/complexification.rs:121-126). -/
def iPowNeg {K : Type} [One K] [Neg K] [HasI K] (n : Nat) : K :=
  match n % 4 with
  | 0 => 1
  | 1 => -HasI.I
  | 2 => -1
  | _ => HasI.I

/-- `0xAAAAAAAAAAAAAAAAusize`, src/clifft/mod.rs:239, 274, 304. -/
def oddMask : Nat := 0xAAAAAAAAAAAAAAAA

section
variable {T : Type} [Zero T] [Add T] [Sub T] [Neg T]

/-- `alpha(c, i, j)`, src/clifft/mod.rs:15-25. -/
def alpha (c : T) (i j : Nat) : T := if countOnes (i ^^^ j) &&& 1 = 1 then -c else c

/-- `cl_dim(size)`, src/clifft/mod.rs:30-41. -/
def clDim (size : Nat) : Res Nat :=
  if size = 0 then .error (.cl .InvalidShape)
  else if ushl 1 (Nat.log2 size) ≠ size then .error (.cl .InvalidShape)
  else .ok (Nat.log2 size)

/-- The allocation of `clifft_nn`, src/clifft/mod.rs:50-56. -/
def clifftAlloc (coeffs : Arr1 T) : Res (Arr2 T) := do
  let dim ← clDim coeffs.len
  return Arr2.zeros (ushl 1 (dim / 2)) (ushl 1 (dim / 2))

/-- `clifft_nn_into(coeffs, dest)`, src/clifft/mod.rs:63-115: returns `dest` after the call.  The four recursive calls
`clifft_nn(mv_xx)?` are `clifftAlloc` followed by `clifft_nn_into` (lines 46-61).  `dest` has the shape computed by the
caller, so that no access to it is out of range. -/
def clifftNnInto (coeffs : Arr1 T) (dest : Arr2 T) : Res (Arr2 T) :=
  let size := coeffs.len
  if size = 1 then
    .ok ⟨dest.rows, dest.cols, fun i j => if i = 0 ∧ j = 0 then coeffs.get 0 else dest.get i j⟩
  else
    match _hd : clDim size with
    | .error e => .error e
    | .ok dim => do
      let quarterSize := size / 4
      let mside := ushl 1 (dim / 2)
      let q := mside / 2
      let mv0 := coeffs.splitAt (size / 2)
      let mv00 : Arr1 T := ⟨quarterSize, mv0.1.get⟩
      let mv01 : Arr1 T := ⟨size / 2 - quarterSize, fun i => mv0.1.get (i + quarterSize)⟩
      let mv10 : Arr1 T := ⟨quarterSize, mv0.2.get⟩
      let mv11 : Arr1 T := ⟨size - size / 2 - quarterSize, fun i => mv0.2.get (i + quarterSize)⟩
      let abcd := dest.quarters q q
      let mx00 ← clifftNnInto mv00 (← clifftAlloc mv00)
      let mx01 ← clifftNnInto mv01 (← clifftAlloc mv01)
      let mx10 ← clifftNnInto mv10 (← clifftAlloc mv10)
      let mx11 ← clifftNnInto mv11 (← clifftAlloc mv11)
      let put (m : Arr2 T) (f : Nat → Nat → T) : Arr2 T :=
        ⟨m.rows, m.cols, fun i j => if i < q ∧ j < q then f i j else m.get i j⟩
      let a := put abcd.1 (fun i j => mx00.get i j + mx11.get i j)
      let c := put abcd.2.2.1 (fun i j => mx01.get i j - mx10.get i j)
      let b := put abcd.2.1 (fun i j => alpha (mx01.get i j + mx10.get i j) i j)
      let d := put abcd.2.2.2 (fun i j => alpha (mx00.get i j - mx11.get i j) i j)
      return Arr2.joinQuarters a b c d
  termination_by coeffs.len
  decreasing_by
    all_goals
      have h0 : coeffs.len ≠ 0 := by
        intro h
        have hd : clDim coeffs.len = .ok dim := _hd
        simp [h, clDim] at hd
      omega

/-- `clifft_nn(coeffs)`, src/clifft/mod.rs:46-61. -/
def clifftNn (coeffs : Arr1 T) : Res (Arr2 T) := do
  let res ← clifftAlloc coeffs
  clifftNnInto coeffs res

/-- `parity_flip`, src/clifft/mod.rs:350-360. -/
def parityFlip (m : Arr2 T) : Arr2 T := ⟨m.rows, m.cols, fun i j => alpha (m.get i j) i j⟩

/-- `imaginary_flip_inplace`, src/clifft/mod.rs:318-348 (result = matrix after the call).
An empty matrix would recurse forever; the callers only pass non-empty matrices. -/
def imaginaryFlipInplace (m : Arr2 T) : Arr2 T :=
  if _h : m.size ≤ 1 then m
  else
    let h := m.rows
    let w := m.cols
    let abcd := m.quarters (h / 2) (w / 2)
    let put (m : Arr2 T) (f : Nat → Nat → T) : Arr2 T :=
      ⟨m.rows, m.cols, fun i j => if i < h / 2 ∧ j < w / 2 then f i j else m.get i j⟩
    let a := put abcd.1 (fun i j => alpha (abcd.2.2.2.get i j) i j)
    let d := put abcd.2.2.2 (fun i j => alpha (abcd.1.get i j) i j)
    let b := put abcd.2.1 (fun i j => alpha (abcd.2.2.1.get i j) i j)
    let c := put abcd.2.2.1 (fun i j => alpha (abcd.2.1.get i j) i j)
    let keep (m m' : Arr2 T) : Arr2 T := ⟨m.rows, m.cols, m'.get⟩
    Arr2.joinQuarters (keep a (imaginaryFlipInplace a)) (keep b (imaginaryFlipInplace b))
      (keep c (imaginaryFlipInplace c)) (keep d (imaginaryFlipInplace d))
  termination_by m.size
  decreasing_by
    all_goals
      simp only [Arr2.quarters, Arr2.size] at *
      have hr : 0 < m.rows := Nat.pos_of_ne_zero (by rintro h0; simp [h0] at _h)
      have hc : 0 < m.cols := Nat.pos_of_ne_zero (by rintro h0; simp [h0] at _h)
      rcases Nat.lt_or_ge 1 m.rows with h1 | h1
      · exact Nat.lt_of_le_of_lt (Nat.mul_le_mul_left _ (by omega)) (Nat.mul_lt_mul_of_pos_right (by omega) hc)
      · have hr1 : m.rows = 1 := by omega
        simp only [hr1] at *
        omega

/-- `m.nrows() != m.ncols() || m.nrows().count_ones() != 1` -/
def badSquare (m : Arr2 T) : Bool := m.rows ≠ m.cols || countOnes m.rows ≠ 1

/-- `imaginary_flip`, src/clifft/mod.rs:362-374. -/
def imaginaryFlip (m : Arr2 T) : Res (Arr2 T) :=
  if badSquare m then .error (.cl .InvalidShape) else .ok (imaginaryFlipInplace m)

/-- `reversal`, src/clifft/mod.rs:376-382. -/
def reversal (m : Arr2 T) : Res (Arr2 T) := imaginaryFlip m.transpose

end

section
variable {T : Type} [Zero T] [One T] [Add T] [Sub T] [Neg T] [Div T]

/-- `iclifft_nn_into(matrix, dest)`, src/clifft/mod.rs:131-174: returns `dest` after the call.  The recursive calls
`iclifft_nn(a)?` allocate zeros and fill them (lines 120-129).  If `dest` is too short some access is out of range. -/
def iclifftNnInto (matrix : Arr2 T) (dest : Arr1 T) : Res (Arr1 T) :=
  let mside := matrix.rows
  if badSquare matrix then .error (.cl .InvalidShape)
  else if dest.len < mside * mside then .error .panic
  else if _h1 : mside = 1 then .ok (dest.set 0 (matrix.get 0 0))
  else if _h0 : mside = 0 then .error (.cl .InvalidShape)  -- excluded by the first check
  else do
    let q := mside / 2
    let size := mside * mside
    let qs := q * q
    let abcd := matrix.quarters q q
    let a : Arr2 T := ⟨q, abcd.1.cols, abcd.1.get⟩
    let b : Arr2 T := ⟨q, abcd.2.1.cols, abcd.2.1.get⟩
    let c : Arr2 T := ⟨mside - q, abcd.2.2.1.cols, abcd.2.2.1.get⟩
    let d : Arr2 T := ⟨mside - q, abcd.2.2.2.cols, abcd.2.2.2.get⟩
    let mvA ← iclifftNnInto a (Arr1.zeros a.size)
    let mvB ← iclifftNnInto b (Arr1.zeros b.size)
    let mvC ← iclifftNnInto c (Arr1.zeros c.size)
    let mvD ← iclifftNnInto d (Arr1.zeros d.size)
    let two : T := 1 + 1
    -- dest is split at size/2, the halves at qs
    return ⟨dest.len, fun k =>
      if k < size / 2 then
        if k < qs then (mvA.get k + alpha (mvD.get k) k 0) / two
        else if k - qs < qs then (alpha (mvB.get (k - qs)) (k - qs) 0 + mvC.get (k - qs)) / two
        else dest.get k
      else if k - size / 2 < qs then
        (alpha (mvB.get (k - size / 2)) (k - size / 2) 0 - mvC.get (k - size / 2)) / two
      else if k - size / 2 - qs < qs then
        (mvA.get (k - size / 2 - qs) - alpha (mvD.get (k - size / 2 - qs)) (k - size / 2 - qs) 0) / two
      else dest.get k⟩
  termination_by matrix.rows
  decreasing_by all_goals omega

/-- `iclifft_nn(matrix)`, src/clifft/mod.rs:120-129. -/
def iclifftNn (matrix : Arr2 T) : Res (Arr1 T) := iclifftNnInto matrix (Arr1.zeros matrix.size)

end

section
variable {T K : Type} [Zero K] [One K] [Add K] [Sub K] [Neg K] [Mul K] [Div K] [HasI K] [IntoComplex T K]

/-- The array `arr` of src/clifft/mod.rs:225-248 (and 260-283). -/
def clifftScaled (coeffs : Arr1 T) : Res (Arr1 K) := do
  let dim ← clDim coeffs.len
  let dim := if dim &&& 1 = 1 then dim + 1 else dim
  let size := ushl 1 dim
  return ⟨size, fun idx =>
    if idx < coeffs.len then IntoComplex.into (coeffs.get idx) * iPow (countOnes (idx &&& oddMask)) else 0⟩

/-- `clifft(coeffs)`, src/clifft/mod.rs:221-251. -/
def clifft (coeffs : Arr1 T) : Res (Arr2 K) := do
  let arr ← clifftScaled (K := K) coeffs
  clifftNn arr

/-- `clifft_into(coeffs, dest)`, src/clifft/mod.rs:253-286. -/
def clifftInto (coeffs : Arr1 T) (dest : Arr2 K) : Res (Arr2 K) := do
  let arr ← clifftScaled (K := K) coeffs
  clifftNnInto arr dest

/-- `iclifft_into(matrix, dest)`, src/clifft/mod.rs:297-316. -/
def iclifftInto (matrix : Arr2 K) (dest : Arr1 K) : Res (Arr1 K) := do
  let d ← iclifftNnInto matrix dest
  return ⟨d.len, fun idx => d.get idx * iPowNeg (countOnes (idx &&& oddMask))⟩

/-- `iclifft(matrix)`, src/clifft/mod.rs:291-295. -/
def iclifft (matrix : Arr2 K) : Res (Arr1 K) := iclifftInto matrix (Arr1.zeros matrix.size)

end

end TClifford
