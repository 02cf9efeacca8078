import Verif.Model.NdArray
import Mathlib.Algebra.Field.Defs
import Mathlib.Order.Defs.LinearOrder
/-
Models src/fftrepr/matrix.rs: Gauss-Jordan inverse.

The working array `w` of shape `(n, 2n)` is a function of row and column.  Inner loops over the columns `m` update each
entry of one row once, reading only entries of other rows and of the same column, so they are written as one
simultaneous update.

`matrixInvG` is the function for any type of entries, given how they are compared; `matrixInv` is its form in exact
arithmetic, where the NaN check of lines 64-67 never fires (`matrixInvG_eq` in Verif/Proofs/FloatInv.lean).
-/

namespace TClifford

section
variable {T N : Type} [Zero T] [One T] [Sub T] [Mul T] [Div T]

/-- Lines 28-32: `[mat | 1]`. -/
def invInit (mat : Arr2 T) : Nat → Nat → T := fun i j =>
  if j < mat.rows then mat.get i j else if j = mat.rows + i then 1 else 0

/-- Lines 50-52: swap two rows. -/
def invSwap (i k : Nat) (w : Nat → Nat → T) : Nat → Nat → T := fun r m =>
  if r = i then w k m else if r = k then w i m else w r m

/-- Lines 53-59: normalise the row `i` from column `i` on. -/
def invNormalize (i : Nat) (w : Nat → Nat → T) : Nat → Nat → T := fun r m =>
  if r = i ∧ i ≤ m then 1 / w i i * w i m else w r m

/-- Lines 62-63 and 79-80: subtract `coeff` times row `i` from row `j`, from column `lo` on. -/
def invSubRow (i j lo : Nat) (coeff : T) (w : Nat → Nat → T) : Nat → Nat → T := fun r m =>
  if r = j ∧ lo ≤ m then w j m - coeff * w i m else w r m

/-- Lines 75-83: the backward phase. -/
def invBackward (n : Nat) (w : Nat → Nat → T) : Nat → Nat → T :=
  (List.range n).reverse.foldl (fun w i =>
    (List.range i).reverse.foldl (fun w j => invSubRow i j j (1 / w i i * w j i) w) w) w

/-- The tests on entries and their norms: `is_zero`, `x != x` (lines 47, 64, 69) and `>` on norms (line 42). -/
structure InvTests (T N : Type) where
  isZero : T → Bool
  isNaN : T → Bool
  isZeroNorm : N → Bool
  gt : N → N → Bool

/-- Lines 36-46: norm and position of the pivot. -/
def invPivotG (t : InvTests T N) (norm : T → N) (n i : Nat) (w : Nat → Nat → T) : N × Nat :=
  (List.range' (i + 1) (n - (i + 1))).foldl
    (fun (st : N × Nat) j => if t.gt (norm (w j i)) st.1 then (norm (w j i), j) else st) (norm (w i i), i)

/-- Lines 60-72: eliminate below the pivot; `none` are the early returns of lines 66 and 70. -/
def invEliminateG (t : InvTests T N) (n i : Nat) (w : Nat → Nat → T) : Option (Nat → Nat → T) :=
  (List.range' (i + 1) (n - (i + 1))).foldlM (fun w j =>
    let w := invSubRow i j i (w j i) w
    if (List.range' i (2 * n - i)).any (fun m => t.isNaN (w j m)) then none
    else if t.isZero (w j j) then none else some w) w

/-- Lines 36-72: one step of the forward phase. -/
def invForwardStepG (t : InvTests T N) (norm : T → N) (n : Nat) (w : Nat → Nat → T) (i : Nat) : Option (Nat → Nat → T) :=
  let p := invPivotG t norm n i w
  if t.isZeroNorm p.1 then none
  else invEliminateG t n i (invNormalize i (invSwap i p.2 w))

/-- `matrix_inv`, src/fftrepr/matrix.rs:19-86. -/
def matrixInvG (t : InvTests T N) (norm : T → N) (mat : Arr2 T) : Option (Arr2 T) :=
  if mat.rows ≠ mat.cols then none
  else do
    let n := mat.rows
    let w ← (List.range n).foldlM (invForwardStepG t norm n) (invInit mat)
    let w := invBackward n w
    return ⟨n, n, fun i j => w i (n + j)⟩

end

section
variable {T N : Type} [DivisionRing T] [DecidableEq T] [LinearOrder N] [Zero N]

/-- Lines 36-46: norm and position of the pivot. -/
def invPivot (norm : T → N) (n i : Nat) (w : Nat → Nat → T) : N × Nat :=
  (List.range' (i + 1) (n - (i + 1))).foldl
    (fun (st : N × Nat) j => if norm (w j i) > st.1 then (norm (w j i), j) else st) (norm (w i i), i)

/-- Lines 60-72: eliminate below the pivot; `none` is the early `return None` of line 70. -/
def invEliminate (n i : Nat) (w : Nat → Nat → T) : Option (Nat → Nat → T) :=
  (List.range' (i + 1) (n - (i + 1))).foldlM (fun w j =>
    let w := invSubRow i j i (w j i) w
    if w j j = 0 then none else some w) w

/-- Lines 36-72: one step of the forward phase. -/
def invForwardStep (norm : T → N) (n : Nat) (w : Nat → Nat → T) (i : Nat) : Option (Nat → Nat → T) :=
  let p := invPivot norm n i w
  if p.1 = 0 then none
  else invEliminate n i (invNormalize i (invSwap i p.2 w))

/-- `matrix_inv`, src/fftrepr/matrix.rs:19-86. -/
def matrixInv (norm : T → N) (mat : Arr2 T) : Option (Arr2 T) :=
  if mat.rows ≠ mat.cols then none
  else do
    let n := mat.rows
    let w ← (List.range n).foldlM (invForwardStep norm n) (invInit mat)
    let w := invBackward n w
    return ⟨n, n, fun i j => w i (n + j)⟩

end

end TClifford
