import Verif.Model.Basic
/-
A minimal model of the `ndarray` types used by the crate: an array is a shape together with an index function.
Values of the index function outside of the shape are never observable in Rust (access panics); two arrays are
the same array when shapes agree and entries agree at every in-range position (`beq` below, `ndarray`'s `PartialEq`).
-/

namespace TClifford


/-- `ndarray::Array1<T>` / `ArrayView1` / `ArrayViewMut1`. -/
structure Arr1 (T : Type) where
  len : Nat
  get : Nat → T

namespace Arr1
variable {T : Type}

/-- `Array1::zeros(n)`. -/
def zeros [Zero T] (n : Nat) : Arr1 T := ⟨n, fun _ => 0⟩

/-- `a[i] = v` for in-range `i`. -/
def set (a : Arr1 T) (i : Nat) (v : T) : Arr1 T := ⟨a.len, fun j => if j = i then v else a.get j⟩

/-- Checked element access `a[i]`. -/
def index (a : Arr1 T) (i : Nat) : Res T := if i < a.len then .ok (a.get i) else .error .panic

/-- `a.split_at(Axis(0), k)` (both halves; `k ≤ len`). -/
def splitAt (a : Arr1 T) (k : Nat) : Arr1 T × Arr1 T := (⟨k, a.get⟩, ⟨a.len - k, fun i => a.get (i + k)⟩)

/-- The array whose two halves are the given views (inverse of `splitAt`). -/
def join (a b : Arr1 T) : Arr1 T := ⟨a.len + b.len, fun i => if i < a.len then a.get i else b.get (i - a.len)⟩

/-- `a.slice(s![lo..hi])`; panics when out of range. -/
def slice (a : Arr1 T) (lo hi : Nat) : Res (Arr1 T) :=
  if lo ≤ hi ∧ hi ≤ a.len then .ok ⟨hi - lo, fun i => a.get (i + lo)⟩ else .error .panic

/-- Write a block of values at `lo..lo+v.len` (assigning through `slice_mut`). -/
def setSlice (a : Arr1 T) (lo : Nat) (v : Arr1 T) : Arr1 T :=
  ⟨a.len, fun i => if lo ≤ i ∧ i < lo + v.len then v.get (i - lo) else a.get i⟩

/-- `a == b` of ndarray. -/
def beq [DecidableEq T] (a b : Arr1 T) : Bool :=
  a.len == b.len && (List.range a.len).all (fun i => decide (a.get i = b.get i))

end Arr1

/-- `ndarray::Array2<T>` / `ArrayView2`. -/
structure Arr2 (T : Type) where
  rows : Nat
  cols : Nat
  get : Nat → Nat → T

namespace Arr2
variable {T : Type}

/-- `Array2::zeros((r, c))`. -/
def zeros [Zero T] (r c : Nat) : Arr2 T := ⟨r, c, fun _ _ => 0⟩

/-- `m.len()`. -/
def size (m : Arr2 T) : Nat := m.rows * m.cols

/-- `m.t()`. -/
def transpose (m : Arr2 T) : Arr2 T := ⟨m.cols, m.rows, fun i j => m.get j i⟩

/-- Upper left, upper right, lower left, lower right blocks: `split_at(Axis(0), r)` then `split_at(Axis(1), c)`. -/
def quarters (m : Arr2 T) (r c : Nat) : Arr2 T × Arr2 T × Arr2 T × Arr2 T :=
  (⟨r, c, m.get⟩, ⟨r, m.cols - c, fun i j => m.get i (j + c)⟩,
   ⟨m.rows - r, c, fun i j => m.get (i + r) j⟩, ⟨m.rows - r, m.cols - c, fun i j => m.get (i + r) (j + c)⟩)

/-- The matrix whose blocks are the given views (inverse of `quarters`). -/
def joinQuarters (a b c d : Arr2 T) : Arr2 T :=
  ⟨a.rows + c.rows, a.cols + b.cols, fun i j =>
    if i < a.rows then (if j < a.cols then a.get i j else b.get i (j - a.cols))
    else (if j < a.cols then c.get (i - a.rows) j else d.get (i - a.rows) (j - a.cols))⟩

/-- `a.dot(&b)`; panics on incompatible shapes. -/
def dot [Add T] [Mul T] [Zero T] (a b : Arr2 T) : Res (Arr2 T) :=
  if a.cols = b.rows then
    .ok ⟨a.rows, b.cols, fun i j => ((List.range a.cols).map (fun k => a.get i k * b.get k j)).foldl (· + ·) 0⟩
  else .error .panic

/-- `a == b` of ndarray. -/
def beq [DecidableEq T] (a b : Arr2 T) : Bool :=
  a.rows == b.rows && a.cols == b.cols &&
    (List.range a.rows).all fun i => (List.range a.cols).all fun j => decide (a.get i j = b.get i j)

end Arr2

/-- `ndarray::Array3<T>` / `ArrayView3`. -/
structure Arr3 (T : Type) where
  d0 : Nat
  d1 : Nat
  d2 : Nat
  get : Nat → Nat → Nat → T

namespace Arr3
variable {T : Type}

/-- `Array3::zeros([a, b, c])`. -/
def zeros [Zero T] (a b c : Nat) : Arr3 T := ⟨a, b, c, fun _ _ _ => 0⟩

/-- `a.dim()`. -/
def dims (a : Arr3 T) : Nat × Nat × Nat := (a.d0, a.d1, a.d2)

/-- `a.index_axis(Axis(0), i)` for in-range `i`. -/
def layer (a : Arr3 T) (i : Nat) : Arr2 T := ⟨a.d1, a.d2, a.get i⟩

/-- Overwriting the matrix at position `i` of the first axis (`index_axis_mut(Axis(0), i)`). -/
def setLayer (a : Arr3 T) (i : Nat) (m : Arr2 T) : Arr3 T :=
  ⟨a.d0, a.d1, a.d2, fun k => if k = i then m.get else a.get k⟩

/-- `m.into_shape_clone([1, r, c])` of a matrix. -/
def ofArr2 (m : Arr2 T) : Arr3 T := ⟨1, m.rows, m.cols, fun _ => m.get⟩

/-- `a.split_at(Axis(0), k)`. -/
def splitAt (a : Arr3 T) (k : Nat) : Arr3 T × Arr3 T :=
  (⟨k, a.d1, a.d2, a.get⟩, ⟨a.d0 - k, a.d1, a.d2, fun i => a.get (i + k)⟩)

/-- Inverse of `splitAt`. -/
def join (a b : Arr3 T) : Arr3 T :=
  ⟨a.d0 + b.d0, a.d1, a.d2, fun i => if i < a.d0 then a.get i else b.get (i - a.d0)⟩

/-- `a == b` of ndarray. -/
def beq [DecidableEq T] (a b : Arr3 T) : Bool :=
  a.d0 == b.d0 && a.d1 == b.d1 && a.d2 == b.d2 &&
    (List.range a.d0).all fun k => (List.range a.d1).all fun i => (List.range a.d2).all fun j =>
      decide (a.get k i j = b.get k i j)

/-- `a.map(f)`. -/
def map (f : T → T) (a : Arr3 T) : Arr3 T := ⟨a.d0, a.d1, a.d2, fun k i j => f (a.get k i j)⟩

/-- Elementwise `&a + &b`, `&a - &b` for equal shapes; panics otherwise (broadcasting of unequal shapes is not modelled). -/
def zip (f : T → T → T) (a b : Arr3 T) : Res (Arr3 T) :=
  if a.dims = b.dims then .ok ⟨a.d0, a.d1, a.d2, fun k i j => f (a.get k i j) (b.get k i j)⟩ else .error .panic

end Arr3

end TClifford
