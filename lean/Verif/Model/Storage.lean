import Verif.Model.Basic
import Verif.Model.NdArray
import Verif.Model.IndexUtils
import Mathlib.Algebra.Ring.Defs
/-
Models src/coeff_storage.rs: the `CoeffStorage` trait and its dense (`ArrayStorage`) and sparse (`SparseStorage`)
implementations, and the storage of src/quaternion.rs (`QStorage`).

Coefficients: the Rust trait `Ring` (src/types.rs:10-39) only asks for operations, and so do the definitions of the model:
`Zero`, `One`, `Add`, `Sub`, `Neg`, `Mul` and decidable equality, without laws.  The theorems assume a lawful `Ring T` (exact
arithmetic), or a floating point type (Verif/Model/Float.lean).  `c.is_zero()` is `c = 0`.
-/

namespace TClifford


/-- `trait CoeffStorage<T>`, src/coeff_storage.rs:8-23, plus its super-trait `PartialEq`.

`coeffMapMut` models the only use of `coeff_enumerate_mut` in the crate (src/ops.rs:63-65): replace each enumerated
coefficient `c` by `f c`. -/
class CoeffStorage (S : Type) (T : outParam (Type)) where
  new : Nat → Res S
  getByIdx : S → Nat → Res T
  setByIdx : S → Nat → T → S
  coeffEnumerate : S → List (Nat × T)
  coeffMapMut : S → (T → Res T) → Res S
  gradeEnumerate : S → Nat → List (Nat × T)
  add : S → S → Res S
  sub : S → S → Res S
  beq : S → S → Bool

/-! ### Dense storage -/

/-- `ArrayStorage`, src/coeff_storage.rs:25-29. -/
structure ArrayStorage (T : Type) where
  dim : Nat
  array : Arr1 T

namespace ArrayStorage
variable {T : Type} [Zero T] [One T] [Add T] [Sub T] [Neg T] [Mul T] [DecidableEq T]

/-- src/coeff_storage.rs:35-40. -/
def new (dim : Nat) : ArrayStorage T := ⟨dim, Arr1.zeros (ushl 1 dim)⟩

/-- src/coeff_storage.rs:42-48.  Note the strict comparison: `idx == len` falls through to the checked access. -/
def getByIdx (s : ArrayStorage T) (idx : Nat) : Res T :=
  if idx > s.array.len then .ok 0 else s.array.index idx

/-- src/coeff_storage.rs:50-55. -/
def setByIdx (s : ArrayStorage T) (idx : Nat) (value : T) : ArrayStorage T :=
  if idx < s.array.len then ⟨s.dim, s.array.set idx value⟩ else s

/-- src/coeff_storage.rs:57-66. -/
def coeffEnumerate (s : ArrayStorage T) : List (Nat × T) :=
  ((List.range s.array.len).map (fun i => (i, s.array.get i))).filter (fun p => p.2 ≠ 0)

/-- Use of src/coeff_storage.rs:68-73: every non-zero coefficient is replaced. -/
def coeffMapMut (s : ArrayStorage T) (f : T → Res T) : Res (ArrayStorage T) :=
  (coeffEnumerate s).foldlM (fun acc p => do
    let v ← f p.2
    return ⟨acc.dim, acc.array.set p.1 v⟩) s

/-- src/coeff_storage.rs:75-80.  The indices produced by `grade_iter(dim, _)` are below `2^dim`, so the array access
does not panic. -/
def gradeEnumerate (s : ArrayStorage T) (grade : Nat) : List (Nat × T) :=
  (gradeIterList s.dim grade).map (fun idx => (idx, s.array.get idx))

/-- src/coeff_storage.rs:82-87.  Arrays of different lengths cannot occur for one algebra (modelled as a panic;
ndarray would try to broadcast). -/
def add (a b : ArrayStorage T) : Res (ArrayStorage T) :=
  if a.array.len = b.array.len then .ok ⟨a.dim, a.array.len, fun i => a.array.get i + b.array.get i⟩
  else .error .panic

/-- src/coeff_storage.rs:89-94. -/
def sub (a b : ArrayStorage T) : Res (ArrayStorage T) :=
  if a.array.len = b.array.len then .ok ⟨a.dim, a.array.len, fun i => a.array.get i - b.array.get i⟩
  else .error .panic

/-- src/coeff_storage.rs:116-123. -/
def beq (a b : ArrayStorage T) : Bool := a.array.beq b.array

/-- src/coeff_storage.rs:106-113; `ilog2` of zero panics, `Err(())` is `none`. -/
def fromArray (a : Arr1 T) : Res (Option (ArrayStorage T)) :=
  if a.len = 0 then .error .panic
  else if ushl 1 (Nat.log2 a.len) ≠ a.len then .ok none else .ok (some ⟨Nat.log2 a.len, a⟩)

instance : CoeffStorage (ArrayStorage T) T where
  new d := .ok (new d)
  getByIdx := getByIdx
  setByIdx := setByIdx
  coeffEnumerate := coeffEnumerate
  coeffMapMut := coeffMapMut
  gradeEnumerate := gradeEnumerate
  add := add
  sub := sub
  beq := beq

end ArrayStorage

/-! ### Hash maps and sparse storage -/

/-- The iteration order of a `std::collections::HashMap<usize, T>`: an arbitrary permutation of the entries, picked by
an adversary depending on the whole insertion history.  Theorems quantify over every such order. -/
class HashOrder (T : Type) where
  order : List (Nat × T) → List (Nat × T)
  perm : ∀ l, (order l).Perm l

/-- `HashMap<IndexType, T>` as the list of its entries (unique keys). -/
structure HashMap (T : Type) where
  entries : List (Nat × T)

namespace HashMap
variable {T : Type}

/-- `HashMap::new()`. -/
def empty : HashMap T := ⟨[]⟩

/-- `map.get(&k).cloned()`. -/
def get? (m : HashMap T) (k : Nat) : Option T := m.entries.lookup k

/-- `map.remove(&k)`. -/
def remove (m : HashMap T) (k : Nat) : HashMap T := ⟨m.entries.filter (fun p => p.1 ≠ k)⟩

/-- `map.insert(k, v)`. -/
def insert (m : HashMap T) (k : Nat) (v : T) : HashMap T := ⟨(k, v) :: (m.remove k).entries⟩

/-- `map.iter()`. -/
def iter [HashOrder T] (m : HashMap T) : List (Nat × T) := HashOrder.order m.entries

/-- `map.len()`. -/
def len (m : HashMap T) : Nat := m.entries.length

/-- `map.retain(f)`; the closure may modify the value, `f k v = some v'` keeps the entry with value `v'`.
Simplification: the closure has no state of its own. -/
def retain (m : HashMap T) (f : Nat → T → Option T) : HashMap T :=
  ⟨m.entries.filterMap (fun p => (f p.1 p.2).map (fun v => (p.1, v)))⟩

end HashMap

/-- `SparseStorage`, src/coeff_storage.rs:125-130. -/
structure SparseStorage (T : Type) where
  dim : Nat
  size : Nat
  coeffs : HashMap T

namespace SparseStorage
variable {T : Type} [Zero T] [One T] [Add T] [Sub T] [Neg T] [Mul T] [DecidableEq T] [HashOrder T]

/-- src/coeff_storage.rs:136-142. -/
def new (dim : Nat) : SparseStorage T := ⟨dim, ushl 1 dim, HashMap.empty⟩

/-- src/coeff_storage.rs:144-146. -/
def getByIdx (s : SparseStorage T) (idx : Nat) : T := (s.coeffs.get? idx).getD 0

/-- src/coeff_storage.rs:148-156. -/
def setByIdx (s : SparseStorage T) (idx : Nat) (value : T) : SparseStorage T :=
  if idx < s.size then
    if value = 0 then { s with coeffs := s.coeffs.remove idx }
    else { s with coeffs := s.coeffs.insert idx value }
  else s

/-- src/coeff_storage.rs:158-163. -/
def coeffEnumerate (s : SparseStorage T) : List (Nat × T) := s.coeffs.iter

/-- Use of src/coeff_storage.rs:165-170: every stored value is replaced in place (a zero result stays stored). -/
def coeffMapMut (s : SparseStorage T) (f : T → Res T) : Res (SparseStorage T) := do
  let es ← s.coeffs.entries.mapM (fun p => do
    let v ← f p.2
    return (p.1, v))
  return { s with coeffs := ⟨es⟩ }

/-- src/coeff_storage.rs:172-178.  `grade as u32` truncates to 32 bits. -/
def gradeEnumerate (s : SparseStorage T) (grade : Nat) : List (Nat × T) :=
  (coeffEnumerate s).filter (fun p => countOnes p.1 = grade % 2 ^ 32)

/-- src/coeff_storage.rs:180-189. -/
def add (a b : SparseStorage T) : SparseStorage T :=
  let ret := (coeffEnumerate a).foldl (fun r p => setByIdx r p.1 p.2) (new a.dim)
  (coeffEnumerate b).foldl (fun r p => setByIdx r p.1 (getByIdx r p.1 + p.2)) ret

/-- src/coeff_storage.rs:191-200. -/
def sub (a b : SparseStorage T) : SparseStorage T :=
  let ret := (coeffEnumerate a).foldl (fun r p => setByIdx r p.1 p.2) (new a.dim)
  (coeffEnumerate b).foldl (fun r p => setByIdx r p.1 (getByIdx r p.1 - p.2)) ret

/-- src/coeff_storage.rs:203-214. -/
def beq (a b : SparseStorage T) : Bool :=
  (coeffEnumerate a).all (fun p => decide (getByIdx b p.1 = p.2)) &&
    (coeffEnumerate b).all (fun p => decide (getByIdx a p.1 = p.2))

instance : CoeffStorage (SparseStorage T) T where
  new d := .ok (new d)
  getByIdx s i := .ok (getByIdx s i)
  setByIdx := setByIdx
  coeffEnumerate := coeffEnumerate
  coeffMapMut := coeffMapMut
  gradeEnumerate := gradeEnumerate
  add a b := .ok (add a b)
  sub a b := .ok (sub a b)
  beq := beq

end SparseStorage

/-! ### Quaternion storage -/

/-- `QStorage`, src/quaternion.rs:5-9: `coeff: [T; 4]`. -/
structure QStorage (T : Type) where
  c0 : T
  c1 : T
  c2 : T
  c3 : T
  deriving DecidableEq

namespace QStorage
variable {T : Type} [Zero T] [One T] [Add T] [Sub T] [Neg T] [Mul T] [DecidableEq T]

/-- src/quaternion.rs:15-22. -/
def new (dim : Nat) : Res (QStorage T) := if dim ≠ 2 then .error .panic else .ok ⟨0, 0, 0, 0⟩

/-- src/quaternion.rs:24-30. -/
def getByIdx (s : QStorage T) : Nat → T
  | 0 => s.c0
  | 1 => s.c1
  | 2 => s.c2
  | 3 => s.c3
  | _ => 0

/-- src/quaternion.rs:32-36. -/
def setByIdx (s : QStorage T) (idx : Nat) (v : T) : QStorage T :=
  match idx with
  | 0 => { s with c0 := v }
  | 1 => { s with c1 := v }
  | 2 => { s with c2 := v }
  | 3 => { s with c3 := v }
  | _ => s

/-- src/quaternion.rs:38-43 (zeros are not skipped). -/
def coeffEnumerate (s : QStorage T) : List (Nat × T) := [(0, s.c0), (1, s.c1), (2, s.c2), (3, s.c3)]

/-- Use of src/quaternion.rs:45-52. -/
def coeffMapMut (s : QStorage T) (f : T → Res T) : Res (QStorage T) := do
  let a ← f s.c0
  let b ← f s.c1
  let c ← f s.c2
  let d ← f s.c3
  return ⟨a, b, c, d⟩

/-- src/quaternion.rs:54-65. -/
def gradeEnumerate (s : QStorage T) (grade : Nat) : List (Nat × T) :=
  (coeffEnumerate s).filter (fun p => countOnes p.1 = grade)

/-- src/quaternion.rs:67-76. -/
def add (a b : QStorage T) : QStorage T := ⟨a.c0 + b.c0, a.c1 + b.c1, a.c2 + b.c2, a.c3 + b.c3⟩

/-- src/quaternion.rs:78-87. -/
def sub (a b : QStorage T) : QStorage T := ⟨a.c0 - b.c0, a.c1 - b.c1, a.c2 - b.c2, a.c3 - b.c3⟩

instance : CoeffStorage (QStorage T) T where
  new := new
  getByIdx s i := .ok (getByIdx s i)
  setByIdx := setByIdx
  coeffEnumerate := coeffEnumerate
  coeffMapMut := coeffMapMut
  gradeEnumerate := gradeEnumerate
  add a b := .ok (add a b)
  sub a b := .ok (sub a b)
  beq a b := decide (a = b)   -- `#[derive(PartialEq)]`, src/quaternion.rs:6

end QStorage

end TClifford
