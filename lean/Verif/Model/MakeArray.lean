import Verif.Model.Multivector
/-
Models `make_array`, src/algebra.rs:53-61, the only `unsafe` code of the crate, with its memory.
-/

namespace TClifford

/-- Outcome of `unsafe` code: a value, a panic (or `Err`) of safe code that it calls, or undefined behaviour. -/
inductive Run (α : Type) where
  | ok (a : α)
  | panic (e : Err)
  | ub
  deriving DecidableEq

namespace Run

/-- Sequential composition. -/
def bind {α β : Type} (x : Run α) (f : α → Run β) : Run β :=
  match x with
  | ok a => f a
  | panic e => panic e
  | ub => ub

instance : Monad Run where
  pure := ok
  bind := bind

/-- Safe code. -/
def safe {α : Type} : Res α → Run α
  | .ok a => ok a
  | .error e => panic e

end Run

/-- `MaybeUninit<[T; N]>`: `N` cells, initialised or not (`cells.length = N`). Dropping it drops nothing, so a panic while
it is partly initialised leaks values, but is not undefined behaviour. -/
structure Uninit (T : Type) where
  cells : List (Option T)

namespace Uninit
variable {T : Type}

/-- `MaybeUninit::<[T; N]>::uninit()`. -/
def uninit (n : Nat) : Uninit T := ⟨List.replicate n none⟩

/-- `ret.as_mut_ptr().cast::<T>().wrapping_add(i).write(v)`: writing outside of the array is undefined behaviour. -/
def write (m : Uninit T) (i : Nat) (v : T) : Run (Uninit T) :=
  if i < m.cells.length then .ok ⟨m.cells.set i (some v)⟩ else .ub

/-- The values of a list of initialised cells. -/
def values : List (Option T) → Run (List T)
  | [] => .ok []
  | none :: _ => .ub
  | some v :: l => Run.bind (values l) fun r => .ok (v :: r)

/-- `ret.assume_init()`: undefined behaviour if a cell is not initialised. -/
def assumeInit (m : Uninit T) : Run (List T) := values m.cells

end Uninit

/-- The loop `for i in i..i+k` of `make_array`, src/algebra.rs:56-58. -/
def makeArrayLoop {T : Type} (f : Nat → Res T) : Nat → Nat → Uninit T → Run (Uninit T)
  | _, 0, m => .ok m
  | i, k + 1, m => Run.bind (Run.safe (f i)) fun v => Run.bind (m.write i v) fun m => makeArrayLoop f (i + 1) k m

/-- `make_array`, src/algebra.rs:53-61. -/
def makeArray {T : Type} (n : Nat) (f : Nat → Res T) : Run (List T) :=
  Run.bind (makeArrayLoop f 0 n (Uninit.uninit n)) fun m => m.assumeInit

/-- `ClBasis::basis`, `ClBasis::basis_sparse`, src/algebra.rs:63-82, with the memory of `make_array`. -/
def MV.basisMem {S T : Type} [Zero T] [One T] [Add T] [Sub T] [Neg T] [Mul T] [DecidableEq T] [CoeffStorage S T]
    (A : ClAlg) : Run (List (MV A S)) := makeArray A.dim fun n => MV.basisVec (T := T) n

/-- `ClBasis::signature`, src/algebra.rs:84-94, with the memory of `make_array`. -/
def ClAlg.signatureMem (A : ClAlg) : Run (List Int) :=
  makeArray A.dim fun n => .ok (
    if ushl 1 n &&& A.realMask ≠ 0 then 1
    else if ushl 1 n &&& A.imagMask ≠ 0 then -1
    else 0)

/-- `ClBasis::signaturef`, src/algebra.rs:96-106. -/
def ClAlg.signaturef {R : Type} [Zero R] [One R] [Neg R] (A : ClAlg) : Run (List R) :=
  makeArray A.dim fun n => .ok (
    if ushl 1 n &&& A.realMask ≠ 0 then 1
    else if ushl 1 n &&& A.imagMask ≠ 0 then -1
    else 0)

end TClifford
