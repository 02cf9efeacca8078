import Mathlib.Data.BitVec
import Mathlib.Tactic.NormNum
/-
The machine integers as coefficients.  `Ring` is implemented for every type with the operations (src/types.rs:12-42), in
particular for `i8` ... `i128`, `isize`.

* In a release build the arithmetic of Rust wraps around: this is the ring `BitVec w` of Lean, whose elements are read
  as signed numbers by `BitVec.toInt`.
* In a debug build an operation whose result is out of range panics.  This is modelled by the value `overflow`, which
  all operations propagate.
-/

namespace TClifford

/-- The integers that `w` bits can represent in two's complement. -/
def IFits (w : Nat) (x : ℤ) : Prop := -2 ^ (w - 1) ≤ x ∧ x < 2 ^ (w - 1)

instance (w : Nat) (x : ℤ) : Decidable (IFits w x) := inferInstanceAs (Decidable (_ ∧ _))

/-- Signed integers of width `w` with overflow checks. -/
inductive CInt (w : Nat) : Type
  | num (x : { x : ℤ // IFits w x })
  | overflow
  deriving DecidableEq

namespace CInt

variable {w : Nat}

/-- The result of an operation with exact result `x`. -/
def ofInt (x : ℤ) : CInt w := if h : IFits w x then .num ⟨x, h⟩ else .overflow

/-- The value (0 after an overflow). -/
def toInt : CInt w → ℤ
  | .num x => x.1
  | .overflow => 0

/-- A binary operation. -/
def op2 (g : ℤ → ℤ → ℤ) : CInt w → CInt w → CInt w
  | .num x, .num y => ofInt (g x.1 y.1)
  | _, _ => .overflow

instance : Zero (CInt w) := ⟨ofInt 0⟩
instance : One (CInt w) := ⟨ofInt 1⟩
instance : Add (CInt w) := ⟨op2 (· + ·)⟩
instance : Sub (CInt w) := ⟨op2 (· - ·)⟩
instance : Mul (CInt w) := ⟨op2 (· * ·)⟩

/-- Negation. -/
def neg : CInt w → CInt w
  | .num x => ofInt (-x.1)
  | .overflow => .overflow

instance : Neg (CInt w) := ⟨neg⟩

/-- Division, rounded towards zero; a zero divisor panics. -/
def div : CInt w → CInt w → CInt w
  | .num x, .num y => if y.1 = 0 then .overflow else ofInt (x.1.tdiv y.1)
  | _, _ => .overflow

instance : Div (CInt w) := ⟨div⟩

end CInt

end TClifford
