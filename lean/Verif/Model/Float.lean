import Mathlib.Data.Int.Log
import Mathlib.Data.Rat.Floor
import Mathlib.Algebra.Order.Field.Power
import Mathlib.Algebra.Order.Ring.Abs
/-
The floating point coefficient types of the crate: `f32` and `f64` (src/types.rs:85-113; the arithmetic itself is that
of the Rust core library, i.e. IEEE 754 binary32 and binary64 with rounding to nearest, ties to even).

A number is a rational that the format can represent, or `nonFinite` for a value that is not finite.  Simplifications:
* the two zeros are one value (`-0.0 == 0.0` in Rust, so `==` and `is_zero` do not see the difference);
* all infinities and NaNs are the one value `nonFinite`.  Nothing is claimed about computations that reach it, except in
  which cases it is not reached.
-/

namespace TClifford

/-- A binary floating point format: `p` bits of precision, numbers are `m * 2^e` with `emin ≤ e ≤ emax` and
`|m| < 2^p`. -/
structure Fmt where
  p : Nat
  emin : Int
  emax : Int
  hp : 1 ≤ p
  hmin : emin ≤ 0
  hmax : 1 ≤ emax

/-- IEEE 754 binary64. -/
def Fmt.f64 : Fmt := ⟨53, -1074, 971, by decide, by decide, by decide⟩

/-- IEEE 754 binary32. -/
def Fmt.f32 : Fmt := ⟨24, -149, 104, by decide, by decide, by decide⟩

/-- Round a rational to the nearest integer, ties to even. -/
def rne (x : ℚ) : ℤ :=
  let d := x - ⌊x⌋
  if d < 1 / 2 then ⌊x⌋
  else if 1 / 2 < d then ⌊x⌋ + 1
  else if ⌊x⌋ % 2 = 0 then ⌊x⌋ else ⌊x⌋ + 1

namespace Fmt

variable (f : Fmt)

/-- The exponent of the last bit of numbers of the size of `x`. -/
def lastBit (x : ℚ) : ℤ := max (Int.log 2 |x| - f.p + 1) f.emin

/-- Rounding to the format, without upper bound for the exponent. -/
def rnd (x : ℚ) : ℚ :=
  let y := (rne (|x| / 2 ^ f.lastBit x) : ℚ) * 2 ^ f.lastBit x
  if x < 0 then -y else y

/-- The largest finite number. -/
def maxFin : ℚ := ((2 : ℚ) ^ f.p - 1) * 2 ^ f.emax

/-- The rationals that are numbers of the format. -/
def Repr (x : ℚ) : Prop := f.rnd x = x ∧ |x| ≤ f.maxFin

instance (x : ℚ) : Decidable (f.Repr x) := inferInstanceAs (Decidable (_ ∧ _))

end Fmt

/-- Floating point numbers of the format `f`. -/
inductive Flt (f : Fmt) : Type
  | num (x : { x : ℚ // f.Repr x })
  | nonFinite
  deriving DecidableEq

namespace Flt

variable {f : Fmt}

/-- The result of an operation with exact result `x`. -/
def ofRat (x : ℚ) : Flt f := if h : f.Repr (f.rnd x) then .num ⟨f.rnd x, h⟩ else .nonFinite

/-- The value (0 if not finite). -/
def toRat : Flt f → ℚ
  | .num x => x.1
  | .nonFinite => 0

/-- An operation on finite numbers. -/
def op2 (g : ℚ → ℚ → ℚ) : Flt f → Flt f → Flt f
  | .num x, .num y => ofRat (g x.1 y.1)
  | _, _ => .nonFinite

instance : Zero (Flt f) := ⟨ofRat 0⟩
instance : One (Flt f) := ⟨ofRat 1⟩
instance : Add (Flt f) := ⟨op2 (· + ·)⟩
instance : Sub (Flt f) := ⟨op2 (· - ·)⟩
instance : Mul (Flt f) := ⟨op2 (· * ·)⟩

/-- Negation. -/
def neg : Flt f → Flt f
  | .num x => ofRat (-x.1)
  | .nonFinite => .nonFinite

instance : Neg (Flt f) := ⟨neg⟩

/-- Division; a zero divisor gives an infinity or NaN. -/
def div : Flt f → Flt f → Flt f
  | .num x, .num y => if y.1 = 0 then .nonFinite else ofRat (x.1 / y.1)
  | _, _ => .nonFinite

instance : Div (Flt f) := ⟨div⟩

end Flt

/-- `f64` -/
abbrev F64 := Flt Fmt.f64

/-- `f32` -/
abbrev F32 := Flt Fmt.f32

end TClifford
