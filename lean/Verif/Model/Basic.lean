/-
Basic types of the model: error values, machine-integer bit operations, signs.

Models: src/lib.rs (ClError), src/types.rs (Sign, IndexType), and the Rust primitive operations on `usize`.
-/

namespace TClifford

/-- `ClError`, src/lib.rs:40-45. -/
inductive ClError where
  | IndexOutOfBounds
  | FFTConditionsNotMet
  | InvalidShape
  deriving DecidableEq, Repr

/-- Outcome of an operation that does not return a value.
* `cl e`      : the Rust function returned `Err(e)`;
* `panic`     : the Rust function panicked (index out of bounds, `unwrap` on `Err`, `unreachable!`, ...);
* `nonFinite` : the Rust function divided by zero.  With IEEE floats this is not a panic, it stores an
  infinity or a NaN; the exact model has no such values, so it stops with this marker. -/
inductive Err where
  | cl (e : ClError)
  | panic
  | nonFinite
  deriving DecidableEq, Repr

/-- Result of a Rust call: a value, an `Err(ClError)`, or a panic. -/
abbrev Res := Except Err

/-- `Result::unwrap`: an `Err` becomes a panic. -/
def unwrap {α : Type} (r : Res α) : Res α :=
  match r with
  | .error (.cl _) => .error .panic
  | r => r

/-- Helper for `countOnes`: at most `fuel` binary digits of `n` are counted. -/
def popAux : Nat → Nat → Nat
  | 0, _ => 0
  | fuel + 1, n => if n = 0 then 0 else n % 2 + popAux fuel (n / 2)

/-- `usize::count_ones` (number of binary digits equal to 1). -/
def countOnes (n : Nat) : Nat := popAux n n

/-- Number of values of `usize` (64-bit target). -/
def usizeSize : Nat := 2 ^ 64

/-- `a << s` on `usize`: bits shifted past bit 63 are lost; the shift amount is taken modulo 64
(this is what a release build does for `s ≥ 64`; a debug build panics there). -/
def ushl (a s : Nat) : Nat := (a <<< (s % 64)) % usizeSize

/-- `!a` on `usize`. -/
def unot (a : Nat) : Nat := (usizeSize - 1) ^^^ a

/-- `Sign`, src/types.rs:45-50. -/
inductive Sign where
  | Null
  | Plus
  | Minus
  deriving DecidableEq, Repr

/-- `self as i8`, src/types.rs:46-50. -/
def Sign.toInt : Sign → Int
  | .Null => 0
  | .Plus => 1
  | .Minus => -1

/-- `impl Mul for Sign`, src/types.rs:52-62. -/
def Sign.mul (a b : Sign) : Sign :=
  if a.toInt * b.toInt = -1 then .Minus
  else if a.toInt * b.toInt = 1 then .Plus
  else .Null

instance : Mul Sign := ⟨Sign.mul⟩

end TClifford
