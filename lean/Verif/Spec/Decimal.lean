import Verif.Model.Float
/-
What a decimal text means, said independently of how numbers are written: an optional sign, digits with at most one point among
them, and optionally the letter of an exponent and the exponent.  `readFlt` is the floating point number nearest to that.
-/

namespace TClifford.Decimal

/-- The number that a list of digits denotes. -/
def readDigits (l : List Char) : Option Nat :=
  if l ≠ [] ∧ ∀ c ∈ l, c.isDigit = true then some (l.foldl (fun n c => 10 * n + (c.toNat - '0'.toNat)) 0) else none

/-- Digits with an optional point. -/
def readMantissa (l : List Char) : Option ℚ :=
  match l.splitOn '.' with
  | [i] => (readDigits i).map (fun n : Nat => (n : ℚ))
  | [i, f] => do
    let a ← readDigits i
    let b ← readDigits f
    return (a : ℚ) + (b : ℚ) / 10 ^ f.length
  | _ => none

/-- A sign and digits. -/
def readExponent : List Char → Option ℤ
  | '-' :: l => (readDigits l).map fun n : Nat => -(n : ℤ)
  | l => (readDigits l).map fun n : Nat => (n : ℤ)

/-- A mantissa with an optional exponent after the letter `e`. -/
def readUnsigned (e : Char) (l : List Char) : Option ℚ :=
  match l.splitOn e with
  | [m] => readMantissa m
  | [m, x] => do
    let a ← readMantissa m
    let b ← readExponent x
    return a * 10 ^ b
  | _ => none

/-- The rational number that a decimal text denotes. -/
def readRat (e : Char) : List Char → Option ℚ
  | '-' :: l => (readUnsigned e l).map (- ·)
  | '+' :: l => readUnsigned e l
  | l => readUnsigned e l

/-- The floating point number that a text denotes. -/
def readFlt (f : Fmt) (e : Char) (s : String) : Option (Flt f) :=
  if s = "NaN" then some .nonFinite else (readRat e s.toList).map Flt.ofRat

end TClifford.Decimal
