import Verif.Model.Float
import Verif.Model.Display
/-
Models how Rust's standard library writes `f64` and `f32`, which is what `$fmt_trait::fmt` in src/lib.rs:565-573 calls for the
coefficients of a multivector: `{}` (`Display`), `{:e}` and `{:E}` (`LowerExp`, `UpperExp`), the `+` flag, and `{:.p}`.  This is
the documented behaviour (the shortest decimal that rounds back to the number, and among these the closest one; with a precision
the number rounded to that many places, ties to even), not the code of the standard library.

Simplified: `Flt` has one zero and one value that is not finite.  The text of `-0.0` is `-0` in Rust; here a zero is `0`.  The
texts `inf`, `-inf` and `NaN` are one, `NaN`.
-/

namespace TClifford

namespace Flt

/-- The sign in front of a number: `-`, or nothing, or `+` with the `+` flag. -/
def signText (plus neg : Bool) : String := if neg then "-" else if plus then "+" else ""

/-- `n` digits of `D` (leading zeros filled in). -/
def padded (n D : Nat) : String := String.ofList (List.replicate (n - (Nat.toDigits 10 D).length) '0' ++ Nat.toDigits 10 D)

/-- The decimal text of `D * 10 ^ s` without an exponent. -/
def positional (D : Nat) (s : ℤ) : String :=
  if 0 ≤ s then Nat.repr (D * 10 ^ s.toNat)
  else Nat.repr (D / 10 ^ (-s).toNat) ++ "." ++ padded (-s).toNat (D % 10 ^ (-s).toNat)

/-- The decimal text of `D * 10 ^ s` with one digit in front of the point and an exponent. -/
def scientific (e : Char) (D : Nat) (s : ℤ) : String :=
  match Nat.toDigits 10 D with
  | [] => ""
  | [d] => String.ofList [d, e] ++ Int.repr s
  | d :: ds => String.ofList (d :: '.' :: ds ++ [e]) ++ Int.repr (s + ds.length)

/-- Remove zeros at the end. -/
def strip : Nat → Nat → ℤ → Nat × ℤ
  | 0, D, s => (D, s)
  | k + 1, D, s => if D % 10 = 0 then strip k (D / 10) (s + 1) else (D, s)

/-- The decimal with `n` digits that rounds to `x`, if there is one; the closer one, if there are two. -/
def shortestN (f : Fmt) (x : ℚ) (n : Nat) : Option (Nat × ℤ) :=
  let s : ℤ := Int.log 10 x - n + 1
  let lo := ⌊x / 10 ^ s⌋.toNat
  let below := f.rnd (lo * 10 ^ s) = x
  let above := f.rnd ((lo + 1 : Nat) * 10 ^ s) = x
  if below ∧ above then some (if x / 10 ^ s - lo < 1 / 2 then lo else lo + 1, s)
  else if below then some (lo, s)
  else if above then some (lo + 1, s)
  else none

/-- The shortest decimal that rounds to the positive number `x`. -/
def shortest (f : Fmt) (x : ℚ) : Nat × ℤ :=
  match (List.range ((Int.log 10 x - f.emin).toNat + 2)).findSome? (fun n => shortestN f x (n + 1)) with
  | some (D, s) => strip (D + 1) D s
  | none => (0, 0)

/-- The text of `|x|`; `e` is the letter of the exponent if there is to be one. -/
def magText (f : Fmt) (e : Option Char) (x : ℚ) : String :=
  match e with
  | none => if x = 0 then "0" else positional (shortest f x).1 (shortest f x).2
  | some e => if x = 0 then String.ofList ['0', e, '0'] else scientific e (shortest f x).1 (shortest f x).2

/-- `Display`, `LowerExp` and `UpperExp` for floating point numbers. -/
def text {f : Fmt} (e : Option Char) (plus : Bool) : Flt f → String
  | .num x => signText plus (x.1 < 0) ++ magText f e |x.1|
  | .nonFinite => "NaN"

/-- `{:.p}`: rounded to `p` places, ties to even; the sign is that of the number. -/
def textPrec {f : Fmt} (p : Nat) (plus : Bool) : Flt f → String
  | .num x => signText plus (x.1 < 0) ++ positional (rne (|x.1| * 10 ^ p)).toNat (-p)
  | .nonFinite => "NaN"

end Flt

end TClifford
