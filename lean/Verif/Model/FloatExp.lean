import Verif.Model.Float
import Verif.Model.Multivector
/-
`exp` of src/lib.rs with `f64` coefficients, and the operations of `f64` that it needs besides the arithmetic:
`abs`, `max`, `sqrt`, `ceil`, comparison and the cast to `usize`.  (`exp` asks for `T: Norm + From<f64>`, which of the
real types only `f64` is.)  Compare Verif/Model/Exp.lean, where the same function is modelled in exact arithmetic.

Simplification, as in Verif/Model/Float.lean: infinities and NaN are one value, and nothing is claimed about computations
that reach it; `f64::max` gives it whenever an argument is not finite, and its cast to `usize` is the error `nonFinite`.
-/

namespace TClifford

/-- The largest `r < 2^k` with `(r0 + r)^2 ≤ x`, added to `r0`, for `r0` a multiple of `2^k`: one binary digit after the other. -/
def isqrtAux (x : Nat) : (k : Nat) → (r0 : Nat) → Nat
  | 0, r0 => r0
  | k + 1, r0 => if (r0 + 2 ^ k) * (r0 + 2 ^ k) ≤ x then isqrtAux x k (r0 + 2 ^ k) else isqrtAux x k r0

/-- The integer square root. -/
def isqrt (x : Nat) : Nat := isqrtAux x (Nat.log2 x / 2 + 1) 0

namespace Flt
variable {f : Fmt}

/-- `f64::abs` -/
def abs : Flt f → Flt f
  | .num x => ofRat |x.1|
  | .nonFinite => .nonFinite

/-- `f64::max` (finite arguments) -/
def fmax : Flt f → Flt f → Flt f
  | .num x, .num y => if x.1 ≤ y.1 then .num y else .num x
  | _, _ => .nonFinite

/-- A rational number between the same two consecutive multiples of `2^(f.emin - 1)` as `√x`, or equal to `√x` if this is
such a multiple.  As all numbers of the format and all midpoints between neighbours are multiples of `2^(f.emin - 1)`, it is
rounded like `√x`. -/
def sqrtRat (f : Fmt) (x : ℚ) : ℚ :=
  let s := (1 - f.emin).toNat
  let y := ⌊x * 4 ^ s⌋.toNat
  let r := isqrt y
  if (r * r : ℚ) = x * 4 ^ s then (r : ℚ) / 2 ^ s else (2 * r + 1 : ℚ) / 2 ^ (s + 1)

/-- `f64::sqrt`: correctly rounded, as IEEE 754 and the Rust core library promise. -/
def sqrt : Flt f → Flt f
  | .num x => if x.1 < 0 then .nonFinite else ofRat (sqrtRat f x.1)
  | .nonFinite => .nonFinite

/-- `f64::ceil` -/
def ceil : Flt f → Flt f
  | .num x => ofRat ⌈x.1⌉
  | .nonFinite => .nonFinite

/-- `x > y` -/
def gt : Flt f → Flt f → Bool
  | .num x, .num y => decide (y.1 < x.1)
  | _, _ => false

/-- `x < y` -/
instance : LT (Flt f) := ⟨fun x y => y.gt x = true⟩

instance : DecidableLT (Flt f) := fun x y => inferInstanceAs (Decidable (y.gt x = true))

/-- `x as usize`: rounds towards zero and saturates. -/
def toUsize : Flt f → Res Nat
  | .num x => .ok (min ⌊x.1⌋.toNat (2 ^ 64 - 1))
  | .nonFinite => .error .nonFinite

end Flt

/-- `f64::EPSILON` -/
def F64.epsilon : F64 := .ofRat (1 / 2 ^ 52)

namespace MV
variable {A : ClAlg} {S : Type} [CoeffStorage S F64]

/-- `max_c`, src/lib.rs:307-312; `norm` of an `f64` is its absolute value (src/lib.rs:623-631). -/
def expMaxF (a : MV A S) : Res F64 := do
  let maxC := a.coeffEnumerate.foldl (fun m p => Flt.fmax p.2.abs m) (1 : F64)
  let m2 ← a.mag2
  let maxC := Flt.fmax maxC m2.abs.sqrt
  return maxC.ceil

/-- The loop of `exp`, src/lib.rs:318-324.  `fuel` bounds the number of iterations; `none` = the loop is still running when
the fuel is used up. -/
def taylorF (x : MV A S) : (fuel : Nat) → (coeff : F64) → (i : Nat) → (res p : MV A S) → Option (Res (MV A S))
  | 0, coeff, _, res, _ => if coeff.gt F64.epsilon then none else some (.ok res)
  | fuel + 1, coeff, i, res, p =>
    if coeff.gt F64.epsilon then
      let coeff := coeff / Flt.ofRat (i : ℚ)
      match (do
        let t ← p.smul coeff
        let res ← res.add t
        let p ← p.naiveMulImpl x
        return (res, p) : Res (MV A S × MV A S)) with
      | .error e => some (.error e)
      | .ok (res, p) => taylorF x fuel coeff (i + 1) res p
    else some (.ok res)

/-- `exp` for `f64` coefficients, src/lib.rs:296-327. -/
def expF (fuel : Nat) (a : MV A S) : Option (Res (MV A S)) :=
  match (do
      let res ← one (A := A) (S := S) (T := F64)
      let maxC ← a.expMaxF
      let intPow ← maxC.toUsize
      let n ← a.smul (1 / maxC)
      return (res, intPow, n) : Res (MV A S × Nat × MV A S)) with
  | .error e => some (.error e)
  | .ok (res, intPow, n) => (taylorF n fuel 1 1 res n).map (fun r => r.bind (fun r => r.pow intPow))

end MV

end TClifford
