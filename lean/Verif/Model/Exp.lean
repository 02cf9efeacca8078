import Verif.Model.FFT
import Mathlib.Analysis.SpecialFunctions.Pow.Real
/-
Models `exp` of src/lib.rs and src/fftrepr/mod.rs.  The control values (`coeff`, `max_c`) are `f64` in Rust and real
numbers here; see DESIGN.md on rounding.
-/

namespace TClifford

open Classical in
/-- `f64::EPSILON` = 2^-52. -/
noncomputable def f64Epsilon : ℝ := 1 / 2 ^ 52

/-- `max_c as usize` for a `max_c` that is a non-negative integer: casts from `f64` saturate, and `usize` has 64 bits
(src/lib.rs:313, src/fftrepr/mod.rs:117). -/
def usizeCast (m : Nat) : Nat := min m (2 ^ 64 - 1)

open Classical in
/-- The `while coeff > f64::EPSILON` loop, src/lib.rs:318-324 and src/fftrepr/mod.rs:121-127, with the multivector
operations as parameters.  `fuel` bounds the number of iterations; `none` = the loop is still running when the fuel is
used up (`Verif/Props/Exp.lean` proves that 18 iterations are needed and enough). -/
noncomputable def taylorLoop {M : Type} (add mul : M → M → Res M) (scale : M → ℝ → Res M) (x : M) :
    (fuel : Nat) → (coeff : ℝ) → (i : Nat) → (res p : M) → Option (Res M)
  | 0, coeff, _, res, _ => if coeff > f64Epsilon then none else some (.ok res)
  | fuel + 1, coeff, i, res, p =>
    if coeff > f64Epsilon then
      let coeff := coeff / (i : ℝ)
      match (do
        let t ← scale p coeff
        let res ← add res t
        let p ← mul p x
        return (res, p) : Res (M × M)) with
      | .error e => some (.error e)
      | .ok (res, p) => taylorLoop add mul scale x fuel coeff (i + 1) res p
    else some (.ok res)

namespace MV
variable {A : ClAlg} {S T : Type} [Ring T] [DecidableEq T] [CoeffStorage S T]

/-- `max_c` before and after the `ceil`, src/lib.rs:307-312, as a natural number.  `norm` is `Norm::norm`. -/
noncomputable def expIntPow (norm : T → ℝ) (a : MV A S) : Res Nat := do
  let maxC := a.coeffEnumerate.foldl (fun m p => max (norm p.2) m) (1 : ℝ)
  let m2 ← a.mag2
  let maxC := max maxC (Real.sqrt (norm m2))
  return ⌈maxC⌉₊

/-- `exp`, src/lib.rs:296-327, with `ofReal` for `T::from(f64)`. -/
noncomputable def exp (norm : T → ℝ) (ofReal : ℝ → T) (fuel : Nat) (a : MV A S) : Option (Res (MV A S)) :=
  match (do
      let res ← one (A := A) (S := S) (T := T)
      let m ← a.expIntPow norm
      let n ← a.smul (ofReal (1 / (m : ℝ)))
      return (res, m, n) : Res (MV A S × Nat × MV A S)) with
  | .error e => some (.error e)
  | .ok (res, m, n) =>
    (taylorLoop (fun x y => x.add y) (fun x y => x.naiveMulImpl y) (fun x c => x.smul (ofReal c)) n fuel 1 1 res n).map
      (fun r => r.bind (fun r => r.pow (usizeCast m)))

end MV

namespace FFTRepr
variable {A : ClAlg} {K : Type} [Field K] [DecidableEq K] [ImagUnit K]

/-- `max_c`, src/fftrepr/mod.rs:111-116. -/
noncomputable def expIntPow (norm : K → ℝ) (r : FFTRepr A K) : Res Nat := do
  let maxC := (List.range r.arr.d0).foldl (fun m k => (List.range r.arr.d1).foldl (fun m i =>
    (List.range r.arr.d2).foldl (fun m j => max (norm (r.arr.get k i j)) m) m) m) (1 : ℝ)
  let m2 ← r.mag2
  let maxC := max maxC (Real.sqrt (norm m2))
  return ⌈maxC⌉₊

/-- `FFTRepr::exp`, src/fftrepr/mod.rs:102-130. -/
noncomputable def exp (norm : K → ℝ) (ofReal : ℝ → K) (fuel : Nat) (r : FFTRepr A K) : Option (Res (FFTRepr A K)) :=
  match (do
      let m ← r.expIntPow norm
      let n ← r.sdiv (ofReal (m : ℝ))
      return (m, n) : Res (Nat × FFTRepr A K)) with
  | .error e => some (.error e)
  | .ok (m, n) =>
    (taylorLoop (fun x y => x.add y) (fun x y => x.mul y) (fun x c => .ok (x.smul (ofReal c))) n fuel 1 1 one n).map
      (fun r => r.bind (fun r => r.pow (usizeCast m)))

end FFTRepr

end TClifford
