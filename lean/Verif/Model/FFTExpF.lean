import Verif.Model.FloatExp
import Verif.Model.FFTTrace
/-
`exp` of src/fftrepr/mod.rs with the rounding of `f64`.  Compare Verif/Model/Exp.lean, where the same function is modelled in
exact arithmetic, and Verif/Model/FloatExp.lean for `exp` of multivectors.

`Complex64::norm` is the function `hypot` of the C library, which is not specified exactly: it is the parameter `hyp`.
Simplification as in Verif/Model/Float.lean: infinities and NaN are one value.
-/

namespace TClifford

/-- Multiplication of a complex number by a real one (`Mul<T> for Complex<T>` of num-complex): both parts are multiplied. -/
def Cx.mulReal {F : Type} [Mul F] (z : Cx F) (r : F) : Cx F := ⟨z.re * r, z.im * r⟩

/-- A `hypot` that rounds correctly, an instance of the parameter `hyp` below. -/
def Flt.hypot {f : Fmt} : Flt f → Flt f → Flt f
  | .num x, .num y => Flt.ofRat (Flt.sqrtRat f (x.1 ^ 2 + y.1 ^ 2))
  | _, _ => .nonFinite

/-- The entries in the order of `indexed_iter`. -/
def Arr3.entries {K : Type} (a : Arr3 K) : List K :=
  (List.range a.d0).flatMap fun k => (List.range a.d1).flatMap fun i => (List.range a.d2).map fun j => a.get k i j

namespace FFTRepr

variable {A : ClAlg}

section
variable {F : Type} [Mul F] [Div F]

/-- `*` with an `f64`, src/fftrepr/mod.rs:333-339. -/
def mulReal (r : FFTRepr A (Cx F)) (c : F) : FFTRepr A (Cx F) := ⟨r.arr.map fun z => z.mulReal c⟩

/-- `/` by an `f64`, src/fftrepr/mod.rs:349-355. -/
def divReal (r : FFTRepr A (Cx F)) (c : F) : FFTRepr A (Cx F) := ⟨r.arr.map fun z => z.divReal c⟩

end

/-- `max_c`, src/fftrepr/mod.rs:111-116. -/
def expMaxF (hyp : F64 → F64 → F64) (r : FFTRepr A (Cx F64)) : Res F64 := do
  let maxC := r.arr.entries.foldl (fun m z => Flt.fmax (hyp z.re z.im) m) (1 : F64)
  let m2 ← r.mag2F (Flt.ofNat .f64)
  let maxC := Flt.fmax maxC (hyp m2.re m2.im).sqrt
  return maxC.ceil

/-- The loop of `exp`, src/fftrepr/mod.rs:122-127; `fuel` as in `MV.taylorF`. -/
def taylorF (x : FFTRepr A (Cx F64)) : (fuel : Nat) → (coeff : F64) → (i : Nat) → (res p : FFTRepr A (Cx F64)) →
    Option (Res (FFTRepr A (Cx F64)))
  | 0, coeff, _, res, _ => if coeff.gt F64.epsilon then none else some (.ok res)
  | fuel + 1, coeff, i, res, p =>
    if coeff.gt F64.epsilon then
      let coeff := coeff / Flt.ofRat (i : ℚ)
      match (do
        let res ← res.add (p.mulReal coeff)
        let p ← p.mul x
        return (res, p) : Res (FFTRepr A (Cx F64) × FFTRepr A (Cx F64))) with
      | .error e => some (.error e)
      | .ok (res, p) => taylorF x fuel coeff (i + 1) res p
    else some (.ok res)

/-- `exp`, src/fftrepr/mod.rs:102-130. -/
def expF (hyp : F64 → F64 → F64) (fuel : Nat) (r : FFTRepr A (Cx F64)) : Option (Res (FFTRepr A (Cx F64))) :=
  match (do
      let maxC ← r.expMaxF hyp
      let intPow ← maxC.toUsize
      return (intPow, r.divReal maxC) : Res (Nat × FFTRepr A (Cx F64))) with
  | .error e => some (.error e)
  | .ok (intPow, n) => (taylorF n fuel 1 1 one n).map (fun s => s.bind (fun s => s.pow intPow))

end FFTRepr

end TClifford
