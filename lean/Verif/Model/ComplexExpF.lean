import Verif.Model.FFTExpF
/-
`exp` of src/lib.rs with `Complex64` coefficients, with the rounding of `f64`.  Compare Verif/Model/FloatExp.lean for `f64`
coefficients and Verif/Model/FFTExpF.lean for the transform; as there, `Complex64::norm` is the function `hypot` of the C library,
which is not specified exactly and is the parameter `hyp`, and infinities and NaN are one value.
-/

namespace TClifford

/-- `Complex64::from(f64)`: imaginary part zero. -/
def Cx.ofReal {F : Type} [Zero F] (x : F) : Cx F := ⟨x, 0⟩

namespace MV
variable {A : ClAlg} {S : Type} [CoeffStorage S (Cx F64)]

/-- `max_c`, src/lib.rs:307-312; `norm` (src/lib.rs:623-631) of a `Complex64` is its absolute value. -/
def expMaxFC (hyp : F64 → F64 → F64) (a : MV A S) : Res F64 := do
  let maxC := a.coeffEnumerate.foldl (fun m p => Flt.fmax (hyp p.2.re p.2.im) m) (1 : F64)
  let m2 ← a.mag2
  let maxC := Flt.fmax maxC (hyp m2.re m2.im).sqrt
  return maxC.ceil

/-- The loop of `exp`, src/lib.rs:318-324; `fuel` as in `taylorF`. -/
def taylorFC (x : MV A S) : (fuel : Nat) → (coeff : F64) → (i : Nat) → (res p : MV A S) → Option (Res (MV A S))
  | 0, coeff, _, res, _ => if coeff.gt F64.epsilon then none else some (.ok res)
  | fuel + 1, coeff, i, res, p =>
    if coeff.gt F64.epsilon then
      let coeff := coeff / Flt.ofRat (i : ℚ)
      match (do
        let t ← p.smul (Cx.ofReal coeff)
        let res ← res.add t
        let p ← p.naiveMulImpl x
        return (res, p) : Res (MV A S × MV A S)) with
      | .error e => some (.error e)
      | .ok (res, p) => taylorFC x fuel coeff (i + 1) res p
    else some (.ok res)

/-- `exp` for `Complex64` coefficients, src/lib.rs:296-327. -/
def expFC (hyp : F64 → F64 → F64) (fuel : Nat) (a : MV A S) : Option (Res (MV A S)) :=
  match (do
      let res ← one (A := A) (S := S) (T := Cx F64)
      let maxC ← a.expMaxFC hyp
      let intPow ← maxC.toUsize
      let n ← a.smul (Cx.ofReal (1 / maxC))
      return (res, intPow, n) : Res (MV A S × Nat × MV A S)) with
  | .error e => some (.error e)
  | .ok (res, intPow, n) => (taylorFC n fuel 1 1 res n).map (fun r => r.bind (fun r => r.pow intPow))

end MV

end TClifford
