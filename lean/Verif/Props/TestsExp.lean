import Verif.Props.Tests
import Verif.Model.FloatExp
/-
C87, fourth part: the assertions of the crate's tests that call `exp` on given inputs, run in the model with `f64`
coefficients: tests/unit.rs:89-96 (`basic_test`), 437-460 (`dual_test`) and 583-585 (`magnitude_test`).
-/

set_option maxRecDepth 100000

namespace TClifford
namespace Tests
open MV

section
variable {A : ClAlg} {S : Type} [CoeffStorage S F64]

/-- `MV.pow`, by recursion on a bound for the number of binary digits, which the kernel can evaluate. -/
def powK (a : MV A S) : (fuel n : Nat) → Res (MV A S)
  | 0, _ => .error .nonFinite
  | fuel + 1, n =>
    if n = 0 then one (T := F64)
    else if n = 1 then .ok a
    else do
      let x ← powK a fuel (n >>> 1)
      if n &&& 1 = 0 then x.naiveMulImpl x
      else do
        let y ← x.naiveMulImpl x
        y.naiveMulImpl a

theorem pow_eq_powK (a : MV A S) (fuel n : Nat) (h : n < 2 ^ fuel) (h0 : fuel ≠ 0) : a.pow n = powK a fuel n := by
  induction fuel generalizing n with
  | zero => exact absurd rfl h0
  | succ fuel ih =>
    rw [MV.pow, powK]
    by_cases h1 : n = 0
    · rw [if_pos h1, if_pos h1]
    by_cases h2 : n = 1
    · rw [if_neg h1, if_neg h1, if_pos h2, if_pos h2]
    rw [if_neg h1, if_neg h1, if_neg h2, if_neg h2]
    rw [ih (n >>> 1) (by rw [Nat.shiftRight_one]; omega) (by rintro rfl; omega)]

/-- The exponential, as the kernel can evaluate it if `max_c` is below 1024; the error `nonFinite` otherwise. -/
def expK (a : MV A S) : Res (MV A S) :=
  match (do
      let res ← one (A := A) (S := S) (T := F64)
      let maxC ← a.expMaxF
      let intPow ← maxC.toUsize
      let n ← a.smul (1 / maxC)
      return (res, intPow, n) : Res (MV A S × Nat × MV A S)) with
  | .error e => .error e
  | .ok (res, intPow, n) =>
    match taylorF n 18 1 1 res n with
    | none => .error .nonFinite
    | some (.error e) => .error e
    | some (.ok r) => if intPow < 1024 then powK r 10 intPow else .error .nonFinite

/-- If `expK` succeeds, it is the result of `exp`. -/
theorem expF_of_expK {a r : MV A S} (h : expK a = .ok r) : a.expF 18 = some (.ok r) := by
  unfold expK at h
  unfold MV.expF
  split at h
  · exact absurd h nofun
  · rename_i res k n e
    rw [e]
    split at h
    · exact absurd h nofun
    · exact absurd h nofun
    · rename_i r' e'
      split at h
      · rename_i hk
        simp only [e', Option.map_some]
        congr 1
        show r'.pow k = _
        rw [pow_eq_powK r' 10 k hk (by norm_num), h]
      · exact absurd h nofun
end

/-- `std::f64::consts::PI` -/
def pi64 : F64 := .ofRat (884279719003555 / 281474976710656)

section
variable {A : ClAlg} {S : Type} [CoeffStorage S F64]
/-- `a.exp()` -/
def pexp (a : Res (MV A S)) : Res (MV A S) := do expK (← a)
/-- `a.approx_eq(&b, eps)` -/
def papprox (a b : Res (MV A S)) (eps : F64) : Res Bool := do (← a).approxEq Flt.abs (← b) eps
/-- `a.rev()` -/
def prev (a : Res (MV A S)) : Res (MV A S) := do (← a).rev
/-- `a.dual()` -/
def pdual (a : Res (MV A S)) : Res (MV A S) := do (← a).dual
end

@[inherit_doc] local infixl:65 " +ₚ " => padd
@[inherit_doc] local infixl:70 " *ₚ " => pmul
@[inherit_doc] local infixl:70 " *ₛ " => psmul

/-! ### tests/unit.rs:89-96, basic_test -/

/-- `MV::one() * (0.5 as f64).sqrt() + x * y * (0.5 as f64).sqrt()` -/
def basicExpected : Res (D Cl3 F64) := one *ₛ (f (1 / 2)).sqrt +ₚ e3 0 *ₚ e3 1 *ₛ (f (1 / 2)).sqrt

/-- `x * y`, which is `b` of the test (`C87_basic`). -/
def basicXY : Res (D Cl3 F64) := e3 0 *ₚ e3 1

section
variable [HashOrder F64]
/-- The assertions of `basic_test` with `exp`; `b` of the test is `x * y` (`C87_basic`). -/
def basicExp : List (Res Bool) :=
  [papprox (do (← pexp (sp3 (e3 0) *ₚ sp3 (e3 1) *ₛ (pi64 / f 4))).toDense) basicExpected (f (1 / 10 ^ 10)),
   papprox (pexp (basicXY *ₛ (pi64 / f 4))) basicExpected (f (1 / 10 ^ 10))]
end

/-- **C87.** `basic_test` with `exp`, for two iteration orders of the hash maps. -/
theorem C87_basic_exp : @basicExp ⟨fun l => l, fun _ => .rfl⟩ = [.ok true, .ok true] ∧ @basicExp Ex.revOrder = [.ok true, .ok true] := by
  decide +kernel

/-! ### tests/unit.rs:437-460, dual_test -/

/-- The angles of the loop: `theta` after `k` iterations. -/
def theta : Nat → F64
  | 0 => 0
  | k + 1 => theta k + pi64 / f 20

/-- `(x + y).wedge(z)` -/
def dualV : Res (D Cl3 F64) := do (← e3 0 +ₚ e3 1).wedge (← e3 2)

/-- The body of the loop. -/
def dualBody (t : F64) : List (Res Bool) :=
  match pexp (e3 0 *ₚ e3 1 *ₛ t) with
  | .error e => [.error e]
  | .ok rot =>
    let rx := prev (.ok rot) *ₚ e3 0 *ₚ .ok rot
    let rxd := prev (.ok rot) *ₚ pdual (e3 0) *ₚ .ok rot
    let rv := prev (.ok rot) *ₚ dualV *ₚ .ok rot
    let rvd := prev (.ok rot) *ₚ pdual dualV *ₚ .ok rot
    [papprox (pdual rx) rxd (f (1 / 10 ^ 12)), papprox rx (pdual rxd) (f (1 / 10 ^ 12)),
     papprox (pdual rv) rvd (f (1 / 10 ^ 12)), papprox rv (pdual rvd) (f (1 / 10 ^ 12))]

/-- The loop runs while `theta <= PI`; this happens 21 times. -/
theorem theta_le : (∀ k < 21, pi64.gt (theta k) = true ∨ theta k = pi64) ∧ (theta 21).gt pi64 = true := by decide +kernel

/-- **C87.** The loop of `dual_test`. -/
theorem C87_dual_exp : ∀ k < 21, dualBody (theta k) = [.ok true, .ok true, .ok true, .ok true] := by decide +kernel

/-! ### tests/unit.rs:583-585, magnitude_test -/

/-- `rot` -/
def magRot : Res (D Mg F64) := pexp (eM 0 *ₚ eM 1 +ₚ eM 1 *ₚ eM 2 +ₚ eM 3 *ₚ eM 4) *ₛ f 5

/-- `(m.mag2() - b.mag2()).abs() < 1e-12` -/
def magBody : Res Bool := do
  let rot ← magRot
  let m ← (← (← rot.revm).naiveMulImpl (← eM 4)).naiveMulImpl rot
  return decide (((← m.mag2) - (← (← eM 4).mag2)).abs < f (1 / 10 ^ 12))

/-- **C87.** `magnitude_test` with `exp`. -/
theorem C87_magnitude_exp : magBody = .ok true := by decide +kernel

end Tests
end TClifford
