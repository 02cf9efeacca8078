import Verif.Model.Exp
import Verif.Proofs.GA
import Verif.Proofs.FFTRepr
import Mathlib.Data.Nat.Factorial.Basic
import Mathlib.Algebra.BigOperators.Group.Finset.Basic
import Mathlib.Data.Nat.Choose.Sum
/-
The Taylor loop of `exp`.
-/

set_option linter.unusedSectionVars false

namespace TClifford

open Finset

theorem factorial_lt_iff (k : Nat) : k.factorial < 2 ^ 52 ↔ k ≤ 17 := by
  constructor
  · intro h
    by_contra hk
    have : Nat.factorial 18 ≤ k.factorial := Nat.factorial_le (by omega)
    have h18 : 2 ^ 52 ≤ Nat.factorial 18 := by decide
    omega
  · intro h
    have : k.factorial ≤ Nat.factorial 17 := Nat.factorial_le h
    have h17 : Nat.factorial 17 < 2 ^ 52 := by decide
    omega

theorem coeff_gt_iff (k : Nat) : (1 / (k.factorial : ℝ) > f64Epsilon) ↔ k ≤ 17 := by
  unfold f64Epsilon
  rw [gt_iff_lt, one_div_lt_one_div (by positivity) (by exact_mod_cast Nat.factorial_pos k), ← factorial_lt_iff]
  exact_mod_cast Iff.rfl

/-- The partial sum of the exponential series computed by `exp`. -/
noncomputable def taylor {G T : Type} [CommRing T] [Ring G] [Algebra T G] (ofReal : ℝ → T) (n : Nat) (x : G) : G :=
  ∑ j ∈ range n, ofReal (1 / (j.factorial : ℝ)) • x ^ j

section loop
variable {M G T : Type} [CommRing T] [Ring G] [Algebra T G] {ofReal : ℝ → T} {R : M → G → Prop}
  {add mul : M → M → Res M} {scale : M → ℝ → Res M}

/-- With the loop at iteration `k + 1`: if `18 - k` iterations fit in the fuel the loop ends with the partial sum up to
degree 18, otherwise it does not end. -/
theorem taylorLoop_spec
    (hadd : ∀ {a b x y}, R a x → R b y → ∃ c, add a b = .ok c ∧ R c (x + y))
    (hmul : ∀ {a b x y}, R a x → R b y → ∃ c, mul a b = .ok c ∧ R c (x * y))
    (hscale : ∀ {a x} (t : ℝ), R a x → ∃ c, scale a t = .ok c ∧ R c (ofReal t • x))
    {n : M} {x : G} (hn : R n x) (fuel k : Nat) (hk : k ≤ 18) (res p : M)
    (hres : R res (taylor ofReal (k + 1) x)) (hp : R p (x ^ (k + 1))) :
    (fuel + k < 18 → taylorLoop add mul scale n fuel (1 / (k.factorial : ℝ)) (k + 1) res p = none) ∧
    (18 ≤ fuel + k → ∃ r, taylorLoop add mul scale n fuel (1 / (k.factorial : ℝ)) (k + 1) res p = some (.ok r) ∧
      R r (taylor ofReal 19 x)) := by
  induction fuel generalizing k res p with
  | zero =>
    unfold taylorLoop
    constructor
    · intro h
      rw [if_pos ((coeff_gt_iff k).mpr (by omega))]
    · intro h
      have : k = 18 := by omega
      subst this
      rw [if_neg (fun h => by have := (coeff_gt_iff 18).mp h; omega)]
      exact ⟨res, rfl, hres⟩
  | succ fuel ih =>
    by_cases hk17 : k ≤ 17
    · unfold taylorLoop
      rw [if_pos ((coeff_gt_iff k).mpr hk17)]
      have hc : 1 / (k.factorial : ℝ) / ((k + 1 : Nat) : ℝ) = 1 / ((k + 1).factorial : ℝ) := by
        rw [Nat.factorial_succ]
        push_cast
        rw [div_div, mul_comm]
      obtain ⟨t, ht, htR⟩ := hscale (1 / ((k + 1).factorial : ℝ)) hp
      obtain ⟨r', hr', hrR⟩ := hadd hres htR
      obtain ⟨p', hp', hpR⟩ := hmul hp hn
      dsimp only
      rw [hc, ht]
      have e : (do
        let t ← (Except.ok t : Res M)
        let res ← add res t
        let p ← mul p n
        return (res, p) : Res (M × M)) = .ok (r', p') := by
        show (add res t >>= fun res => mul p n >>= fun p => Except.ok (res, p)) = _
        rw [hr']
        show (mul p n >>= fun p => Except.ok (r', p)) = _
        rw [hp']
        rfl
      rw [e]
      dsimp only
      have := ih (k + 1) (by omega) r' p' (by
        have e : taylor ofReal (k + 1 + 1) x = taylor ofReal (k + 1) x + ofReal (1 / ((k + 1).factorial : ℝ)) • x ^ (k + 1) := by
          unfold taylor
          rw [Finset.sum_range_succ]
        rw [e]
        exact hrR) (by rw [pow_succ]; exact hpR)
      exact ⟨fun h => this.1 (by omega), fun h => this.2 (by omega)⟩
    · have : k = 18 := by omega
      subst this
      refine ⟨fun h => absurd h (by omega), fun _ => ?_⟩
      unfold taylorLoop
      rw [if_neg (fun h => hk17 ((coeff_gt_iff 18).mp h))]
      exact ⟨res, rfl, hres⟩

end loop

section algebra
variable {G T : Type} [CommRing T] [Ring G] [Algebra T G] {ofReal : ℝ →+* T}

theorem taylor_of_sq_zero {n : G} (h : n * n = 0) : taylor ofReal 19 n = 1 + n := by
  have hp : ∀ j, n ^ (j + 2) = 0 := by
    intro j
    rw [pow_add, pow_two, h, mul_zero]
  unfold taylor
  rw [show (19 : Nat) = 17 + 2 by rfl, Finset.sum_range_succ', Finset.sum_range_succ', Finset.sum_eq_zero]
  · simp [add_comm]
  · intro j _
    rw [hp, smul_zero]

theorem one_add_pow_of_sq_zero {n : G} (h : n * n = 0) (m : Nat) : (1 + n) ^ m = 1 + m • n := by
  induction m with
  | zero => simp
  | succ m ih =>
    rw [pow_succ, ih, add_mul, one_mul, mul_add, mul_one, smul_mul_assoc, h, smul_zero, add_zero, succ_nsmul]
    abel

theorem taylor_pow_of_sq_zero {x : G} (h : x * x = 0) (m k : Nat) :
    taylor ofReal 19 (ofReal (1 / (m : ℝ)) • x) ^ k = 1 + ofReal (k / (m : ℝ)) • x := by
  have hn : (ofReal (1 / (m : ℝ)) • x) * (ofReal (1 / (m : ℝ)) • x) = 0 := by
    rw [smul_mul_smul_comm, h, smul_zero]
  rw [taylor_of_sq_zero hn, one_add_pow_of_sq_zero hn, ← smul_assoc, nsmul_eq_mul, ← map_natCast ofReal, ← map_mul,
    mul_one_div]

theorem usizeCast_div {m : Nat} (hm : 1 ≤ m) (h : m < 2 ^ 64) : (usizeCast m : ℝ) / (m : ℝ) = 1 := by
  rw [usizeCast, min_eq_left (by omega), div_self (by exact_mod_cast Nat.one_le_iff_ne_zero.mp hm)]

theorem usizeCast_div_ne {m : Nat} (h : 2 ^ 64 ≤ m) : (usizeCast m : ℝ) / (m : ℝ) < 1 := by
  rw [usizeCast, min_eq_right (by omega), div_lt_one (by exact_mod_cast (by omega : 0 < m))]
  exact_mod_cast (by omega)

theorem taylor_commute (n : Nat) (x : G) : Commute (taylor ofReal n x) x := by
  unfold taylor
  refine Commute.sum_left _ _ _ (fun j _ => ?_)
  exact ((Commute.refl x).pow_left j).smul_left _

end algebra

end TClifford
