import Verif.Proofs.ComplexExp
import Verif.Props.ParamComplex
import Verif.Props.FFTExpF
/-
`exp` with `Complex64` coefficients under rounding: C88.
-/

set_option linter.unusedSectionVars false

namespace TClifford

open MV Finset FloatModel

section
variable {S : Type} [CoeffStorage S (Cx F64)] {A : ClAlg}

/-- **C88, termination.** With `Complex64` coefficients too, the loop takes exactly 18 iterations, whatever the coefficients are. -/
theorem C88_complex_iterations (hyp : F64 → F64 → F64) (a : MV A S) :
    (∀ fuel < 18, a.expFC hyp fuel = none ∨ ∃ e, a.expFC hyp fuel = some (.error e)) ∧ ∃ r, ∀ fuel ≥ 18, a.expFC hyp fuel = some r := by
  unfold MV.expFC
  split
  · exact ⟨fun _ _ => .inr ⟨_, rfl⟩, _, fun _ _ => rfl⟩
  · rename_i res k n _
    obtain ⟨h1, r, h2⟩ := taylorFC_fuel n 18 (k := 0) rfl res n
    refine ⟨fun fuel hf => ?_, _, fun fuel hf => by rw [show (1 : F64) = expCoefF 0 from rfl, h2 fuel hf]; rfl⟩
    rcases h1 fuel hf with h | ⟨e, h⟩
    · exact .inl (by rw [show (1 : F64) = expCoefF 0 from rfl, h]; rfl)
    · exact .inr ⟨e, by rw [show (1 : F64) = expCoefF 0 from rfl, h]; rfl⟩

end

variable {A : ClAlg}

theorem OptResRel.ok {α β : Type} {P : α → β → Prop} {x : Option (Res α)} {y : Option (Res β)} (h : OptResRel P x y) {u : α} (hx : x = some (.ok u)) :
    ∃ v, y = some (.ok v) ∧ P u v := by
  subst hx
  match y, h with
  | some (.ok v), h => exact ⟨v, rfl, h⟩
  | some (.error _), h => exact h.elim
  | none, h => exact h.elim

theorem OptResRel.error {α β : Type} {P : α → β → Prop} {x : Option (Res α)} {y : Option (Res β)} (h : OptResRel P x y) {e : Err} (hx : x = some (.error e)) :
    y = some (.error e) := by
  subst hx
  match y, h with
  | some (.ok _), h => exact h.elim
  | some (.error e'), h => cases (show e = e' from h); rfl
  | none, h => exact h.elim

/-- **C88.** `exp` of a real multivector that is stored with `Complex64` coefficients is exactly `exp` of the one with `f64`
coefficients, including all roundings and overflows: if one succeeds so does the other, with the same real parts, and imaginary parts
zero where the result is finite; if one fails so does the other, with the same error.  Asked of `hypot` is only what the C
standard promises: `hypot(x, 0) = |x|`, and no finite result for a real part that is not finite. -/
theorem C88_complex_real {hyp : F64 → F64 → F64} (h0 : ∀ x : F64, x ≠ .nonFinite → hyp x 0 = x.abs) (hinf : ∀ y, hyp .nonFinite y = .nonFinite)
    {a : MV A (ArrayStorage F64)} {a' : MV A (ArrayStorage (Cx F64))} (ha : a.Valid) (ha' : a'.Valid)
    (h : ∀ k < 2 ^ A.dim, a'.val k = ⟨a.val k, 0⟩) (fuel : Nat) :
    (∀ u, a.expF fuel = some (.ok u) → ∃ v, a'.expFC hyp fuel = some (.ok v) ∧
      ∀ k, (v.val k).re = u.val k ∧ (u.val k ≠ .nonFinite → (v.val k).im = 0)) ∧
    ∀ e, a.expF fuel = some (.error e) → a'.expFC hyp fuel = some (.error e) := by
  have hr : OptResRel (Rel RealRel) (a.expF fuel) (a'.expFC hyp fuel) := expF_rel realRel_sum realRel_mul (fun c => ⟨rfl, fun _ => rfl⟩)
    (fun c z hz => by
      obtain ⟨h1, h2⟩ := hz
      rw [h1]
      by_cases hc : c = .nonFinite
      · rw [hc, hinf]; rfl
      · rw [h2 hc, h0 c hc])
    (Rel.of_val ha ha' fun k hk => by rw [h k hk]; exact ⟨rfl, fun _ => rfl⟩) fuel
  refine ⟨fun u hu => ?_, fun e he => hr.error he⟩
  obtain ⟨v, h1, h2⟩ := hr.ok hu
  exact ⟨v, h1, fun k => h2.to_val realRel_sum.zero k⟩

/-- **C88.** `exp` commutes exactly with complex conjugation of all coefficients, if `hypot(x, -y) = hypot(x, y)`, which the C standard
promises. -/
theorem C88_complex_conj {hyp : F64 → F64 → F64} (hs : ∀ x y : F64, hyp x (-y) = hyp x y) {a a' : MV A (ArrayStorage (Cx F64))} (ha : a.Valid)
    (ha' : a'.Valid) (h : ∀ k < 2 ^ A.dim, a'.val k = ⟨(a.val k).re, -(a.val k).im⟩) (fuel : Nat) :
    (∀ u, a.expFC hyp fuel = some (.ok u) → ∃ v, a'.expFC hyp fuel = some (.ok v) ∧ ∀ k, v.val k = ⟨(u.val k).re, -(u.val k).im⟩) ∧
    ∀ e, a.expFC hyp fuel = some (.error e) → a'.expFC hyp fuel = some (.error e) := by
  have hr : OptResRel (Rel fun x z : Cx F64 => z = ⟨x.re, -x.im⟩) (a.expFC hyp fuel) (a'.expFC hyp fuel) :=
    expFC_rel conjRel_sum (fun {x x' y y'} hx hy => by subst hx hy; exact conj_mul x y)
      (fun c => Cx.ext' rfl (SumLaws.neg_zero (F := F64)).symm)
      (fun z z' hz => by subst hz; exact (hs _ _).symm) (Rel.of_val ha ha' fun k hk => h k hk) fuel
  refine ⟨fun u hu => ?_, fun e he => hr.error he⟩
  obtain ⟨v, h1, h2⟩ := hr.ok hu
  exact ⟨v, h1, fun k => h2.to_val conjRel_sum.zero k⟩

/-- The `hypot` that rounds correctly has the properties asked for above. -/
theorem C88_hypot_exact : (∀ x : F64, x ≠ .nonFinite → x.hypot 0 = x.abs) ∧ (∀ y : F64, Flt.hypot .nonFinite y = .nonFinite) ∧
    ∀ x y : F64, x.hypot (-y) = x.hypot y := by
  refine ⟨fun x hx => ?_, fun y => by cases y <;> rfl, fun x y => ?_⟩
  · cases x with
    | nonFinite => exact absurd rfl hx
    | num x =>
      obtain ⟨w, hw⟩ := Flt.cases_fin (fin_zero (F := F64))
      have hw0 : w.1 = 0 := by
        have : ((0 : F64)).toRat = 0 := by decide +kernel
        rw [hw] at this
        exact this
      rw [hw]
      show Flt.ofRat (Flt.sqrtRat .f64 (x.1 ^ 2 + w.1 ^ 2)) = Flt.ofRat |x.1|
      rw [hw0]
      have hq : 0 ≤ x.1 ^ 2 := sq_nonneg _
      have hy : Fmt.f64.rnd |x.1| = |x.1| := by
        rcases abs_choice x.1 with h | h <;> rw [h]
        · exact x.2.1
        · rw [Fmt.rnd_neg, x.2.1]
      have h1 := Flt.rnd_sqrtRat_nearest (f := .f64) hq hy
      have e : Real.sqrt ((x.1 ^ 2 : ℚ) : ℝ) = ((|x.1| : ℚ) : ℝ) := by push_cast; exact Real.sqrt_sq_eq_abs _
      rw [e, sub_self, abs_zero] at h1
      have h2 : Fmt.f64.rnd (Flt.sqrtRat .f64 (x.1 ^ 2)) = |x.1| := by
        have := sub_eq_zero.mp (abs_nonpos_iff.mp h1)
        exact_mod_cast this
      rw [show x.1 ^ 2 + 0 ^ 2 = x.1 ^ 2 by ring]
      unfold Flt.ofRat
      rw [h2, hy]
  · cases x <;> cases y <;> try rfl
    rename_i x y
    obtain ⟨w, hw⟩ := Flt.cases_fin (show fin (-(.num y : F64)) from (neg_ok (Flt.fin_num y)).1)
    have hwy : w.1 = -y.1 := by
      have : re (-(.num y : F64)) = -re (.num y : F64) := (neg_ok (Flt.fin_num y)).2
      rw [hw] at this
      change ((w.1 : ℚ) : ℝ) = -((y.1 : ℚ) : ℝ) at this
      exact_mod_cast this
    rw [hw]
    show Flt.ofRat (Flt.sqrtRat .f64 (x.1 ^ 2 + w.1 ^ 2)) = Flt.ofRat (Flt.sqrtRat .f64 (x.1 ^ 2 + y.1 ^ 2))
    rw [hwy, neg_sq]

namespace Ex

example := C88_complex_iterations Flt.hypot (⟨⟨3, ⟨8, xFC⟩⟩⟩ : MV E (ArrayStorage (TClifford.Cx F64)))

example := C88_complex_real C88_hypot_exact.1 C88_hypot_exact.2.1 (paramF_valid xF) (paramC_valid fun k => ⟨xF k, 0⟩)
  (fun k hk => by rw [paramC_val _ hk, paramF_val _ hk]) 18

example := C88_complex_conj C88_hypot_exact.2.2 (paramC_valid xFC) (paramC_valid fun k => ⟨(xFC k).re, -(xFC k).im⟩)
  (fun k hk => by rw [paramC_val _ hk, paramC_val _ hk]) 18

end Ex

end TClifford
