import Verif.Props.Inverse
import Verif.Proofs.Generic
/-
C37: `FFTRepr::inv` succeeds on almost all multivectors.
-/

set_option linter.unusedSectionVars false

namespace TClifford

open Finset MV

section
variable {K N : Type} [Field K] [DecidableEq K] [ImagUnit K] [LinearOrder N] [Zero N] {A : ClAlg} {T : Type} [Ring T] [DecidableEq T]
  [IntoComplex T K]

/-- **C37, almost always.** In every non-degenerate algebra there is a polynomial in the coefficients, different from the zero
polynomial, such that `a.fft().inv()` is `Some` for all `a` where the polynomial is not zero. -/
theorem C37_inv_generic_partial [LawfulInto T K] {norm : K → N} (hN : ∀ x, norm x = 0 ↔ x = 0) (h2 : (2 : K) ≠ 0)
    (hA : A.WF) (hn : A.projDim = 0) (hd : A.dim < 63) :
    ∃ P : MvPolynomial Nat K, P ≠ 0 ∧ ∀ (a : MV A (ArrayStorage T)) (f : Nat → T), a.Valid → Coefs (.ok a) f →
      P.eval (fun k => IntoComplex.into (f k)) ≠ 0 →
      ∃ s, (do let r ← (a.fft : Res (FFTRepr A K)); return r.inv norm) = .ok (some s) := by
  have hnn := nondegenerate_dims hA hn
  refine ⟨minorPoly A A.half A.nn, minorPoly_ne_zero h2 A (by unfold ClAlg.half; omega), fun a f ha hf hP => ?_⟩
  obtain ⟨r, e1, hr⟩ := fft_represents (K := K) hA hd ha
  rw [e1]
  have hI : r.arr.Is 0 A.half := hn ▸ hr.1
  suffices hsome : (matrixInv norm (r.arr.layer 0)).isSome by
    obtain ⟨y, hy⟩ := Option.isSome_iff_exists.mp hsome
    refine ⟨⟨Arr3.ofArr2 y⟩, ?_⟩
    show Except.ok (r.inv norm) = _
    unfold FFTRepr.inv
    rw [hy]; rfl
  have hrows : (r.arr.layer 0).rows = 2 ^ A.half := hI.2.1
  have hcols : (r.arr.layer 0).cols = 2 ^ A.half := hI.2.2
  refine matrixInv_generic hN (by rw [hrows, hcols]) ?_
  rw [hrows]
  have hg : MEq (2 ^ A.half) (2 ^ A.half) (r.arr.get 0) (ctr A.half A.nn (cx A a.val)) := by
    have := hr.2 0 (Nat.two_pow_pos _)
    unfold FL at this
    rwa [lay_zero] at this
  have hM := minorsNe_of_eval hP
  have he : ctr A.half A.nn (cx (K := K) A (fun k => (IntoComplex.into (f k) : K))) =
      ctr A.half A.nn (cx A a.val) := by
    refine ctr_congr fun k hk => ?_
    rw [hnn] at hk
    show _ * (IntoComplex.into (f k) : K) = _ * IntoComplex.into (a.val k)
    rw [hf.val ha hk]
  rw [he] at hM
  intro i j hj hj' ρ hlt hinj h0
  apply hM i j hj hj' ρ hlt hinj
  refine Eq.trans ?_ h0
  unfold minor
  congr 1
  ext x y
  refine (hg _ (hlt x (by omega)) _ ?_).symm
  unfold mcol
  split <;> omega

/-- **C37, almost always.** Whatever infinite set of values is given for each coefficient, there is a multivector with these
coefficients for which `a.fft().inv()` is `Some`; in particular, those multivectors are dense in the real and complex ones. -/
theorem C37_inv_dense_partial [FromComplex T K] [LawfulComplex T K] {norm : K → N} (hN : ∀ x, norm x = 0 ↔ x = 0) (h2 : (2 : K) ≠ 0)
    (hA : A.WF) (hn : A.projDim = 0) (hd : A.dim < 63) {U : Nat → Set T} (hU : ∀ k, (U k).Infinite) :
    ∃ (a : MV A (ArrayStorage T)) (f : Nat → T) (s : FFTRepr A K), a.Valid ∧ Coefs (.ok a) f ∧ (∀ k < 2 ^ A.dim, f k ∈ U k) ∧
      (do let r ← (a.fft : Res (FFTRepr A K)); return r.inv norm) = .ok (some s) := by
  obtain ⟨P, hP, h⟩ := C37_inv_generic_partial (T := T) hN h2 hA hn hd
  have hinj : Function.Injective (IntoComplex.into : T → K) := fun x y e => by
    rw [← from_into (K := K) x, e, from_into]
  have : ∃ z ∈ Set.pi Set.univ (fun k => (IntoComplex.into : T → K) '' U k), MvPolynomial.eval z P ≠ 0 := by
    by_contra hc
    push Not at hc
    exact hP (MvPolynomial.funext_set _ (fun k => (hU k).image hinj.injOn) (q := 0) (fun z hz => by rw [hc z hz, map_zero]))
  obtain ⟨z, hz, he⟩ := this
  choose f hf using fun k => hz k (Set.mem_univ k)
  have hv : (⟨⟨A.dim, ⟨2 ^ A.dim, f⟩⟩⟩ : MV A (ArrayStorage T)).Valid := ⟨by show A.dim ≤ 63; omega, rfl, rfl⟩
  have hc : Coefs (.ok (⟨⟨A.dim, ⟨2 ^ A.dim, f⟩⟩⟩ : MV A (ArrayStorage T))) f := by
    refine ⟨_, rfl, fun i hi => ?_⟩
    rw [hv.get hi]
    congr 1
    exact if_pos hi
  obtain ⟨s, hs⟩ := h _ f hv hc (by
    have : (fun k => (IntoComplex.into (f k) : K)) = z := funext fun k => (hf k).2
    rw [this]; exact he)
  exact ⟨_, f, s, hv, hc, fun k _ => (hf k).1, hs⟩

end

section examples
open Ex

/-- Real multivectors of three-dimensional space. -/
example := C37_inv_generic_partial (T := ℝ) (K := ℂ) (norm := fun z : ℂ => ‖z‖) (fun _ => norm_eq_zero) two_ne_zero E_wf rfl
  (by decide)

/-- Near the basis vector `x`, where `inv` fails: each coefficient is changed by less than a billionth. -/
example := C37_inv_dense_partial (T := ℝ) (K := ℂ) (norm := fun z : ℂ => ‖z‖) (fun _ => norm_eq_zero) two_ne_zero E_wf rfl
  (by decide) (U := fun k => Set.Ioo ((if k = 1 then 1 else 0) - 1 / 10 ^ 9) ((if k = 1 then 1 else 0) + 1 / 10 ^ 9))
  (fun k => Set.Ioo_infinite (by linarith [show (0 : ℝ) < 1 / 10 ^ 9 by positivity]))

end examples

end TClifford
