import Verif.Model.FFTShape
import Verif.Props.FFT
import Verif.Props.SignExp
import Verif.Props.FFTRound
/-
C40: `shape()`.  Every representation that the crate builds has the shape that `from_array3` checks, whatever the entries are
(rounded, infinite or NaN), so that no operation on two of them panics.  The shape in the documentation of `FFTRepr`,
`[2^s, m/2, m/2]` with `m` the number of non-null generators rounded up to an even number (src/fftrepr/mod.rs:25-32), is not it.
-/

set_option linter.unusedSectionVars false

namespace TClifford
open MV

section
variable {A : ClAlg} {K : Type} [Zero K] [One K] [Add K] [Sub K] [Neg K] [Mul K] [Div K] [DecidableEq K] [HasI K]

theorem shape_iff {r : FFTRepr A K} : r.shape = (2 ^ A.projDim, 2 ^ ((A.realDim + A.imagDim + 1) / 2), 2 ^ ((A.realDim + A.imagDim + 1) / 2)) ↔
    r.arr.Is A.projDim A.half := by
  show (r.arr.d0, r.arr.d1, r.arr.d2) = _ ↔ _
  simp only [Prod.mk.injEq]
  exact Iff.rfl

theorem zero_shape (hA : A.WF) (hd : A.dim < 63) : (FFTRepr.zero : FFTRepr A K).arr.Is A.projDim A.half :=
  ⟨wcount_eq hA hd, matrixSide_eq hA hd, matrixSide_eq hA hd⟩

theorem one_shape (hA : A.WF) (hd : A.dim < 63) : (FFTRepr.one : FFTRepr A K).arr.Is A.projDim A.half := zero_shape (K := K) hA hd

/-- **C40.** `from_array3` accepts exactly the arrays of the right shape, for entries of any type. -/
theorem C40_from_array3_any (hA : A.WF) (hd : A.dim < 63) (arr : Arr3 K) :
    let sh := (2 ^ A.projDim, 2 ^ ((A.realDim + A.imagDim + 1) / 2), 2 ^ ((A.realDim + A.imagDim + 1) / 2))
    (∀ r : FFTRepr A K, FFTRepr.fromArray3 arr = .ok r ↔ r.intoArray3 = arr ∧ r.shape = sh) ∧
    ((FFTRepr.fromArray3 arr : Res (FFTRepr A K)) = .error (.cl .InvalidShape) ↔ arr.dims ≠ sh) := by
  have hs : ushl 1 (((A.nn + 1) / 2) * 2 / 2) = 2 ^ A.half := by
    have := hA.nn_le
    rw [Nat.mul_div_cancel _ (by norm_num), ushl_one (by omega)]
  intro sh
  have e : (FFTRepr.fromArray3 arr : Res (FFTRepr A K)) = if arr.dims ≠ sh then .error (.cl .InvalidShape) else .ok ⟨arr⟩ := by
    unfold FFTRepr.fromArray3
    simp only [hA.countOnes_nn, hs, nullSize_eq hA]
    rfl
  rw [e]
  constructor
  · intro r
    constructor
    · intro h
      split at h
      · cases h
      · rename_i hc
        injection h with h
        subst h
        exact ⟨rfl, not_not.mp hc⟩
    · rintro ⟨h1, h2⟩
      subst h1
      rw [if_neg (show ¬ r.intoArray3.dims ≠ sh from not_not.mpr h2)]
      rfl
  · split
    · rename_i hc; exact ⟨fun _ => hc, fun _ => rfl⟩
    · rename_i hc; exact ⟨fun h => (by cases h), fun h => absurd h hc⟩

/-- **C40.** `zero()` and `one()` have the right shape, and all operations keep it, for all entries of any type with `-(-x) = x` (so also for floating point numbers). -/
theorem C40_shape (hA : A.WF) (hd : A.dim < 63) (hn : ∀ x : K, - -x = x) :
    let sh := (2 ^ A.projDim, 2 ^ ((A.realDim + A.imagDim + 1) / 2), 2 ^ ((A.realDim + A.imagDim + 1) / 2))
    (FFTRepr.zero : FFTRepr A K).shape = sh ∧ (FFTRepr.one : FFTRepr A K).shape = sh ∧
    ∀ r s : FFTRepr A K, r.shape = sh → s.shape = sh →
      (∃ t, r.add s = .ok t ∧ t.shape = sh) ∧ (∃ t, r.sub s = .ok t ∧ t.shape = sh) ∧ (∃ t, r.mul s = .ok t ∧ t.shape = sh) ∧
      (∀ n, ∃ t, r.pow n = .ok t ∧ t.shape = sh) ∧ r.neg.shape = sh ∧ (∀ c, (r.smul c).shape = sh) ∧ r.flip.shape = sh := by
  intro sh
  refine ⟨shape_iff.mpr (zero_shape hA hd), shape_iff.mpr (one_shape hA hd), ?_⟩
  · intro r s hr hs
    have hr' := shape_iff.mp hr
    have hs' := shape_iff.mp hs
    have zip (op : K → K → K) : ∃ t, (do return ⟨← Arr3.zip op r.arr s.arr⟩ : Res (FFTRepr A K)) = .ok t ∧ t.shape = sh := by
      obtain ⟨r0, r1, r2⟩ := hr'
      obtain ⟨s0, s1, s2⟩ := hs'
      unfold Arr3.zip
      rw [if_pos (by simp only [Arr3.dims, r0, r1, r2, s0, s1, s2])]
      exact ⟨_, rfl, hr⟩
    have mul {r s : FFTRepr A K} (hr : r.shape = sh) (hs : s.shape = sh) : ∃ t, r.mul s = .ok t ∧ t.shape = sh := by
      obtain ⟨t, h1, h2, -⟩ := mul_ops hn (shape_iff.mp hr) (shape_iff.mp hs)
      exact ⟨t, h1, shape_iff.mpr h2⟩
    refine ⟨zip _, zip _, mul hr hs, ?_, hr, fun _ => hr, hr⟩
    intro n
    induction n using Nat.strong_induction_on with
    | _ n ih =>
      unfold FFTRepr.pow
      by_cases h0 : n = 0
      · rw [if_pos h0]
        exact ⟨_, rfl, shape_iff.mpr (one_shape hA hd)⟩
      · rw [if_neg h0]
        by_cases h1 : n = 1
        · rw [if_pos h1]
          exact ⟨r, rfl, hr⟩
        · rw [if_neg h1]
          obtain ⟨x, hx, hx'⟩ := ih (n >>> 1) (by rw [Nat.shiftRight_one]; omega)
          obtain ⟨y, hy, hy'⟩ := mul hx' hx'
          rw [hx]
          show ∃ t, (if n &&& 1 = 0 then x.mul x else do let y ← x.mul x; y.mul r) = .ok t ∧ _
          split
          · exact ⟨y, hy, hy'⟩
          · rw [hy]
            exact mul hy' hr

end

/-- **C40, the documentation.** The shape `[2^s, m/2, m/2]` of src/fftrepr/mod.rs:25-32 is never the shape of `fft()`: the
matrices have `2^(m/2)` rows. -/
theorem C40_doc_shape_false {A : ClAlg} {T K : Type} [Ring T] [DecidableEq T] [Field K] [DecidableEq K] [ImagUnit K]
    [IntoComplex T K] [LawfulInto T K] (hA : A.WF) (hd : A.dim < 63) {a : MV A (ArrayStorage T)} (ha : a.Valid) {r : FFTRepr A K}
    (hr : a.fft = .ok r) :
    let m := (A.realDim + A.imagDim + 1) / 2 * 2
    r.shape = (2 ^ A.projDim, 2 ^ (m / 2), 2 ^ (m / 2)) ∧ r.shape ≠ (2 ^ A.projDim, m / 2, m / 2) := by
  intro m
  have h := C40_fft_shape (K := K) hA hd ha
  rw [hr] at h
  have h' : r.shape = (2 ^ A.projDim, 2 ^ ((A.realDim + A.imagDim + 1) / 2), 2 ^ ((A.realDim + A.imagDim + 1) / 2)) := by injection h
  have hm : m / 2 = (A.realDim + A.imagDim + 1) / 2 := Nat.mul_div_cancel _ (by norm_num)
  rw [hm]
  refine ⟨h', ?_⟩
  rw [h']
  intro hc
  simp only [Prod.mk.injEq] at hc
  have := Nat.lt_two_pow_self (n := (A.realDim + A.imagDim + 1) / 2)
  omega

namespace Ex

/-- A representation with entries that are not finite keeps its shape as well. -/
example : ∃ t, (FFTRepr.mul (A := M) ⟨⟨2, 2, 2, fun _ _ _ => ⟨.nonFinite, 1⟩⟩⟩ ⟨⟨2, 2, 2, fun _ _ _ => 1⟩⟩ : Res (FFTRepr M (Cx F64))) = .ok t ∧
    t.shape = (2, 2, 2) :=
  ((C40_shape (K := Cx F64) M_wf (by decide) Cx.neg_neg').2.2 ⟨⟨2, 2, 2, fun _ _ _ => ⟨.nonFinite, 1⟩⟩⟩ ⟨⟨2, 2, 2, fun _ _ _ => 1⟩⟩ rfl rfl).2.2.1

example : FFTRepr.fromArray3 arr3 = .ok (⟨arr3⟩ : FFTRepr M ℂ) := ((C40_from_array3_any M_wf (by decide) arr3).1 ⟨arr3⟩).mpr ⟨rfl, rfl⟩

example {r : FFTRepr M ℂ} (hr : mR.fft = .ok r) : r.shape ≠ (2, 1, 1) := (C40_doc_shape_false M_wf (by decide) mR_valid hr).2

end Ex

end TClifford
