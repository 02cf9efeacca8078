import Verif.Props.FFT
import Verif.Props.Even
/-
No `unwrap()` of the library meets an `Err`: neg, revc, cmag2, filter, grades_extract, complexify, decomplexify, into_original (C25),
fft, ifft, rev and real_fft (C40).
-/

set_option linter.unusedSectionVars false

namespace TClifford

open MV Finset

section ring
variable {T : Type} [Ring T] [DecidableEq T] {S : Type} [CoeffStorage S T] [LawfulStorage S T] {A : ClAlg}

theorem unwrap_indexed (hS : LawfulStorage.Supp (S := S) (T := T) A.dim) {l : List (Nat × T)} (hl : ∀ p ∈ l, p.1 < 2 ^ A.dim) :
    ∃ r : MV A S, unwrap (fromIndexedIter l) = .ok r ∧ r.Valid := by
  obtain ⟨r, h, hv, -⟩ := (fromIndexedIter_ok hS l hl).unwrap
  exact ⟨r, h, hv⟩

/-- **C25.** `neg`, `revc` and `cmag2` call `from_indexed_iter(..).unwrap()`, which never panics, whatever the conjugation of the
coefficients does. -/
theorem C25_unwrap (hA : A.WF) {a : MV A S} (ha : a.Valid) (conj : T → T) :
    (∃ r, a.neg = .ok r ∧ r.Valid) ∧ (∃ r, a.revc conj = .ok r ∧ r.Valid) ∧ ∃ t, a.cmag2 conj = .ok t := by
  have h (g : Nat → T → T) : ∀ p ∈ a.coeffEnumerate.map (fun p => (p.1, g p.1 p.2)), p.1 < 2 ^ A.dim := by
    intro p hp
    obtain ⟨q, hq, rfl⟩ := List.mem_map.mp hp
    exact (ha.enum.mem q hq).1
  obtain ⟨r, h1, h2⟩ := unwrap_indexed (S := S) ha.supp (h fun i c => revC i (conj c))
  refine ⟨unwrap_indexed ha.supp (h fun _ c => -c), ⟨r, h1, h2⟩, geo A.sigma A.dim r.val a.val 0, ?_⟩
  unfold cmag2
  rw [h1]
  exact vdot_ok hA h2 ha

/-- **C25.** The dense `filter` never panics. -/
theorem C25_unwrap_filter {a : MV A (ArrayStorage T)} (ha : a.Valid) (f : Nat → T → Bool) :
    ∃ r, a.filter f = .ok r ∧ r.Valid :=
  unwrap_indexed ha.supp fun p hp => (ha.enum.mem p (List.mem_of_mem_filter hp)).1

/-- **C25.** `grades_extract` never panics. -/
theorem C25_unwrap_grades [HashOrder T] {a : MV A (SparseStorage T)} (ha : a.Valid) (gs : List Nat) :
    ∃ r, a.gradesExtract gs = .ok r ∧ r.Valid :=
  unwrap_indexed ha.supp fun p hp => (ha.enum.mem p (List.mem_of_mem_filter hp)).1

/-- **C25.** `into_original` never panics. -/
theorem C25_unwrap_original (hA : A.WF) (hd : A.dim < 63) {a : MV A.even S} (ha : a.Valid)
    (h' : LawfulStorage.Supp (S := S) (T := T) A.dim) : ∃ r : MV A S, a.intoOriginal = .ok r ∧ r.Valid := by
  obtain ⟨r, h1, h2, -⟩ := intoOriginal_denotes hA hd ha h'
  exact ⟨r, h1, h2⟩

end ring

section complex
variable {A : ClAlg} {K : Type} [Field K] [DecidableEq K] [ImagUnit K] {T : Type} [Ring T] [DecidableEq T]

/-- **C25.** `complexify` and `decomplexify` never panic, whatever the conversions of coefficients do. -/
theorem C25_unwrap_complex [IntoComplex T K] [FromComplex T K] {S S' : Type} [CoeffStorage S T] [LawfulStorage S T]
    [CoeffStorage S' K] [LawfulStorage S' K] {a : MV A S} (ha : a.Valid) {b : MV A.complexification S'} (hb : b.Valid) :
    (∃ r : MV A.complexification S', a.complexify = .ok r ∧ r.Valid) ∧ ∃ r : MV A S, b.decomplexify = .ok r ∧ r.Valid := by
  constructor
  · refine unwrap_indexed hb.supp fun p hp => ?_
    obtain ⟨q, hq, rfl⟩ := List.mem_map.mp hp
    exact (ha.enum.mem q hq).1
  · refine unwrap_indexed ha.supp fun p hp => ?_
    obtain ⟨q, hq, rfl⟩ := List.mem_map.mp hp
    exact (hb.enum.mem q hq).1

/-- **C40.** `ifft` and `rev` never panic on an array that `from_array3` accepts, also if it is not the transform of a
multivector; the result of `rev` is accepted, too. -/
theorem C40_unwrap [IntoComplex T K] [FromComplex T K] [LawfulComplex T K] (hA : A.WF) (hd : A.dim < 63) {arr : Arr3 K} {r : FFTRepr A K}
    (hr : FFTRepr.fromArray3 arr = .ok r) :
    (∃ a : MV A (ArrayStorage T), r.ifft = .ok a ∧ a.Valid) ∧
      ∃ s, r.rev = .ok s ∧ (FFTRepr.fromArray3 s.intoArray3 : Res (FFTRepr A K)) = .ok s := by
  obtain ⟨k1, k2⟩ := C40_from_array3 hA hd arr
  have hs : arr.dims = (2 ^ A.projDim, 2 ^ A.half, 2 ^ A.half) := by
    by_contra h
    rw [k2 h] at hr
    cases hr
  have hra : r.arr = arr := by
    have := k1 hs
    rw [hr] at this
    injection this
  have hI : r.arr.Is A.projDim A.half := by
    rw [hra]
    simp only [Arr3.dims, Prod.mk.injEq] at hs
    exact hs
  obtain ⟨a, h1, h2, -⟩ := ifft_denotes (T := T) hA hd hI
  refine ⟨⟨a, h1, h2⟩, ?_⟩
  obtain ⟨y, e1, e2⟩ := range_foldlM
    (P := fun _ (arr : Arr3 K) => arr.Is A.projDim A.half)
    (f := fun (arr : Arr3 K) i => do
      let v ← FFTRepr.revLayer i (r.arr.layer i)
      if i < arr.d0 ∧ v.rows = arr.d1 ∧ v.cols = arr.d2 then return arr.setLayer i v else .error .panic)
    r.arr.d0 (FFTRepr.zero : FFTRepr A K).arr (zero_represents (K := K) hA hd).1 (by
      intro i hi x hx
      rw [hI.1] at hi
      obtain ⟨v, e1, e2, e3, -⟩ := revLayer_spec (s := A.projDim) (m := A.half) (by have := half_le hA; omega) hi (r.arr.layer i) hI.2.1 hI.2.2
      obtain ⟨x0, x1, x2⟩ := hx
      rw [e1]
      exact ⟨x.setLayer i v, if_pos ⟨by rw [x0]; exact hi, e2.trans x1.symm, e3.trans x2.symm⟩, x0, x1, x2⟩)
  refine ⟨⟨y⟩, ?_, ?_⟩
  · unfold FFTRepr.rev
    simp only []
    rw [e1]; rfl
  · have hy : y.dims = (2 ^ A.projDim, 2 ^ A.half, 2 ^ A.half) := by
      simp only [Arr3.dims, Prod.mk.injEq]
      exact e2
    have := (C40_from_array3 (A := A) hA hd y).1 hy
    show FFTRepr.fromArray3 y = _
    cases h : (FFTRepr.fromArray3 y : Res (FFTRepr A K)) with
    | error e => rw [h] at this; cases this
    | ok s =>
      rw [h] at this
      injection this with this
      congr 1
      cases s
      exact congrArg _ this

/-- **C40.** `fft` never panics, and its result is an array that `from_array3` accepts; nor does `real_fft` in an algebra with an even
number of generators. -/
theorem C40_unwrap_fft [IntoComplex T K] [LawfulInto T K] (hA : A.WF) (hd : A.dim < 63) {a : MV A (ArrayStorage T)} (ha : a.Valid) :
    (∃ r, (a.fft : Res (FFTRepr A K)) = .ok r ∧ (FFTRepr.fromArray3 r.intoArray3 : Res (FFTRepr A K)).isOk) ∧
      ∀ m, A.dim = 2 * m → ∃ r, a.realFft = .ok r ∧ r.rows = 2 ^ m ∧ r.cols = 2 ^ m := by
  constructor
  · obtain ⟨r, h1, h2, -⟩ := fft_represents (K := K) hA hd ha
    refine ⟨r, h1, ?_⟩
    have := (C40_from_array3 (A := A) hA hd r.arr).1 (by simp only [Arr3.dims, Prod.mk.injEq]; exact h2)
    show (FFTRepr.fromArray3 r.arr : Res (FFTRepr A K)).isOk
    cases h : (FFTRepr.fromArray3 r.arr : Res (FFTRepr A K)) with
    | error e => rw [h] at this; cases this
    | ok s => rfl
  · intro m hm
    obtain ⟨r, h1, h2, h3, -⟩ := realFft_isM hd hm (.of_valid ha)
    exact ⟨r, h1, h2, h3⟩

end complex

/-! ### The hypotheses can be met -/

section examples
open Ex

example := C25_unwrap M_wf mA_valid id
example := C25_unwrap A7_wf a7A_valid fun _ => 0
example := C25_unwrap_filter a7A_valid fun i _ => i % 3 == 0
example := letI : HashOrder ℤ := revOrder
  C25_unwrap_grades sA_valid [0, 2]
example := C25_unwrap_original A7_wf (by decide) e7'_valid (show A7.dim ≤ 63 by decide)

noncomputable section

example := C25_unwrap_complex (K := ℂ) a7Z_valid (A := A7) (b := (⟨a7Z.coeffs⟩ : MV A7.complexification (ArrayStorage ℂ))) a7Z_valid
example (r : FFTRepr M ℂ) (h : FFTRepr.fromArray3 arr3 = .ok r) := C40_unwrap (T := ℝ) M_wf (by decide) h
example : (FFTRepr.fromArray3 (A := M) arr3).isOk := by
  have := (C40_from_array3 (A := M) M_wf (by decide) arr3).1 rfl
  cases h : (FFTRepr.fromArray3 (A := M) arr3) with
  | error e => rw [h] at this; cases this
  | ok s => rfl
example := C40_unwrap_fft (K := ℂ) A7_wf (by decide) a7Z_valid
example := (C40_unwrap_fft (K := ℂ) M_wf (by decide) mR_valid).1

end

end examples

end TClifford
