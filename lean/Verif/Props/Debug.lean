import Verif.Proofs.Debug
import Verif.Props.FFT
/-
C86: the transforms in a debug build.
-/

set_option linter.unusedSectionVars false

namespace TClifford

open MV

theorem foldlM_congr_mem {α β : Type} {f g : β → α → Res β} {l : List α} (h : ∀ b, ∀ x ∈ l, f b x = g b x) (b : β) :
    l.foldlM f b = l.foldlM g b := by
  induction l generalizing b with
  | nil => rfl
  | cons x l ih =>
    rw [List.foldlM_cons, List.foldlM_cons, h b x (by simp)]
    exact congrArg _ (funext fun b' => ih (fun b x hx => h b x (by simp [hx])) b')

section
variable {T K : Type} [Zero K] [One K] [Add K] [Sub K] [Neg K] [Mul K] [Div K] [HasI K] [IntoComplex T K]

theorem clifftScaledD_eq (x : Arr1 T) (hx : x.len < 2 ^ 63) :
    clifftScaledD (K := K) x = clifftScaled x := by
  unfold clifftScaledD clifftScaled
  rw [clDimD_eq (by omega)]
  cases hd : clDim x.len with
  | error e => rfl
  | ok dim =>
    have h := clDim_ok (by omega) hd
    have hlt : dim < 63 := (Nat.pow_lt_pow_iff_right (by norm_num : 1 < 2)).mp (h.1 ▸ hx)
    simp only [ok_bind']
    split
    · rw [uaddD_ok (by omega)]
      simp only [ok_bind']
      rw [ushlD_ok (by omega)]
      rfl
    · rw [ushlD_ok (by omega)]
      rfl

theorem clifftScaled_len {x : Arr1 T} (hx : x.len < 2 ^ 63) {arr : Arr1 K} (h : clifftScaled x = .ok arr) :
    ∃ m, 2 * m < 64 ∧ arr.len = 2 ^ (2 * m) := by
  unfold clifftScaled at h
  cases hd : clDim x.len with
  | error e => rw [hd] at h; exact absurd h (by intro h; cases h)
  | ok dim =>
    have h' := clDim_ok (by omega) hd
    have hlt : dim < 63 := (Nat.pow_lt_pow_iff_right (by norm_num : 1 < 2)).mp (h'.1 ▸ hx)
    rw [hd] at h
    have ha : arr.len = ushl 1 (if dim &&& 1 = 1 then dim + 1 else dim) := by
      injection h with h; rw [← h]
    rw [Nat.and_one_is_mod] at ha
    refine ⟨(dim + 1) / 2, by omega, ?_⟩
    rw [ha, ushl_one (by split <;> omega)]
    congr 1
    split <;> omega

/-- **C86.** In a debug build `clifft` returns for every array what it returns in a release build; in particular no
assertion fails. -/
theorem C86_clifft (x : Arr1 T) (hx : x.len < 2 ^ 63) : (clifftD x : Res (Arr2 K)) = clifft x := by
  unfold clifftD clifft
  rw [clifftScaledD_eq x hx]
  cases h : clifftScaled (K := K) x with
  | error e => rfl
  | ok arr =>
    obtain ⟨m, hm, hl⟩ := clifftScaled_len hx h
    exact clifftNnD_eq m hm arr hl

/-- **C86.** The same for `clifft_into`. -/
theorem C86_clifft_into (x : Arr1 T) (hx : x.len < 2 ^ 63) (dest : Arr2 K) : clifftIntoD x dest = clifftInto x dest := by
  unfold clifftIntoD clifftInto
  rw [clifftScaledD_eq x hx]
  cases h : clifftScaled (K := K) x with
  | error e => rfl
  | ok arr =>
    obtain ⟨m, hm, hl⟩ := clifftScaled_len hx h
    exact clifftNnIntoD_eq m hm arr dest hl

omit [IntoComplex T K] in
/-- **C86.** The same for `iclifft_into` and `iclifft`, for all matrices of less than `2^32` rows. -/
theorem C86_iclifft (M : Arr2 K) (hM : M.rows < 2 ^ 32) :
    (∀ dest : Arr1 K, iclifftIntoD M dest = iclifftInto M dest) ∧ iclifftD M = iclifft M := by
  have h : ∀ dest : Arr1 K, iclifftIntoD M dest = iclifftInto M dest := by
    intro dest
    unfold iclifftIntoD iclifftInto
    rw [iclifftNnIntoD_eq M hM dest]
  exact ⟨h, h _⟩

end

section
variable {A : ClAlg} {T K : Type} [Zero T] [One T] [Add T] [Sub T] [Neg T] [Mul T] [DecidableEq T]
  [Zero K] [One K] [Add K] [Sub K] [Neg K] [Mul K] [Div K] [DecidableEq K] [HasI K]

/-- **C86.** `fft` does the same in a debug build, for all algebras of less than 63 generators. -/
theorem C86_fft [IntoComplex T K] (hA : A.WF) (hd : A.dim < 63) (a : MV A (ArrayStorage T)) :
    (a.fftD : Res (FFTRepr A K)) = a.fft := by
  have hnn := hA.nn_le
  have hdim : A.nn + A.projDim = A.dim := hA.dims
  have hw : countOnes A.projMask = A.projDim := hA.projDim_eq.symm
  have hs : (A.realMask ||| A.imagMask) + 1 = 2 ^ A.nn := by
    rw [hA.nonnull]; exact Nat.sub_add_cancel (Nat.two_pow_pos _)
  have hlt : (2 : Nat) ^ A.nn < 2 ^ 63 := Nat.pow_lt_pow_right (by norm_num) (by omega)
  unfold fftD fft
  rw [ushlD_ok (by rw [hA.countOnes_nn]; omega), ushlD_ok (by rw [hw]; omega), uaddD_ok (by rw [hs]; omega)]
  simp only [ok_bind']
  cases (a.complexify : Res (MV A.complexification (ArrayStorage K))) with
  | error e => rfl
  | ok c =>
    simp only [ok_bind']
    have hwc : ushl 1 (countOnes A.projMask) = 2 ^ A.projDim := by rw [hw, ushl_one (by omega)]
    show (List.foldlM _ _ (List.range (ushl 1 (countOnes A.projMask))) >>= _) =
      (List.foldlM _ _ (List.range (ushl 1 (countOnes A.projMask))) >>= _)
    rw [foldlM_congr_mem]
    · rfl
    · intro arr i hi
      rw [List.mem_range, hwc] at hi
      have hb : (i + 1) * 2 ^ A.nn ≤ 2 ^ A.dim := by
        rw [← hdim, pow_add, mul_comm (2 ^ A.nn)]
        exact Nat.mul_le_mul_right _ hi
      have hb' : (2 : Nat) ^ A.dim < 2 ^ 63 := Nat.pow_lt_pow_right (by norm_num) hd
      have hi' : i * 2 ^ A.nn ≤ (i + 1) * 2 ^ A.nn := Nat.mul_le_mul_right _ (by omega)
      have hp : i < 2 ^ 63 := lt_of_lt_of_le hi (Nat.pow_le_pow_right (by norm_num) (by omega))
      rw [hs, umulD_ok (by omega), uaddD_ok (by omega)]
      simp only [ok_bind']
      rw [umulD_ok (by omega)]
      simp only [ok_bind']
      cases hsl : c.coeffs.array.slice (i * 2 ^ A.nn) ((i + 1) * 2 ^ A.nn) with
      | error e => rfl
      | ok v =>
        simp only [ok_bind']
        rw [C86_clifft_into]
        unfold Arr1.slice at hsl
        split at hsl
        · injection hsl with hsl
          rw [← hsl]
          show (i + 1) * 2 ^ A.nn - i * 2 ^ A.nn < 2 ^ 63
          omega
        · cases hsl

/-- **C86.** `ifft` does the same in a debug build, for all arrays of the right shape. -/
theorem C86_ifft [FromComplex T K] (hA : A.WF) (hd : A.dim < 63) (r : FFTRepr A K)
    (hr : r.arr.dims = (2 ^ A.projDim, 2 ^ ((A.realDim + A.imagDim + 1) / 2), 2 ^ ((A.realDim + A.imagDim + 1) / 2))) :
    (r.ifftD : Res (MV A (ArrayStorage T))) = r.ifft := by
  have hnn := hA.nn_le
  have hdim : A.nn + A.projDim = A.dim := hA.dims
  have hEn : A.complexification.even.realDim + A.complexification.even.imagDim = 2 * A.half := by
    show A.complexification.even.nn = _
    rw [ClAlg.even_nn, hA.nn_complexification]
  have hh : 2 * A.half ≤ A.nn + 1 := by unfold ClAlg.half; omega
  have hr0 : r.arr.d0 = 2 ^ A.projDim := by injection hr
  have hr1 : r.arr.d1 = 2 ^ A.half := by injection hr with _ h; injection h
  have h32 : (2 : Nat) ^ A.half < 2 ^ 32 := Nat.pow_lt_pow_right (by norm_num) (by omega)
  have hlt : (2 : Nat) ^ (2 * A.half) ≤ 2 ^ 63 := Nat.pow_le_pow_right (by norm_num) (by omega)
  unfold FFTRepr.ifftD FFTRepr.ifft
  cases (MV.default (A := A.complexification.even) (S := ArrayStorage K)) with
  | error e => rfl
  | ok u =>
    simp only [ok_bind']
    rw [uaddD_ok (by rw [hEn]; omega), hEn]
    simp only [ok_bind']
    rw [ushlD_ok (by omega), ushl_one (by omega), hr0]
    simp only [ok_bind']
    rw [foldlM_congr_mem]
    intro arr i hi
    rw [List.mem_range] at hi
    have hb : (i + 1) * 2 ^ (2 * A.half) ≤ 2 ^ (A.dim + 1) := by
      refine le_trans (Nat.mul_le_mul_right _ hi) ?_
      rw [← pow_add]
      exact Nat.pow_le_pow_right (by norm_num) (by omega)
    have hb' : (2 : Nat) ^ (A.dim + 1) ≤ 2 ^ 63 := Nat.pow_le_pow_right (by norm_num) (by omega)
    have hi' : i * 2 ^ (2 * A.half) ≤ (i + 1) * 2 ^ (2 * A.half) := Nat.mul_le_mul_right _ (by omega)
    have hp : i < 2 ^ 63 := lt_of_lt_of_le hi (Nat.pow_le_pow_right (by norm_num) (by omega))
    rw [umulD_ok (by omega), uaddD_ok (by omega)]
    simp only [ok_bind']
    rw [umulD_ok (by omega)]
    simp only [ok_bind']
    rw [show (fun sl => do
        let v ← unwrap (iclifftIntoD (r.arr.layer i) sl)
        pure (arr.setSlice (i * 2 ^ (2 * A.half)) v) : Arr1 K → Res (Arr1 K)) = fun sl => do
        let v ← unwrap (iclifftInto (r.arr.layer i) sl)
        pure (arr.setSlice (i * 2 ^ (2 * A.half)) v) from
      funext fun sl => by rw [(C86_iclifft (r.arr.layer i) (by show r.arr.d1 < _; rw [hr1]; exact h32)).1 sl]]

/-- **C86.** `real_fft` does the same in a debug build, for an even number of generators. -/
theorem C86_real_fft [CoeffLaws T] (hd : A.dim < 63) (he : A.dim % 2 = 0) {a : MV A (ArrayStorage T)} (ha : a.Valid) :
    a.realFftD = a.realFft := by
  unfold realFftD realFft
  have hl : a.coeffs.array.len = 2 ^ A.dim := ha.2.2
  rw [clifftNnD_eq (A.dim / 2) (by omega) _ (by rw [hl]; congr 1; omega)]

/-- **C86.** For an odd number of generators the private function `clifft_nn` behind `real_fft` fails in both builds, by a
panic of the assertion `mside * mside == size` in a debug build and by an error in a release build.  (`clifft` adds a generator
before it calls `clifft_nn`, and `real_fft` exists for even numbers of generators only.) -/
theorem C86_clifft_nn_odd (m : Nat) (hm : 2 * m + 1 < 64) (x : Arr1 T) (hx : x.len = 2 ^ (2 * m + 1)) :
    clifftNnD x = .error .panic ∧ clifftNn x = .error (.cl .InvalidShape) := by
  have hlt : x.len < 2 ^ 64 := by rw [hx]; exact Nat.pow_lt_pow_right (by norm_num) hm
  unfold clifftNnD clifftNn
  rw [clifftAllocD_eq hlt, clifftAlloc_two_pow hm x hx]
  exact ⟨clifftNnIntoD_odd m hm x _ hx, clifftNnInto_odd m hm x _ hx⟩

/-- **C86.** `from_array3` does the same in a debug build. -/
theorem C86_from_array3 (hA : A.WF) (hd : A.dim < 63) (arr : Arr3 K) :
    (FFTRepr.fromArray3D arr : Res (FFTRepr A K)) = FFTRepr.fromArray3 arr := by
  have hnn := hA.nn_le
  have hdim : A.nn + A.projDim = A.dim := hA.dims
  have hp : (2 : Nat) ^ A.projDim < 2 ^ 63 := Nat.pow_lt_pow_right (by norm_num) (by omega)
  unfold FFTRepr.fromArray3D FFTRepr.fromArray3
  simp only [hA.countOnes_nn]
  rw [ushlD_ok (by omega)]
  simp only [ok_bind']
  rw [if_pos (by omega)]
  rw [uaddD_ok (by rw [nullSize_eq hA]; omega)]
  rfl

end

/-! ### The hypotheses can be met -/

section examples
open Ex

noncomputable section

example : (clifftD (⟨5, fun i => (i : ℂ)⟩ : Arr1 ℂ) : Res (Arr2 ℂ)) = clifft ⟨5, fun i => (i : ℂ)⟩ := C86_clifft _ (by norm_num)
example : (clifftD (⟨8, fun i => (i : ℂ)⟩ : Arr1 ℂ) : Res (Arr2 ℂ)) = clifft ⟨8, fun i => (i : ℂ)⟩ := C86_clifft _ (by norm_num)
example (dest : Arr2 ℂ) : clifftIntoD (⟨8, fun i => (i : ℂ)⟩ : Arr1 ℂ) dest = clifftInto ⟨8, fun i => (i : ℂ)⟩ dest :=
  C86_clifft_into _ (by norm_num) dest
example : iclifftD (⟨4, 4, fun i j => (i + j : ℂ)⟩ : Arr2 ℂ) = iclifft ⟨4, 4, fun i j => (i + j : ℂ)⟩ :=
  (C86_iclifft _ (by norm_num)).2
example : (mR.fftD : Res (FFTRepr M ℂ)) = mR.fft := C86_fft M_wf (by decide) mR
example : (a7Z.fftD : Res (FFTRepr A7 ℂ)) = a7Z.fft := C86_fft A7_wf (by decide) a7Z
example : ((⟨⟨2, 2, 2, fun k i j => (k + i + j : ℂ)⟩⟩ : FFTRepr M ℂ).ifftD : Res (MV M (ArrayStorage ℝ))) =
    FFTRepr.ifft ⟨⟨2, 2, 2, fun k i j => (k + i + j : ℂ)⟩⟩ := C86_ifft M_wf (by decide) _ rfl
example : (FFTRepr.fromArray3D ⟨3, 2, 2, fun k i j => (k + i + j : ℂ)⟩ : Res (FFTRepr M ℂ)) =
    FFTRepr.fromArray3 ⟨3, 2, 2, fun k i j => (k + i + j : ℂ)⟩ :=
  C86_from_array3 M_wf (by decide) _
example : a4R.realFftD = a4R.realFft := C86_real_fft (by decide) (by decide) a4R_valid
example : clifftNnD (⟨8, fun i => (i : ℤ)⟩ : Arr1 ℤ) = .error .panic := (C86_clifft_nn_odd 1 (by decide) _ rfl).1

end

end examples

end TClifford
