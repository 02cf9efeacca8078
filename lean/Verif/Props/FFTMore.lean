import Verif.Props.FFT
import Verif.Props.Product
/-
More on the matrix representation: division by scalars, `is_zero`, the basis, approximate equality (C58), and the inverse
transform into a buffer of the caller (C59).
-/

set_option linter.unusedSectionVars false

namespace TClifford

open MV Finset

/-! ### C58 -/

section
variable {A : ClAlg} {K : Type} [Field K] [DecidableEq K] [ImagUnit K]

/-- **C58.** `a.fft() / t == (a / t).fft()` for every scalar `t ≠ 0`. -/
theorem C58_fft_sdiv {T : Type} [DivisionRing T] [DecidableEq T] [IntoComplex T K] [LawfulInto T K] (hA : A.WF) (hd : A.dim < 63)
    {a : MV A (ArrayStorage T)} (ha : a.Valid) {t : T} (ht : t ≠ 0) :
    Same3 (do let p ← (do let r ← (a.fft : Res (FFTRepr A K)); r.sdiv (IntoComplex.into t)); return p.intoArray3)
      (do let p ← (do let c ← a.sdiv t; (c.fft : Res (FFTRepr A K))); return p.intoArray3) := by
  have ht' : (IntoComplex.into t : K) ≠ 0 := by
    rw [into_eq]
    exact (map_ne_zero (intoHom T K)).mpr ht
  refine ((fft_represents hA hd ha).bind (fun _ hr => sdiv_represents ht' hr)).same hA ((sdiv_denotes ha ht).fft hA hd) fun k _ => ?_
  have := congrFun (cx_mul (K := K) A a.val t⁻¹) k
  simp only [← div_eq_mul_inv] at this
  rw [this, div_eq_mul_inv, into_eq, into_eq, map_inv₀]

/-- **C58.** Dividing a representation by zero is not defined. -/
theorem C58_sdiv_zero (r : FFTRepr A K) : r.sdiv 0 = .error .nonFinite := by
  unfold FFTRepr.sdiv
  rw [if_pos rfl]

variable {T : Type} [Ring T] [DecidableEq T] [IntoComplex T K]

/-- **C58.** `a.fft().is_zero() == a.is_zero()`. -/
theorem C58_is_zero [FromComplex T K] [LawfulComplex T K] (h2 : (2 : K) ≠ 0) (hA : A.WF) (hd : A.dim < 63)
    {a : MV A (ArrayStorage T)} (ha : a.Valid) :
    (do let r ← (a.fft : Res (FFTRepr A K)); return r.isZero) = .ok a.isZero := by
  obtain ⟨z, hz, hzv, hzf⟩ := default_denotes (A := A) (S := ArrayStorage T) (T := T) ha.supp
  obtain ⟨r, e1, hr⟩ := fft_represents (K := K) hA hd ha
  obtain ⟨s, e2, hs⟩ := fft_represents (K := K) hA hd hzv
  have heq := C32_fft_eq (K := K) h2 hA hd ha hzv
  have hs' : ∀ w < 2 ^ A.projDim, ∀ i < 2 ^ A.half, ∀ j < 2 ^ A.half, s.arr.get w i j = 0 := by
    intro w hw i hi j hj
    have hdim : A.nn + A.projDim = A.dim := hA.dims
    have := hs.2 w hw i hi j hj
    rw [this, FL_congr (g := fun _ => 0) (s := A.projDim) (fun k hk => ?_) hw]
    · have h0 := FL_smul A.half A.nn (fun _ => (0 : K)) 0 w
      simp only [mul_zero] at h0
      exact congrFun (congrFun h0 i) j
    · unfold cx
      rw [hzf k (by rw [← hdim]; exact hk), into_zero, mul_zero]
  rw [e1, e2] at heq
  rw [e1]
  have hiff : a.beq z = a.isZero := by
    rw [Bool.eq_iff_iff, beq_iff ha hzv, isZero_iff ha]
    exact forall₂_congr fun i hi => by rw [hzf i hi]
  rw [hiff] at heq
  rw [← heq]
  show Except.ok (r.arr.beq _) = Except.ok (r.arr.beq s.arr)
  congr 1
  rw [Bool.eq_iff_iff, arr3_beq_iff, arr3_beq_iff]
  simp only [Arr3.zeros, hr.1.1, hr.1.2.1, hr.1.2.2, hs.1.1, hs.1.2.1, hs.1.2.2, true_and]
  exact forall₂_congr fun w hw => forall₂_congr fun i hi => forall₂_congr fun j hj => by rw [hs' w hw i hi j hj]

/-- Approximate equality of representations in terms of their entries. -/
theorem fft_approxEq_iff {N : Type} [LT N] [DecidableLT N] (norm : K → N) (r s : FFTRepr A K) (p : N) :
    r.approxEq norm s p = true ↔ ∀ k < r.arr.d0, ∀ i < r.arr.d1, ∀ j < r.arr.d2, norm (r.arr.get k i j - s.arr.get k i j) < p := by
  unfold FFTRepr.approxEq
  simp only [List.all_eq_true, List.mem_range, decide_eq_true_eq]

/-- **C58.** `approx_eq` of representations of the same shape: all entries are closer than the precision; hence for a positive
precision it is reflexive, symmetric, monotone, implied by `==`, and it is `==` if it holds for every positive precision. -/
theorem C58_approx_eq {N : Type} [LinearOrder N] [Zero N] (norm : K → N) (h0 : norm 0 = 0)
    (hneg : ∀ x, norm (-x) = norm x) (r s : FFTRepr A K) (hrs : r.arr.dims = s.arr.dims) :
    (∀ p, r.approxEq norm s p = true ↔
      ∀ k < r.arr.d0, ∀ i < r.arr.d1, ∀ j < r.arr.d2, norm (r.arr.get k i j - s.arr.get k i j) < p) ∧
    (∀ p, 0 < p → r.approxEq norm r p = true) ∧
    (∀ p, r.approxEq norm s p = s.approxEq norm r p) ∧
    (∀ p q, p ≤ q → r.approxEq norm s p = true → r.approxEq norm s q = true) ∧
    (∀ p, 0 < p → r.beq s = true → r.approxEq norm s p = true) ∧
    ((∀ x, 0 ≤ norm x) → (∀ x, norm x = 0 → x = 0) → (∀ p, 0 < p → r.approxEq norm s p = true) → r.beq s = true) := by
  simp only [Arr3.dims, Prod.mk.injEq] at hrs
  obtain ⟨d0, d1, d2⟩ := hrs
  refine ⟨fft_approxEq_iff norm r s, ?_, ?_, ?_, ?_, ?_⟩
  · intro p hp
    rw [fft_approxEq_iff]
    intro k _ i _ j _
    rw [sub_self, h0]
    exact hp
  · intro p
    rw [Bool.eq_iff_iff, fft_approxEq_iff, fft_approxEq_iff, d0, d1, d2]
    refine forall₂_congr fun k _ => forall₂_congr fun i _ => forall₂_congr fun j _ => ?_
    rw [← hneg, neg_sub]
  · intro p q hpq h
    rw [fft_approxEq_iff] at *
    exact fun k hk i hi j hj => (h k hk i hi j hj).trans_le hpq
  · intro p hp h
    rw [fft_approxEq_iff]
    intro k hk i hi j hj
    rw [(arr3_beq_iff.mp h).2.2.2 k hk i hi j hj, sub_self, h0]
    exact hp
  · intro hnn hdef h
    refine arr3_beq_iff.mpr ⟨d0, d1, d2, fun k hk i hi j hj => ?_⟩
    rw [← sub_eq_zero]
    apply hdef
    by_contra hne
    have hpos := lt_of_le_of_ne (hnn (r.arr.get k i j - s.arr.get k i j)) (Ne.symm hne)
    exact lt_irrefl _ ((fft_approxEq_iff norm r s _).mp (h _ hpos) k hk i hi j hj)

/-- **C58.** `FFTRepr::basis()` has one element for each generator, the transform of the basis vector, and the elements satisfy the
relations of the algebra. -/
theorem C58_basis {sig : List Sym} {names : List String} (hA : declareAlgebra sig names = some A) (hd : A.dim < 63) :
    ∃ (e : List (MV A (ArrayStorage K))) (r : List (FFTRepr A K)), MV.basis (T := K) = .ok e ∧ FFTRepr.basis = .ok r ∧
      e.length = sig.length ∧ r.length = sig.length ∧
      (∀ i (hi : i < e.length) (hi' : i < r.length), e[i].fft = .ok r[i]) ∧
      (∀ i (hi : i < r.length) (hi' : i < A.signature.length),
        Same3 (do let p ← r[i].mul r[i]; return p.intoArray3)
          (.ok ((FFTRepr.one : FFTRepr A K).smul ((A.signature[i] : ℤ) : K)).intoArray3)) ∧
      ∀ i j (hi : i < r.length) (hj : j < r.length), i ≠ j →
        Same3 (do let p ← r[i].mul r[j]; return p.intoArray3) (do let p ← r[j].mul r[i]; return p.neg.intoArray3) := by
  have hwf := declareAlgebra_wf hA
  have hdim : A.dim = sig.length := (declareAlgebra_eq hA).2.2.1
  have hS : LawfulStorage.Supp (S := ArrayStorage K) (T := K) A.dim := show A.dim ≤ 63 by omega
  have hbv : ∀ n ∈ List.range A.dim, ∃ x : MV A (ArrayStorage K), basisVec (A := A) (S := ArrayStorage K) (T := K) n = .ok x := fun n hn => by
    obtain ⟨u, hu, -⟩ := basisVec_denotes (A := A) hS (List.mem_range.mp hn)
    exact ⟨u, hu⟩
  have hbf : ∀ n ∈ List.range A.dim, ∃ x : FFTRepr A K,
      (do let e ← MV.basisVec (A := A) (S := ArrayStorage K) (T := K) n; e.fft) = .ok x := fun n hn => by
    obtain ⟨u, hu, -⟩ := (basisVec_denotes (A := A) hS (List.mem_range.mp hn)).fft (K := K) hwf hd
    exact ⟨u, hu⟩
  obtain ⟨e, h1, h2, h3⟩ := mapM_ok (List.range A.dim) _ hbv
  obtain ⟨r, g1, g2, g3⟩ := mapM_ok (List.range A.dim) _ hbf
  rw [List.length_range] at h2 g2
  have hrep : ∀ i (hi : i < r.length), Represents r[i] (cx (K := K) A (single (2 ^ i) (1 : K))) := by
    intro i hi
    have hir : i < A.dim := by omega
    have hg := g3 i (by simpa using hir) hi
    rw [List.getElem_range] at hg
    obtain ⟨s, hs, hrs⟩ := (basisVec_denotes (A := A) hS hir).fft (K := K) hwf hd
    rw [hg] at hs
    injection hs with hs
    rw [hs]
    exact hrs
  obtain ⟨e', f1, f2, f3, f4, f5⟩ := C06_generators (T := K) (S := ArrayStorage K) hA hS
  have hee : e' = e := by
    have : basis (A := A) (S := ArrayStorage K) (T := K) = .ok e := h1
    rw [this] at f1
    injection f1 with f1
    exact f1.symm
  subst hee
  have hev : ∀ i (hi : i < e'.length), e'[i].Valid := by
    intro i hi
    have hir : i < A.dim := by omega
    have hg := h3 i (by simpa using hir) hi
    rw [List.getElem_range] at hg
    obtain ⟨s, hs, hsv, -⟩ := basisVec_denotes (A := A) hS hir
    rw [hg] at hs
    injection hs with hs
    rw [hs]
    exact hsv
  have hfft : ∀ i (hi : i < e'.length) (hi' : i < r.length), e'[i].fft = .ok r[i] := by
    intro i hi hi'
    have hir : i < A.dim := by omega
    have hg := g3 i (by simpa using hir) hi'
    have hh := h3 i (by simpa using hir) hi
    rw [List.getElem_range] at hg hh
    rw [hh] at hg
    exact hg
  have hprod : ∀ i j (hi : i < r.length) (hj : j < r.length) (hi' : i < e'.length) (hj' : j < e'.length),
      RDenotes (r[i].mul r[j]) (cx (K := K) A (geo A.sigma A.dim e'[i].val e'[j].val)) := by
    intro i j hi hj hi' hj'
    obtain ⟨ri, ei, hri⟩ := fft_represents (K := K) hwf hd (hev i hi')
    obtain ⟨rj, ej, hrj⟩ := fft_represents (K := K) hwf hd (hev j hj')
    rw [hfft i hi' hi] at ei
    rw [hfft j hj' hj] at ej
    injection ei with ei
    injection ej with ej
    rw [ei, ej]
    exact RDenotes.congr hwf (mul_represents hwf hri hrj) fun k hk => (cx_geo hwf _ _ hk).symm
  refine ⟨e', r, h1, g1, by omega, by omega, hfft, ?_, ?_⟩
  · intro i hi hi'
    have hie : i < e'.length := by omega
    have hx := f4 i hie hi'
    have h5 := (hprod i i hi hi hie hie).same hwf
      (RDenotes.of (smul_represents ((A.signature[i] : ℤ) : K) (one_represents (K := K) hwf hd))) (fun k hk => ?_)
    · exact h5
    · obtain ⟨x, y, ex, ey, hxv, hyv, hxy⟩ := hx
      obtain ⟨x', ex', -, hx'⟩ := mul_denotes hwf (hev i hie) (hev i hie)
      obtain ⟨y', ey', -, hy'⟩ := fromScalar_denotes (A := A) (S := ArrayStorage K) hS ((A.signature[i] : ℤ) : K)
      rw [ex] at ex'
      rw [ey] at ey'
      injection ex' with ex'
      injection ey' with ey'
      subst ex' ey'
      have hval : geo A.sigma A.dim e'[i].val e'[i].val k = single 0 ((A.signature[i] : ℤ) : K) k := by
        rw [← hx' k hk, ← hy' k hk]
        exact (beq_iff hxv hyv).mp hxy k hk
      rw [cx_congr hval]
      have hcs := congrFun (cx_mul (K := K) A (single 0 (1 : K)) ((A.signature[i] : ℤ) : K)) k
      have hss : (fun k => single 0 (1 : K) k * ((A.signature[i] : ℤ) : K)) = single 0 ((A.signature[i] : ℤ) : K) := by
        funext k; unfold single; split <;> simp
      rw [hss] at hcs
      rw [hcs, congrFun (cx_single A) k]
      rfl
  · intro i j hi hj hij
    have hie : i < e'.length := by omega
    have hje : j < e'.length := by omega
    have hx := f5 i j hie hje hij
    have h5 := (hprod i j hi hj hie hje).same hwf
      ((hprod j i hj hi hje hie).bind (fun _ hr => RDenotes.of (neg_represents hr))) (fun k hk => ?_)
    · obtain ⟨p, hp, -⟩ := hprod j i hj hi hje hie
      rw [hp] at h5 ⊢
      exact h5
    · obtain ⟨x, y, ex, ey, hxv, hyv, hxy⟩ := hx
      obtain ⟨x', ex', -, hx'⟩ := mul_denotes hwf (hev i hie) (hev j hje)
      obtain ⟨y', ey', -, hy'⟩ := (mul_denotes hwf (hev j hje) (hev i hie)).neg
      rw [ex] at ex'
      rw [ey] at ey'
      injection ex' with ex'
      injection ey' with ey'
      subst ex' ey'
      have hval : geo A.sigma A.dim e'[i].val e'[j].val k = -geo A.sigma A.dim e'[j].val e'[i].val k := by
        rw [← hx' k hk, (beq_iff hxv hyv).mp hxy k hk]
        exact hy' k hk
      rw [← congrFun (cx_neg (K := K) A _) k]
      exact cx_congr hval

end

/-! ### C59 -/

section
variable {K : Type} [Field K] [ImagUnit K]

/-- Number of the generators `e1, e3, e5, …` in the blade `k`. -/
def oddGens (k : Nat) : Nat := ((range 64).filter (fun i => i % 2 = 1 ∧ k.testBit i)).card

theorem countOnes_oddMask (k : Nat) (hk : k < 2 ^ 64) : countOnes (k &&& oddMask) = oddGens k := by
  rw [countOnes_and hk, cnt_eq_sum]
  unfold oddGens
  rw [Finset.card_filter]
  refine Finset.sum_congr rfl fun i hi => ?_
  have h : ∀ i < 64, oddMask.testBit i = decide (i % 2 = 1) := by decide
  rw [Nat.testBit_and, h i (Finset.mem_range.mp hi)]
  cases k.testBit i <;> by_cases hi2 : i % 2 = 1 <;> simp [hi2]

/-- **C59.** `iclifft_into(M, dest)` with a buffer that is long enough: the buffer keeps its length, it begins with what
`iclifft(M)` returns, and every later entry is multiplied by `-i` for each of the generators `e1, e3, e5, …` in its index. -/
theorem C59_iclifft_into_long_partial {m : Nat} (hm : m < 64) (M : Arr2 K) (hr : M.rows = 2 ^ m) (hc : M.cols = 2 ^ m) (dest : Arr1 K)
    (hd : 2 ^ m * 2 ^ m ≤ dest.len) :
    ∃ s r, iclifft M = .ok s ∧ iclifftInto M dest = .ok r ∧ r.len = dest.len ∧ (∀ k < 2 ^ m * 2 ^ m, r.get k = s.get k) ∧
      ∀ k, 2 ^ m * 2 ^ m ≤ k → k < 2 ^ 64 → r.get k = dest.get k * (-HasI.I) ^ oddGens k := by
  obtain ⟨s, h1, h3, h4⟩ := iclifft_spec hm M hr hc
  rw [two_pow_mul_self] at hd ⊢
  obtain ⟨r, g1, g2, g3, g4⟩ := iclifftNnInto_spec m hm M dest hr hc hd
  refine ⟨s, ⟨r.len, fun idx => r.get idx * iPowNeg (countOnes (idx &&& oddMask))⟩, h1, ?_, g2, ?_, ?_⟩
  · unfold iclifftInto
    rw [g1]
    rfl
  · intro k hk
    rw [h4 k hk]
    show r.get k * _ = _
    unfold ictr
    rw [← iPowNeg_mask hk, ← g3 k hk]
  · intro k hk hk'
    show r.get k * _ = _
    rw [g4 k hk, iPowNeg_eq, countOnes_oddMask k hk']

/-- **C59.** A buffer that is too short makes `iclifft_into` panic; only the shape of the matrix is reported as an error. -/
theorem C59_iclifft_into_short {m : Nat} (hm : m < 64) (M : Arr2 K) (hr : M.rows = 2 ^ m) (hc : M.cols = 2 ^ m) (dest : Arr1 K)
    (hd : dest.len < 2 ^ m * 2 ^ m) : iclifftInto M dest = .error .panic := by
  unfold iclifftInto iclifftNnInto
  rw [badSquare_false hr hc hm]
  simp only [hr]
  rw [if_neg (by simp), if_pos hd]
  rfl

/-- **C59.** A matrix of the wrong shape is reported, whatever the buffer. -/
theorem C59_iclifft_into_shape (M : Arr2 K) (hM : M.rows < 2 ^ 64) (h : ¬ ∃ m, M.rows = 2 ^ m ∧ M.cols = 2 ^ m) (dest : Arr1 K) :
    iclifftInto M dest = .error (.cl .InvalidShape) := by
  unfold iclifftInto iclifftNnInto
  rw [if_pos ((badSquare_iff M hM).mpr h)]
  rfl

end

/-- **C59.** It is not true that `iclifft_into` leaves the part of the buffer behind the result alone. -/
theorem C59_tail_untouched_false : ¬ ∀ (m : Nat) (M : Arr2 ℂ) (dest : Arr1 ℂ), m < 64 → M.rows = 2 ^ m → M.cols = 2 ^ m →
    2 ^ m * 2 ^ m ≤ dest.len → ∃ r, iclifftInto M dest = .ok r ∧ ∀ k, 2 ^ m * 2 ^ m ≤ k → k < dest.len → r.get k = dest.get k := by
  intro h
  obtain ⟨r, h1, h2⟩ := h 0 ⟨1, 1, fun _ _ => 5⟩ ⟨3, fun _ => 1⟩ (by norm_num) rfl rfl (by norm_num)
  obtain ⟨s, r', -, g2, -, -, g5⟩ := C59_iclifft_into_long_partial (K := ℂ) (m := 0) (by norm_num) ⟨1, 1, fun _ _ => 5⟩ rfl rfl ⟨3, fun _ => 1⟩ (by norm_num)
  rw [h1] at g2
  injection g2 with g2
  subst g2
  have h3 := h2 2 (by norm_num) (by norm_num)
  rw [g5 2 (by norm_num) (by norm_num), show oddGens 2 = 1 by decide +kernel] at h3
  have := congrArg Complex.re h3
  change ((1 : ℂ) * (-Complex.I) ^ 1).re = (1 : ℂ).re at this
  norm_num at this

/-! ### Examples -/

section examples
open Ex

example : Same3 (do let p ← (do let r ← (mR.fft : Res (FFTRepr M ℂ)); r.sdiv (IntoComplex.into (3 : ℝ))); return p.intoArray3)
    (do let p ← (do let c ← mR.sdiv 3; (c.fft : Res (FFTRepr M ℂ))); return p.intoArray3) :=
  C58_fft_sdiv M_wf (by decide) mR_valid (by norm_num)
example : (do let r ← (mR.fft : Res (FFTRepr M ℂ)); return r.isZero) = .ok mR.isZero :=
  C58_is_zero two_ne_zero M_wf (by decide) mR_valid
/-- `mR` is not zero, and neither is its transform. -/
example : mR.isZero = false := by
  rw [← Bool.not_eq_true, isZero_iff mR_valid]
  intro h
  have := h 0 (by decide)
  rw [arr_val mR_valid (by decide)] at this
  norm_num [mR] at this
example := C58_basis (K := ℂ) (A := A4) A4_decl (by decide)
example (r : FFTRepr A4 ℚ) [ImagUnit ℚ] := C58_approx_eq (fun x : ℚ => |x|) abs_zero abs_neg r r rfl
example : (FFTRepr.approxEq (A := A4) (fun x : ZMod 5 => x.val) ⟨⟨1, 1, 1, fun _ _ _ => 3⟩⟩ ⟨⟨1, 1, 1, fun _ _ _ => 1⟩⟩ 3,
    FFTRepr.approxEq (A := A4) (fun x : ZMod 5 => x.val) ⟨⟨1, 1, 1, fun _ _ _ => 3⟩⟩ ⟨⟨1, 1, 1, fun _ _ _ => 1⟩⟩ 2) = (true, false) := by
  decide +kernel

example (r : FFTRepr A4 ℂ) : r.sdiv 0 = .error .nonFinite := C58_sdiv_zero r
/-- a matrix of 3 rows and columns -/
example : iclifftInto (⟨3, 3, fun i j => (i + j : ℂ)⟩ : Arr2 ℂ) ⟨9, fun i => (i : ℂ)⟩ = .error (.cl .InvalidShape) :=
  C59_iclifft_into_shape _ (by norm_num) (by
    rintro ⟨m, h, -⟩
    rcases m with _ | _ | m <;> simp only [pow_succ] at h <;> omega) _
example := C59_iclifft_into_long_partial (m := 2) (by norm_num) mat4 (by norm_num [mat4]) (by norm_num [mat4]) ⟨20, fun i => (i : ℂ)⟩ (by norm_num)
example : iclifftInto mat4 ⟨15, fun i => (i : ℂ)⟩ = .error .panic :=
  C59_iclifft_into_short (m := 2) (by norm_num) mat4 (by norm_num [mat4]) (by norm_num [mat4]) _ (by norm_num)

end examples

end TClifford
