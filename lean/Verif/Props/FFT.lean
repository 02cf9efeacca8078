import Verif.Props.ComplexExamples
import Verif.Props.Clifft
import Verif.Props.Signs
import Verif.Proofs.HalfSpin
import Verif.Proofs.Lift
/-
The matrix representation of multivectors: C30 - C35, C39, C40, C41, C55.

`T` is the coefficient type and `K` the complex numbers: any field with a square root of `-1`, with `2 ≠ 0` where the
inverse transform is involved.  A representation in an algebra with 63 or more generators does not fit in the address
space, which is the bound `A.dim < 63`.
-/

set_option linter.unusedSectionVars false

namespace TClifford

open MV Finset

section
variable {A : ClAlg} {K : Type} [Field K] [DecidableEq K] [ImagUnit K] {T : Type} [Ring T] [DecidableEq T] [IntoComplex T K]

theorem _root_.TClifford.MV.Denotes.fft [LawfulInto T K] (hA : A.WF) (hd : A.dim < 63) {x : Res (MV A (ArrayStorage T))}
    {f : Nat → T} (hx : Denotes x f) : RDenotes (do let a ← x; (a.fft : Res (FFTRepr A K))) (cx A f) := by
  obtain ⟨a, rfl, ha, hf⟩ := hx
  exact (fft_represents hA hd ha).congr hA (fun k hk => cx_congr (hf k hk))

theorem cx_npow [LawfulInto T K] (hA : A.WF) (f : Nat → T) (n : Nat) {k : Nat} (hk : k < 2 ^ A.dim) :
    cx (K := K) A (npow A.sigma A.dim f n) k = npow A.complexification.sigma A.dim (cx A f) n k := by
  induction n generalizing k with
  | zero => exact congrFun (cx_single A) k
  | succ n ih =>
    show cx A (geo A.sigma A.dim (npow A.sigma A.dim f n) f) k = geo _ _ (npow _ _ (cx A f) n) (cx A f) k
    rw [cx_geo hA _ _ hk]
    exact geo_congr (fun _ _ => rfl) (fun i hi => ih hi) (fun _ _ => rfl) hk

/-! ### C41 -/

/-- **C41.** `a.complexify().decomplexify() == a`, for every storage. -/
theorem C41_decomplexify_complexify [FromComplex T K] [LawfulComplex T K] {S S' : Type} [CoeffStorage S T] [LawfulStorage S T]
    [CoeffStorage S' K] [LawfulStorage S' K] {a : MV A S} (ha : a.Valid) (h' : LawfulStorage.Supp (S := S') (T := K) A.dim) :
    (do let c ← (a.complexify : Res (MV A.complexification S')); (c.decomplexify : Res (MV A S))) ≈ᵣ .ok a :=
  Agree.of_denotes ((complexify_denotes (K := K) ha h').decomplexify ha.supp) (.of_valid ha)
    (fun k _ => congrFun (dcx_cx A a.val) k)

/-- **C41.** With complex coefficients also `c.decomplexify().complexify() == c`. -/
theorem C41_complexify_decomplexify {S S' : Type} [CoeffStorage S K] [LawfulStorage S K] [CoeffStorage S' K] [LawfulStorage S' K]
    {c : MV A.complexification S} (hc : c.Valid) (h' : LawfulStorage.Supp (S := S') (T := K) A.dim) :
    (do let a ← (c.decomplexify : Res (MV A S')); (a.complexify : Res (MV A.complexification S))) ≈ᵣ .ok c :=
  Agree.of_denotes ((decomplexify_denotes (T := K) hc h').complexify hc.supp) (.of_valid hc)
    (fun k _ => congrFun (cx_dcx A c.val) k)

/-- **C41.** `(a * b).complexify() == a.complexify() * b.complexify()`, the product on the right being the one of the
algebra where no generator has square `-1`. -/
theorem C41_complexify_mul [LawfulInto T K] (hA : A.WF) {S S' : Type} [CoeffStorage S T] [LawfulStorage S T] [CoeffStorage S' K]
    [LawfulStorage S' K] {a b : MV A S} (ha : a.Valid) (hb : b.Valid) (h' : LawfulStorage.Supp (S := S') (T := K) A.dim) :
    (do let p ← a.naiveMulImpl b; (p.complexify : Res (MV A.complexification S'))) ≈ᵣ
      (do let x ← (a.complexify : Res (MV A.complexification S')); let y ← b.complexify; x.naiveMulImpl y) :=
  Agree.of_denotes ((mul_denotes hA ha hb).complexify h')
    ((complexify_denotes (K := K) ha h').mul hA.complexification (complexify_denotes hb h')) (fun _ hk => cx_geo hA _ _ hk)

/-- **C41.** In `Complexification<A>` the generators square to `+1`, those with square zero excepted. -/
theorem C41_complexification_signature (hA : A.WF) : A.complexification.WF ∧ A.complexification.dim = A.dim ∧
    ∀ i < A.dim, A.complexification.sigma i = A.sigma i * A.sigma i := by
  refine ⟨hA.complexification, rfl, fun i hi => ?_⟩
  rw [hA.sigma_complexification hi]
  split
  · rename_i h
    rw [hA.sigma_nonnull h]; split <;> rfl
  · rename_i h
    rw [hA.sigma_null (by omega) hi]; rfl

/-! ### C30, C31 -/

/-- **C30.** `a.fft().ifft() == a`. -/
theorem C30_ifft_fft [FromComplex T K] [LawfulComplex T K] (h2 : (2 : K) ≠ 0) (hA : A.WF) (hd : A.dim < 63)
    {a : MV A (ArrayStorage T)} (ha : a.Valid) :
    (do let r ← (a.fft : Res (FFTRepr A K)); (r.ifft : Res (MV A (ArrayStorage T)))) ≈ᵣ .ok a :=
  Agree.of_denotes (ifft_represents hA hd h2 (fft_represents hA hd ha)) (.of_valid ha) (fun k _ => congrFun (dcx_cx A a.val) k)

/-- **C31.** `(a.fft() * b.fft()).ifft() == a * b`. -/
theorem C31_fft_mul_ifft [FromComplex T K] [LawfulComplex T K] (h2 : (2 : K) ≠ 0) (hA : A.WF) (hd : A.dim < 63)
    {a b : MV A (ArrayStorage T)} (ha : a.Valid) (hb : b.Valid) :
    (do let r ← (a.fft : Res (FFTRepr A K)); let s ← b.fft; let t ← r.mul s; (t.ifft : Res (MV A (ArrayStorage T)))) ≈ᵣ
      a.naiveMulImpl b := by
  obtain ⟨r, e1, hr⟩ := fft_represents (K := K) hA hd ha
  obtain ⟨s, e2, hs⟩ := fft_represents (K := K) hA hd hb
  have h := ifft_represents (T := T) hA hd h2 (mul_represents hA hr hs)
  rw [e1, e2]
  refine Agree.of_denotes h (mul_denotes hA ha hb) (fun k hk => ?_)
  rw [← congrFun (dcx_cx (K := K) A (geo A.sigma A.dim a.val b.val)) k]
  exact dcx_congr (cx_geo hA _ _ hk).symm

/-- **C31.** `a.fft() * b.fft() == (a * b).fft()` as arrays. -/
theorem C31_fft_mul [LawfulInto T K] (hA : A.WF) (hd : A.dim < 63) {a b : MV A (ArrayStorage T)} (ha : a.Valid) (hb : b.Valid) :
    Same3 (do let p ← (do let r ← (a.fft : Res (FFTRepr A K)); let s ← b.fft; r.mul s); return p.intoArray3)
      (do let p ← (do let c ← a.naiveMulImpl b; (c.fft : Res (FFTRepr A K))); return p.intoArray3) :=
  ((fft_represents hA hd ha).bind (fun _ hr => (fft_represents hA hd hb).bind (fun _ hs => mul_represents hA hr hs))).same hA
    ((mul_denotes hA ha hb).fft hA hd) (fun _ hk => (cx_geo hA _ _ hk).symm)

/-! ### C32 -/

/-- **C32.** `a.fft() + b.fft() == (a + b).fft()`. -/
theorem C32_fft_add [LawfulInto T K] (hA : A.WF) (hd : A.dim < 63) {a b : MV A (ArrayStorage T)} (ha : a.Valid) (hb : b.Valid) :
    Same3 (do let p ← (do let r ← (a.fft : Res (FFTRepr A K)); let s ← b.fft; r.add s); return p.intoArray3)
      (do let p ← (do let c ← a.add b; (c.fft : Res (FFTRepr A K))); return p.intoArray3) :=
  ((fft_represents hA hd ha).bind (fun _ hr => (fft_represents hA hd hb).bind (fun _ hs => add_represents hr hs))).same hA
    ((add_denotes ha hb).fft hA hd) (fun k _ => (congrFun (cx_add A a.val b.val) k).symm)

/-- **C32.** `a.fft() - b.fft() == (a - b).fft()`. -/
theorem C32_fft_sub [LawfulInto T K] (hA : A.WF) (hd : A.dim < 63) {a b : MV A (ArrayStorage T)} (ha : a.Valid) (hb : b.Valid) :
    Same3 (do let p ← (do let r ← (a.fft : Res (FFTRepr A K)); let s ← b.fft; r.sub s); return p.intoArray3)
      (do let p ← (do let c ← a.sub b; (c.fft : Res (FFTRepr A K))); return p.intoArray3) :=
  ((fft_represents hA hd ha).bind (fun _ hr => (fft_represents hA hd hb).bind (fun _ hs => sub_represents hr hs))).same hA
    ((sub_denotes ha hb).fft hA hd) (fun k _ => (congrFun (cx_sub A a.val b.val) k).symm)

/-- **C32.** `-a.fft() == (-a).fft()`. -/
theorem C32_fft_neg [LawfulInto T K] (hA : A.WF) (hd : A.dim < 63) {a : MV A (ArrayStorage T)} (ha : a.Valid) :
    Same3 (do let p ← (do let r ← (a.fft : Res (FFTRepr A K)); return r.neg); return p.intoArray3)
      (do let p ← (do let c ← a.neg; (c.fft : Res (FFTRepr A K))); return p.intoArray3) :=
  ((fft_represents hA hd ha).bind (fun _ hr => RDenotes.of (neg_represents hr))).same hA
    ((neg_denotes ha).fft hA hd) (fun k _ => (congrFun (cx_neg A a.val) k).symm)

/-- **C32.** `a.fft() * t == (a * t).fft()` for scalars. -/
theorem C32_fft_smul [LawfulInto T K] (hA : A.WF) (hd : A.dim < 63) {a : MV A (ArrayStorage T)} (ha : a.Valid) (t : T) :
    Same3 (do let p ← (do let r ← (a.fft : Res (FFTRepr A K)); return r.smul (IntoComplex.into t)); return p.intoArray3)
      (do let p ← (do let c ← a.smul t; (c.fft : Res (FFTRepr A K))); return p.intoArray3) :=
  ((fft_represents hA hd ha).bind (fun _ hr => RDenotes.of (smul_represents _ hr))).same hA
    ((smul_denotes ha t).fft hA hd) (fun k _ => (congrFun (cx_mul A a.val t) k).symm)

/-- **C32.** `FFTRepr::zero() == zero().fft()` and `FFTRepr::one() == one().fft()`. -/
theorem C32_fft_zero_one [LawfulInto T K] (hA : A.WF) (hd : A.dim < 63) :
    Same3 (do let z ← (MV.default : Res (MV A (ArrayStorage T))); let r ← (z.fft : Res (FFTRepr A K)); return r.intoArray3)
      (.ok (FFTRepr.zero : FFTRepr A K).intoArray3) ∧
    Same3 (do let z ← (MV.one : Res (MV A (ArrayStorage T))); let r ← (z.fft : Res (FFTRepr A K)); return r.intoArray3)
      (.ok (FFTRepr.one : FFTRepr A K).intoArray3) := by
  have hS : A.dim ≤ 63 := by omega
  constructor
  · have h := ((default_denotes (A := A) (S := ArrayStorage T) (T := T) hS).fft (K := K) hA hd).same hA
      (RDenotes.of (zero_represents (K := K) hA hd)) (fun k _ => by simp only [cx, into_zero, mul_zero])
    obtain ⟨u, e, -⟩ := default_denotes (A := A) (S := ArrayStorage T) (T := T) hS
    rw [e] at h ⊢
    exact h
  · have h := ((one_denotes (A := A) (S := ArrayStorage T) (T := T) hS).fft (K := K) hA hd).same hA
      (RDenotes.of (one_represents (K := K) hA hd)) (fun k _ => congrFun (cx_single A) k)
    obtain ⟨u, e, -⟩ := one_denotes (A := A) (S := ArrayStorage T) (T := T) hS
    rw [e] at h ⊢
    exact h

theorem arr3_beq_iff {a b : Arr3 K} : a.beq b = true ↔ a.d0 = b.d0 ∧ a.d1 = b.d1 ∧ a.d2 = b.d2 ∧
    ∀ k < a.d0, ∀ i < a.d1, ∀ j < a.d2, a.get k i j = b.get k i j := by
  unfold Arr3.beq
  simp only [Bool.and_eq_true, beq_iff_eq, List.all_eq_true, List.mem_range, decide_eq_true_eq, and_assoc]

/-- **C32.** `a.fft() == b.fft()` exactly when `a == b`: the representation loses nothing. -/
theorem C32_fft_eq [FromComplex T K] [LawfulComplex T K] (h2 : (2 : K) ≠ 0) (hA : A.WF) (hd : A.dim < 63)
    {a b : MV A (ArrayStorage T)} (ha : a.Valid) (hb : b.Valid) :
    (do let r ← (a.fft : Res (FFTRepr A K)); let s ← b.fft; return r.beq s) = .ok (a.beq b) := by
  obtain ⟨r, e1, hr⟩ := fft_represents (K := K) hA hd ha
  obtain ⟨s, e2, hs⟩ := fft_represents (K := K) hA hd hb
  have hdim : A.nn + A.projDim = A.dim := hA.dims
  rw [e1, e2]
  show Except.ok (r.arr.beq s.arr) = .ok (a.beq b)
  congr 1
  rw [Bool.eq_iff_iff, beq_iff ha hb, arr3_beq_iff]
  constructor
  · rintro ⟨-, -, -, h⟩ k hk
    rw [hr.1.1, hr.1.2.1, hr.1.2.2] at h
    have h' : WEq A.projDim A.half r.arr.get s.arr.get := h
    have h3 := unfl_FL h2 (half_ge A) hr.2 (k := k) (by rw [hdim]; exact hk)
    rw [unfl_FL h2 (half_ge A) (h'.trans hs.2) (by rw [hdim]; exact hk)] at h3
    have := dcx_congr (T := T) (A := A) h3
    rw [dcx_cx, dcx_cx] at this
    exact this.symm
  · intro h
    refine ⟨hr.1.1.trans hs.1.1.symm, hr.1.2.1.trans hs.1.2.1.symm, hr.1.2.2.trans hs.1.2.2.symm, ?_⟩
    rw [hr.1.1, hr.1.2.1, hr.1.2.2]
    intro w hw
    refine (hr.2 w hw).trans (MEq.trans ?_ (hs.2 w hw).symm)
    rw [FL_congr (s := A.projDim) (fun k hk => cx_congr (h k (by rw [← hdim]; exact hk))) hw]
    exact MEq.rfl' _

/-! ### C33, C34, C35 -/

/-- **C33.** `a.fft().rev() == a.rev().fft()`. -/
theorem C33_fft_rev [LawfulInto T K] (hA : A.WF) (hd : A.dim < 63) {a : MV A (ArrayStorage T)} (ha : a.Valid) :
    Same3 (do let p ← (do let r ← (a.fft : Res (FFTRepr A K)); r.rev); return p.intoArray3)
      (do let p ← (do let c ← a.rev; (c.fft : Res (FFTRepr A K))); return p.intoArray3) :=
  ((fft_represents hA hd ha).bind (fun _ hr => rev_represents hA hd hr)).same hA
    ((rev_denotes ha).fft hA hd) (fun k _ => (congrFun (cx_smul A (rsg A.dim) a.val) k).symm)

/-- **C33.** `a.fft().flip() == a.flip().fft()`. -/
theorem C33_fft_flip [LawfulInto T K] (hA : A.WF) (hd : A.dim < 63) {a : MV A (ArrayStorage T)} (ha : a.Valid) :
    Same3 (do let p ← (do let r ← (a.fft : Res (FFTRepr A K)); return r.flip); return p.intoArray3)
      (do let p ← (do let c ← a.flip; (c.fft : Res (FFTRepr A K))); return p.intoArray3) :=
  ((fft_represents hA hd ha).bind (fun _ hr => RDenotes.of (flip_represents hA hr))).same hA
    ((flip_denotes ha).fft hA hd) (fun k _ => (congrFun (cx_smul A (fun k => sg (par A.dim k)) a.val) k).symm)

theorem cx_at_zero (f : Nat → T) : cx (K := K) A f 0 = IntoComplex.into (f 0) := by
  unfold cx
  rw [Nat.zero_and]
  rw [show countOnes 0 = 0 by decide]
  simp [iPowNeg]

/-- **C34.** `a.fft().ntrace() == a.scalar_part()`. -/
theorem C34_ntrace [LawfulInto T K] (h2 : (2 : K) ≠ 0) (hA : A.WF) (hd : A.dim < 63) {a : MV A (ArrayStorage T)} (ha : a.Valid) :
    (do let r ← (a.fft : Res (FFTRepr A K)); return r.ntrace) = (do let c ← a.scalarPart; return (IntoComplex.into c : K)) := by
  obtain ⟨r, e1, hr⟩ := fft_represents (K := K) hA hd ha
  rw [e1, scalarPart_ok ha]
  show Except.ok r.ntrace = Except.ok _
  rw [ntrace_represents h2 hr, cx_at_zero]

/-- **C34.** `a.fft().trace()` is the scalar part times the side of the matrices. -/
theorem C34_trace [LawfulInto T K] (hA : A.WF) (hd : A.dim < 63) {a : MV A (ArrayStorage T)} (ha : a.Valid) :
    (do let r ← (a.fft : Res (FFTRepr A K)); return r.trace) =
      (do let c ← a.scalarPart; return (2 ^ ((A.realDim + A.imagDim + 1) / 2) * IntoComplex.into c : K)) := by
  obtain ⟨r, e1, hr⟩ := fft_represents (K := K) hA hd ha
  rw [e1, scalarPart_ok ha]
  show Except.ok r.trace = Except.ok _
  rw [trace_represents hr, cx_at_zero, nsmul_eq_mul]
  push_cast
  rfl

/-- **C34.** `a.fft().mag2() == a.mag2()`. -/
theorem C34_mag2 [LawfulInto T K] (h2 : (2 : K) ≠ 0) (hA : A.WF) (hd : A.dim < 63) {a : MV A (ArrayStorage T)} (ha : a.Valid) :
    (do let r ← (a.fft : Res (FFTRepr A K)); r.mag2) = (do let c ← a.mag2; return (IntoComplex.into c : K)) := by
  obtain ⟨r, e1, hr⟩ := fft_represents (K := K) hA hd ha
  rw [e1, mag2_ok hA ha]
  show r.mag2 = Except.ok _
  rw [mag2_represents hA hd h2 hr]
  have h := cx_geo (K := K) hA (fun k => rsg A.dim k • a.val k) a.val (Nat.two_pow_pos A.dim)
  rw [cx_smul] at h
  rw [← h, cx_at_zero]

/-- **C35.** `a.fft().pow(n) == a.pow(n).fft()`. -/
theorem C35_fft_pow [LawfulInto T K] (hA : A.WF) (hd : A.dim < 63) {a : MV A (ArrayStorage T)} (ha : a.Valid) (n : Nat) :
    Same3 (do let p ← (do let r ← (a.fft : Res (FFTRepr A K)); r.pow n); return p.intoArray3)
      (do let p ← (do let c ← a.pow n; (c.fft : Res (FFTRepr A K))); return p.intoArray3) :=
  ((fft_represents hA hd ha).bind (fun _ hr => pow_represents hA hd hr n)).same hA
    ((pow_denotes hA ha n).fft hA hd) (fun _ hk => (cx_npow hA a.val n hk).symm)

/-- **C35.** `a.fft().pow(n).ifft() == a.pow(n)`. -/
theorem C35_fft_pow_ifft [FromComplex T K] [LawfulComplex T K] (h2 : (2 : K) ≠ 0) (hA : A.WF) (hd : A.dim < 63)
    {a : MV A (ArrayStorage T)} (ha : a.Valid) (n : Nat) :
    (do let r ← (a.fft : Res (FFTRepr A K)); let p ← r.pow n; (p.ifft : Res (MV A (ArrayStorage T)))) ≈ᵣ a.pow n := by
  obtain ⟨r, e1, hr⟩ := fft_represents (K := K) hA hd ha
  rw [e1]
  refine Agree.of_denotes (ifft_represents (T := T) hA hd h2 (pow_represents hA hd hr n)) (pow_denotes hA ha n) (fun k hk => ?_)
  rw [← congrFun (dcx_cx (K := K) A (npow A.sigma A.dim a.val n)) k]
  exact dcx_congr (cx_npow hA _ _ hk).symm

/-! ### C40 -/

theorem nullSize_eq (hA : A.WF) : (A.projMask >>> A.nn) + 1 = 2 ^ A.projDim := by
  have hdim : A.nn + A.projDim = A.dim := hA.dims
  have : A.projMask = 2 ^ A.nn * (2 ^ A.projDim - 1) := by
    rw [hA.null, Nat.mul_sub, ← pow_add, hdim, mul_one]; rfl
  rw [this, Nat.shiftRight_eq_div_pow, Nat.mul_div_cancel_left _ (Nat.two_pow_pos _)]
  exact Nat.sub_add_cancel (Nat.two_pow_pos _)

/-- **C40.** `from_array3` accepts exactly the arrays of shape `[2^s, 2^⌈k/2⌉, 2^⌈k/2⌉]` (`s` null and `k` other
generators), and `into_array3` gives the array back; for every other array the error is `InvalidShape`. -/
theorem C40_from_array3 (hA : A.WF) (hd : A.dim < 63) (arr : Arr3 K) :
    (arr.dims = (2 ^ A.projDim, 2 ^ ((A.realDim + A.imagDim + 1) / 2), 2 ^ ((A.realDim + A.imagDim + 1) / 2)) →
      (do let r ← (FFTRepr.fromArray3 arr : Res (FFTRepr A K)); return r.intoArray3) = .ok arr) ∧
    (arr.dims ≠ (2 ^ A.projDim, 2 ^ ((A.realDim + A.imagDim + 1) / 2), 2 ^ ((A.realDim + A.imagDim + 1) / 2)) →
      (FFTRepr.fromArray3 arr : Res (FFTRepr A K)) = .error (.cl .InvalidShape)) := by
  have hs : ushl 1 (((A.nn + 1) / 2) * 2 / 2) = 2 ^ A.half := by
    have := hA.nn_le
    rw [Nat.mul_div_cancel _ (by norm_num), ushl_one (by omega)]
  constructor
  · intro h
    unfold FFTRepr.fromArray3
    simp only [hA.countOnes_nn, hs, nullSize_eq hA]
    rw [if_neg (fun hc => hc h)]
    rfl
  · intro h
    unfold FFTRepr.fromArray3
    simp only [hA.countOnes_nn, hs, nullSize_eq hA]
    exact if_pos h

/-- **C40.** `fft()` always has this shape. -/
theorem C40_fft_shape [LawfulInto T K] (hA : A.WF) (hd : A.dim < 63) {a : MV A (ArrayStorage T)} (ha : a.Valid) :
    (do let r ← (a.fft : Res (FFTRepr A K)); return r.intoArray3.dims) =
      .ok (2 ^ A.projDim, 2 ^ ((A.realDim + A.imagDim + 1) / 2), 2 ^ ((A.realDim + A.imagDim + 1) / 2)) := by
  obtain ⟨r, e1, hr⟩ := fft_represents (K := K) hA hd ha
  rw [e1]
  show Except.ok (r.arr.d0, r.arr.d1, r.arr.d2) = _
  rw [hr.1.1, hr.1.2.1, hr.1.2.2]
  rfl

/-- **C40.** For algebras without null generators `from_array2` accepts exactly the square matrices of side `2^⌈k/2⌉`, and
`into_array2` gives the matrix back. -/
theorem C40_from_array2 (hA : A.WF) (hd : A.dim < 63) (hn : A.projDim = 0) (m : Arr2 K) :
    (m.rows = 2 ^ ((A.dim + 1) / 2) ∧ m.cols = 2 ^ ((A.dim + 1) / 2) →
      (do let r ← (FFTRepr.fromArray2 m : Res (FFTRepr A K)); return r.intoArray2) = .ok m) ∧
    (¬ (m.rows = 2 ^ ((A.dim + 1) / 2) ∧ m.cols = 2 ^ ((A.dim + 1) / 2)) →
      (FFTRepr.fromArray2 m : Res (FFTRepr A K)) = .error (.cl .InvalidShape)) := by
  obtain ⟨h1, h2⟩ := C40_from_array3 hA hd (Arr3.ofArr2 m)
  have hdim : A.realDim + A.imagDim = A.dim := by have := hA.dims; omega
  rw [hdim, hn] at h1 h2
  constructor
  · rintro ⟨hr, hc⟩
    have := h1 (by show (1, m.rows, m.cols) = _; rw [hr, hc]; rfl)
    unfold FFTRepr.fromArray2
    obtain ⟨r, hr'⟩ : ∃ r, (FFTRepr.fromArray3 (Arr3.ofArr2 m) : Res (FFTRepr A K)) = .ok r := by
      cases h : (FFTRepr.fromArray3 (Arr3.ofArr2 m) : Res (FFTRepr A K)) with
      | ok r => exact ⟨r, rfl⟩
      | error e => rw [h] at this; exact absurd this (fun h => by injection h)
    rw [hr'] at this ⊢
    have harr : r.arr = Arr3.ofArr2 m := by injection this
    show Except.ok (r.arr.layer 0) = _
    rw [harr]; rfl
  · intro hne
    refine h2 (fun hc => hne ?_)
    have h3 : (1, m.rows, m.cols) = (2 ^ 0, 2 ^ ((A.dim + 1) / 2), 2 ^ ((A.dim + 1) / 2)) := hc
    injection h3 with _ h3
    injection h3 with h3 h4
    exact ⟨h3, h4⟩

/-- **C40.** For an even number of non-null generators every accepted array is the `fft` of its `ifft`. -/
theorem C40_fft_ifft (h2 : (2 : K) ≠ 0) (hA : A.WF) (hd : A.dim < 63) (he : (A.realDim + A.imagDim) % 2 = 0) (arr : Arr3 K)
    (hs : arr.dims = (2 ^ A.projDim, 2 ^ ((A.realDim + A.imagDim + 1) / 2), 2 ^ ((A.realDim + A.imagDim + 1) / 2))) :
    Same3 (do
        let r ← (FFTRepr.fromArray3 arr : Res (FFTRepr A K))
        let a ← (r.ifft : Res (MV A (ArrayStorage K)))
        let s ← (a.fft : Res (FFTRepr A K))
        return s.intoArray3) (.ok arr) := by
  have h1 := (C40_from_array3 hA hd arr).1 hs
  obtain ⟨r, hr'⟩ : ∃ r, (FFTRepr.fromArray3 arr : Res (FFTRepr A K)) = .ok r := by
    cases h : (FFTRepr.fromArray3 arr : Res (FFTRepr A K)) with
    | ok r => exact ⟨r, rfl⟩
    | error e => rw [h] at h1; exact absurd h1 (fun h => by injection h)
  rw [hr'] at h1 ⊢
  have harr : r.arr = arr := by injection h1
  subst harr
  have hI : r.arr.Is A.projDim A.half := by
    injection hs with a b
    injection b with b c
    exact ⟨a, b, c⟩
  have h := ((ifft_denotes (T := K) hA hd hI).fft (K := K) hA hd).same hA (RDenotes.of (represents_unfl h2 he hI))
    (fun k _ => congrFun (cx_dcx A _) k)
  obtain ⟨a, ea, -⟩ := ifft_denotes (T := K) hA hd hI
  show Same3 (do
        let a ← (r.ifft : Res (MV A (ArrayStorage K)))
        let s ← (a.fft : Res (FFTRepr A K))
        return s.intoArray3) _
  rw [ea] at h ⊢
  exact h

end

/-! ### C55 -/

section split
variable {A : ClAlg} {T : Type}

theorem split_getElem (m : Nat) {i : Nat} (hi : i < ((List.replicate m [Sym.plus, Sym.minus]).flatten).length) :
    ((List.replicate m [Sym.plus, Sym.minus]).flatten)[i] = if i % 2 = 0 then Sym.plus else Sym.minus := by
  induction m generalizing i with
  | zero => simp at hi
  | succ m ih =>
    simp only [List.replicate_succ, List.flatten_cons]
    match i with
    | 0 => rfl
    | 1 => rfl
    | i + 2 =>
      have := ih (i := i) (by simp [List.replicate_succ] at hi ⊢; omega)
      rw [show (i + 2) % 2 = i % 2 by omega, ← this]
      rfl

theorem split_spec {sig : List Sym} {names : List String} (h : declareAlgebra sig names = some A) (hs : implSplitSignature sig = true) :
    ∃ m, A.dim = 2 * m ∧ A.nn = 2 * m ∧ A.projDim = 0 ∧ (∀ i < 2 * m, A.sigma i = spm i) ∧
      ∀ i < 2 * m, A.imagMask.testBit i = decide (i % 2 = 1) := by
  obtain ⟨m, rfl⟩ := (C42_split_iff sig).mp hs
  have hlen : ((List.replicate (m + 1) [Sym.plus, Sym.minus]).flatten).length = 2 * (m + 1) := by simp; omega
  obtain ⟨hoc, h64, hd, -, him, hp, -, -, hpd, -⟩ := declareAlgebra_eq h
  have hA := declareAlgebra_wf h
  have hdim : A.dim = 2 * (m + 1) := hd.trans hlen
  have hp0 : A.projDim = 0 := by
    have hz : A.projMask = 0 := by
      rw [hp]
      apply Nat.eq_of_testBit_eq
      intro i
      rw [produceMask_testBit _ _ _ _ (by omega), Nat.zero_testBit]
      by_cases hi : i < ((List.replicate (m + 1) [Sym.plus, Sym.minus]).flatten).length
      · rw [Nat.sub_zero, List.getElem?_eq_getElem hi, split_getElem]
        split <;> simp
      · rw [Nat.sub_zero, List.getElem?_eq_none (by omega)]; simp
    rw [hpd, hz]; decide
  refine ⟨m + 1, hdim, ?_, hp0, ?_, ?_⟩
  · have := hA.dims; unfold ClAlg.nn; omega
  · intro i hi
    rw [declareAlgebra_sigma h (by omega), split_getElem]
    unfold spm
    split <;> rfl
  · intro i hi
    rw [him, produceMask_testBit _ _ _ _ (by omega), Nat.sub_zero, List.getElem?_eq_getElem (by omega), split_getElem]
    by_cases h : i % 2 = 0
    · simp [h]
    · simp [show i % 2 = 1 by omega]

variable [Ring T] [DecidableEq T]

theorem realFft_isM (hd : A.dim < 63) {m : Nat} (hm : A.dim = 2 * m) {x : Res (MV A (ArrayStorage T))} {f : Nat → T}
    (hx : Denotes x f) : IsM (do let a ← x; a.realFft) m (cnn m f) := by
  obtain ⟨a, rfl, ha, hf⟩ := hx
  obtain ⟨r, h1, h2, h3, h4⟩ := clifftNn_spec m (by omega) a.coeffs.array (by rw [← hm]; exact ha.2.2)
  refine ⟨r, ?_, h2, h3, h4.trans ?_⟩
  · show unwrap (clifftNn a.coeffs.array) = _
    rw [h1]; rfl
  · rw [cnn_congr (g := f)]
    · exact MEq.rfl' _
    · intro k hk
      rw [← hm] at hk
      rw [← hf k hk, arr_val ha hk]

/-- **C55.** For split signatures `real_fft` is multiplicative: the matrix of `a * b` is the product of the matrices. -/
theorem C55_real_fft_mul {sig : List Sym} {names : List String} (h : declareAlgebra sig names = some A)
    (hs : implSplitSignature sig = true) (hd : A.dim < 63) {a b : MV A (ArrayStorage T)} (ha : a.Valid) (hb : b.Valid) :
    Same2 (do let c ← a.naiveMulImpl b; c.realFft) (do let x ← a.realFft; let y ← b.realFft; x.dot y) := by
  obtain ⟨m, hm, -, -, hsig, -⟩ := split_spec h hs
  have h1 := realFft_isM hd hm (mul_denotes (declareAlgebra_wf h) ha hb)
  have h2 : IsM a.realFft m (cnn m a.val) := realFft_isM hd hm (.of_valid ha)
  have h3 : IsM b.realFft m (cnn m b.val) := realFft_isM hd hm (.of_valid hb)
  refine h1.same (h2.dot h3) ?_
  refine MEq.trans ?_ (cnn_geo m a.val b.val)
  rw [cnn_congr (g := geo spm (2 * m) a.val b.val)]
  · exact MEq.rfl' _
  · intro k hk
    rw [hm]
    exact geo_congr hsig (fun _ _ => rfl) (fun _ _ => rfl) hk

variable {K : Type} [Field K] [DecidableEq K] [ImagUnit K] [IntoComplex T K] [LawfulInto T K]

/-- **C55.** For split signatures the entries of `real_fft()` are those of `fft().into_array2()` (which are therefore real
numbers for real multivectors). -/
theorem C55_real_fft_eq_fft {sig : List Sym} {names : List String} (h : declareAlgebra sig names = some A)
    (hs : implSplitSignature sig = true) (hd : A.dim < 63) {a : MV A (ArrayStorage T)} (ha : a.Valid) :
    Same2 (do let x ← a.realFft; return (⟨x.rows, x.cols, fun i j => IntoComplex.into (x.get i j)⟩ : Arr2 K))
      (do let r ← (a.fft : Res (FFTRepr A K)); return r.intoArray2) := by
  obtain ⟨m, hm, hnn, hp, -, himag⟩ := split_spec h hs
  have hA := declareAlgebra_wf h
  have hhalf : A.half = m := by unfold ClAlg.half; omega
  obtain ⟨x, e1, h1, h2, h3⟩ := realFft_isM hd hm (.of_valid ha)
  obtain ⟨r, e2, ⟨i0, i1, i2⟩, hr⟩ := fft_represents (K := K) hA hd ha
  change a.realFft = _ at e1
  rw [e1, e2]
  rw [hhalf] at i1 i2 hr
  refine ⟨_, _, rfl, rfl, h1.trans i1.symm, h2.trans i2.symm, ?_⟩
  show ∀ i < x.rows, ∀ j < x.cols, (IntoComplex.into (x.get i j) : K) = r.arr.get 0 i j
  rw [h1, h2]
  intro i hi j hj
  rw [hr 0 (Nat.two_pow_pos _) i hi j hj, h3 i hi j hj]
  unfold FL ctr
  rw [lay_zero]
  have := cnn_map (f := fun t : T => (IntoComplex.into t : K)) LawfulInto.into_add m a.val
  rw [← congrFun (congrFun this i) j]
  refine congrFun (congrFun (cnn_congr fun k hk => ?_) i) j
  unfold psc pad cx
  rw [hnn, if_pos hk, iPowNeg_mask hk, ← mul_assoc]
  have : bprod (fun i => if A.imagMask.testBit i then -HasI.I else (1 : K)) (2 * m) k =
      bprod (fun i => if oddMask.testBit i then -HasI.I else 1) (2 * m) k := by
    refine bprod_congr (fun i hi => ?_) (fun _ _ => rfl)
    rw [himag i hi, oddMask_testBit (by omega)]
  rw [this, bprod_I_mul, one_mul]

end split

/-! ### C39 -/

section halfspin
variable {A : ClAlg} {K : Type} [Field K] [DecidableEq K] [ImagUnit K] {T : Type} [Ring T] [DecidableEq T] [IntoComplex T K]

/-- `x.fft().into_half_spin_repr()`. -/
def halfSpin (K : Type) [Field K] [DecidableEq K] [ImagUnit K] [IntoComplex T K] (x : Res (MV A (ArrayStorage T))) :
    Res (Arr2 K × Arr2 K) := do
  let a ← x
  let r ← (a.fft : Res (FFTRepr A K))
  r.intoHalfSpinRepr

/-- What the two half-spin matrices are. -/
theorem halfSpin_spec [LawfulInto T K] (hA : A.WF) (hd : A.dim < 63) (hn : A.projDim = 0) (h0 : 0 < A.dim)
    {x : Res (MV A (ArrayStorage T))} {f : Nat → T} (hx : Denotes x f) :
    IsM (do let p ← halfSpin K x; return p.1) (A.half - 1) (fun i j => ctr A.half A.dim (cx A f) (nth 0 i) (nth 0 j)) ∧
    IsM (do let p ← halfSpin K x; return p.2) (A.half - 1) (fun i j => ctr A.half A.dim (cx A f) (nth 1 i) (nth 1 j)) := by
  have hnn : A.nn = A.dim := by have := hA.dims; unfold ClAlg.nn; omega
  have hh : A.half = A.half - 1 + 1 := by unfold ClAlg.half; omega
  have hp : 2 ^ A.half = 2 * 2 ^ (A.half - 1) := by
    conv_lhs => rw [hh, pow_succ]
    ring
  obtain ⟨r, e1, hI, hr⟩ := hx.fft (K := K) hA hd
  obtain ⟨e, o, h1, h2, h3, h4, h5, h6⟩ := intoHalfSpinRepr_spec (r := r) (m := A.half - 1) (by rw [← hh]; exact hI.2.1) (by rw [← hh]; exact hI.2.2)
  have heq : halfSpin K x = .ok (e, o) := by
    rw [← h1]
    have : halfSpin K x = (do let r ← (do let a ← x; (a.fft : Res (FFTRepr A K))); r.intoHalfSpinRepr) := by
      unfold halfSpin; simp [bind_assoc]
    rw [this, e1]; rfl
  have hz := hr 0 (Nat.two_pow_pos _)
  unfold FL at hz
  rw [lay_zero, hnn] at hz
  rw [heq]
  refine ⟨⟨e, rfl, h2, h3, fun i hi j hj => ?_⟩, ⟨o, rfl, h4, h5, fun i hi j hj => ?_⟩⟩
  · rw [(h6 i hi j hj).1]
    exact hz _ (by rw [hp]; exact nth_lt_two_mul.mpr hi) _ (by rw [hp]; exact nth_lt_two_mul.mpr hj)
  · rw [(h6 i hi j hj).2]
    exact hz _ (by rw [hp]; exact nth_lt_two_mul.mpr hi) _ (by rw [hp]; exact nth_lt_two_mul.mpr hj)

theorem cx_eq_zero [LawfulInto T K] {f : Nat → T} {k : Nat} (h : f k = 0) : cx (K := K) A f k = 0 := by
  unfold cx; rw [h, into_zero, mul_zero]

/-- **C39.** For even multivectors, both half-spin matrices of `a * b` are the products of those of `a` and `b`. -/
theorem C39_half_spin_mul [LawfulInto T K] (h2 : (2 : K) ≠ 0) (hA : A.WF) (hd : A.dim < 63) (hn : A.projDim = 0) (h0 : 0 < A.dim)
    {a b : MV A (ArrayStorage T)} (ha : a.Valid) (hb : b.Valid) (hae : ∀ k < 2 ^ A.dim, countOnes k % 2 = 1 → a.val k = 0) :
    Same2 (do let p ← halfSpin K (a.naiveMulImpl b); return p.1)
      (do let x ← (do let p ← halfSpin K (.ok a); return p.1); let y ← (do let p ← halfSpin K (.ok b); return p.1); x.dot y) ∧
    Same2 (do let p ← halfSpin K (a.naiveMulImpl b); return p.2)
      (do let x ← (do let p ← halfSpin K (.ok a); return p.2); let y ← (do let p ← halfSpin K (.ok b); return p.2); x.dot y) := by
  have hnn : A.nn = A.dim := by have := hA.dims; unfold ClAlg.nn; omega
  have hle : A.dim ≤ 2 * A.half := by rw [← hnn]; exact half_ge A
  have hh : A.half = A.half - 1 + 1 := by unfold ClAlg.half; omega
  have hp : 2 ^ A.half = 2 * 2 ^ (A.half - 1) := by
    conv_lhs => rw [hh, pow_succ]
    ring
  obtain ⟨p1, p2⟩ := halfSpin_spec (K := K) hA hd hn h0 (mul_denotes hA ha hb)
  obtain ⟨a1, a2⟩ := halfSpin_spec (K := K) hA hd hn h0 (.of_valid ha)
  obtain ⟨b1, b2⟩ := halfSpin_spec (K := K) hA hd hn h0 (.of_valid hb)
  have key : ∀ q < 2, ∀ i < 2 ^ (A.half - 1), ∀ j < 2 ^ (A.half - 1),
      ctr A.half A.dim (cx (K := K) A (geo A.sigma A.dim a.val b.val)) (nth q i) (nth q j) =
      mm (A.half - 1) (fun i j => ctr A.half A.dim (cx (K := K) A a.val) (nth q i) (nth q j))
        (fun i j => ctr A.half A.dim (cx (K := K) A b.val) (nth q i) (nth q j)) i j := by
    intro q hq i hi j hj
    have hi' : nth q i < 2 ^ A.half := by rw [hp]; exact nth_lt_two_mul.mpr hi
    have hj' : nth q j < 2 ^ A.half := by rw [hp]; exact nth_lt_two_mul.mpr hj
    rw [ctr_congr (y := geo (fun _ => 1) A.dim (cx (K := K) A a.val) (cx A b.val)) (fun k hk => by
      rw [cx_geo hA _ _ hk]
      refine geo_congr (fun i hi => ?_) (fun _ _ => rfl) (fun _ _ => rfl) hk
      rw [hA.sigma_complexification hi, if_pos (by omega)])]
    rw [ctr_geo (half_le hA) hle _ _ _ hi' _ hj']
    unfold mm
    rw [hp]
    refine sum_pairs _ _ (fun k hk hkq => ?_)
    rw [ctr_even h2 hle (fun l hl hlo => cx_eq_zero (hae l hl hlo)) hi' (by rw [hp]; exact hk) (by rw [countOnes_nth hq]; exact Ne.symm hkq),
      zero_mul]
  exact ⟨p1.same (a1.dot b1) (key 0 (by norm_num)), p2.same (a2.dot b2) (key 1 (by norm_num))⟩

/-- **C39.** The half-spin matrices of `one()` are identity matrices. -/
theorem C39_half_spin_one [LawfulInto T K] (hA : A.WF) (hd : A.dim < 63) (hn : A.projDim = 0) (h0 : 0 < A.dim) :
    Same2 (do let p ← halfSpin K (MV.one : Res (MV A (ArrayStorage T))); return p.1)
      (.ok ⟨2 ^ ((A.dim - 1) / 2), 2 ^ ((A.dim - 1) / 2), fun i j => if i = j then 1 else 0⟩) ∧
    Same2 (do let p ← halfSpin K (MV.one : Res (MV A (ArrayStorage T))); return p.2)
      (.ok ⟨2 ^ ((A.dim - 1) / 2), 2 ^ ((A.dim - 1) / 2), fun i j => if i = j then 1 else 0⟩) := by
  have hnn : A.nn = A.dim := by have := hA.dims; unfold ClAlg.nn; omega
  have hh : A.half = A.half - 1 + 1 := by unfold ClAlg.half; omega
  have hh' : A.half - 1 = (A.dim - 1) / 2 := by unfold ClAlg.half; omega
  have hp : 2 ^ A.half = 2 * 2 ^ (A.half - 1) := by
    conv_lhs => rw [hh, pow_succ]
    ring
  obtain ⟨p1, p2⟩ := halfSpin_spec (K := K) hA hd hn h0 (one_denotes (A := A) (S := ArrayStorage T) (T := T) (show A.dim ≤ 63 by omega))
  have key : ∀ q, MEq (2 ^ (A.half - 1)) (2 ^ (A.half - 1))
      (fun i j => ctr A.half A.dim (cx (K := K) A (single 0 (1 : T))) (nth q i) (nth q j)) (fun i j => if i = j then 1 else 0) := by
    intro q i hi j hj
    rw [cx_single]
    beta_reduce
    rw [ctr_one A.half A.dim _ (by rw [hp]; exact nth_lt_two_mul.mpr hi) _ (by rw [hp]; exact nth_lt_two_mul.mpr hj)]
    unfold idm
    by_cases h : i = j
    · rw [if_pos h, if_pos (by rw [h])]
    · rw [if_neg h, if_neg (fun hc => h (nth_injective hc))]
  rw [← hh']
  exact ⟨p1.same (⟨_, rfl, rfl, rfl, MEq.rfl' _⟩ : IsM (.ok _) _ _) (key 0), p2.same (⟨_, rfl, rfl, rfl, MEq.rfl' _⟩ : IsM (.ok _) _ _) (key 1)⟩

/-- **C39.** The half-spin matrices depend on the even part only, and determine it. -/
theorem C39_half_spin_even_part [FromComplex T K] [LawfulComplex T K] (h2 : (2 : K) ≠ 0) (hA : A.WF) (hd : A.dim < 63)
    (hn : A.projDim = 0) (h0 : 0 < A.dim) {a b : MV A (ArrayStorage T)} (ha : a.Valid) (hb : b.Valid) :
    (∀ k < 2 ^ A.dim, countOnes k % 2 = 0 → a.val k = b.val k) ↔
      Same2 (do let p ← halfSpin K (.ok a); return p.1) (do let p ← halfSpin K (.ok b); return p.1) ∧
      Same2 (do let p ← halfSpin K (.ok a); return p.2) (do let p ← halfSpin K (.ok b); return p.2) := by
  have hnn : A.nn = A.dim := by have := hA.dims; unfold ClAlg.nn; omega
  have hle : A.dim ≤ 2 * A.half := by rw [← hnn]; exact half_ge A
  have hh : A.half = A.half - 1 + 1 := by unfold ClAlg.half; omega
  have hp : 2 ^ A.half = 2 * 2 ^ (A.half - 1) := by
    conv_lhs => rw [hh, pow_succ]
    ring
  obtain ⟨a1, a2⟩ := halfSpin_spec (K := K) hA hd hn h0 (.of_valid ha)
  obtain ⟨b1, b2⟩ := halfSpin_spec (K := K) hA hd hn h0 (.of_valid hb)
  constructor
  · intro h
    have key : ∀ q < 2, MEq (2 ^ (A.half - 1)) (2 ^ (A.half - 1))
        (fun i j => ctr A.half A.dim (cx (K := K) A a.val) (nth q i) (nth q j))
        (fun i j => ctr A.half A.dim (cx (K := K) A b.val) (nth q i) (nth q j)) := by
      intro q hq i hi j hj
      have hz := ctr_odd h2 hle (x := cx (K := K) A a.val - cx A b.val) (fun k hk hke => by
          rw [Pi.sub_apply, cx_congr (h k hk hke), sub_self])
        (i := nth q i) (j := nth q j) (by rw [hp]; exact nth_lt_two_mul.mpr hi) (by rw [hp]; exact nth_lt_two_mul.mpr hj)
        (by rw [countOnes_nth hq, countOnes_nth hq])
      rw [ctr_sub] at hz
      exact sub_eq_zero.mp hz
    exact ⟨a1.same b1 (key 0 (by norm_num)), a2.same b2 (key 1 (by norm_num))⟩
  · rintro ⟨s1, s2⟩
    have key : ∀ {x y : Res (Arr2 K)} {X Y : Nat → Nat → K}, IsM x (A.half - 1) X → IsM y (A.half - 1) Y → Same2 x y →
        MEq (2 ^ (A.half - 1)) (2 ^ (A.half - 1)) X Y := by
      rintro x y X Y ⟨r, rfl, r1, r2, r3⟩ ⟨s, rfl, s1, s2, s3⟩ ⟨r', s', hr, hs, -, -, he⟩
      injection hr with hr
      injection hs with hs
      subst hr hs
      rw [r1, r2] at he
      exact (r3.symm.trans he).trans s3
    have k1 := key a1 b1 s1
    have k2 := key a2 b2 s2
    set d : Nat → K := fun k => if countOnes k % 2 = 0 then cx A a.val k - cx A b.val k else 0 with hdef
    have hdz : MEq (2 ^ A.half) (2 ^ A.half) (ctr A.half A.dim d) (ctr A.half A.dim 0) := by
      intro i hi j hj
      rw [ctr_zero]
      by_cases hij : countOnes i % 2 = countOnes j % 2
      · have ho := ctr_odd h2 hle (x := d - (cx (K := K) A a.val - cx A b.val)) (fun k hk hke => by
          rw [Pi.sub_apply, hdef]; simp [hke]) hi hj hij
        rw [ctr_sub, ctr_sub] at ho
        have hq : ctr A.half A.dim (cx (K := K) A a.val) i j = ctr A.half A.dim (cx (K := K) A b.val) i j := by
          have hi2 : i / 2 < 2 ^ (A.half - 1) := by omega
          have hj2 : j / 2 < 2 ^ (A.half - 1) := by omega
          rcases Nat.mod_two_eq_zero_or_one (countOnes i) with h | h
          · have := k1 (i / 2) hi2 (j / 2) hj2
            beta_reduce at this
            rwa [nth_div h, nth_div (hij ▸ h)] at this
          · have := k2 (i / 2) hi2 (j / 2) hj2
            beta_reduce at this
            rwa [nth_div h, nth_div (hij ▸ h)] at this
        have ho' : ctr A.half A.dim d i j - (ctr A.half A.dim (cx (K := K) A a.val) i j - ctr A.half A.dim (cx (K := K) A b.val) i j) = 0 := ho
        rw [hq, sub_self, sub_zero] at ho'
        rw [ho']; rfl
      · rw [ctr_even h2 hle (fun k hk hko => by rw [hdef]; simp [hko]) hi hj hij]; rfl
    intro k hk hke
    have := ctr_injective h2 hle hdz hk
    rw [hdef] at this
    simp only [hke, if_true, Pi.zero_apply] at this
    have h3 := dcx_congr (T := T) (A := A) (sub_eq_zero.mp this)
    rwa [dcx_cx, dcx_cx] at h3

end halfspin

/-! ### The hypotheses can be met -/

section examples
open Ex

noncomputable section

/-- Real coefficients in an odd, a degenerate and a seven-dimensional algebra. -/
example : (do let r ← (eR.fft : Res (FFTRepr E ℂ)); (r.ifft : Res (MV E (ArrayStorage ℝ)))) ≈ᵣ .ok eR :=
  C30_ifft_fft two_ne_zero E_wf (by decide) eR_valid
example : (do let r ← (mR.fft : Res (FFTRepr M ℂ)); (r.ifft : Res (MV M (ArrayStorage ℝ)))) ≈ᵣ .ok mR :=
  C30_ifft_fft two_ne_zero M_wf (by decide) mR_valid
example : (do let r ← (a7Z.fft : Res (FFTRepr A7 ℂ)); (r.ifft : Res (MV A7 (ArrayStorage ℂ)))) ≈ᵣ .ok a7Z :=
  C30_ifft_fft two_ne_zero A7_wf (by decide) a7Z_valid

example : (do let r ← (a7Z.fft : Res (FFTRepr A7 ℂ)); let s ← a7Z'.fft; let t ← r.mul s; (t.ifft : Res (MV A7 (ArrayStorage ℂ)))) ≈ᵣ
    a7Z.naiveMulImpl a7Z' :=
  C31_fft_mul_ifft two_ne_zero A7_wf (by decide) a7Z_valid a7Z'_valid
example : Same3 (do let p ← (do let r ← (mR.fft : Res (FFTRepr M ℂ)); let s ← mR'.fft; r.mul s); return p.intoArray3)
    (do let p ← (do let c ← mR.naiveMulImpl mR'; (c.fft : Res (FFTRepr M ℂ))); return p.intoArray3) :=
  C31_fft_mul M_wf (by decide) mR_valid mR'_valid

example : Same3 (do let p ← (do let r ← (mR.fft : Res (FFTRepr M ℂ)); let s ← mR'.fft; r.add s); return p.intoArray3)
    (do let p ← (do let c ← mR.add mR'; (c.fft : Res (FFTRepr M ℂ))); return p.intoArray3) :=
  C32_fft_add M_wf (by decide) mR_valid mR'_valid
example : Same3 (do let p ← (do let r ← (mR.fft : Res (FFTRepr M ℂ)); let s ← mR'.fft; r.sub s); return p.intoArray3)
    (do let p ← (do let c ← mR.sub mR'; (c.fft : Res (FFTRepr M ℂ))); return p.intoArray3) :=
  C32_fft_sub M_wf (by decide) mR_valid mR'_valid
example : Same3 (do let p ← (do let r ← (mR.fft : Res (FFTRepr M ℂ)); return r.neg); return p.intoArray3)
    (do let p ← (do let c ← mR.neg; (c.fft : Res (FFTRepr M ℂ))); return p.intoArray3) :=
  C32_fft_neg M_wf (by decide) mR_valid
example : Same3 (do let p ← (do let r ← (mR.fft : Res (FFTRepr M ℂ)); return r.smul (IntoComplex.into (7 : ℝ))); return p.intoArray3)
    (do let p ← (do let c ← mR.smul 7; (c.fft : Res (FFTRepr M ℂ))); return p.intoArray3) :=
  C32_fft_smul M_wf (by decide) mR_valid 7
example : Same3 (do let z ← (MV.one : Res (MV A7 (ArrayStorage ℂ))); let r ← (z.fft : Res (FFTRepr A7 ℂ)); return r.intoArray3)
    (.ok (FFTRepr.one : FFTRepr A7 ℂ).intoArray3) :=
  (C32_fft_zero_one A7_wf (by decide)).2
example : (do let r ← (eR.fft : Res (FFTRepr E ℂ)); let s ← eR'.fft; return r.beq s) = .ok (eR.beq eR') :=
  C32_fft_eq two_ne_zero E_wf (by decide) eR_valid eR'_valid

example : Same3 (do let p ← (do let r ← (a7Z.fft : Res (FFTRepr A7 ℂ)); r.rev); return p.intoArray3)
    (do let p ← (do let c ← a7Z.rev; (c.fft : Res (FFTRepr A7 ℂ))); return p.intoArray3) :=
  C33_fft_rev A7_wf (by decide) a7Z_valid
example : Same3 (do let p ← (do let r ← (a7Z.fft : Res (FFTRepr A7 ℂ)); return r.flip); return p.intoArray3)
    (do let p ← (do let c ← a7Z.flip; (c.fft : Res (FFTRepr A7 ℂ))); return p.intoArray3) :=
  C33_fft_flip A7_wf (by decide) a7Z_valid

/-- `ntrace` of the representation of `mR` is its scalar part `1/2`. -/
example : (do let r ← (mR.fft : Res (FFTRepr M ℂ)); return r.ntrace) = .ok (((1 / 2 : ℝ)) : ℂ) := by
  rw [C34_ntrace two_ne_zero M_wf (by decide) mR_valid, scalarPart_ok mR_valid]
  show Except.ok ((mR.val 0 : ℝ) : ℂ) = _
  rw [arr_val mR_valid (by decide)]
  norm_num [mR]
example : (do let r ← (mR.fft : Res (FFTRepr M ℂ)); return r.trace) =
    (do let c ← mR.scalarPart; return (2 ^ ((M.realDim + M.imagDim + 1) / 2) * IntoComplex.into c : ℂ)) :=
  C34_trace M_wf (by decide) mR_valid
example : (do let r ← (mR.fft : Res (FFTRepr M ℂ)); r.mag2) = (do let c ← mR.mag2; return (IntoComplex.into c : ℂ)) :=
  C34_mag2 two_ne_zero M_wf (by decide) mR_valid

example : Same3 (do let p ← (do let r ← (mR.fft : Res (FFTRepr M ℂ)); r.pow 5); return p.intoArray3)
    (do let p ← (do let c ← mR.pow 5; (c.fft : Res (FFTRepr M ℂ))); return p.intoArray3) :=
  C35_fft_pow M_wf (by decide) mR_valid 5
example : (do let r ← (mR.fft : Res (FFTRepr M ℂ)); let p ← r.pow 6; (p.ifft : Res (MV M (ArrayStorage ℝ)))) ≈ᵣ mR.pow 6 :=
  C35_fft_pow_ifft two_ne_zero M_wf (by decide) mR_valid 6

example : (do let r ← (FFTRepr.fromArray3 arr3 : Res (FFTRepr M ℂ)); return r.intoArray3) = .ok arr3 :=
  (C40_from_array3 M_wf (by decide) arr3).1 rfl
example : (FFTRepr.fromArray3 arr3 : Res (FFTRepr E ℂ)) = .error (.cl .InvalidShape) :=
  (C40_from_array3 E_wf (by decide) arr3).2 (by decide)
example : (do let r ← (mR.fft : Res (FFTRepr M ℂ)); return r.intoArray3.dims) = .ok (2, 2, 2) :=
  C40_fft_shape M_wf (by decide) mR_valid
example : (do let r ← (FFTRepr.fromArray2 mat4 : Res (FFTRepr E ℂ)); return r.intoArray2) = .ok mat4 :=
  (C40_from_array2 E_wf (by decide) rfl mat4).1 ⟨rfl, rfl⟩
example : Same3 (do
      let r ← (FFTRepr.fromArray3 arr3 : Res (FFTRepr M ℂ))
      let a ← (r.ifft : Res (MV M (ArrayStorage ℂ)))
      let s ← (a.fft : Res (FFTRepr M ℂ))
      return s.intoArray3) (.ok arr3) :=
  C40_fft_ifft two_ne_zero M_wf (by decide) rfl arr3 rfl

example : (do let c ← (mR.complexify : Res (MV M.complexification (ArrayStorage ℂ))); (c.decomplexify : Res (MV M (ArrayStorage ℝ)))) ≈ᵣ
    .ok mR :=
  C41_decomplexify_complexify mR_valid (show M.dim ≤ 63 by decide)
example : (do let p ← mR.naiveMulImpl mR'; (p.complexify : Res (MV M.complexification (ArrayStorage ℂ)))) ≈ᵣ
    (do let x ← (mR.complexify : Res (MV M.complexification (ArrayStorage ℂ))); let y ← mR'.complexify; x.naiveMulImpl y) :=
  C41_complexify_mul M_wf mR_valid mR'_valid (show M.dim ≤ 63 by decide)
example : (do let a ← ((⟨a7Z.coeffs⟩ : MV A7.complexification (ArrayStorage ℂ)).decomplexify : Res (MV A7 (ArrayStorage ℂ)))
              (a.complexify : Res (MV A7.complexification (ArrayStorage ℂ)))) ≈ᵣ .ok ⟨a7Z.coeffs⟩ :=
  C41_complexify_decomplexify (c := (⟨a7Z.coeffs⟩ : MV A7.complexification (ArrayStorage ℂ))) a7Z_valid (show A7.dim ≤ 63 by decide)
/-- The generator with square `-1` becomes one with square `+1`. -/
example : M.sigma 1 = -1 ∧ M.complexification.sigma 1 = 1 :=
  ⟨rfl, (C41_complexification_signature M_wf).2.2 1 (by decide)⟩

example : Same2 (do let c ← a4R.naiveMulImpl a4R'; c.realFft) (do let x ← a4R.realFft; let y ← a4R'.realFft; x.dot y) :=
  C55_real_fft_mul A4_decl rfl (by decide) a4R_valid a4R'_valid
example : Same2 (do let x ← a4R.realFft; return (⟨x.rows, x.cols, fun i j => IntoComplex.into (x.get i j)⟩ : Arr2 ℂ))
    (do let r ← (a4R.fft : Res (FFTRepr A4 ℂ)); return r.intoArray2) :=
  C55_real_fft_eq_fft A4_decl rfl (by decide) a4R_valid

example := (C39_half_spin_mul (K := ℂ) two_ne_zero E_wf (by decide) rfl (by decide) eEven_valid eR_valid eEven_even).1
example := (C39_half_spin_one (K := ℂ) (T := ℝ) E_wf (by decide) rfl (by decide)).1
/-- `eR` and `eEven` have different half-spin matrices. -/
example : ¬ (Same2 (do let p ← halfSpin ℂ (.ok eR); return p.1) (do let p ← halfSpin ℂ (.ok eEven); return p.1) ∧
    Same2 (do let p ← halfSpin ℂ (.ok eR); return p.2) (do let p ← halfSpin ℂ (.ok eEven); return p.2)) := by
  rw [← C39_half_spin_even_part two_ne_zero E_wf (by decide) rfl (by decide) eR_valid eEven_valid]
  intro h
  have := h 0 (by decide) (by decide)
  rw [arr_val eR_valid (by decide), arr_val eEven_valid (by decide)] at this
  norm_num [eR, eEven] at this

end

end examples

end TClifford
