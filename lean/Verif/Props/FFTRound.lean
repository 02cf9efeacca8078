import Verif.Props.FFTGenerators
import Verif.Proofs.FFTRound
/-
C33 in floating point: the sign changes commute exactly with the transform and its inverse, whatever is rounded in between.
-/

set_option linter.unusedSectionVars false

namespace TClifford

open MV

/-! ### Signs of floating point numbers -/

namespace Flt
variable {f : Fmt}

theorem ofRat_neg (x : ℚ) : (ofRat (-x) : Flt f) = -ofRat x := by
  unfold ofRat
  by_cases h : f.Repr (f.rnd x)
  · have h' : f.Repr (f.rnd (-x)) := by rw [f.rnd_neg]; exact ⟨by rw [f.rnd_neg, h.1], by rw [abs_neg]; exact h.2⟩
    rw [dif_pos h, dif_pos h', neg_num]
    rw [ofRat_eq (by rw [abs_neg]; exact h.2)]
    congr 1
    refine Subtype.ext ?_
    show f.rnd (-x) = f.rnd (-f.rnd x)
    rw [f.rnd_neg, f.rnd_neg, h.1]
  · have h' : ¬ f.Repr (f.rnd (-x)) := by
      intro h'
      apply h
      have h2 := f.rnd_neg x
      rw [h2] at h'
      refine ⟨?_, by rw [← abs_neg]; exact h'.2⟩
      have := h'.1
      rw [f.rnd_neg] at this
      exact neg_injective this
    rw [dif_neg h, dif_neg h']
    rfl

theorem neg_num_ex (x : { x : ℚ // f.Repr x }) : ∃ y : { x : ℚ // f.Repr x }, (-num x : Flt f) = num y ∧ y.1 = -x.1 := by
  refine ⟨⟨-x.1, by rw [f.rnd_neg, x.2.1], by rw [abs_neg]; exact x.2.2⟩, ?_, rfl⟩
  rw [neg_num]
  exact ofRat_repr ⟨-x.1, by rw [f.rnd_neg, x.2.1], by rw [abs_neg]; exact x.2.2⟩

theorem op2_nonFinite_right {o : ℚ → ℚ → ℚ} (x : Flt f) : op2 o x nonFinite = nonFinite := by cases x <;> rfl

instance : SignLaws (Flt f) where
  neg_neg x := by
    match x with
    | nonFinite => rfl
    | num x =>
      obtain ⟨y, h1, h2⟩ := neg_num_ex x
      rw [h1, neg_num, h2, _root_.neg_neg, ofRat_repr]
  neg_add x y := by
    match x, y with
    | nonFinite, y => cases y <;> rfl
    | num x, nonFinite => exact (op2_nonFinite_right (-num x)).symm
    | num x, num y =>
      obtain ⟨x', h1, h2⟩ := neg_num_ex x
      obtain ⟨y', h3, h4⟩ := neg_num_ex y
      rw [h1, h3, add_num, add_num, ← ofRat_neg, h2, h4]
      congr 1; ring
  neg_sub x y := by
    match x, y with
    | nonFinite, y => cases y <;> rfl
    | num x, nonFinite => exact (op2_nonFinite_right (-num x)).symm
    | num x, num y =>
      obtain ⟨x', h1, h2⟩ := neg_num_ex x
      obtain ⟨y', h3, h4⟩ := neg_num_ex y
      rw [h1, h3, sub_num, sub_num, ← ofRat_neg, h2, h4]
      congr 1; ring
  add_neg x y := by
    match x, y with
    | nonFinite, y => cases y <;> rfl
    | num x, nonFinite => rfl
    | num x, num y =>
      obtain ⟨y', h3, h4⟩ := neg_num_ex y
      rw [h3, add_num, sub_num, h4]
      congr 1; ring
  sub_neg x y := by
    match x, y with
    | nonFinite, y => cases y <;> rfl
    | num x, nonFinite => rfl
    | num x, num y =>
      obtain ⟨y', h3, h4⟩ := neg_num_ex y
      rw [h3, add_num, sub_num, h4]
      congr 1; ring
  add_comm x y := by
    match x, y with
    | nonFinite, y => cases y <;> rfl
    | num x, nonFinite => rfl
    | num x, num y => rw [add_num, add_num, _root_.add_comm]

instance : SignMul (Flt f) where
  neg_mul x y := by
    match x, y with
    | nonFinite, y => cases y <;> rfl
    | num x, nonFinite => exact op2_nonFinite_right (-num x)
    | num x, num y =>
      obtain ⟨x', h1, h2⟩ := neg_num_ex x
      rw [h1, mul_num, mul_num, ← ofRat_neg, h2]
      congr 1; ring
  mul_neg x y := by
    match x, y with
    | nonFinite, y => cases y <;> rfl
    | num x, nonFinite => rfl
    | num x, num y =>
      obtain ⟨y', h3, h4⟩ := neg_num_ex y
      rw [h3, mul_num, mul_num, ← ofRat_neg, h4]
      congr 1; ring
  neg_div x y := by
    match x, y with
    | nonFinite, y => cases y <;> rfl
    | num x, nonFinite => show div (-num x) nonFinite = _; cases (-num x : Flt f) <;> rfl
    | num x, num y =>
      obtain ⟨x', h1, h2⟩ := neg_num_ex x
      rw [h1, div_num, div_num, h2]
      split
      · rfl
      · rw [← ofRat_neg]; congr 1; ring

theorem cast_neg {g : Fmt} (x : Flt f) : ((-x).cast : Flt g) = -x.cast := by
  match x with
  | nonFinite => rfl
  | num x =>
    obtain ⟨x', h1, h2⟩ := neg_num_ex x
    rw [h1]
    show ofRat x'.1 = -ofRat x.1
    rw [h2, ofRat_neg]

end Flt

section
variable {F : Type} [Zero F] [One F] [Add F] [Sub F] [Neg F] [Mul F] [Div F] [SignLaws F] [SignMul F]

instance : SignLaws (Cx F) where
  neg_neg _ := Cx.ext' (SignLaws.neg_neg _) (SignLaws.neg_neg _)
  neg_add _ _ := Cx.ext' (SignLaws.neg_add _ _) (SignLaws.neg_add _ _)
  neg_sub _ _ := Cx.ext' (SignLaws.neg_sub _ _) (SignLaws.neg_sub _ _)
  add_neg _ _ := Cx.ext' (SignLaws.add_neg _ _) (SignLaws.add_neg _ _)
  sub_neg _ _ := Cx.ext' (SignLaws.sub_neg _ _) (SignLaws.sub_neg _ _)
  add_comm _ _ := Cx.ext' (SignLaws.add_comm _ _) (SignLaws.add_comm _ _)

instance : SignMul (Cx F) where
  neg_mul x y := Cx.ext'
    (by show -x.re * y.re - -x.im * y.im = -(x.re * y.re - x.im * y.im)
        rw [SignMul.neg_mul, SignMul.neg_mul, SignLaws.neg_sub])
    (by show -x.re * y.im + -x.im * y.re = -(x.re * y.im + x.im * y.re)
        rw [SignMul.neg_mul, SignMul.neg_mul, SignLaws.neg_add])
  mul_neg x y := Cx.ext'
    (by show x.re * -y.re - x.im * -y.im = -(x.re * y.re - x.im * y.im)
        rw [SignMul.mul_neg, SignMul.mul_neg, SignLaws.neg_sub])
    (by show x.re * -y.im + x.im * -y.re = -(x.re * y.im + x.im * y.re)
        rw [SignMul.mul_neg, SignMul.mul_neg, SignLaws.neg_add])
  neg_div x y := Cx.ext'
    (by show (-x.re * y.re + -x.im * y.im) / y.normSq = -((x.re * y.re + x.im * y.im) / y.normSq)
        rw [SignMul.neg_mul, SignMul.neg_mul, ← SignLaws.neg_add, SignMul.neg_div])
    (by show (-x.im * y.re - -x.re * y.im) / y.normSq = -((x.im * y.re - x.re * y.im) / y.normSq)
        rw [SignMul.neg_mul, SignMul.neg_mul, ← SignLaws.neg_sub, SignMul.neg_div])

end

/-- Coefficient types whose conversions to the complex numbers and back keep zeros and signs. -/
class SignConv (T K : Type) [Zero T] [Neg T] [Zero K] [One K] [Neg K] [Mul K] [HasI K] [IntoComplex T K] [FromComplex T K] : Prop where
  fft_zero : ∀ n, iPowNeg n * IntoComplex.into (0 : T) = (0 : K)
  ifft_zero : ∀ n, (FromComplex.from_ (iPow n * 0 : K) : T) = 0
  into_neg : ∀ x : T, (IntoComplex.into (-x) : K) = -IntoComplex.into x
  from_neg : ∀ z : K, (FromComplex.from_ (-z) : T) = -FromComplex.from_ z

instance : SignConv F64 (Cx F64) where
  fft_zero := UnitConv.fft_zero
  ifft_zero := UnitConv.ifft_zero
  into_neg _ := Cx.ext' rfl SumLaws.neg_zero.symm
  from_neg _ := rfl

instance : SignConv F32 (Cx F64) where
  fft_zero := UnitConv.fft_zero
  ifft_zero := UnitConv.ifft_zero
  into_neg x := Cx.ext' (Flt.cast_neg x) SumLaws.neg_zero.symm
  from_neg z := Flt.cast_neg z.re

instance : SignConv (Cx F64) (Cx F64) where
  fft_zero := UnitConv.fft_zero
  ifft_zero := UnitConv.ifft_zero
  into_neg _ := rfl
  from_neg _ := rfl

instance : SignConv (Cx F32) (Cx F64) where
  fft_zero := UnitConv.fft_zero
  ifft_zero := UnitConv.ifft_zero
  into_neg x := Cx.ext' (Flt.cast_neg x.re) (Flt.cast_neg x.im)
  from_neg z := Cx.ext' (Flt.cast_neg z.re) (Flt.cast_neg z.im)

/-! ### The theorems -/

section
variable {T : Type} [Zero T] [One T] [Add T] [Sub T] [Neg T] [Mul T] [Div T] [DecidableEq T] [CoeffLaws T] [SumLaws T]
variable {K : Type} [Zero K] [One K] [Add K] [Sub K] [Neg K] [Mul K] [Div K] [HasI K] [DecidableEq K] [CoeffLaws K] [SumLaws K]
  [SignLaws K] [SignMul K] [IntoComplex T K] [FromComplex T K] [SignConv T K]
variable {A : ClAlg}

theorem sgnC_sg (b : Bool) (x : T) : sgnC (sg b) x = ng b x := by cases b <;> rfl

theorem sgnC_rsg (n k : Nat) (x : T) : sgnC (rsg n k) x = ng (rb n k) x := by rw [← sg_rb, sgnC_sg]

theorem cx_ng (b : Nat → Bool) (v : Nat → T) : cx (K := K) A (fun k => ng (b k) (v k)) = fun k => ng (b k) (cx A v k) := by
  funext k
  unfold cx
  rw [← mul_ng]
  congr 1
  beta_reduce
  cases b k
  · rfl
  · exact SignConv.into_neg _

theorem dcx_ng (b : Nat → Bool) (v : Nat → K) : dcx (T := T) A (fun k => ng (b k) (v k)) = fun k => ng (b k) (dcx A v k) := by
  funext k
  unfold dcx
  rw [mul_ng]
  cases b k
  · rfl
  · exact SignConv.from_neg _

theorem unflO_flp {m p s : Nat} (hp : p ≤ 2 * m) (X : Nat → Nat → Nat → K) (k : Nat) :
    unflO m p (fun w i j => ng (par s w) (alM m (X w) i j)) k = ng (par (p + s) k) (unflO m p X k) := by
  have hr : k % 2 ^ p < 2 ^ p := Nat.mod_lt _ (Nat.two_pow_pos p)
  have hr' : k % 2 ^ p < 2 ^ (2 * m) := lt_of_lt_of_le hr (Nat.pow_le_pow_right (by norm_num) hp)
  have hk : par (p + s) k = (par p (k % 2 ^ p) ^^ par s (k / 2 ^ p)) := by
    rw [← par_split hr, Nat.mul_comm, Nat.mod_add_div]
  unfold unflO ictrO
  beta_reduce
  rw [icnnO_ng m _ _ hr', icnnO_alM m _ hr', ng_ng, ng_mul, hk, par_of_lt hr hp, Bool.xor_comm]

theorem unflO_rev {m p s : Nat} (hp : p ≤ 2 * m) (X : Nat → Nat → Nat → K) (k : Nat) :
    unflO m p (fun w => revO s m w (X w)) k = ng (rb (p + s) k) (unflO m p X k) := by
  have hr : k % 2 ^ p < 2 ^ p := Nat.mod_lt _ (Nat.two_pow_pos p)
  have hr' : k % 2 ^ p < 2 ^ (2 * m) := lt_of_lt_of_le hr (Nat.pow_le_pow_right (by norm_num) hp)
  have hk : rb (p + s) k = (rb s (k / 2 ^ p) ^^ ((par s (k / 2 ^ p) && par p (k % 2 ^ p)) ^^ rb p (k % 2 ^ p))) := by
    rw [← rb_split hr, Nat.mul_comm, Nat.mod_add_div]
  unfold unflO ictrO revO
  beta_reduce
  rw [icnnO_ng m _ _ hr', ng_mul, hk, ← ng_ng (K := K)]
  congr 1
  by_cases h : par s (k / 2 ^ p) = true
  · simp only [h, if_true, Bool.true_and]
    rw [show (fun i j => alM m (iflO m fun i j => X (k / 2 ^ p) j i) i j) = alM m (iflO m fun i j => X (k / 2 ^ p) j i) from rfl,
      icnnO_alM m _ hr', icnnO_rev m _ hr', ng_ng, ng_mul, par_of_lt hr hp, rb_of_lt hr hp]
  · simp only [h, if_false, Bool.false_and, Bool.false_xor, Bool.false_eq_true]
    rw [show (fun i j => iflO m (fun i j => X (k / 2 ^ p) j i) i j) = iflO m (fun i j => X (k / 2 ^ p) j i) from rfl,
      icnnO_rev m _ hr', ng_mul, rb_of_lt hr hp]

theorem unflO_congr {m p s : Nat} (hp : p ≤ 2 * m) {X Y : Nat → Nat → Nat → K} (h : WEq s m X Y) {k : Nat} (hk : k < 2 ^ (p + s)) :
    unflO m p X k = unflO m p Y k := by
  have hr : k % 2 ^ p < 2 ^ p := Nat.mod_lt _ (Nat.two_pow_pos p)
  unfold unflO ictrO
  rw [icnnO_congr (h (k / 2 ^ p) ((Nat.div_lt_iff_lt_mul (Nat.two_pow_pos p)).mpr (by rw [← pow_add, Nat.add_comm]; exact hk)))
    (lt_of_lt_of_le hr (Nat.pow_le_pow_right (by norm_num) hp))]

theorem same3_of {s m : Nat} {r t : Arr3 K} (hr : r.Is s m) (ht : t.Is s m) {X : Nat → Nat → Nat → K} (h1 : WEq s m r.get X) (h2 : WEq s m t.get X) :
    r.dims = t.dims ∧ ∀ k < r.d0, ∀ i < r.d1, ∀ j < r.d2, r.get k i j = t.get k i j := by
  obtain ⟨a0, a1, a2⟩ := hr
  obtain ⟨b0, b1, b2⟩ := ht
  refine ⟨by unfold Arr3.dims; rw [a0, a1, a2, b0, b1, b2], ?_⟩
  rw [a0, a1, a2]
  exact fun k hk i hi j hj => (h1 k hk i hi j hj).trans (h2 k hk i hi j hj).symm

theorem fft_denotes_ops (hA : A.WF) (hd : A.dim < 63) {x : Res (MV A (ArrayStorage T))} {f : Nat → T} (hx : Denotes x f) :
    ∃ r, (do let c ← x; (c.fft : Res (FFTRepr A K))) = .ok r ∧ r.arr.Is A.projDim A.half ∧
      WEq A.projDim A.half r.arr.get (FLO A.half A.nn (cx A f)) := by
  obtain ⟨c, rfl, hc, hf⟩ := hx
  obtain ⟨r, e, h1, h2⟩ := fft_ops (K := K) SignConv.fft_zero hA hd hc
  refine ⟨r, e, h1, fun w hw => ?_⟩
  have hdim : A.nn + A.projDim = A.dim := hA.dims
  have e' : FLO A.half A.nn (cx (K := K) A f) w = FLO A.half A.nn (cx A c.val) w := ctrO_congr fun i hi => by
    refine (cx_congr (hf _ ?_)).symm
    rw [← hdim]
    exact add_mul_lt hi hw
  rw [e']
  exact h2 w hw

/-- **C33.** The reverse commutes with the transform exactly, for floating point coefficients of any size (`f32`, `f64`, `Complex32`, `Complex64`):
`a.fft().rev()` and `a.rev().fft()` have the same entries, though all of them are rounded. -/
theorem C33_rounded_fft_rev (hA : A.WF) (hd : A.dim < 63) {a : MV A (ArrayStorage T)} (ha : a.Valid) :
    Same3 (do let p ← (do let r ← (a.fft : Res (FFTRepr A K)); r.rev); return p.intoArray3)
      (do let p ← (do let c ← a.rev; (c.fft : Res (FFTRepr A K))); return p.intoArray3) := by
  have hdim : A.nn + A.projDim = A.dim := hA.dims
  obtain ⟨r, e1, r1, r2⟩ := fft_ops (K := K) SignConv.fft_zero hA hd ha
  obtain ⟨t, e2, t1, t2⟩ := rev_ops hA hd r1
  obtain ⟨s, e3, s1, s2⟩ := fft_denotes_ops (K := K) hA hd (rev_fl ha)
  rw [e1, e3]
  simp only [bind, Except.bind, e2]
  refine ⟨_, _, rfl, rfl, same3_of t1 s1 t2 fun w hw => (s2 w hw).trans ?_⟩
  simp only [sgnC_rsg]
  rw [cx_ng, ← hdim]
  refine (FLO_rev SumLaws.neg_zero (half_ge A) _ _ w).trans ?_
  intro i hi j hj
  refine congrArg (ng _) ?_
  have h1 : MEq (2 ^ A.half) (2 ^ A.half) (iflO A.half fun i j => FLO A.half A.nn (cx A a.val) w j i) (iflO A.half fun i j => r.arr.get w j i) :=
    iflO_congr fun i hi j hj => (r2 w hw j hj i hi).symm
  split
  · exact alM_congr h1 i hi j hj
  · exact h1 i hi j hj

/-- **C33.** The same for the grade involution. -/
theorem C33_rounded_fft_flip (hA : A.WF) (hd : A.dim < 63) {a : MV A (ArrayStorage T)} (ha : a.Valid) :
    Same3 (do let p ← (do let r ← (a.fft : Res (FFTRepr A K)); return r.flip); return p.intoArray3)
      (do let p ← (do let c ← a.flip; (c.fft : Res (FFTRepr A K))); return p.intoArray3) := by
  have hdim : A.nn + A.projDim = A.dim := hA.dims
  obtain ⟨r, e1, r1, r2⟩ := fft_ops (K := K) SignConv.fft_zero hA hd ha
  obtain ⟨t1, t2⟩ := flip_ops r1
  obtain ⟨s, e3, s1, s2⟩ := fft_denotes_ops (K := K) hA hd (flip_fl ha)
  rw [e1, e3]
  simp only [bind, Except.bind]
  refine ⟨_, _, rfl, rfl, same3_of t1 s1 t2 fun w hw => (s2 w hw).trans ?_⟩
  simp only [sgnC_sg]
  rw [cx_ng, ← hdim]
  refine (FLO_flp SumLaws.neg_zero (half_ge A) _ _ w).trans ?_
  intro i hi j hj
  exact congrArg (ng _) (alM_congr (fun i hi j hj => (r2 w hw i hi j hj).symm) i hi j hj)

/-- **C33.** The reverse commutes exactly with the inverse transform, for every array of the right shape, transform of a multivector or not. -/
theorem C33_rounded_ifft_rev (hA : A.WF) (hd : A.dim < 63) {r : FFTRepr A K}
    (hr : r.arr.dims = (2 ^ A.projDim, 2 ^ ((A.realDim + A.imagDim + 1) / 2), 2 ^ ((A.realDim + A.imagDim + 1) / 2))) :
    (do let t ← r.rev; (t.ifft : Res (MV A (ArrayStorage T)))) ≈ᵣ (do let m ← (r.ifft : Res (MV A (ArrayStorage T))); m.rev) := by
  have hdim : A.nn + A.projDim = A.dim := hA.dims
  have hI : r.arr.Is A.projDim A.half := by
    unfold Arr3.dims at hr
    simp only [Prod.mk.injEq] at hr
    exact hr
  obtain ⟨t, e1, t1, t2⟩ := rev_ops hA hd hI
  obtain ⟨m, e2, hm, hv⟩ := ifft_ops (T := T) SignConv.ifft_zero hA hd hI
  rw [e1, e2]
  refine Agree.of_denotes (ifft_ops (T := T) SignConv.ifft_zero hA hd t1) (rev_fl hm) fun k hk => ?_
  rw [sgnC_rsg, hv k hk, ← congrFun (dcx_ng (T := T) (A := A) (fun k => rb A.dim k) _) k]
  refine dcx_congr ?_
  rw [unflO_congr (half_ge A) t2 (by rw [hdim]; exact hk), unflO_rev (half_ge A), hdim]

/-- **C33.** The same for the grade involution. -/
theorem C33_rounded_ifft_flip (hA : A.WF) (hd : A.dim < 63) {r : FFTRepr A K}
    (hr : r.arr.dims = (2 ^ A.projDim, 2 ^ ((A.realDim + A.imagDim + 1) / 2), 2 ^ ((A.realDim + A.imagDim + 1) / 2))) :
    (r.flip.ifft : Res (MV A (ArrayStorage T))) ≈ᵣ (do let m ← (r.ifft : Res (MV A (ArrayStorage T))); m.flip) := by
  have hdim : A.nn + A.projDim = A.dim := hA.dims
  have hI : r.arr.Is A.projDim A.half := by
    unfold Arr3.dims at hr
    simp only [Prod.mk.injEq] at hr
    exact hr
  obtain ⟨t1, t2⟩ := flip_ops hI
  obtain ⟨m, e2, hm, hv⟩ := ifft_ops (T := T) SignConv.ifft_zero hA hd hI
  rw [e2]
  refine Agree.of_denotes (ifft_ops (T := T) SignConv.ifft_zero hA hd t1) (flip_fl hm) fun k hk => ?_
  rw [sgnC_sg, hv k hk, ← congrFun (dcx_ng (T := T) (A := A) (fun k => par A.dim k) _) k]
  refine dcx_congr ?_
  rw [unflO_congr (half_ge A) t2 (by rw [hdim]; exact hk), unflO_flp (half_ge A), hdim]

/-- **C33, C87** (tests/unit.rs:233-240). In a split signature the matrix of `m.rev()` is exactly the transpose of the matrix of
`m.flip_subspace(A::imag_mask())`, rounded as they are. -/
theorem C33_rounded_transpose {sig : List Sym} {names : List String} (h : declareAlgebra sig names = some A)
    (hs : implSplitSignature sig = true) (hd : A.dim < 63) {a : MV A (ArrayStorage T)} (ha : a.Valid) :
    Same2 (do let b ← a.flipSubspace A.imagMask; let r ← (b.fft : Res (FFTRepr A K)); return r.intoArray2.transpose)
      (do let b ← a.rev; let r ← (b.fft : Res (FFTRepr A K)); return r.intoArray2) := by
  obtain ⟨m, hm, hnn, hp, -, himag⟩ := split_spec h hs
  have hA := declareAlgebra_wf h
  have hhalf : A.half = m := by unfold ClAlg.half; omega
  obtain ⟨r, e1, ⟨i0, i1, i2⟩, hr⟩ := fft_denotes_ops (K := K) hA hd (flipSubspace_fl ha A.imagMask)
  obtain ⟨s, e2, ⟨j0, j1, j2⟩, hs⟩ := fft_denotes_ops (K := K) hA hd (rev_fl ha)
  have hop : ∀ k < 2 ^ (2 * m), par (2 * m) (k &&& A.imagMask) = opar m k := by
    intro k hk
    have e : k &&& A.imagMask = k &&& oddMask := by
      refine Nat.eq_of_testBit_eq fun i => ?_
      rw [Nat.testBit_and, Nat.testBit_and]
      by_cases hi : i < 2 * m
      · rw [himag i hi, oddMask_testBit (by omega)]
      · rw [Nat.testBit_lt_two_pow (lt_of_lt_of_le hk (Nat.pow_le_pow_right (by norm_num) (by omega)))]; rfl
    refine sg_inj ?_
    rw [sg_opar_pow (by omega) hk, sg_par_pow (lt_of_le_of_lt Nat.and_le_left hk), e]
  simp only [sgnC_sg, sgnC_rsg] at hr hs
  rw [cx_ng, hhalf, hnn, hm] at hr
  rw [cx_ng, hhalf, hnn, hm] at hs
  rw [hhalf] at i1 i2 j1 j2
  have e1' : (do let b ← a.flipSubspace A.imagMask; let r ← (b.fft : Res (FFTRepr A K)); return r.intoArray2.transpose) = .ok r.intoArray2.transpose := by
    rw [← bind_assoc, e1]; rfl
  have e2' : (do let b ← a.rev; let r ← (b.fft : Res (FFTRepr A K)); return r.intoArray2) = .ok s.intoArray2 := by
    rw [← bind_assoc, e2]; rfl
  refine ⟨_, _, e1', e2', i2.trans j1.symm, i1.trans j2.symm, ?_⟩
  show ∀ i < r.arr.d2, ∀ j < r.arr.d1, r.arr.get 0 j i = s.arr.get 0 i j
  rw [i1, i2]
  intro i hi j hj
  rw [hr 0 (Nat.two_pow_pos _) j hj i hi, hs 0 (Nat.two_pow_pos _) i hi j hj]
  unfold FLO
  rw [lay_zero, lay_zero, ctrO_ng_congr SumLaws.neg_zero _ hop, ctrO_ng_congr SumLaws.neg_zero (c := rb (2 * m)) _ fun _ _ => rfl]
  refine (cnnO_transpose m _ i hi j hj).symm.trans ?_
  simp only [ng_ng]
  congr 2
  funext k
  unfold tb
  rw [Bool.xor_assoc, Bool.xor_self, Bool.xor_false]

end

namespace Ex

/-- Coefficients `2^60`, `2^60 + 1/3`, …: every sum in the transform is rounded. -/
def roundA : MV A7 (ArrayStorage F32) := ⟨⟨7, ⟨128, fun i => if i % 2 = 0 then .ofRat (2 ^ 60) else .ofRat (i / 3)⟩⟩⟩

theorem roundA_valid : roundA.Valid := ⟨by decide, rfl, rfl⟩

example : Same3 (do let p ← (do let r ← (roundA.fft : Res (FFTRepr A7 (TClifford.Cx F64))); r.rev); return p.intoArray3)
    (do let p ← (do let c ← roundA.rev; (c.fft : Res (FFTRepr A7 (TClifford.Cx F64)))); return p.intoArray3) :=
  C33_rounded_fft_rev A7_wf (by decide) roundA_valid

example : Same3 (do let p ← (do let r ← (roundA.fft : Res (FFTRepr A7 (TClifford.Cx F64))); return r.flip); return p.intoArray3)
    (do let p ← (do let c ← roundA.flip; (c.fft : Res (FFTRepr A7 (TClifford.Cx F64)))); return p.intoArray3) :=
  C33_rounded_fft_flip A7_wf (by decide) roundA_valid

/-- A representation with inexact entries that is the transform of nothing. -/
def roundR : FFTRepr A7 (TClifford.Cx F64) := ⟨⟨4, 8, 8, fun w i j => ⟨.ofRat ((w + 1) / (i + 3)), .ofRat (2 ^ (3 * j))⟩⟩⟩

example : (do let t ← roundR.rev; (t.ifft : Res (MV A7 (ArrayStorage (TClifford.Cx F32))))) ≈ᵣ
    (do let m ← (roundR.ifft : Res (MV A7 (ArrayStorage (TClifford.Cx F32)))); m.rev) :=
  C33_rounded_ifft_rev A7_wf (by decide) (by decide)

example : (roundR.flip.ifft : Res (MV A7 (ArrayStorage F64))) ≈ᵣ (do let m ← (roundR.ifft : Res (MV A7 (ArrayStorage F64))); m.flip) :=
  C33_rounded_ifft_flip A7_wf (by decide) (by decide)

/-- The algebra of tests/unit.rs:235. -/
def cl33 : List Sym := [.plus, .minus, .plus, .minus, .plus, .minus]

example : implSplitSignature cl33 = true ∧ ∃ A, declareAlgebra cl33 [] = some A ∧ A.dim < 63 := ⟨by decide, _, rfl, by decide⟩

example {A : ClAlg} (h : declareAlgebra cl33 [] = some A) {a : MV A (ArrayStorage F64)} (ha : a.Valid) :
    Same2 (do let b ← a.flipSubspace A.imagMask; let r ← (b.fft : Res (FFTRepr A (TClifford.Cx F64))); return r.intoArray2.transpose)
      (do let b ← a.rev; let r ← (b.fft : Res (FFTRepr A (TClifford.Cx F64))); return r.intoArray2) :=
  C33_rounded_transpose h (by decide) (by rw [(declareAlgebra_eq h).2.2.1]; decide) ha

end Ex

end TClifford
