import Verif.Props.SignExp
/-
C31, C33, C40: arrays that are not the transform of any multivector (there are such arrays if the number of non-null generators is odd) still form a ring
with a reverse and a grade involution.
-/

set_option linter.unusedSectionVars false

namespace TClifford

section
variable {A : ClAlg} {K : Type} [Field K] [DecidableEq K] [ImagUnit K]

instance fieldSignLaws : SignLaws K where
  neg_neg := neg_neg
  neg_add x y := by ring
  neg_sub x y := by ring
  add_neg x y := by ring
  sub_neg x y := by ring
  add_comm := add_comm

instance fieldSumLaws : SumLaws K := ⟨neg_zero, zero_add⟩

instance fieldSignMul : SignMul K where
  neg_mul := neg_mul
  mul_neg := mul_neg
  neg_div x y := neg_div y x

/-- The array represents coefficients of the algebra with a further generator if the number of non-null generators is odd. -/
def Full (r : FFTRepr A K) (f : Nat → K) : Prop :=
  r.arr.Is A.projDim A.half ∧ WEq A.projDim A.half r.arr.get (FL A.half (2 * A.half) f)

/-- The squares of the generators of that algebra. -/
def fullSig (A : ClAlg) : Nat → ℤ := fun i => if i < 2 * A.half then 1 else 0

/-- The product of that algebra. -/
def fullMul (A : ClAlg) (f g : Nat → K) : Nat → K := geo (fullSig A) (2 * A.half + A.projDim) f g

theorem full_of (h2 : (2 : K) ≠ 0) {r : FFTRepr A K}
    (hr : r.arr.dims = (2 ^ A.projDim, 2 ^ ((A.realDim + A.imagDim + 1) / 2), 2 ^ ((A.realDim + A.imagDim + 1) / 2))) : ∃ f, Full r f := by
  have hI : r.arr.Is A.projDim A.half := by
    unfold Arr3.dims at hr
    simp only [Prod.mk.injEq] at hr
    exact hr
  exact ⟨_, hI, (FL_unfl h2 A.half A.projDim r.arr.get).symm⟩

theorem Full.congr {r : FFTRepr A K} {f g : Nat → K} (h : Full r f) (e : ∀ k < 2 ^ (2 * A.half + A.projDim), f k = g k) : Full r g :=
  ⟨h.1, h.2.trans fun w hw => by rw [FL_congr e hw]; exact MEq.rfl' _⟩

theorem Full.mul (hA : A.WF) {r s : FFTRepr A K} {f g : Nat → K} (hr : Full r f) (hs : Full s g) :
    ∃ t, r.mul s = .ok t ∧ Full t (fullMul A f g) := by
  obtain ⟨t, h1, h2, h3⟩ := wmul_spec hr.1 hs.1
  refine ⟨⟨t⟩, by unfold FFTRepr.mul; rw [h1]; rfl, h2, h3.trans ((W_congr hr.2 hs.2).trans ?_)⟩
  refine W_FL (half_le hA) le_rfl A.projDim (fullSig A) (fun i hi => if_pos hi) (fun i hi _ => if_neg (by omega)) f g

theorem Full.zip {r s : FFTRepr A K} {f g : Nat → K} (hr : Full r f) (hs : Full s g) (op : K → K → K)
    (hop : ∀ w, FL A.half (2 * A.half) (fun k => op (f k) (g k)) w = fun i j => op (FL A.half (2 * A.half) f w i j) (FL A.half (2 * A.half) g w i j)) :
    ∃ t, Arr3.zip op r.arr s.arr = .ok t ∧ Full (A := A) ⟨t⟩ (fun k => op (f k) (g k)) := by
  obtain ⟨⟨a0, a1, a2⟩, hr⟩ := hr
  obtain ⟨⟨c0, c1, c2⟩, hs⟩ := hs
  unfold Arr3.zip
  rw [if_pos (by unfold Arr3.dims; rw [a0, a1, a2, c0, c1, c2])]
  refine ⟨_, rfl, ⟨a0, a1, a2⟩, fun w hw i hi j hj => ?_⟩
  show op (r.arr.get w i j) (s.arr.get w i j) = _
  rw [hr w hw i hi j hj, hs w hw i hi j hj, hop]

theorem Full.add {r s : FFTRepr A K} {f g : Nat → K} (hr : Full r f) (hs : Full s g) :
    ∃ t, r.add s = .ok t ∧ Full t (fun k => f k + g k) := by
  obtain ⟨t, e, h⟩ := hr.zip hs (· + ·) fun w => FL_add _ _ _ _ _
  exact ⟨⟨t⟩, by unfold FFTRepr.add; rw [e]; rfl, h⟩

theorem Full.one (hA : A.WF) (hd : A.dim < 63) : Full (FFTRepr.one : FFTRepr A K) (single 0 1) := by
  obtain ⟨h1, h2⟩ := one_represents (K := K) hA hd
  refine ⟨h1, fun w hw => ?_⟩
  refine (h2 w hw).trans ?_
  unfold FL
  have e : ∀ p, lay p (single 0 (1 : K)) w = if w = 0 then single 0 1 else 0 := by
    intro p
    funext r
    split
    · rename_i h; subst h; rw [lay_zero]
    · rename_i h
      have : r + w * 2 ^ p ≠ 0 := by
        have := Nat.mul_pos (Nat.pos_of_ne_zero h) (Nat.two_pow_pos p)
        omega
      show single 0 (1 : K) (r + w * 2 ^ p) = 0
      unfold single
      rw [if_neg this]
  rw [e, e]
  split
  · exact (ctr_one _ _).trans (ctr_one _ _).symm
  · rw [ctr_zero, ctr_zero]; exact MEq.rfl' _

theorem Full.same {r s : FFTRepr A K} {f g : Nat → K} (hr : Full r f) (hs : Full s g) (e : ∀ k < 2 ^ (2 * A.half + A.projDim), f k = g k) :
    Same3 (.ok r.intoArray3) (.ok s.intoArray3) :=
  ⟨_, _, rfl, rfl, same3_of hr.1 hs.1 (hr.congr e).2 hs.2⟩

theorem Full.rev (hA : A.WF) (hd : A.dim < 63) {r : FFTRepr A K} {f : Nat → K} (hr : Full r f) :
    ∃ t, r.rev = .ok t ∧ Full t (fun k => rsg (2 * A.half + A.projDim) k • f k) := by
  obtain ⟨t, e1, t1, t2⟩ := rev_ops hA hd hr.1
  refine ⟨t, e1, t1, fun w hw => (t2 w hw).trans ?_⟩
  have h1 : MEq (2 ^ A.half) (2 ^ A.half) (r.arr.get w) (FLO A.half (2 * A.half) f w) :=
    (hr.2 w hw).trans (FLO_eq _ _ A.projDim _ w hw).symm
  refine (revO_congr _ _ h1).trans ((FLO_rev neg_zero le_rfl A.projDim f w).symm.trans ?_)
  have e : (fun k => ng (rb (2 * A.half + A.projDim) k) (f k)) = fun k => rsg (2 * A.half + A.projDim) k • f k := by
    funext k
    rw [← sg_rb]
    cases rb (2 * A.half + A.projDim) k
    · exact (one_smul ℤ _).symm
    · show -f k = (-1 : ℤ) • f k
      rw [neg_smul, one_smul]
  rw [e]
  exact FLO_eq _ _ A.projDim _ w hw

/-- **C31.** The representations form a ring, whether they are transforms of multivectors or not: for all arrays of the right shape multiplication is associative and
distributes over addition, and `one()` is neutral. -/
theorem C31_array_ring (h2 : (2 : K) ≠ 0) (hA : A.WF) (hd : A.dim < 63) {r s t : FFTRepr A K}
    (hr : r.arr.dims = (2 ^ A.projDim, 2 ^ ((A.realDim + A.imagDim + 1) / 2), 2 ^ ((A.realDim + A.imagDim + 1) / 2)))
    (hs : s.arr.dims = (2 ^ A.projDim, 2 ^ ((A.realDim + A.imagDim + 1) / 2), 2 ^ ((A.realDim + A.imagDim + 1) / 2)))
    (ht : t.arr.dims = (2 ^ A.projDim, 2 ^ ((A.realDim + A.imagDim + 1) / 2), 2 ^ ((A.realDim + A.imagDim + 1) / 2))) :
    Same3 (do let p ← r.mul s; let q ← p.mul t; return q.intoArray3) (do let p ← s.mul t; let q ← r.mul p; return q.intoArray3) ∧
    Same3 (do let p ← s.add t; let q ← r.mul p; return q.intoArray3)
      (do let p ← r.mul s; let p' ← r.mul t; let q ← p.add p'; return q.intoArray3) ∧
    Same3 (do let p ← r.add s; let q ← p.mul t; return q.intoArray3)
      (do let p ← r.mul t; let p' ← s.mul t; let q ← p.add p'; return q.intoArray3) ∧
    Same3 (do let p ← (FFTRepr.one : FFTRepr A K).mul r; return p.intoArray3) (.ok r.intoArray3) ∧
    Same3 (do let p ← r.mul FFTRepr.one; return p.intoArray3) (.ok r.intoArray3) := by
  obtain ⟨f, fr⟩ := full_of h2 hr
  obtain ⟨g, fs⟩ := full_of h2 hs
  obtain ⟨h, ft⟩ := full_of h2 ht
  refine ⟨?_, ?_, ?_, ?_, ?_⟩
  · obtain ⟨p, e1, h1⟩ := fr.mul hA fs
    obtain ⟨q, e2, h2⟩ := h1.mul hA ft
    obtain ⟨p', e3, h3⟩ := fs.mul hA ft
    obtain ⟨q', e4, h4⟩ := fr.mul hA h3
    simp only [bind, Except.bind, e1, e2, e3, e4]
    exact h2.same h4 fun k _ => geo_assoc _ _ _ _ _ _
  · obtain ⟨p, e1, h1⟩ := fs.add ft
    obtain ⟨q, e2, h2⟩ := fr.mul hA h1
    obtain ⟨p', e3, h3⟩ := fr.mul hA fs
    obtain ⟨q', e4, h4⟩ := fr.mul hA ft
    obtain ⟨u, e5, h5⟩ := h3.add h4
    simp only [bind, Except.bind, e1, e2, e3, e4, e5]
    exact h2.same h5 fun k _ => geo_add_right _ _ _ _ _ _
  · obtain ⟨p, e1, h1⟩ := fr.add fs
    obtain ⟨q, e2, h2⟩ := h1.mul hA ft
    obtain ⟨p', e3, h3⟩ := fr.mul hA ft
    obtain ⟨q', e4, h4⟩ := fs.mul hA ft
    obtain ⟨u, e5, h5⟩ := h3.add h4
    simp only [bind, Except.bind, e1, e2, e3, e4, e5]
    exact h2.same h5 fun k _ => geo_add_left _ _ _ _ _ _
  · obtain ⟨p, e1, h1⟩ := (Full.one hA hd).mul hA fr
    rw [e1]
    exact h1.same fr fun k _ => geo_one_left _ _ _ _
  · obtain ⟨p, e1, h1⟩ := fr.mul hA (Full.one hA hd)
    rw [e1]
    exact h1.same fr fun k hk => geo_one_right _ _ _ hk

/-- **C33.** For all arrays of the right shape `(r * s).rev() == s.rev() * r.rev()`. -/
theorem C33_array_rev (h2 : (2 : K) ≠ 0) (hA : A.WF) (hd : A.dim < 63) {r s : FFTRepr A K}
    (hr : r.arr.dims = (2 ^ A.projDim, 2 ^ ((A.realDim + A.imagDim + 1) / 2), 2 ^ ((A.realDim + A.imagDim + 1) / 2)))
    (hs : s.arr.dims = (2 ^ A.projDim, 2 ^ ((A.realDim + A.imagDim + 1) / 2), 2 ^ ((A.realDim + A.imagDim + 1) / 2))) :
    Same3 (do let p ← r.mul s; let q ← p.rev; return q.intoArray3)
      (do let x ← s.rev; let y ← r.rev; let q ← x.mul y; return q.intoArray3) := by
  obtain ⟨f, fr⟩ := full_of h2 hr
  obtain ⟨g, fs⟩ := full_of h2 hs
  obtain ⟨p, e1, h1⟩ := fr.mul hA fs
  obtain ⟨q, e2, h2⟩ := h1.rev hA hd
  obtain ⟨x, e3, h3⟩ := fs.rev hA hd
  obtain ⟨y, e4, h4⟩ := fr.rev hA hd
  obtain ⟨z, e5, h5⟩ := h3.mul hA h4
  simp only [bind, Except.bind, e1, e2, e3, e4, e5]
  exact h2.same h5 fun k hk => geo_rev _ _ _ _ hk

end

/-! ### Examples for C31 and C33 -/

namespace Ex

/-- An array in `P1` over the field with five elements that is not a transform. -/
def ar5 (a b c d : ZMod 5) : FFTRepr P1 (ZMod 5) := ⟨⟨1, 2, 2, fun _ i j => if i = 0 then (if j = 0 then a else b) else (if j = 0 then c else d)⟩⟩

end Ex

example : Same3 (do let p ← (Ex.ar5 1 0 0 4).mul (Ex.ar5 2 1 3 0); let q ← p.mul (Ex.ar5 1 1 0 3); return q.intoArray3)
    (do let p ← (Ex.ar5 2 1 3 0).mul (Ex.ar5 1 1 0 3); let q ← (Ex.ar5 1 0 0 4).mul p; return q.intoArray3) :=
  (C31_array_ring (by decide) Ex.P1_wf (by decide) (by decide) (by decide) (by decide)).1

example : Same3 (do let p ← (Ex.ar5 1 0 0 4).mul (Ex.ar5 2 1 3 0); let q ← p.rev; return q.intoArray3)
    (do let x ← (Ex.ar5 2 1 3 0).rev; let y ← (Ex.ar5 1 0 0 4).rev; let q ← x.mul y; return q.intoArray3) :=
  C33_array_rev (by decide) Ex.P1_wf (by decide) (by decide) (by decide)

/-- The product of two of these arrays, and its reverse. -/
example : (do let p ← (Ex.ar5 1 0 0 4).mul (Ex.ar5 2 1 3 0); let q ← p.rev; return (p.arr.get 0 0 1, p.arr.get 0 1 0, q.arr.get 0 0 0, q.arr.get 0 0 1, q.arr.get 0 1 0, q.arr.get 0 1 1)) =
    (.ok (1, 2, 0, 1, 2, 2) : Res _) := by decide +kernel

/-! ### Not every array is a transform -/

namespace Ex

/-- The diagonal matrix with entries `1` and `-1`, as a representation in `P1` with `Complex64` entries. -/
def dg1 : FFTRepr P1 (TClifford.Cx F64) := ⟨⟨1, 2, 2, fun _ i j => if i = j then (if i = 0 then 1 else -1) else 0⟩⟩

end Ex

/-- **C40** (finding). With an odd number of non-null generators an accepted array need not be the transform of its `ifft()`, and `ifft()` does not take products of
arrays to products: in the algebra with the single generator `[+]` the array `r = [[[1, 0], [0, -1]]]` is accepted and `r.ifft()` is zero, but `(r * r).ifft()` is one. -/
theorem C40_odd_false : ∃ r : FFTRepr Ex.P1 (Cx F64),
    FFTRepr.fromArray3 r.arr = .ok r ∧
    (do let m ← (r.ifft : Res (MV Ex.P1 (ArrayStorage (Cx F64)))); return (m.coeffs.array.get 0, m.coeffs.array.get 1)) = .ok (0, 0) ∧
    (do let q ← r.mul r; let m ← (q.ifft : Res (MV Ex.P1 (ArrayStorage (Cx F64)))); return (m.coeffs.array.get 0, m.coeffs.array.get 1)) = .ok (1, 0) ∧
    (do let m ← (r.ifft : Res (MV Ex.P1 (ArrayStorage (Cx F64)))); let r' ← (m.fft : Res (FFTRepr Ex.P1 (Cx F64)));
        return (r'.arr.get 0 0 0, r.arr.get 0 0 0)) = .ok (0, 1) := by
  refine ⟨Ex.dg1, rfl, ?_, ?_, ?_⟩
  all_goals decide +kernel

end TClifford
