import Verif.Proofs.Param
import Verif.Props.SignExact
import Verif.Props.FloatComplex
/-
C99: exact laws of dense multivectors with complex floating point coefficients, rounding included.
-/

set_option linter.unusedSectionVars false

namespace TClifford

open MV FloatModel

/-! ### Expressions -/

section
variable {T : Type} [Zero T] [One T] [Add T] [Sub T] [Neg T] [Mul T] [DecidableEq T]
variable {T' : Type} [Zero T'] [One T'] [Add T'] [Sub T'] [Neg T'] [Mul T'] [DecidableEq T']

theorem GExpr.rel {A : ClAlg} (hd : A.dim ≤ 63) {R : T → T' → Prop} (h : SumRel R) (hm : MulRel R R R) {ρ : Nat → MV A (ArrayStorage T)}
    {ρ' : Nat → MV A (ArrayStorage T')} (hρ : ∀ i, Rel R (ρ i) (ρ' i)) (e : GExpr) : ResRel (Rel R) (e.eval ρ) (e.eval ρ') := by
  have hs := h.toSignRel
  induction e with
  | X i => exact hρ i
  | add e f he hf => exact he.bind fun _ _ hx => hf.bind fun _ _ hy => hx.add h hy
  | sub e f he hf => exact he.bind fun _ _ hx => hf.bind fun _ _ hy => hx.sub h hy
  | mul e f he hf => exact he.bind fun _ _ hx => hf.bind fun _ _ hy => hx.mul hs hs h hm hy
  | wedge e f he hf => exact he.bind fun _ _ hx => hf.bind fun _ _ hy => hx.wedge hd hs hs h hm hy
  | meet e f he hf => exact he.bind fun _ _ hx => hf.bind fun _ _ hy => hx.meet hd hs hs h hm hy
  | neg e he => exact he.bind fun _ _ hx => hx.neg hs
  | rev e he => exact he.bind fun _ _ hx => hx.rev hs
  | flip e he => exact he.bind fun _ _ hx => hx.flip hs
  | flipSubspace m e he => exact he.bind fun _ _ hx => hx.flipSubspace hs m
  | dual e he => exact he.bind fun _ _ hx => hx.dual hs
  | undual e he => exact he.bind fun _ _ hx => hx.undual hs

end

section
variable {F : Type} [Zero F] [One F] [Add F] [Sub F] [Neg F] [Mul F] [Div F] [CoeffLaws F] [SumLaws F] [SignLaws F] [DecidableEq F]
variable {A : ClAlg}

theorem sumInv_trivial : SumInv F (M := Unit) (fun _ => True) (fun _ _ => True) (fun _ _ _ => ()) where
  zero := trivial
  null _ _ := rfl
  plus _ _ _ := trivial
  minus _ _ _ := trivial
  sum _ _ := trivial
  good_negneg _ := SignLaws.neg_neg _
  good_neg _ := trivial
  neg _ _ _ := rfl
  neg' _ _ _ := rfl
  negSum _ _ _ _ _ := trivial
  left _ _ := rfl
  right _ _ := rfl

/-- Expressions never fail, whatever the coefficients. -/
theorem GExpr.total {S : Type} [CoeffStorage S F] [LawfulStorage S F] [WedgeProduct A S] [FloatWedge A S] (hA : A.WF) {ρ : Nat → MV A S}
    (hρ : ∀ i, (ρ i).Valid) (e : GExpr) : ∃ u, e.eval ρ = .ok u ∧ u.Valid := by
  induction e with
  | X i => exact ⟨_, rfl, hρ i⟩
  | add e f he hf =>
    obtain ⟨x, hx, vx⟩ := he; obtain ⟨y, hy, vy⟩ := hf
    obtain ⟨r, h1, h2, -⟩ := add_denotes vx vy
    exact ⟨r, by rw [eval, hx, hy]; exact h1, h2⟩
  | sub e f he hf =>
    obtain ⟨x, hx, vx⟩ := he; obtain ⟨y, hy, vy⟩ := hf
    obtain ⟨r, h1, h2, -⟩ := sub_denotes vx vy
    exact ⟨r, by rw [eval, hx, hy]; exact h1, h2⟩
  | mul e f he hf =>
    obtain ⟨x, hx, vx⟩ := he; obtain ⟨y, hy, vy⟩ := hf
    obtain ⟨r, h1, h2, -⟩ := mul_inv sumInv_trivial hA vx vy (fun _ _ => trivial) (fun _ _ => trivial)
    exact ⟨r, by rw [eval, hx, hy]; exact h1, h2⟩
  | wedge e f he hf =>
    obtain ⟨x, hx, vx⟩ := he; obtain ⟨y, hy, vy⟩ := hf
    obtain ⟨r, h1, h2, -⟩ := FloatWedge.wedge (A := A) sumInv_trivial vx vy (fun _ _ => trivial) (fun _ _ => trivial)
    exact ⟨r, by rw [eval, hx, hy]; exact h1, h2⟩
  | meet e f he hf =>
    obtain ⟨x, hx, vx⟩ := he; obtain ⟨y, hy, vy⟩ := hf
    obtain ⟨r, h1, h2, -⟩ := FloatWedge.meet (A := A) sumInv_trivial hA vx vy (fun _ _ => trivial) (fun _ _ => trivial)
    exact ⟨r, by rw [eval, hx, hy]; exact h1, h2⟩
  | neg e he => obtain ⟨x, hx, vx⟩ := he; obtain ⟨r, h1, h2, -⟩ := neg_fl vx; exact ⟨r, by rw [eval, hx]; exact h1, h2⟩
  | rev e he => obtain ⟨x, hx, vx⟩ := he; obtain ⟨r, h1, h2, -⟩ := rev_fl vx; exact ⟨r, by rw [eval, hx]; exact h1, h2⟩
  | flip e he => obtain ⟨x, hx, vx⟩ := he; obtain ⟨r, h1, h2, -⟩ := flip_fl vx; exact ⟨r, by rw [eval, hx]; exact h1, h2⟩
  | flipSubspace m e he =>
    obtain ⟨x, hx, vx⟩ := he; obtain ⟨r, h1, h2, -⟩ := flipSubspace_fl vx m; exact ⟨r, by rw [eval, hx]; exact h1, h2⟩
  | dual e he => obtain ⟨x, hx, vx⟩ := he; obtain ⟨r, h1, h2, -⟩ := dual_fl hA vx; exact ⟨r, by rw [eval, hx]; exact h1, h2⟩
  | undual e he => obtain ⟨x, hx, vx⟩ := he; obtain ⟨r, h1, h2, -⟩ := undual_fl hA vx; exact ⟨r, by rw [eval, hx]; exact h1, h2⟩

end

section
variable {T : Type} [Zero T] [Add T] [Sub T] [DecidableEq T] [CoeffLaws T]
variable {T' : Type} [Zero T'] [Add T'] [Sub T'] [DecidableEq T'] [CoeffLaws T']
variable {A : ClAlg}

/-- Related multivectors are those whose coefficients are related. -/
theorem MV.Rel.of_val {R : T → T' → Prop} {a : MV A (ArrayStorage T)} {b : MV A (ArrayStorage T')} (ha : a.Valid) (hb : b.Valid)
    (h : ∀ i < 2 ^ A.dim, R (a.val i) (b.val i)) : Rel R a b := by
  have la : a.coeffs.array.len = 2 ^ A.dim := ha.2.2
  have lb : b.coeffs.array.len = 2 ^ A.dim := hb.2.2
  refine ⟨ha.2.1.trans hb.2.1.symm, ?_, la.trans lb.symm, fun i hi => ?_⟩
  · rw [la, ushl_one]; have : A.dim ≤ _ := ha.1; exact Nat.lt_of_le_of_lt this (by decide)
  · rw [la] at hi
    have h := h i hi
    change R (if i < a.coeffs.array.len then _ else _) (if i < b.coeffs.array.len then _ else _) at h
    rwa [if_pos (la.symm ▸ hi), if_pos (lb.symm ▸ hi)] at h

theorem MV.Rel.to_val {R : T → T' → Prop} {a : MV A (ArrayStorage T)} {b : MV A (ArrayStorage T')} (h : Rel R a b) (h0 : R 0 0) (i : Nat) :
    R (a.val i) (b.val i) := by
  change R (if i < a.coeffs.array.len then _ else _) (if i < b.coeffs.array.len then _ else _)
  rw [← h.len]
  split
  · exact h.val i ‹_›
  · exact h0

end

/-- A relation between two computations that succeed. -/
theorem ResRel.ok {α β : Type} {P : α → β → Prop} {x : Res α} {y : Res β} (h : ResRel P x y) {u : α} {v : β} (hx : x = .ok u) (hy : y = .ok v) :
    P u v := by subst hx hy; exact h

/-! ### Real numbers among the complex ones -/

section
variable {f : Fmt}

/-- A complex number that stands for a real one: the same real part, and no imaginary part as long as the number is finite. -/
def RealRel (x : Flt f) (z : Cx (Flt f)) : Prop := z.re = x ∧ (x ≠ .nonFinite → z.im = 0)

theorem Flt.nonFinite_add (x : Flt f) : .nonFinite + x = .nonFinite := by cases x <;> rfl
theorem Flt.add_nonFinite (x : Flt f) : x + .nonFinite = .nonFinite := by cases x <;> rfl
theorem Flt.nonFinite_sub (x : Flt f) : .nonFinite - x = .nonFinite := by cases x <;> rfl
theorem Flt.sub_nonFinite (x : Flt f) : x - .nonFinite = .nonFinite := by cases x <;> rfl
theorem Flt.nonFinite_mul (x : Flt f) : .nonFinite * x = .nonFinite := by cases x <;> rfl
theorem Flt.mul_nonFinite (x : Flt f) : x * .nonFinite = .nonFinite := by cases x <;> rfl
theorem Flt.fin_of_ne {x : Flt f} (h : x ≠ .nonFinite) : fin x := by cases x with | num x => exact Flt.fin_num x | nonFinite => exact absurd rfl h

theorem realRel_sum : SumRel (RealRel (f := f)) where
  zero := ⟨rfl, fun _ => rfl⟩
  nz {x z} h := by
    constructor
    · intro h0
      exact Cx.ext' (h.1.trans h0) (h.2 (by rw [h0, Flt.zero_eq]; simp))
    · rintro rfl; exact h.1.symm
  neg {x z} h := by
    refine ⟨congrArg Neg.neg h.1, fun hx => ?_⟩
    have : z.im = 0 := h.2 (by rintro rfl; exact hx rfl)
    show -z.im = 0
    rw [this, SumLaws.neg_zero]
  add {x z y w} h h' := by
    refine ⟨congrArg₂ (· + ·) h.1 h'.1, fun hx => ?_⟩
    have e1 : z.im = 0 := h.2 (by rintro rfl; exact hx (Flt.nonFinite_add _))
    have e2 : w.im = 0 := h'.2 (by rintro rfl; exact hx (Flt.add_nonFinite _))
    show z.im + w.im = 0
    rw [e1, e2, CoeffLaws.add_zero]
  sub {x z y w} h h' := by
    refine ⟨congrArg₂ (· - ·) h.1 h'.1, fun hx => ?_⟩
    have e1 : z.im = 0 := h.2 (by rintro rfl; exact hx (Flt.nonFinite_sub _))
    have e2 : w.im = 0 := h'.2 (by rintro rfl; exact hx (Flt.sub_nonFinite _))
    show z.im - w.im = 0
    rw [e1, e2, CoeffLaws.sub_zero]

theorem realRel_mul : MulRel (RealRel (f := f)) RealRel RealRel := by
  intro x z y w h h'
  by_cases hx : x = .nonFinite
  · subst hx
    refine ⟨?_, fun hn => absurd (Flt.nonFinite_mul _) hn⟩
    show z.re * w.re - z.im * w.im = _
    rw [h.1, Flt.nonFinite_mul, Flt.nonFinite_sub, Flt.nonFinite_mul]
  by_cases hy : y = .nonFinite
  · subst hy
    refine ⟨?_, fun hn => absurd (Flt.mul_nonFinite _) hn⟩
    show z.re * w.re - z.im * w.im = _
    rw [h'.1, Flt.mul_nonFinite, Flt.nonFinite_sub, Flt.mul_nonFinite]
  have fx := Flt.fin_of_ne hx
  have fy := Flt.fin_of_ne hy
  have f0 : fin (0 : Flt f) := by rw [Flt.zero_eq]; exact Flt.fin_num _
  constructor
  · show z.re * w.re - z.im * w.im = _
    rw [h.1, h'.1, h.2 hx, h'.2 hy, FloatModel.mul_zero f0, CoeffLaws.sub_zero]
  · intro _
    show z.re * w.im + z.im * w.re = 0
    rw [h.1, h'.1, h.2 hx, h'.2 hy, FloatModel.mul_zero fx, FloatModel.zero_mul fy, CoeffLaws.add_zero]

variable {A : ClAlg}

/-- **C99.** Real multivectors stored with `Complex64` (or `Complex32`) coefficients are computed exactly like those with `f64` (`f32`)
coefficients: for every expression, the real parts are the same, including all roundings and overflows, and the imaginary parts are
zero where the result is finite. -/
theorem C99_real (hA : A.WF) {ρ : Nat → MV A (ArrayStorage (Flt f))} {ρ' : Nat → MV A (ArrayStorage (Cx (Flt f)))} (hρ : ∀ i, (ρ i).Valid)
    (hρ' : ∀ i, (ρ' i).Valid) (h : ∀ i, ∀ k < 2 ^ A.dim, (ρ' i).val k = ⟨(ρ i).val k, 0⟩) (e : GExpr) :
    ∃ u v, e.eval ρ = .ok u ∧ e.eval ρ' = .ok v ∧ u.Valid ∧ v.Valid ∧
      ∀ k, (v.val k).re = u.val k ∧ (u.val k ≠ .nonFinite → (v.val k).im = 0) := by
  obtain ⟨u, hu, vu⟩ := e.total hA hρ
  obtain ⟨v, hv, vv⟩ := e.total hA hρ'
  refine ⟨u, v, hu, hv, vu, vv, fun k => ?_⟩
  have hd : A.dim ≤ 63 := (hρ 0).1
  exact ((e.rel hd realRel_sum realRel_mul fun i => Rel.of_val (hρ i) (hρ' i) fun k hk => by
    rw [h i k hk]; exact ⟨rfl, fun _ => rfl⟩).ok hu hv).to_val realRel_sum.zero k

theorem flp_self {T : Type} [Zero T] [Add T] [Sub T] [Neg T] [DecidableEq T] [CoeffLaws T] {a : MV A (ArrayStorage T)} (ha : a.Valid) :
    Flp (fun _ => false) a a := ⟨ha, ha, fun _ _ => rfl⟩

/-- **C99.** The same for powers, `vdot` and `mag2`. -/
theorem C99_real_scalars (hA : A.WF) {a b : MV A (ArrayStorage (Flt f))} {a' b' : MV A (ArrayStorage (Cx (Flt f)))} (ha : a.Valid) (hb : b.Valid)
    (ha' : a'.Valid) (hb' : b'.Valid) (h : ∀ k < 2 ^ A.dim, a'.val k = ⟨a.val k, 0⟩) (h' : ∀ k < 2 ^ A.dim, b'.val k = ⟨b.val k, 0⟩) :
    (∃ x z, a.vdot b = .ok x ∧ a'.vdot b' = .ok z ∧ z.re = x ∧ (x ≠ .nonFinite → z.im = 0)) ∧
    (∃ x z, a.mag2 = .ok x ∧ a'.mag2 = .ok z ∧ z.re = x ∧ (x ≠ .nonFinite → z.im = 0)) ∧
    ∀ n, ∃ u v, a.pow n = .ok u ∧ a'.pow n = .ok v ∧ u.Valid ∧ v.Valid ∧
      ∀ k, (v.val k).re = u.val k ∧ (u.val k ≠ .nonFinite → (v.val k).im = 0) := by
  have ra : Rel RealRel a a' := Rel.of_val ha ha' fun k hk => by rw [h k hk]; exact ⟨rfl, fun _ => rfl⟩
  have rb : Rel RealRel b b' := Rel.of_val hb hb' fun k hk => by rw [h' k hk]; exact ⟨rfl, fun _ => rfl⟩
  have hs := realRel_sum (f := f)
  refine ⟨?_, ?_, fun n => ?_⟩
  · obtain ⟨x, hx, -⟩ := Flp.vdot hA (flp_self ha) (flp_self hb)
    obtain ⟨z, hz, -⟩ := Flp.vdot hA (flp_self ha') (flp_self hb')
    exact ⟨x, z, hx, hz, (ra.vdot hs.toSignRel hs.zero hs realRel_mul rb).ok hx hz⟩
  · obtain ⟨x, hx, -⟩ := Flp.mag2 hA (flp_self ha)
    obtain ⟨z, hz, -⟩ := Flp.mag2 hA (flp_self ha')
    exact ⟨x, z, hx, hz, (ra.mag2 hs.toSignRel hs realRel_mul).ok hx hz⟩
  · obtain ⟨x, _, hx, -, fx⟩ := Flp.pow hA (fun _ _ => rfl) (flp_self ha) n
    obtain ⟨z, _, hz, -, fz⟩ := Flp.pow hA (fun _ _ => rfl) (flp_self ha') n
    exact ⟨x, z, hx, hz, fx.1, fz.1, fun k => ((ra.pow hs ⟨rfl, fun _ => rfl⟩ realRel_mul n).ok hx hz).to_val hs.zero k⟩

/-! ### Conjugates -/

theorem conj_mul (x y : Cx (Flt f)) : (⟨x.re, -x.im⟩ : Cx (Flt f)) * ⟨y.re, -y.im⟩ = ⟨(x * y).re, -(x * y).im⟩ := by
  apply Cx.ext'
  · show x.re * y.re - -x.im * -y.im = x.re * y.re - x.im * y.im
    rw [SignMul.neg_mul, SignMul.mul_neg, SignLaws.neg_neg]
  · show x.re * -y.im + -x.im * y.re = -(x.re * y.im + x.im * y.re)
    rw [SignMul.neg_mul, SignMul.mul_neg, SignLaws.neg_add]

theorem conjRel_sum : SumRel (fun x z : Cx (Flt f) => z = ⟨x.re, -x.im⟩) where
  zero := Cx.ext' rfl (SumLaws.neg_zero (F := Flt f)).symm
  nz {x z} h := by
    subst h
    constructor
    · rintro rfl; exact Cx.ext' rfl (SumLaws.neg_zero (F := Flt f))
    · intro h
      refine Cx.ext' (show x.re = 0 from congrArg Cx.re h) ?_
      have : -x.im = 0 := congrArg Cx.im h
      rw [← SignLaws.neg_neg x.im, this]; exact SumLaws.neg_zero
  neg {x z} h := by subst h; rfl
  add {x z y w} h h' := by subst h h'; exact Cx.ext' rfl (SignLaws.neg_add _ _).symm
  sub {x z y w} h h' := by subst h h'; exact Cx.ext' rfl (SignLaws.neg_sub _ _).symm

/-- **C99.** Complex conjugation of all coefficients commutes exactly with every expression, whatever the roundings, overflows and
NaNs. -/
theorem C99_conj (hA : A.WF) {ρ ρ' : Nat → MV A (ArrayStorage (Cx (Flt f)))} (hρ : ∀ i, (ρ i).Valid)
    (hρ' : ∀ i, (ρ' i).Valid) (h : ∀ i, ∀ k < 2 ^ A.dim, (ρ' i).val k = ⟨((ρ i).val k).re, -((ρ i).val k).im⟩) (e : GExpr) :
    ∃ u v, e.eval ρ = .ok u ∧ e.eval ρ' = .ok v ∧ u.Valid ∧ v.Valid ∧ ∀ k, v.val k = ⟨(u.val k).re, -(u.val k).im⟩ := by
  obtain ⟨u, hu, vu⟩ := e.total hA hρ
  obtain ⟨v, hv, vv⟩ := e.total hA hρ'
  refine ⟨u, v, hu, hv, vu, vv, fun k => ?_⟩
  have hd : A.dim ≤ 63 := (hρ 0).1
  exact ((e.rel hd conjRel_sum (fun {x x' y y'} hx hy => by subst hx hy; exact conj_mul x y) fun i =>
    Rel.of_val (hρ i) (hρ' i) fun k hk => h i k hk).ok hu hv).to_val conjRel_sum.zero k

/-! ### Multiplication with the imaginary unit -/

theorem iRel_sum : SumRel (fun x z : Cx (Flt f) => z = ⟨-x.im, x.re⟩) where
  zero := Cx.ext' (SumLaws.neg_zero (F := Flt f)).symm rfl
  nz {x z} h := by
    subst h
    constructor
    · rintro rfl; exact Cx.ext' (SumLaws.neg_zero (F := Flt f)) rfl
    · intro h
      refine Cx.ext' (show x.re = 0 from congrArg Cx.im h) ?_
      have : -x.im = 0 := congrArg Cx.re h
      rw [← SignLaws.neg_neg x.im, this]; exact SumLaws.neg_zero
  neg {x z} h := by subst h; rfl
  add {x z y w} h h' := by subst h h'; exact Cx.ext' (SignLaws.neg_add _ _).symm rfl
  sub {x z y w} h h' := by subst h h'; exact Cx.ext' (SignLaws.neg_sub _ _).symm rfl

theorem i_mul (x y : Cx (Flt f)) : (⟨-x.im, x.re⟩ : Cx (Flt f)) * y = ⟨-(x * y).im, (x * y).re⟩ := by
  apply Cx.ext'
  · show -x.im * y.re - x.re * y.im = -(x.re * y.im + x.im * y.re)
    rw [SignMul.neg_mul, SignLaws.neg_add, SignLaws.add_comm, SignLaws.add_neg]
  · show -x.im * y.im + x.re * y.re = x.re * y.re - x.im * y.im
    rw [SignMul.neg_mul, SignLaws.add_comm, SignLaws.add_neg]

theorem mul_i (x y : Cx (Flt f)) : x * (⟨-y.im, y.re⟩ : Cx (Flt f)) = ⟨-(x * y).im, (x * y).re⟩ := by
  apply Cx.ext'
  · show x.re * -y.im - x.im * y.re = -(x.re * y.im + x.im * y.re)
    rw [SignMul.mul_neg, SignLaws.neg_add, SignLaws.add_neg]
  · show x.re * y.re + x.im * -y.im = x.re * y.re - x.im * y.im
    rw [SignMul.mul_neg, SignLaws.add_neg]

theorem eq_sum {T : Type} [Zero T] [Add T] [Sub T] [Neg T] : SumRel (Eq : T → T → Prop) where
  zero := rfl
  nz h := by rw [h]
  neg h := by rw [h]
  add h h' := by rw [h, h']
  sub h h' := by rw [h, h']

/-- **C99.** Geometric product, wedge and meet are exactly linear over the imaginary unit: multiplying one of the factors by `i`
multiplies the result by `i`, with no difference in any rounding; `a'` is `i a`, `b'` is `i b`. -/
theorem C99_imaginary (hA : A.WF) {a b a' b' : MV A (ArrayStorage (Cx (Flt f)))} (ha : a.Valid) (hb : b.Valid) (ha' : a'.Valid) (hb' : b'.Valid)
    (h : ∀ k < 2 ^ A.dim, a'.val k = ⟨-(a.val k).im, (a.val k).re⟩) (h' : ∀ k < 2 ^ A.dim, b'.val k = ⟨-(b.val k).im, (b.val k).re⟩) :
    (∃ p l r, a.naiveMulImpl b = .ok p ∧ a'.naiveMulImpl b = .ok l ∧ a.naiveMulImpl b' = .ok r ∧
      ∀ k, l.val k = ⟨-(p.val k).im, (p.val k).re⟩ ∧ r.val k = ⟨-(p.val k).im, (p.val k).re⟩) ∧
    (∃ p l r, a.wedge b = .ok p ∧ a'.wedge b = .ok l ∧ a.wedge b' = .ok r ∧
      ∀ k, l.val k = ⟨-(p.val k).im, (p.val k).re⟩ ∧ r.val k = ⟨-(p.val k).im, (p.val k).re⟩) ∧
    (∃ p l r, a.meet b = .ok p ∧ a'.meet b = .ok l ∧ a.meet b' = .ok r ∧
      ∀ k, l.val k = ⟨-(p.val k).im, (p.val k).re⟩ ∧ r.val k = ⟨-(p.val k).im, (p.val k).re⟩) := by
  have hd : A.dim ≤ 63 := ha.1
  have ra : Rel (fun x z : Cx (Flt f) => z = ⟨-x.im, x.re⟩) a a' := Rel.of_val ha ha' h
  have rb : Rel (fun x z : Cx (Flt f) => z = ⟨-x.im, x.re⟩) b b' := Rel.of_val hb hb' h'
  have ea : Rel Eq a a := Rel.of_val ha ha fun _ _ => rfl
  have eb : Rel Eq b b := Rel.of_val hb hb fun _ _ => rfl
  have hi := iRel_sum (f := f)
  have he := (eq_sum (T := Cx (Flt f))).toSignRel
  have ml : MulRel (fun x z : Cx (Flt f) => z = ⟨-x.im, x.re⟩) Eq (fun x z => z = ⟨-x.im, x.re⟩) := fun {x x' y y'} hx hy => by
    subst hx hy; exact i_mul x y
  have mr : MulRel Eq (fun x z : Cx (Flt f) => z = ⟨-x.im, x.re⟩) (fun x z => z = ⟨-x.im, x.re⟩) := fun {x x' y y'} hx hy => by
    subst hx hy; exact mul_i x y
  have tot : ∀ (x y : MV A (ArrayStorage (Cx (Flt f)))), x.Valid → y.Valid →
      (∃ p, x.naiveMulImpl y = .ok p) ∧ (∃ p, x.wedge y = .ok p) ∧ ∃ p, x.meet y = .ok p := fun x y hx hy => by
    obtain ⟨p, h1, -⟩ := mul_inv sumInv_trivial hA hx hy (fun _ _ => trivial) (fun _ _ => trivial)
    obtain ⟨q, h2, -⟩ := FloatWedge.wedge (A := A) sumInv_trivial hx hy (fun _ _ => trivial) (fun _ _ => trivial)
    obtain ⟨r, h3, -⟩ := FloatWedge.meet (A := A) sumInv_trivial hA hx hy (fun _ _ => trivial) (fun _ _ => trivial)
    exact ⟨⟨p, h1⟩, ⟨q, h2⟩, ⟨r, h3⟩⟩
  obtain ⟨⟨p1, e1⟩, ⟨p2, e2⟩, ⟨p3, e3⟩⟩ := tot a b ha hb
  obtain ⟨⟨l1, f1⟩, ⟨l2, f2⟩, ⟨l3, f3⟩⟩ := tot a' b ha' hb
  obtain ⟨⟨r1, g1⟩, ⟨r2, g2⟩, ⟨r3, g3⟩⟩ := tot a b' ha hb'
  exact ⟨⟨p1, l1, r1, e1, f1, g1, fun k =>
      ⟨((ra.mul hi.toSignRel he hi ml eb).ok e1 f1).to_val hi.zero k, ((ea.mul he hi.toSignRel hi mr rb).ok e1 g1).to_val hi.zero k⟩⟩,
    ⟨p2, l2, r2, e2, f2, g2, fun k =>
      ⟨((ra.wedge hd hi.toSignRel he hi ml eb).ok e2 f2).to_val hi.zero k, ((ea.wedge hd he hi.toSignRel hi mr rb).ok e2 g2).to_val hi.zero k⟩⟩,
    ⟨p3, l3, r3, e3, f3, g3, fun k =>
      ⟨((ra.meet hd hi.toSignRel he hi ml eb).ok e3 f3).to_val hi.zero k, ((ea.meet hd he hi.toSignRel hi mr rb).ok e3 g3).to_val hi.zero k⟩⟩⟩

end

/-! ### Examples -/

namespace Ex

theorem paramF_valid (x : Nat → F64) : (⟨⟨3, ⟨8, x⟩⟩⟩ : MV E (ArrayStorage F64)).Valid := ⟨by decide, rfl, rfl⟩
theorem paramC_valid (x : Nat → TClifford.Cx F64) : (⟨⟨3, ⟨8, x⟩⟩⟩ : MV E (ArrayStorage (TClifford.Cx F64))).Valid := ⟨by decide, rfl, rfl⟩

theorem paramF_val (x : Nat → F64) {k : Nat} (hk : k < 2 ^ E.dim) : (⟨⟨3, ⟨8, x⟩⟩⟩ : MV E (ArrayStorage F64)).val k = x k := if_pos hk
theorem paramC_val (x : Nat → TClifford.Cx F64) {k : Nat} (hk : k < 2 ^ E.dim) :
    (⟨⟨3, ⟨8, x⟩⟩⟩ : MV E (ArrayStorage (TClifford.Cx F64))).val k = x k := if_pos hk

/-- `x0 * x1 * ~x0 - (x0 ∧ dual x1) ∨ x2` with coefficients that need rounding -/
example := C99_real (f := Fmt.f64) E_wf (ρ := fun i => ⟨⟨3, ⟨8, fun k => xF (k + i)⟩⟩⟩) (ρ' := fun i => ⟨⟨3, ⟨8, fun k => ⟨xF (k + i), 0⟩⟩⟩⟩)
  (fun _ => paramF_valid _) (fun _ => paramC_valid _) (fun i k hk => by
    show (⟨⟨3, ⟨8, _⟩⟩⟩ : MV E (ArrayStorage (TClifford.Cx F64))).val k = _
    rw [paramC_val _ hk, paramF_val _ hk]) exprS

example := C99_real_scalars (f := Fmt.f64) E_wf (paramF_valid xF) (paramF_valid (fun k => xF (k + 1))) (paramC_valid fun k => ⟨xF k, 0⟩)
  (paramC_valid fun k => ⟨xF (k + 1), 0⟩) (fun k hk => by rw [paramC_val _ hk, paramF_val _ hk]) (fun k hk => by rw [paramC_val _ hk, paramF_val _ hk])

example := C99_conj (f := Fmt.f64) E_wf (ρ := fun i => ⟨⟨3, ⟨8, fun k => xFC (k + i)⟩⟩⟩)
  (ρ' := fun i => ⟨⟨3, ⟨8, fun k => ⟨(xFC (k + i)).re, -(xFC (k + i)).im⟩⟩⟩⟩)
  (fun _ => paramC_valid _) (fun _ => paramC_valid _) (fun i k hk => by
    show (⟨⟨3, ⟨8, _⟩⟩⟩ : MV E (ArrayStorage (TClifford.Cx F64))).val k = _
    rw [paramC_val _ hk, paramC_val _ hk]) exprS

example := C99_imaginary (f := Fmt.f64) E_wf (paramC_valid xFC) (paramC_valid fun k => xFC (k + 1)) (paramC_valid fun k => ⟨-(xFC k).im, (xFC k).re⟩)
  (paramC_valid fun k => ⟨-(xFC (k + 1)).im, (xFC (k + 1)).re⟩) (fun k hk => by rw [paramC_val _ hk, paramC_val _ hk])
  (fun k hk => by rw [paramC_val _ hk, paramC_val _ hk])

end Ex

end TClifford
