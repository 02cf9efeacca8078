import Verif.Props.ClifftFloat
import Verif.Props.FloatComplex
import Verif.Props.FFTFloat
import Verif.Props.FFTMore
import Verif.Model.FFTExpF
/-
The relations of the generators in the transformed domain, computed with floating point numbers: they hold exactly, for
every signature (C58, C78, C87: `fft_repr_test`, tests/unit.rs:100-145).
-/

set_option linter.unusedSectionVars false

namespace TClifford

open MV Finset FloatModel

section
variable {F : Type} [Zero F] [One F] [Add F] [Sub F] [Neg F] [Mul F] [Div F] [FloatModel F] [FloatSigns F] [DecidableEq F]
variable {A : ClAlg}

theorem arr3_beq_of {K : Type} [DecidableEq K] {a b : Arr3 K} (h0 : a.d0 = b.d0) (h1 : a.d1 = b.d1) (h2 : a.d2 = b.d2)
    (h : ∀ k < a.d0, ∀ i < a.d1, ∀ j < a.d2, a.get k i j = b.get k i j) : a.beq b = true := by
  unfold Arr3.beq
  simp only [Bool.and_eq_true, beq_iff_eq, List.all_eq_true, List.mem_range, decide_eq_true_eq, and_assoc]
  exact ⟨h0, h1, h2, h⟩

/-- Two computed representations of the same integers are equal. -/
theorem CxRel.Rep.beq (h4 : 4 ≤ M F) {l l' : Nat} {r s : FFTRepr A (Cx F)} {f g : Nat → ℂ} {b c : ℝ} (hA : A.WF)
    (hr : (Cx.exactRel h4).Rep A l r f b) (hs : (Cx.exactRel h4).Rep A l' s g c) (h : ∀ k < 2 ^ A.dim, f k = g k) :
    r.beq s = true := by
  have hs := hs.congr hA h
  refine arr3_beq_of (hr.1.1.trans hs.1.1.symm) (hr.1.2.1.trans hs.1.2.1.symm) (hr.1.2.2.trans hs.1.2.2.symm) fun k hk i hi j hj => ?_
  rw [hr.1.1] at hk
  rw [hr.1.2.1] at hi
  rw [hr.1.2.2] at hj
  obtain ⟨a1, a2, -⟩ := hr.entry_le hk hi hj
  obtain ⟨b1, b2, -⟩ := hs.entry_le hk hi hj
  exact cx_inj a1 b1 (a2.trans b2.symm)

theorem gint_int (m : ℤ) : Cx.GInt (m : ℂ) := ⟨⟨m, by simp⟩, 0, by simp⟩

theorem cx_one_val : (1 : Cx F).val = 1 := Complex.ext re_one re_zero
theorem cx_one_Fin : (1 : Cx F).Fin := ⟨fin_one, fin_zero⟩

theorem CxRel.Rep.one (h4 : 4 ≤ M F) (hA : A.WF) (hd : A.dim < 63) :
    (Cx.exactRel h4).Rep A 0 (FFTRepr.one : FFTRepr A (Cx F)) (single 0 1) 1 := by
  have h := one_represents (K := ℂ) hA hd
  refine ⟨⟨wcount_eq hA hd, matrixSide_eq hA hd, matrixSide_eq hA hd⟩, fun w => if w = 0 then 1 else 0, ?_, ?_⟩
  · rw [sum_ite_eq' (range _) 0]; split <;> simp
  · intro w hw
    refine ⟨fun i j => if w = 0 ∧ i = j then 1 else 0, fun i hi j hj => ?_, fun i hi => ?_, fun j hj => ?_⟩
    · rw [← h.2 w hw i hi j hj]
      show Cx.Fin (if w = 0 ∧ i = j then 1 else 0) ∧ Cx.val (if w = 0 ∧ i = j then 1 else 0) = (if w = 0 ∧ i = j then 1 else 0) ∧
        Cx.GInt (if w = 0 ∧ i = j then 1 else 0) ∧ Cx.n1 (if w = 0 ∧ i = j then 1 else 0) ≤ (if w = 0 ∧ i = j then 1 else 0)
      split
      · exact ⟨cx_one_Fin, cx_one_val, by exact_mod_cast gint_int 1, by rw [Cx.n1_one]⟩
      · exact (Cx.exactRel h4).zero
    · by_cases h0 : w = 0
      · simp [h0, hi]
      · simp [h0]
    · by_cases h0 : w = 0
      · simp [h0, hj]
      · simp [h0]

theorem CxRel.Rep.zero (h4 : 4 ≤ M F) (hA : A.WF) (hd : A.dim < 63) :
    (Cx.exactRel h4).Rep A 0 (FFTRepr.zero : FFTRepr A (Cx F)) (fun _ => 0) 0 := by
  have h := zero_represents (K := ℂ) hA hd
  refine ⟨⟨wcount_eq hA hd, matrixSide_eq hA hd, matrixSide_eq hA hd⟩, fun _ => 0, by simp, fun w hw => ?_⟩
  refine ⟨fun _ _ => 0, fun i hi j hj => ?_, fun i hi => by simp, fun j hj => by simp⟩
  rw [← h.2 w hw i hi j hj]
  exact (Cx.exactRel h4).zero

/-- `one() * σ` for the square `σ` of a generator. -/
theorem CxRel.Rep.square (h4 : 4 ≤ M F) (hA : A.WF) (hd : A.dim < 63) {σ : ℤ} (h : σ = 1 ∨ σ = -1 ∨ σ = 0) {c : F} (hc : fin c) (hc' : re c = σ) :
    ∃ b, (Cx.exactRel h4).Rep A 0 ((FFTRepr.one : FFTRepr A (Cx F)).mulReal c) (single 0 (σ : ℂ)) b := by
  have key : ∀ g : Cx F → Cx F, Cx.mulReal (1 : Cx F) c = g 1 → Cx.mulReal (0 : Cx F) c = g 0 →
      (FFTRepr.one : FFTRepr A (Cx F)).mulReal c = ⟨(FFTRepr.one : FFTRepr A (Cx F)).arr.map g⟩ := by
    intro g h1 h0
    unfold FFTRepr.mulReal FFTRepr.one Arr3.map
    congr 2
    funext k i j
    dsimp only
    split
    · exact h1
    · exact h0
  rcases h with rfl | rfl | rfl
  · obtain rfl : c = 1 := re_inj hc fin_one (by rw [hc', re_one]; simp)
    rw [key id (Cx.ext' (FloatSigns.one_mul fin_one) (FloatModel.zero_mul fin_one)) (Cx.ext' (FloatModel.zero_mul fin_one) (FloatModel.zero_mul fin_one))]
    exact ⟨1, (CxRel.Rep.one h4 hA hd).congr hA fun k _ => by simp⟩
  · obtain rfl : c = -1 := re_inj hc (neg_ok fin_one).1 (by rw [hc', (neg_ok fin_one).2, re_one]; simp)
    have h1 : fin (-1 : F) := (neg_ok fin_one).1
    rw [key (fun z => -z) (Cx.ext' (FloatSigns.one_mul h1) ((FloatModel.zero_mul h1).trans fneg_zero.symm))
      (Cx.ext' ((FloatModel.zero_mul h1).trans fneg_zero.symm) ((FloatModel.zero_mul h1).trans fneg_zero.symm))]
    refine ⟨1, (CxRel.Rep.one h4 hA hd).neg.congr hA fun k _ => ?_⟩
    unfold single
    split <;> simp
  · obtain rfl : c = 0 := re_inj hc fin_zero (by rw [hc', re_zero]; simp)
    have e : (FFTRepr.one : FFTRepr A (Cx F)).mulReal 0 = FFTRepr.zero := by
      rw [key (fun _ => 0) (Cx.ext' (FloatModel.mul_zero fin_one) (FloatModel.zero_mul fin_zero)) (Cx.ext' (FloatModel.zero_mul fin_zero) (FloatModel.zero_mul fin_zero))]
      rfl
    rw [e]
    refine ⟨0, (CxRel.Rep.zero h4 hA hd).congr hA fun k _ => ?_⟩
    unfold single
    split <;> simp

theorem exact_D (h4 : 4 ≤ M F) (p q r : ℝ) : (0 : ℝ) = p * (q * (r * (Cx.exactRel (F := F) h4).D)) := by
  show (0 : ℝ) = p * (q * (r * 0))
  simp

/-- Coefficient types whose zero and one survive the conversions to `Cx F` and back; for these four functions of
src/types.rs:60-121 this holds. -/
class UnitConv (T F : Type) [Zero T] [One T] [Add T] [Sub T] [Neg T] [Mul T] [DecidableEq T] [CoeffLaws T]
    [Zero F] [One F] [Add F] [Sub F] [Neg F] [Mul F] [Div F] [DecidableEq F] [IntoComplex T (Cx F)] [FromComplex T (Cx F)] : Prop where
  fft_zero : ∀ n, iPowNeg n * IntoComplex.into (0 : T) = (0 : Cx F)
  into_zero : IntoComplex.into (0 : T) = (0 : Cx F)
  into_one : IntoComplex.into (1 : T) = (1 : Cx F)
  ifft_zero : ∀ n, (FromComplex.from_ (iPow n * 0 : Cx F) : T) = 0
  from_zero : (FromComplex.from_ (0 : Cx F) : T) = 0
  from_one : (FromComplex.from_ (1 : Cx F) : T) = 1
  wedge : ∀ {A : ClAlg} {i j : Nat} {a b : MV A (ArrayStorage T)}, a.Valid → b.Valid → (∀ k < 2 ^ A.dim, a.val k = single (2 ^ i) 1 k) →
    (∀ k < 2 ^ A.dim, b.val k = single (2 ^ j) 1 k) → j < i → i < A.dim → Denotes (a.naiveWedgeImpl b) (single (2 ^ i ^^^ 2 ^ j) 1)

section
variable {T : Type} [Zero T] [One T] [Add T] [Sub T] [Neg T] [Mul T] [DecidableEq T] [CoeffLaws T] [IntoComplex T (Cx F)]
  [FromComplex T (Cx F)] [UnitConv T F]

/-- The transform of a basis vector. -/
theorem fft_basisVec (h4 : 4 ≤ M F) (hA : A.WF) (hd : A.dim < 63) {i : Nat} {a : MV A (ArrayStorage T)} (ha : a.Valid)
    (hv : ∀ k < 2 ^ A.dim, a.val k = single (2 ^ i) 1 k) :
    ∃ r, (a.fft : Res (FFTRepr A (Cx F))) = .ok r ∧ (Cx.exactRel h4).Rep A A.half r (cx A (single (2 ^ i) (1 : ℂ))) 1 := by
  obtain ⟨r, e, h⟩ := FExpr.repFFT (Q := Cx.exactRel h4) hA hd Cx.neg_neg' UnitConv.fft_zero (ρ := fun _ => a) (fun _ => ha)
    (x := fun _ => single (2 ^ i) (1 : ℂ)) (b := fun _ k => if k = 2 ^ i then 1 else 0) (l := fun _ => 1)
    (fun _ => by rw [sum_ite_eq' (range _)]; split <;> simp) (exact_D h4 _ _ _) (fun _ k hk => by
      rw [hv k hk]
      unfold single
      split
      · rw [UnitConv.into_one]
        exact ⟨cx_one_Fin, cx_one_val, by exact_mod_cast gint_int 1, le_of_eq Cx.n1_one⟩
      · rw [UnitConv.into_zero]
        exact (Cx.exactRel h4).zero) (.X 0) (by show (1 : ℝ) ≤ M F; linarith)
  exact ⟨r, e, h⟩

/-- The inverse transform. -/
theorem ifft_unit (h4 : 4 ≤ M F) (hA : A.WF) (hd : A.dim < 63) {l i : Nat} {r : FFTRepr A (Cx F)}
    (hr : (Cx.exactRel h4).Rep A l r (cx A (single i (1 : ℂ))) 1) :
    Denotes (r.ifft : Res (MV A (ArrayStorage T))) (single i 1) := by
  refine (ifft_ops UnitConv.ifft_zero hA hd hr.1).congr fun k hk => ?_
  have h := (Cx.exactRel h4).iPow_mul (countOnes (k &&& A.imagMask)) (CxRel.Rep.unfl hA hr (fun k _ => by
    show Cx.GInt (iPowNeg _ * single i (1 : ℂ) k)
    rw [Cx.iPowNeg_eq]
    refine (Cx.GInt.iPow _).mul ?_
    unfold single
    split
    · exact_mod_cast gint_int 1
    · exact_mod_cast gint_int 0) (by
      show 4 * (1 + A.half * (0 : ℝ)) ≤ M F
      linarith) hk)
  have e2 : iPow (countOnes (k &&& A.imagMask)) * cx A (single i (1 : ℂ)) k = single i (1 : ℂ) k := by
    unfold cx
    rw [← mul_assoc, iPow_mul_iPowNeg, one_mul]
    rfl
  rw [e2] at h
  unfold dcx
  unfold single at h ⊢
  by_cases hki : k = i
  · rw [if_pos hki] at h ⊢
    rw [cx_inj h.1 cx_one_Fin (h.2.1.trans cx_one_val.symm), UnitConv.from_one]
  · rw [if_neg hki] at h ⊢
    rw [cx_inj h.1 Cx.zero_Fin.1 (h.2.1.trans Cx.zero_Fin.2.symm), UnitConv.from_zero]

end

/-- The product of two signed blades. -/
theorem mul_unit (h4 : 4 ≤ M F) (hA : A.WF) {l l' : Nat} {r s : FFTRepr A (Cx F)} {f g : Nat → ℂ}
    (hr : (Cx.exactRel h4).Rep A l r (cx A f) 1) (hs : (Cx.exactRel h4).Rep A l' s (cx A g) 1) :
    ∃ t l'', r.mul s = .ok t ∧ (Cx.exactRel h4).Rep A l'' t (cx A (geo A.sigma A.dim f g)) 1 := by
  have hD := exact_D (F := F) h4 (3 ^ A.projDim) (2 ^ A.half) (2 ^ A.half)
  obtain ⟨t, e, ht⟩ := CxRel.Rep.mul hA Cx.neg_neg' hr hs (by
    rw [← hD]
    show (1 : ℝ) * 1 + 0 ≤ M F
    linarith)
  rw [← hD, one_mul, _root_.add_zero] at ht
  exact ⟨t, _, e, ht.congr hA fun k hk => cx_geo hA _ _ hk⟩

theorem ones_lt {n k : Nat} (h : k ≤ n) : 2 ^ k - 1 < 2 ^ n :=
  lt_of_lt_of_le (Nat.sub_lt (Nat.two_pow_pos k) (by norm_num)) (Nat.pow_le_pow_right (by norm_num) h)

theorem countOnes_ones {k : Nat} : countOnes (2 ^ k - 1) = k := by
  rw [countOnes_eq_cnt (ones_lt (le_refl k)), cnt_eq_sum]
  rw [sum_congr rfl fun i hi => show ((2 ^ k - 1).testBit i).toNat = 1 by
    rw [Nat.testBit_two_pow_sub_one, decide_eq_true (mem_range.mp hi)]; rfl]
  simp

theorem bsgn_ones_top (σ : Nat → ℤ) {n k : Nat} (hk : k < n) : bsgn σ n (2 ^ k - 1) (2 ^ k) = (-1) ^ k := by
  induction n with
  | zero => omega
  | succ n ih =>
    have hp := ones_lt (le_refl k)
    by_cases h : k = n
    · subst h
      have := bsgn_lo_hi (σ := σ) (b := 0) hp (Nat.two_pow_pos k)
      rw [Nat.zero_add] at this
      rw [this, bsgn_zero_right, mul_one, sg_par_pow hp, countOnes_ones]
    · rw [bsgn_lo_lo (Nat.pow_lt_pow_right (by norm_num) (by omega)), ih (by omega)]

theorem rsg_ones_succ {n k : Nat} (hk : k < n) : rsg n (2 ^ (k + 1) - 1) = rsg n (2 ^ k - 1) * (-1) ^ k := by
  rw [rsg_pow (ones_lt hk), rsg_pow (ones_lt hk.le), countOnes_ones, countOnes_ones, ← pow_add]
  congr 1
  have h : (k + 1) * (k + 1 - 1) = k * (k - 1) + k * 2 := by
    rcases k with _ | k
    · rfl
    · simp only [Nat.add_sub_cancel]; ring
  rw [h, Nat.add_mul_div_right _ _ (by norm_num)]

theorem ones_xor (k : Nat) : (2 ^ k - 1) ^^^ 2 ^ k = 2 ^ (k + 1) - 1 := by
  have h := Nat.testBit_two_pow_sub_one
  refine Nat.eq_of_testBit_eq fun i => ?_
  rw [Nat.testBit_xor, h, h, Nat.testBit_two_pow]
  by_cases h1 : i < k
  · simp [h1, show i < k + 1 by omega, show ¬ k = i by omega]
  · by_cases h2 : k = i
    · simp [h2]
    · simp [h1, h2, show ¬ i < k + 1 by omega]

/-- The product of the first generators. -/
theorem fold_unit (h4 : 4 ≤ M F) (hA : A.WF) (hd : A.dim < 63) (fe : List (FFTRepr A (Cx F))) (hl : fe.length ≤ A.dim)
    (h : ∀ i (hi : i < fe.length), ∃ l, (Cx.exactRel h4).Rep A l fe[i] (cx A (single (2 ^ i) (1 : ℂ))) 1) :
    ∃ r l, fe.foldlM (fun acc x => acc.mul x) FFTRepr.one = .ok r ∧
      (Cx.exactRel h4).Rep A l r (cx A (single (2 ^ fe.length - 1) ((rsg A.dim (2 ^ fe.length - 1) : ℤ) : ℂ))) 1 := by
  induction fe using List.reverseRecOn with
  | nil =>
    refine ⟨_, 0, rfl, (CxRel.Rep.one h4 hA hd).congr hA fun k _ => ?_⟩
    have e : rsg A.dim 0 = 1 := by rw [rsg_eq]; simp
    simp only [List.length_nil, pow_zero, Nat.sub_self, e, Int.cast_one]
    exact congrFun (cx_single (T := ℂ) (K := ℂ) A) k
  | append_singleton xs x ih =>
    rw [List.length_append, List.length_singleton] at hl
    obtain ⟨r, l, e, hr⟩ := ih (by omega) fun i hi => by
      obtain ⟨l, h'⟩ := h i (by rw [List.length_append]; omega)
      rw [List.getElem_append_left hi] at h'
      exact ⟨l, h'⟩
    obtain ⟨l', hx⟩ := h xs.length (by rw [List.length_append, List.length_singleton]; omega)
    rw [List.getElem_append_right (le_refl _)] at hx
    simp only [Nat.sub_self, List.getElem_cons_zero] at hx
    obtain ⟨t, l'', e2, ht⟩ := mul_unit h4 hA hr hx
    refine ⟨t, l'', ?_, ht.congr hA fun k _ => ?_⟩
    · rw [List.foldlM_append, e]
      simp only [List.foldlM_cons, List.foldlM_nil, bind, Except.bind, e2]
      rfl
    · refine cx_congr ?_
      rw [geo_single_single _ (ones_lt (by omega)), ones_xor, List.length_append, List.length_singleton, bsgn_ones_top _ (by omega),
        rsg_ones_succ (by omega)]
      congr 1
      rw [zsmul_eq_mul]
      push_cast
      ring

theorem pow_or_pow {i j : Nat} (h : i ≠ j) : 2 ^ i ||| 2 ^ j = 2 ^ i ^^^ 2 ^ j := by
  refine Nat.eq_of_testBit_eq fun k => ?_
  rw [Nat.testBit_or, Nat.testBit_xor, Nat.testBit_two_pow, Nat.testBit_two_pow]
  by_cases h1 : i = k
  · subst h1; simp [h.symm]
  · simp [h1]

theorem cx_scalar (c : ℂ) (k : Nat) : cx (K := ℂ) A (single 0 c) k = single 0 c k := by
  unfold cx single
  by_cases h : k = 0
  · subst h
    rw [if_pos rfl, Nat.zero_and]
    show iPowNeg 0 * c = c
    simp [iPowNeg]
  · rw [if_neg h]
    exact MulZeroClass.mul_zero _

/-- The square of a generator as a floating point number, src/algebra.rs:96-106. -/
def signF (F : Type) [Zero F] [One F] [Neg F] (σ : ℤ) : F := if σ = 1 then 1 else if σ = -1 then -1 else 0

variable {T : Type} [Zero T] [One T] [Add T] [Sub T] [Neg T] [Mul T] [DecidableEq T] [CoeffLaws T] [IntoComplex T (Cx F)]
  [FromComplex T (Cx F)] [UnitConv T F]

/-- **C58, C78, C87** (`fft_test_case`, tests/unit.rs:102-145). In every algebra, for coefficients of type `f32`, `f64`, `Complex32` or
`Complex64`, the following equalities of floating point numbers hold exactly: the transforms of the basis vectors are the elements of
`FFTRepr::basis()`; they have the shape that is expected; they square to the numbers in `A::signaturef()` and anticommute; the product of two of them,
transformed back, is their naive wedge product, with the single coefficient 1; and the reverse of the product of all of them,
transformed back, is the pseudoscalar with the coefficient 1. -/
theorem C78_generators [CoeffLaws (Cx F)] [UnitConv (Cx F) F] (h4 : 4 ≤ M F) {sig : List Sym} {names : List String} (hA : declareAlgebra sig names = some A) (hd : A.dim < 63) :
    ∃ (e : List (MV A (ArrayStorage T))) (fe : List (FFTRepr A (Cx F))), MV.basis (T := T) = .ok e ∧ FFTRepr.basis = .ok fe ∧
      e.length = sig.length ∧ fe.length = sig.length ∧
      (∀ i (hi : i < e.length) (hi' : i < fe.length), (do let r ← e[i].fft; return r.beq fe[i]) = (.ok true : Res Bool)) ∧
      (∀ i (hi : i < e.length) (hi' : i < sig.length),
        (do let r ← (e[i].fft : Res (FFTRepr A (Cx F))); let p ← r.mul r; return p.beq (FFTRepr.one.mulReal (signF F sig[i].square))) = (.ok true : Res Bool) ∧
        (do let r ← (e[i].fft : Res (FFTRepr A (Cx F))); return r.arr.dims) = (.ok (2 ^ A.projDim, 2 ^ ((sig.length - A.projDim + 1) / 2), 2 ^ ((sig.length - A.projDim + 1) / 2)) : Res (Nat × Nat × Nat))) ∧
      (∀ i j (hi : i < e.length) (hj : j < e.length), j < i →
        (do let r ← (e[i].fft : Res (FFTRepr A (Cx F))); let s ← e[j].fft; let p ← r.mul s; let q ← s.mul r; return p.beq q.neg) = (.ok true : Res Bool) ∧
        ∃ prod : MV A (ArrayStorage T), (do let r ← (e[i].fft : Res (FFTRepr A (Cx F))); let s ← e[j].fft; let p ← r.mul s; p.ifft) = .ok prod ∧
          (do let w ← e[i].naiveWedgeImpl e[j]; return prod.beq w) = (.ok true : Res Bool) ∧
          prod.getByIdx (ushl 1 i ||| ushl 1 j) = .ok 1 ∧ (prod.setByIdx (ushl 1 i ||| ushl 1 j) 0).isZero = true) ∧
      (do let p ← fe.foldlM (fun acc x => acc.mul x) FFTRepr.one; let q ← p.rev; let m ← (q.ifft : Res (MV A (ArrayStorage (Cx F))))
          let z ← (MV.default : Res (MV A (ArrayStorage (Cx F))))
          return m.beq (z.setByIdx (A.realMask ||| A.imagMask ||| A.projMask) 1)) = (.ok true : Res Bool) := by
  have hwf := declareAlgebra_wf hA
  have hdim : A.dim = sig.length := (declareAlgebra_eq hA).2.2.1
  have hS : LawfulStorage.Supp (S := ArrayStorage T) (T := T) A.dim := show A.dim ≤ 63 by omega
  have hS' : LawfulStorage.Supp (S := ArrayStorage (Cx F)) (T := Cx F) A.dim := show A.dim ≤ 63 by omega
  obtain ⟨e, h1, h2, h3⟩ := mapM_ok (List.range A.dim) (fun n => basisVec (A := A) (S := ArrayStorage T) (T := T) n) fun n hn => by
    obtain ⟨u, hu, -⟩ := basisVec_denotes (A := A) hS (List.mem_range.mp hn)
    exact ⟨u, hu⟩
  obtain ⟨fe, g1, g2, g3⟩ := mapM_ok (List.range A.dim) (fun n => do
      let e ← MV.basisVec (A := A) (S := ArrayStorage (Cx F)) (T := Cx F) n
      (e.fft : Res (FFTRepr A (Cx F)))) fun n hn => by
    obtain ⟨u, hu, hv, hv'⟩ := basisVec_denotes (A := A) hS' (List.mem_range.mp hn)
    obtain ⟨r, hr, -⟩ := fft_basisVec (F := F) h4 hwf hd hv hv'
    exact ⟨r, by rw [hu]; exact hr⟩
  rw [List.length_range] at h2 g2
  have hev : ∀ i (hi : i < e.length), e[i].Valid ∧ ∀ k < 2 ^ A.dim, e[i].val k = single (2 ^ i) 1 k := by
    intro i hi
    have hg := h3 i (by simpa using (by omega : i < A.dim)) hi
    rw [List.getElem_range] at hg
    obtain ⟨s, hs, hsv⟩ := basisVec_denotes (A := A) hS (n := i) (by omega)
    rw [hg] at hs
    injection hs with hs
    rw [hs]
    exact hsv
  have hfe : ∀ i (hi : i < fe.length), (Cx.exactRel h4).Rep A A.half fe[i] (cx A (single (2 ^ i) (1 : ℂ))) 1 := by
    intro i hi
    have hg := g3 i (by simpa using (by omega : i < A.dim)) hi
    rw [List.getElem_range] at hg
    obtain ⟨s, hs, hsv, hsv'⟩ := basisVec_denotes (A := A) hS' (n := i) (by omega)
    obtain ⟨r, hr, hR⟩ := fft_basisVec (F := F) h4 hwf hd hsv hsv'
    rw [hs] at hg
    have : fe[i] = r := by
      have := hg.symm.trans hr
      injection this
    rw [this]
    exact hR
  have hfft := fun i (hi : i < e.length) => fft_basisVec (F := F) h4 hwf hd (hev i hi).1 (hev i hi).2
  refine ⟨e, fe, h1, g1, by omega, by omega, ?_, ?_, ?_, ?_⟩
  · intro i hi hi'
    obtain ⟨r, er, hr⟩ := hfft i hi
    simp only [er, bind, Except.bind]
    exact congrArg Except.ok (CxRel.Rep.beq h4 hwf hr (hfe i hi') fun _ _ => rfl)
  · intro i hi hi'
    obtain ⟨r, er, hr⟩ := hfft i hi
    obtain ⟨t, l, et, ht⟩ := mul_unit h4 hwf hr hr
    simp only [er, et, bind, Except.bind]
    constructor
    · obtain ⟨b, hb⟩ := CxRel.Rep.square (A := A) h4 hwf hd (σ := sig[i].square) (by cases sig[i] <;> simp [Sym.square]) (c := signF F sig[i].square)
        (by unfold signF; split; exacts [fin_one, by split; exacts [(neg_ok fin_one).1, fin_zero]])
        (by cases sig[i] <;> simp [signF, Sym.square, re_one, re_zero, (neg_ok fin_one).2])
      refine congrArg Except.ok (CxRel.Rep.beq h4 hwf ht hb fun k _ => ?_)
      rw [cx_congr (g := single 0 ((sig[i].square : ℤ) : ℂ))]
      · exact cx_scalar _ k
      · rw [geo_single_single _ (Nat.pow_lt_pow_right (by norm_num) (by omega)), Nat.xor_self, bsgn_two_pow_eq _ (by omega), declareAlgebra_sigma hA hi']
        simp
    · have hn : A.half = (sig.length - A.projDim + 1) / 2 := by
        have : A.nn + A.projDim = A.dim := hwf.dims
        unfold ClAlg.half
        omega
      rw [← hn]
      show Except.ok _ = _
      unfold Arr3.dims
      rw [hr.1.1, hr.1.2.1, hr.1.2.2]
  · intro i j hi hj hij
    obtain ⟨r, er, hr⟩ := hfft i hi
    obtain ⟨s, es, hs⟩ := hfft j hj
    obtain ⟨t, l, et, ht⟩ := mul_unit h4 hwf hr hs
    obtain ⟨t', l', et', ht'⟩ := mul_unit h4 hwf hs hr
    have hgeo : ∀ k, geo A.sigma A.dim (single (2 ^ i) (1 : ℂ)) (single (2 ^ j) 1) k = single (2 ^ i ^^^ 2 ^ j) 1 k := fun k => by
      rw [geo_single_single _ (Nat.pow_lt_pow_right (by norm_num) (by omega)), bsgn_two_pow_ne _ (by omega) (by omega) (by omega), if_neg (by omega)]
      simp
    have hgeo' : ∀ k, geo A.sigma A.dim (single (2 ^ j) (1 : ℂ)) (single (2 ^ i) 1) k = -single (2 ^ i ^^^ 2 ^ j) 1 k := fun k => by
      rw [geo_single_single _ (Nat.pow_lt_pow_right (by norm_num) (by omega)), bsgn_two_pow_ne _ (by omega) (by omega) (by omega), if_pos (by omega),
        Nat.xor_comm]
      unfold single
      split <;> simp
    simp only [er, es, et, et', bind, Except.bind]
    constructor
    · refine congrArg Except.ok (CxRel.Rep.beq h4 hwf ht ht'.neg fun k _ => ?_)
      rw [cx_congr (hgeo k), cx_congr (g := fun k => -single (2 ^ i ^^^ 2 ^ j) (1 : ℂ) k) (hgeo' k), congrFun (cx_neg (K := ℂ) A _) k, neg_neg]
    · obtain ⟨m, em, hm, hm'⟩ := ifft_unit (T := T) h4 hwf hd (ht.congr hwf fun k _ => cx_congr (hgeo k).symm)
      obtain ⟨w, ew, hw, hw'⟩ := UnitConv.wedge (F := F) (hev i hi).1 (hev j hj).1 (hev i hi).2 (hev j hj).2 hij (by omega)
      have hidx : ushl 1 i ||| ushl 1 j = 2 ^ i ^^^ 2 ^ j := by
        rw [ushl_one (by omega), ushl_one (by omega), pow_or_pow (by omega)]
      have hlt : 2 ^ i ^^^ 2 ^ j < 2 ^ A.dim :=
        Nat.xor_lt_two_pow (Nat.pow_lt_pow_right (by norm_num) (by omega)) (Nat.pow_lt_pow_right (by norm_num) (by omega))
      refine ⟨m, em, ?_, ?_, ?_⟩
      · rw [ew]
        exact congrArg Except.ok ((beq_iff hm hw).mpr fun k hk => (hm' k hk).trans (hw' k hk).symm)
      · rw [hidx, hm.get hlt, hm' _ hlt]
        simp [single]
      · rw [hidx]
        unfold MV.isZero
        rw [List.all_eq_true]
        intro p hp
        obtain ⟨p1, p2⟩ := LawfulStorage.enum_mem (hm.set _ _) hp
        rw [decide_eq_true_eq, p2]
        refine (hm.set_val hlt _ _).trans ?_
        split
        · rfl
        · rename_i h
          rw [hm' _ p1]
          unfold single
          rw [if_neg h]
  · obtain ⟨r, l, er, hr⟩ := fold_unit h4 hwf hd fe (by omega) fun i hi => ⟨_, hfe i hi⟩
    obtain ⟨t, et, ht⟩ := hr.rev hwf hd
    rw [g2] at ht
    obtain ⟨m, em, hm, hm'⟩ := ifft_unit (T := Cx F) (i := 2 ^ A.dim - 1) h4 hwf hd (ht.congr hwf fun k _ => by
      rw [← congrFun (cx_smul (K := ℂ) A (fun k => rsg A.dim k) _) k]
      refine cx_congr ?_
      unfold single
      split
      · rename_i h
        rw [h, zsmul_eq_mul, ← Int.cast_mul, rsg_mul_self, Int.cast_one]
      · simp)
    obtain ⟨z, ez, hz, hz'⟩ := default_denotes (A := A) hS'
    simp only [er, et, em, ez, bind, Except.bind]
    have hlt : 2 ^ A.dim - 1 < 2 ^ A.dim := ones_lt (le_refl _)
    rw [hwf.fullMask]
    refine congrArg Except.ok ((beq_iff hm (hz.set _ _)).mpr fun k hk => ?_)
    rw [hm' k hk, hz.set_val hlt, hz' k hk]
    rfl

end
end TClifford

namespace TClifford
open MV Finset FloatModel

section
variable {T : Type} [Zero T] [One T] [Add T] [Sub T] [Neg T] [Mul T] [Div T] [DecidableEq T] [CoeffLaws T] [SumLaws T]

/-- The naive wedge product of two basis vectors: a sum with one term. -/
theorem naiveWedge_unit {N : Type} [AddCommMonoid N] {good : T → Prop} {R : T → N → Prop} {τ : ℤ → T → T → N} (I : SumInv T good R τ)
    (g0 : good 0) (g1 : good 1) {A : ClAlg} {i j : Nat} {a b : MV A (ArrayStorage T)} (ha : a.Valid) (hb : b.Valid)
    (hav : ∀ k < 2 ^ A.dim, a.val k = single (2 ^ i) 1 k) (hbv : ∀ k < 2 ^ A.dim, b.val k = single (2 ^ j) 1 k) (hij : j < i) (hi : i < A.dim)
    (h0 : ∀ v, R v 0 → v = 0) (h1 : ∀ v, R v (τ 1 1 1) → v = 1) : Denotes (a.naiveWedgeImpl b) (single (2 ^ i ^^^ 2 ^ j) 1) := by
  have hi2 : 2 ^ i < 2 ^ A.dim := Nat.pow_lt_pow_right (by norm_num) hi
  have hg : ∀ {f : Nat → T} {p : Nat}, (∀ k < 2 ^ A.dim, f k = single p 1 k) → ∀ k < 2 ^ A.dim, good (f k) := by
    intro f p hf k hk
    rw [hf k hk]
    unfold single
    split
    · exact g1
    · exact g0
  obtain ⟨r, e, hr, hR⟩ := naiveWedge_inv I ha hb (hg hav) (hg hbv)
  refine ⟨r, e, hr, fun k hk => ?_⟩
  have h := hR k hk
  rw [sum_eq_single (2 ^ i)] at h
  · rw [hav _ hi2, hbv _ (Nat.xor_lt_two_pow hi2 hk)] at h
    unfold single at h ⊢
    rw [if_pos rfl] at h
    by_cases hk' : k = 2 ^ i ^^^ 2 ^ j
    · subst hk'
      rw [xor_xor_cancel, if_pos rfl, bsgn_two_pow_ne _ hi (by omega) (by omega), if_neg (by omega)] at h
      rw [if_pos rfl]
      exact h1 _ h
    · rw [if_neg (fun h' => hk' (by rw [← h', xor_xor_cancel])), I.right] at h
      rw [if_neg hk']
      exact h0 _ h
  · intro l hl hne
    rw [hav _ (mem_range.mp hl)]
    unfold single
    rw [if_neg hne, I.left]
  · intro h'
    exact absurd (mem_range.mpr hi2) h'

end

section
variable {F : Type} [Zero F] [One F] [Add F] [Sub F] [Neg F] [Mul F] [Div F] [FloatModel F] [FloatSigns F] [DecidableEq F]

/-- Real coefficients. -/
theorem unitConv_real {T : Type} [Zero T] [One T] [Add T] [Sub T] [Neg T] [Mul T] [Div T] [FloatModel T] [DecidableEq T]
    [IntoComplex T (Cx F)] [FromComplex T (Cx F)] [ConvModel T F] (hM : 1 ≤ M T) : UnitConv T F where
  fft_zero := ConvModel.fft_zero
  into_zero := ConvModel.into_zero
  into_one := by
    obtain ⟨h1, h2⟩ := ConvModel.into_ok (T := T) (F := F) fin_one
    exact cx_inj h1 cx_one_Fin (h2.trans (by rw [re_one, cx_one_val]; simp))
  ifft_zero := ConvModel.ifft_zero (zero_le_one.trans hM)
  from_zero := by
    have := ConvModel.ifft_zero (T := T) (F := F) (zero_le_one.trans hM) 0
    rwa [ConvModel.iPow_mul_zero] at this
  from_one := by
    obtain ⟨h1, h2⟩ := ConvModel.from_int (T := T) (F := F) (v := 1) (m := 1) cx_one_Fin (by
      rw [Int.cast_one]; exact re_one) (by simpa using hM)
    exact re_inj h1 fin_one (by rw [h2, re_one, Int.cast_one])
  wedge ha hb hav hbv hij hi := by
    have t1 : toZ (1 : T) = 1 := by rw [toZ, re_one, Int.floor_one]
    refine naiveWedge_unit sumInv_accZ ⟨fin_zero, 0, by rw [re_zero]; simp⟩ ⟨fin_one, 1, by rw [re_one]; simp⟩ ha hb hav hbv hij hi
      (fun v h => ?_) (fun v h => ?_)
    · obtain ⟨h1, h2⟩ := h.2 (by simpa using zero_le_one.trans hM)
      exact re_inj h1 fin_zero (by rw [h2, re_zero]; simp)
    · rw [t1] at h
      obtain ⟨h1, h2⟩ := h.2 (by simpa using hM)
      exact re_inj h1 fin_one (by rw [h2, re_one]; simp)

/-- Complex coefficients. -/
theorem unitConv_complex {G : Type} [Zero G] [One G] [Add G] [Sub G] [Neg G] [Mul G] [Div G] [FloatModel G] [FloatSigns G] [DecidableEq G]
    [IntoComplex G (Cx F)] [FromComplex G (Cx F)] [ConvModel G F] [IntoComplex (Cx G) (Cx F)] [FromComplex (Cx G) (Cx F)] [ConvC G F]
    (h4 : 4 ≤ M G) : UnitConv (Cx G) F := by
  have hu := unitConv_real (F := F) (T := G) (by linarith)
  have i0 : (IntoComplex.into (0 : Cx G) : Cx F) = 0 := by
    obtain ⟨h1, h2⟩ := ConvC.into_ok (F := F) (Cx.zero_Fin (F := G)).1
    exact cx_inj h1 Cx.zero_Fin.1 (by rw [h2, Cx.zero_Fin.2, Cx.zero_Fin.2])
  have f0 : (FromComplex.from_ (0 : Cx F) : Cx G) = 0 := by
    refine Cx.ext' ?_ ?_
    · rw [ConvC.from_re]; exact hu.from_zero
    · rw [ConvC.from_im]; exact hu.from_zero
  refine ⟨fun n => ?_, i0, ?_, fun n => ?_, f0, ?_, ?_⟩
  · rw [i0, Cx.iPowNeg_eq, ConvModel.iPow_mul_zero]
  · obtain ⟨h1, h2⟩ := ConvC.into_ok (F := F) (cx_one_Fin (F := G))
    exact cx_inj h1 cx_one_Fin (by rw [h2, cx_one_val, cx_one_val])
  · rw [ConvModel.iPow_mul_zero, f0]
  · refine Cx.ext' ?_ ?_
    · rw [ConvC.from_re]; exact hu.from_one
    · rw [ConvC.from_im]
      obtain ⟨h1, h2⟩ := ConvModel.from_int (T := G) (F := F) (v := ⟨0, 1⟩) (m := 0) ⟨fin_zero, fin_one⟩ (by
        rw [Int.cast_zero]; exact re_zero) (by simpa using (by linarith : (0 : ℝ) ≤ M G))
      exact re_inj h1 fin_zero (h2.trans (by rw [Int.cast_zero]; exact re_zero.symm))
  · intro A i j a b ha hb hav hbv hij hi
    have g0 : Cx.Good (Cx.exactRel h4) (0 : Cx G) := ⟨Cx.zero_Fin.1, Cx.zero_Fin.1, rfl, by rw [Cx.zero_Fin.2]; exact_mod_cast gint_int 0, le_rfl⟩
    have g1 : Cx.Good (Cx.exactRel h4) (1 : Cx G) := ⟨cx_one_Fin, cx_one_Fin, rfl, by rw [cx_one_val]; exact_mod_cast gint_int 1, le_rfl⟩
    refine naiveWedge_unit (Cx.sumInv (Cx.exactRel h4)) g0 g1 ha hb hav hbv hij hi (fun v h => (h.2.1 rfl).1) (fun v h => ?_)
    have hD : (Cx.exactRel h4).D = 0 := rfl
    have h1 : Cx.tau 1 (1 : Cx G) 1 = (1, 1, 1) := by
      unfold Cx.tau
      rw [cx_one_val, Cx.n1_one, if_neg (by
        have : (1 : Cx G) ≠ 0 := fun h => by
          have := congrArg Cx.val h
          rw [cx_one_val, Cx.zero_Fin.2] at this
          exact one_ne_zero this
        simp [this])]
      simp
    rw [h1] at h
    have := h.2.2 (by
      show (1 : ℝ) + (1 : ℕ) * (0 : ℝ) ≤ M G
      rw [MulZeroClass.mul_zero, _root_.add_zero]; linarith)
    exact cx_inj this.1 cx_one_Fin (this.2.1.trans cx_one_val.symm)

end

theorem four_le_f32 : 4 ≤ M F32 := by
  show (4 : ℝ) ≤ 2 ^ 24
  norm_num

instance : UnitConv F64 F64 := unitConv_real (by have := Ex.four_le; linarith)
instance : UnitConv F32 F64 := unitConv_real (by have := four_le_f32; linarith)
instance : UnitConv (Cx F64) F64 := unitConv_complex Ex.four_le
instance : UnitConv (Cx F32) F64 := unitConv_complex four_le_f32

/-! ### tests/unit.rs:100-241, fft_repr_test -/

/-- `Oct` -/
def octSig : List Sym := [.minus, .minus, .minus, .minus, .minus, .minus]
/-- `ClOdd` -/
def oddSig : List Sym := [.minus, .minus, .minus, .plus, .minus, .plus, .minus]
/-- `ClDg` -/
def dgSig : List Sym := [.plus, .plus, .plus, .plus, .minus, .null, .null, .null]

namespace Ex
example : ∃ A, declareAlgebra dgSig [] = some A ∧ A.dim = 8 ∧ A.projDim = 3 ∧ A.half = 3 := ⟨_, rfl, by decide, by decide, by decide⟩
example {A : ClAlg} (hA : declareAlgebra dgSig [] = some A) (hd : A.dim < 63) := C78_generators (T := F64) (F := F64) Ex.four_le hA hd
example {A : ClAlg} (hA : declareAlgebra dgSig [] = some A) (hd : A.dim < 63) := C78_generators (T := F32) (F := F64) Ex.four_le hA hd
example {A : ClAlg} (hA : declareAlgebra dgSig [] = some A) (hd : A.dim < 63) := C78_generators (T := TClifford.Cx F64) (F := F64) Ex.four_le hA hd
example {A : ClAlg} (hA : declareAlgebra dgSig [] = some A) (hd : A.dim < 63) := C78_generators (T := TClifford.Cx F32) (F := F64) Ex.four_le hA hd
end Ex

end TClifford
