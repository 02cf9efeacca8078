import Verif.Model.ComplexNormF
import Verif.Props.ComplexScalar
import Verif.Props.FloatDiv
import Verif.Props.FFTRound
import Verif.Props.Involutions
import Verif.Props.VdotRound
/-
`cmag2`, `revc` and `revcm` with complex floating point coefficients: C56.
-/

set_option linter.unusedSectionVars false

namespace TClifford

open MV Finset FloatModel

/-! ### The squared magnitude is real -/

section
variable {f : Fmt}

/-- Zero, or not finite. -/
def ZeroOrNot (x : Flt f) : Prop := x = 0 ∨ x = .nonFinite

theorem ZeroOrNot.add {x y : Flt f} (hx : ZeroOrNot x) (hy : ZeroOrNot y) : ZeroOrNot (x + y) := by
  rcases hx with rfl | rfl
  · rw [SumLaws.zero_add]; exact hy
  · exact .inr rfl

theorem ZeroOrNot.neg {x : Flt f} (hx : ZeroOrNot x) : ZeroOrNot (-x) := by
  rcases hx with rfl | rfl
  · rw [SumLaws.neg_zero]; exact .inl rfl
  · exact .inr rfl

theorem ZeroOrNot.sub {x y : Flt f} (hx : ZeroOrNot x) (hy : ZeroOrNot y) : ZeroOrNot (x - y) := by
  rcases hy with rfl | rfl
  · rw [CoeffLaws.sub_zero]; exact hx
  · exact .inr (by cases x <;> rfl)

theorem Flt.add_neg_self (x : Flt f) : ZeroOrNot (x + -x) := by
  cases x with
  | nonFinite => exact .inr rfl
  | num x =>
    left
    rw [Flt.neg_num']
    show Flt.ofRat (x.1 + -x.1) = 0
    rw [add_neg_cancel]
    rfl

/-- The product of a number and its conjugate. -/
theorem Cx.conjF_mul_self (c : Cx (Flt f)) : ZeroOrNot (c.conjF * c).im := by
  show ZeroOrNot (c.re * c.im + -c.im * c.re)
  rw [SignMul.neg_mul, Flt.mul_comm' c.im]
  exact Flt.add_neg_self _

variable {A : ClAlg} {S : Type} [CoeffStorage S (Cx (Flt f))] [LawfulStorage S (Cx (Flt f))] {a : MV A S}

theorem Cx.conjF_zero : (0 : Cx (Flt f)).conjF = 0 := Cx.ext' rfl (show -(0 : Flt f) = 0 from SumLaws.neg_zero)

theorem revc_fl (ha : a.Valid) : Denotes (a.revc Cx.conjF) (fun i => sgnC (rsg A.dim i) (a.val i).conjF) := by
  refine ((fromIndexedIter_enum ha.supp (ha.enum.map (fun i c => revC i (Cx.conjF c)) ?_)).unwrap).congr ?_
  · intro i; unfold revC; split <;> simp [Cx.conjF_zero, SumLaws.neg_zero]
  · intro i hi; exact revC_fl hi _

/-- **C56 with floats.** The imaginary part of the computed `cmag2` is exactly zero, in every signature, unless it is not finite:
the rounding errors of the two mixed products cancel. -/
theorem C56_float_real (ha : a.Valid) {v : Cx (Flt f)} (h : a.cmag2 Cx.conjF = .ok v) : v.im = 0 ∨ v.im = .nonFinite := by
  obtain ⟨r, r1, r2, r3⟩ := revc_fl ha
  have h' : r.vdot a = .ok v := by
    have e : a.cmag2 Cx.conjF = (do let r ← a.revc Cx.conjF; r.vdot a) := rfl
    rw [e, r1] at h
    exact h
  unfold MV.vdot at h'
  have key : ∀ (l : List (Nat × Cx (Flt f))), (∀ p ∈ l, p.1 < 2 ^ A.dim ∧ p.2 = r.val p.1) → ∀ s : Cx (Flt f), ZeroOrNot s.im → ∀ v,
      (l.foldlM (fun ret p => do
        match (← A.bladeGeoProductSign p.1 p.1) with
        | .Null => return ret
        | .Plus => return ret + p.2 * (← a.getByIdx p.1)
        | .Minus => return ret - p.2 * (← a.getByIdx p.1)) s : Res (Cx (Flt f))) = .ok v → ZeroOrNot v.im := by
    intro l
    induction l with
    | nil => intro _ s hs v hv; cases hv; exact hs
    | cons p l ih =>
      intro hl s hs v hv
      obtain ⟨hp, hp2⟩ := hl p List.mem_cons_self
      have ih := ih fun q hq => hl q (List.mem_cons_of_mem _ hq)
      have hprod : ZeroOrNot (p.2 * a.val p.1).im := by
        rw [hp2, r3 _ hp]
        beta_reduce
        rcases rsg_unit A.dim p.1 with h | h <;> rw [h]
        · simpa [sgnC] using Cx.conjF_mul_self (a.val p.1)
        · have : sgnC (-1) (a.val p.1).conjF = -(a.val p.1).conjF := by simp [sgnC]
          rw [this, SignMul.neg_mul]
          exact (Cx.conjF_mul_self (a.val p.1)).neg
      rw [List.foldlM_cons, ha.get hp] at hv
      rcases hs' : A.bladeGeoProductSign p.1 p.1 with e | sg
      · rw [hs'] at hv; cases hv
      · rw [hs'] at hv
        cases sg with
        | Null => exact ih s hs v hv
        | Plus => exact ih _ (hs.add hprod) v hv
        | Minus => exact ih _ (hs.sub hprod) v hv
  exact key _ (fun p hp => r2.enum.mem p hp) 0 (.inl rfl) v h'

end

/-! ### Errors -/

section
variable {A : ClAlg} {S : Type} [CoeffStorage S (Cx F64)] [LawfulStorage S (Cx F64)] {S' : Type} [CoeffStorage S' ℂ] [LawfulStorage S' ℂ]
variable {a : MV A S} {a' : MV A S'} {x : Nat → Cx F64}

theorem val_conj {c : Cx F64} (hc : c.Fin) : c.conjF.Fin ∧ c.conjF.val = (starRingEnd ℂ) c.val := by
  obtain ⟨h1, h2⟩ := neg_ok hc.2
  refine ⟨⟨hc.1, h1⟩, ?_⟩
  apply Complex.ext
  · rfl
  · exact h2

theorem val_sgnC {c : Cx F64} (hc : c.Fin) {s : ℤ} (hs : s = 1 ∨ s = -1) : (sgnC s c).Fin ∧ (sgnC s c).val = s • c.val := by
  rcases hs with rfl | rfl
  · simpa [sgnC] using hc
  · obtain ⟨h1, h2⟩ := neg_ok hc.1
    obtain ⟨h3, h4⟩ := neg_ok hc.2
    have e : sgnC (-1) c = -c := by simp [sgnC]
    rw [e]
    refine ⟨⟨h1, h3⟩, ?_⟩
    apply Complex.ext
    · rw [neg_one_smul]; exact h2
    · rw [neg_one_smul]; exact h4

/-- `revc` is exact. -/
theorem MV.SameValuesC.revc (ha : SameValuesC a a' x) : ∃ r r', a.revc Cx.conjF = .ok r ∧ a'.revc (starRingEnd ℂ) = .ok r' ∧
    SameValuesC r r' (fun i => sgnC (rsg A.dim i) (x i).conjF) := by
  obtain ⟨r, r1, r2, r3⟩ := revc_fl ha.valid
  obtain ⟨r', s1, s2, s3⟩ := revc_denotes ha.valid' (conj := starRingEnd ℂ) (map_zero _)
  refine ⟨r, r', r1, s1, ?_⟩
  have hf : ∀ i < 2 ^ A.dim, (sgnC (rsg A.dim i) (x i).conjF).Fin ∧ (sgnC (rsg A.dim i) (x i).conjF).val = rsg A.dim i • (starRingEnd ℂ) (x i).val :=
    fun i hi => by
      obtain ⟨h1, h2⟩ := val_conj (ha.finite i hi)
      obtain ⟨h3, h4⟩ := val_sgnC h1 (rsg_unit A.dim i)
      exact ⟨h3, by rw [h4, h2]⟩
  exact ⟨r2, s2, Denotes.coefs ⟨r, rfl, r2, fun i hi => by rw [r3 i hi]; beta_reduce; rw [ha.val hi]⟩,
    Denotes.coefs ⟨r', rfl, s2, fun i hi => by rw [s3 i hi]; beta_reduce; rw [ha.val' hi]; exact (hf i hi).2.symm⟩, fun i hi => (hf i hi).1⟩

theorem absSumC_revc (ha : SameValuesC a a' x) : absSumC A.dim (fun i => sgnC (rsg A.dim i) (x i).conjF) x = absSumC A.dim x x := by
  refine sum_congr rfl fun i hi => ?_
  congr 1
  obtain ⟨h1, h2⟩ := val_conj (ha.finite i (mem_range.mp hi))
  obtain ⟨-, h4⟩ := val_sgnC h1 (rsg_unit A.dim i)
  have e : Cx.n1 (sgnC (rsg A.dim i) (x i).conjF).val = Cx.n1 (x i).val := by
    rw [h4, h2]
    rcases rsg_unit A.dim i with h | h <;> rw [h] <;> simp [Cx.n1]
  exact e

/-- **C99, `cmag2`.** The error of `cmag2` with `Complex64` coefficients. -/
theorem C99_cmag2 (hA : A.WF) (ha : SameValuesC a a' x) {B : ℝ} (hB : B = absSumC A.dim x x + 2 ^ A.dim * (4 * η F64 / u F64)) :
    NearSC (a.cmag2 Cx.conjF) (a'.cmag2 (starRingEnd ℂ)) ((1 + u F64) ^ (2 ^ A.dim + 2) * B ≤ Ω F64)
      (((1 + u F64) ^ (2 ^ A.dim + 2) - 1) * B) := by
  obtain ⟨r, r', h1, h2, h3⟩ := ha.revc
  have h := C99_vdot hA four_le_M64 u64_pos h3 ha (B := B) (by rw [absSumC_revc ha]; exact hB)
  have e1 : a.cmag2 Cx.conjF = r.vdot a := by
    have e : a.cmag2 Cx.conjF = (do let r ← a.revc Cx.conjF; r.vdot a) := rfl
    rw [e, h1]; rfl
  have e2 : a'.cmag2 (starRingEnd ℂ) = r'.vdot a' := by
    have e : a'.cmag2 (starRingEnd ℂ) = (do let r ← a'.revc (starRingEnd ℂ); r.vdot a') := rfl
    rw [e, h2]; rfl
  rw [e1, e2]
  exact h

/-! ### Division by a real number, stored as a complex one -/

theorem quot_two {c v P D : ℝ} (hv : v ≠ 0) (hP : |P - c * v| ≤ ρ * |c * v|) (hD : |D - v * v| ≤ ρ * |v * v|) :
    D ≠ 0 ∧ |P / D - c / v| ≤ 5 / 2 * ρ * |c / v| := by
  have hρ0 := ρ_pos
  have hρ : ρ ≤ 1 / 1000 := ρ_small.trans (by norm_num)
  have hv0 : 0 < v * v := mul_self_pos.mpr hv
  rw [abs_of_pos hv0] at hD
  have hD1 := abs_le.mp hD
  have hDp : (1 - ρ) * (v * v) ≤ D := by linarith
  have h9 : 0 < (1 - ρ) * (v * v) := mul_pos (by linarith) hv0
  have hD0 : 0 < D := by linarith
  refine ⟨hD0.ne', ?_⟩
  have e : P / D - c / v = ((P - c * v) * v - c * (D - v * v)) / (D * v) := by field_simp; ring
  have hva : 0 < |v| := abs_pos.mpr hv
  rw [e, abs_div, abs_mul D v, abs_of_pos hD0, abs_div, div_le_iff₀ (by positivity)]
  have hvv : |v| * |v| = v * v := abs_mul_abs_self v
  have n1 : |(P - c * v) * v - c * (D - v * v)| ≤ 2 * ρ * |c| * (v * v) := by
    refine (abs_sub _ _).trans ?_
    rw [abs_mul, abs_mul]
    have g1 : |P - c * v| * |v| ≤ ρ * |c * v| * |v| := mul_le_mul_of_nonneg_right hP (abs_nonneg _)
    have g2 : |c| * |D - v * v| ≤ |c| * (ρ * (v * v)) := mul_le_mul_of_nonneg_left hD (abs_nonneg _)
    rw [abs_mul] at g1
    have e1 : ρ * (|c| * |v|) * |v| = ρ * |c| * (v * v) := by rw [← hvv]; ring
    linarith
  refine n1.trans ?_
  have e3 : 5 / 2 * ρ * (|c| / |v|) * (D * |v|) = 5 / 2 * ρ * |c| * D := by field_simp
  rw [e3]
  have hcρ : 0 ≤ ρ * |c| := mul_nonneg hρ0.le (abs_nonneg _)
  have : ρ * |c| * (2 * (v * v)) ≤ ρ * |c| * (5 / 2 * D) := mul_le_mul_of_nonneg_left (by nlinarith) hcρ
  linarith

theorem quot_real {c v : F64} (hc : MidR c) (hv : fin v) (v1 : 1 / 2 ^ 451 ≤ |re v|) (v2 : |re v| ≤ 2 ^ 422) :
    (fin (v * v) ∧ v * v ≠ 0) ∧ fin (c * v / (v * v)) ∧ |re (c * v / (v * v)) - re c / re v| ≤ 4 * ρ * |re c / re v| := by
  have hρ0 := ρ_pos
  have hρ : ρ ≤ 1 / 1000 := ρ_small.trans (by norm_num)
  have v0 : 0 < |re v| := lt_of_lt_of_le (by positivity) v1
  have vne : re v ≠ 0 := abs_pos.mp v0
  have lo : ∀ {k l : ℕ}, k ≤ l → (1 : ℝ) / 2 ^ l ≤ 1 / 2 ^ k := fun h => one_div_le_one_div_of_le (by positivity) (pow_le_pow_right₀ (by norm_num) h)
  have up : ∀ {k l : ℕ}, k ≤ l → (2 : ℝ) ^ k ≤ 2 ^ l := fun h => pow_le_pow_right₀ (by norm_num) h
  have em : ∀ k l : ℕ, (1 : ℝ) / 2 ^ k * (1 / 2 ^ l) = 1 / 2 ^ (k + l) := fun k l => by rw [div_mul_div_comm, one_mul, ← pow_add]
  obtain ⟨p1, p2⟩ := F64.mul_rel hc.1 hv (by
    rcases hc.2 with h | h
    · left; rw [h, MulZeroClass.zero_mul]
    · right
      rw [abs_mul]
      refine le_trans ?_ (mul_le_mul h.1 v1 (by positivity) (abs_nonneg _))
      rw [em]; exact lo (by norm_num)) (by
    rw [abs_mul]
    refine (mul_le_mul hc.le v2 (abs_nonneg _) (by positivity)).trans ?_
    rw [← pow_add]; exact up (by norm_num))
  obtain ⟨d1, d2⟩ := F64.mul_rel hv hv (by
    right
    rw [abs_mul]
    refine le_trans ?_ (mul_le_mul v1 v1 (by positivity) (abs_nonneg _))
    rw [em]; exact lo (by norm_num)) (by
    rw [abs_mul]
    refine (mul_le_mul v2 v2 (abs_nonneg _) (by positivity)).trans ?_
    rw [← pow_add]; exact up (by norm_num))
  obtain ⟨hD0, hq⟩ := quot_two vne p2 d2
  refine ⟨⟨d1, fun h => hD0 (by rw [h, re_zero])⟩, ?_⟩
  set P := re (c * v) with hP
  set D := re (v * v) with hD
  set t := |re c / re v| with ht
  have ht0 : 0 ≤ t := abs_nonneg _
  have hs : 5 / 2 * ρ * t ≤ 1 / 4 * t := mul_le_mul_of_nonneg_right (by linarith) ht0
  have q1 : |P / D| ≤ 5 / 4 * t := by
    have := abs_sub_abs_le_abs_sub (P / D) (re c / re v)
    linarith
  have q2 : 3 / 4 * t ≤ |P / D| := by
    have := abs_sub_abs_le_abs_sub (re c / re v) (P / D)
    rw [abs_sub_comm] at this
    linarith
  have t2 : t ≤ 2 ^ 651 := by
    rw [ht, abs_div, div_le_iff₀ v0]
    refine hc.le.trans ?_
    refine le_trans ?_ (mul_le_mul_of_nonneg_left v1 (by positivity))
    rw [mul_one_div, le_div_iff₀ (by positivity), ← pow_add]
  have t1 : re c = 0 ∨ 1 / 2 ^ 622 ≤ t := by
    rcases hc.2 with h | h
    · exact .inl h
    · right
      rw [ht, abs_div, le_div_iff₀ v0]
      refine le_trans ?_ h.1
      refine (mul_le_mul_of_nonneg_left v2 (by positivity)).trans ?_
      rw [div_mul_eq_mul_div, one_mul, div_le_div_iff₀ (by positivity) (by positivity), one_mul, ← pow_add]
  obtain ⟨r1, r2⟩ := F64.div_rel p1 d1 hD0 (by
    rcases t1 with h | h
    · left
      have := p2
      rw [h, MulZeroClass.zero_mul, abs_zero, MulZeroClass.mul_zero, sub_zero] at this
      exact abs_nonpos_iff.mp this
    · right
      have e : (1 : ℝ) / 2 ^ 623 = 1 / 2 * (1 / 2 ^ 622) := by rw [pow_succ]; field_simp
      have := lo (show 623 ≤ 1000 by norm_num)
      rw [e] at this
      generalize (1 : ℝ) / 2 ^ 1000 = w at *
      generalize (1 : ℝ) / 2 ^ 622 = w' at *
      linarith) (by
    show |P / D| ≤ _
    have e : (2 : ℝ) ^ 652 = 2 * 2 ^ 651 := pow_succ' _ _
    have := up (show 652 ≤ 1000 by norm_num)
    rw [e] at this
    clear e t1 v1 v2 p2 d2
    generalize (2 : ℝ) ^ 1000 = w at *
    generalize (2 : ℝ) ^ 651 = w' at *
    linarith)
  refine ⟨r1, (abs_sub_le _ (P / D) _).trans ?_⟩
  have : ρ * |P / D| ≤ ρ * (5 / 4 * t) := mul_le_mul_of_nonneg_left q1 hρ0.le
  have h3 : 0 ≤ ρ * t := mul_nonneg hρ0.le ht0
  linarith

theorem Cx.div_real {c : Cx F64} (hc : c.Fin) (w : F64) : c / (⟨w, 0⟩ : Cx F64) = ⟨c.re * w / (w * w), c.im * w / (w * w)⟩ := by
  have h00 : (0 : F64) * 0 = 0 := FloatModel.mul_zero fin_zero
  apply Cx.ext'
  · show (c.re * w + c.im * 0) / (w * w + 0 * 0) = _
    rw [h00, FloatModel.mul_zero hc.2, CoeffLaws.add_zero, CoeffLaws.add_zero]
  · show (c.im * w - c.re * 0) / (w * w + 0 * 0) = _
    rw [h00, FloatModel.mul_zero hc.1, CoeffLaws.sub_zero, CoeffLaws.add_zero]

theorem quot_nearC {c v Q δ τ C : ℝ} (hQ : Q ≠ 0) (hτ : 0 ≤ τ) (hδ : δ ≤ 1 / 8) (hv : |v - Q| ≤ δ * |Q|) (hC : |C - c / v| ≤ τ * |c / v|) :
    |C - c / Q| ≤ 8 / 7 * (δ + τ) * |c / Q| := by
  have hQ' : 0 < |Q| := abs_pos.mpr hQ
  have h1 : 7 / 8 * |Q| ≤ |v| := by
    have := abs_sub_abs_le_abs_sub Q v
    rw [abs_sub_comm] at this
    have : δ * |Q| ≤ 1 / 8 * |Q| := mul_le_mul_of_nonneg_right hδ hQ'.le
    linarith
  have hv0' : 0 < |v| := by linarith
  have hv0 : v ≠ 0 := abs_pos.mp hv0'
  have e : c / v - c / Q = c / v * ((Q - v) / Q) := by field_simp
  have e2 : |c / v| ≤ |c / Q| * (8 / 7) := by
    rw [abs_div, abs_div, div_mul_eq_mul_div, div_le_div_iff₀ hv0' hQ']
    calc |c| * |Q| ≤ |c| * (8 / 7 * |v|) := mul_le_mul_of_nonneg_left (by linarith) (abs_nonneg _)
      _ = _ := by ring
  have e3 : |(Q - v) / Q| ≤ δ := by rw [abs_div, div_le_iff₀ hQ', abs_sub_comm]; exact hv
  have h3 : |C - c / Q| ≤ τ * |c / v| + |c / v| * δ := by
    refine (abs_sub_le C (c / v) (c / Q)).trans (add_le_add hC ?_)
    rw [e, abs_mul]
    exact mul_le_mul_of_nonneg_left e3 (abs_nonneg _)
  have hδ0 : 0 ≤ δ := (abs_nonneg _).trans e3
  calc _ ≤ (δ + τ) * |c / v| := by linarith
    _ ≤ (δ + τ) * (|c / Q| * (8 / 7)) := mul_le_mul_of_nonneg_left e2 (by linarith)
    _ = _ := by ring

/-- Sum of the squares of the parts of the coefficients. -/
noncomputable def sqSumC (n : Nat) (x : Nat → Cx F64) : ℝ := ∑ i ∈ range (2 ^ n), (re (x i).re ^ 2 + re (x i).im ^ 2)

theorem absSumC_sq (n : Nat) (x : Nat → Cx F64) : absSumC n x x ≤ 2 * sqSumC n x := by
  unfold absSumC sqSumC
  rw [mul_sum]
  refine sum_le_sum fun i _ => ?_
  rw [← sq_abs (re (x i).re), ← sq_abs (re (x i).im)]
  nlinarith [sq_nonneg (|re (x i).re| - |re (x i).im|)]

theorem cmag2_le (hA : A.WF) (ha : SameValuesC a a' x) {q : ℝ} (hq : a'.cmag2 (starRingEnd ℂ) = .ok (q : ℂ)) : |q| ≤ sqSumC A.dim x := by
  rw [cmag2_ok hA ha.valid' (map_zero _)] at hq
  injection hq with hq
  have e : |q| = ‖(q : ℂ)‖ := by rw [Complex.norm_real, Real.norm_eq_abs]
  rw [e, ← hq]
  unfold geo sqSumC
  refine (norm_sum_le _ _).trans (sum_le_sum fun i hi => ?_)
  have hi' := mem_range.mp hi
  beta_reduce
  rw [Nat.xor_zero, ha.val' hi']
  have h1 := bsgn_sigma_abs hA hi' hi'
  have h2 : ‖((bsgn A.sigma A.dim i i : ℤ) : ℂ)‖ ≤ 1 := by
    rw [Complex.norm_intCast]
    exact_mod_cast h1
  have h3 : ‖((rsg A.dim i : ℤ) : ℂ)‖ = 1 := by rcases rsg_unit A.dim i with h | h <;> rw [h] <;> simp
  have h4 : ‖(x i).val‖ * ‖(x i).val‖ = re (x i).re ^ 2 + re (x i).im ^ 2 := by
    rw [Complex.norm_mul_self_eq_normSq, Complex.normSq_apply]
    show re (x i).re * re (x i).re + re (x i).im * re (x i).im = _
    ring
  rw [zsmul_eq_mul, zsmul_eq_mul, norm_mul, norm_mul, norm_mul, h3, one_mul, RCLike.norm_conj]
  change ‖_‖ * (‖(x i).val‖ * ‖(x i).val‖) ≤ _
  rw [h4]
  exact mul_le_of_le_one_left (by positivity) h2

/-- **C56 with doubles: `cmag2`.** If the parts of the coefficients are zero or between `2⁻²⁰⁰` and `2²⁰⁰`, in up to 20 dimensions,
`cmag2` is finite, its imaginary part is exactly zero, and its relative error is at most `7/2 κ (2ⁿ + 2) 2⁻⁵³`, where `κ` is the
ratio of the sum of the squares of the parts and the absolute value of the exact `cmag2`. -/
theorem C56_float_cmag2 (hA : A.WF) (hn : A.dim ≤ 20) (ha : SameValuesC a a' x)
    (hx : ∀ i < 2 ^ A.dim, MidR (x i).re ∧ MidR (x i).im) {q κ : ℝ}
    (hq : a'.cmag2 (starRingEnd ℂ) = .ok (q : ℂ)) (h0 : q ≠ 0) (hκ : sqSumC A.dim x ≤ κ * |q|) (hs : κ * (2 ^ A.dim + 2) ≤ 2 ^ 48) :
    ∃ w : F64, a.cmag2 Cx.conjF = .ok ⟨w, 0⟩ ∧ fin w ∧ |re w - q| ≤ 7 / 2 * (κ * (2 ^ A.dim + 2)) / 2 ^ 53 * |q| ∧
      1 / 2 ^ 450 ≤ |q| ∧ |q| ≤ 2 ^ 421 := by
  set Mg := sqSumC A.dim x with hM
  have hq' : 0 < |q| := abs_pos.mpr h0
  have hQM : |q| ≤ Mg := cmag2_le hA ha hq
  have hM0 : 0 < Mg := lt_of_lt_of_le hq' hQM
  have M1 : 1 / 2 ^ 400 ≤ Mg := by
    have : ∃ i ∈ range (2 ^ A.dim), re (x i).re ^ 2 + re (x i).im ^ 2 ≠ 0 := by
      by_contra h
      push Not at h
      have : Mg = 0 := sum_eq_zero fun i hi => h i hi
      exact hM0.ne' this
    obtain ⟨i, hi, hne⟩ := this
    have h2 : re (x i).re ^ 2 + re (x i).im ^ 2 ≤ Mg :=
      single_le_sum (f := fun i => re (x i).re ^ 2 + re (x i).im ^ 2) (fun _ _ => by positivity) hi
    refine le_trans ?_ h2
    have key : ∀ {c : F64}, 1 / 2 ^ 200 ≤ |re c| → (1 : ℝ) / 2 ^ 400 ≤ re c ^ 2 := fun h1 => by
      rw [← sq_abs, sq]
      calc (1 : ℝ) / 2 ^ 400 = 1 / 2 ^ 200 * (1 / 2 ^ 200) := by rw [div_mul_div_comm, one_mul, ← pow_add]
        _ ≤ _ := mul_le_mul h1 h1 (by positivity) (abs_nonneg _)
    obtain ⟨g1, g2⟩ := hx i (mem_range.mp hi)
    rcases g1.2 with h | h
    · rcases g2.2 with h' | h'
      · exact absurd (by rw [h, h']; norm_num) hne
      · exact (key h'.1).trans (le_add_of_nonneg_left (sq_nonneg _))
    · exact (key h.1).trans (le_add_of_nonneg_right (sq_nonneg _))
  have hL : (2 : ℝ) ^ A.dim ≤ 2 ^ 20 := pow_le_pow_right₀ (by norm_num) hn
  have M2 : Mg ≤ 2 ^ 421 := by
    have key : ∀ {c : F64}, MidR c → re c ^ 2 ≤ (2 : ℝ) ^ 400 := fun h => by
      rw [← sq_abs, sq]
      calc _ ≤ (2 : ℝ) ^ 200 * 2 ^ 200 := mul_le_mul h.le h.le (abs_nonneg _) (by positivity)
        _ = 2 ^ 400 := by rw [← pow_add]
    have : Mg ≤ ∑ i ∈ range (2 ^ A.dim), (2 : ℝ) ^ 401 := sum_le_sum fun i hi => by
      obtain ⟨g1, g2⟩ := hx i (mem_range.mp hi)
      have e : (2 : ℝ) ^ 401 = 2 ^ 400 + 2 ^ 400 := by rw [pow_succ, mul_two]
      rw [e]
      exact add_le_add (key g1) (key g2)
    refine this.trans ?_
    rw [sum_const, card_range, nsmul_eq_mul]
    push_cast
    calc (2 : ℝ) ^ A.dim * 2 ^ 401 ≤ 2 ^ 20 * 2 ^ 401 := mul_le_mul_of_nonneg_right hL (by positivity)
      _ = 2 ^ 421 := by rw [← pow_add]
  -- the error
  obtain ⟨z, e, h1, h2, h3⟩ := C99_cmag2 hA ha rfl
  rw [hq] at h2
  injection h2 with h2
  subst h2
  set B := absSumC A.dim x x + 2 ^ A.dim * (4 * η F64 / u F64) with hB
  have hu0 : (0 : ℝ) ≤ 4 * η F64 / u F64 := Cx.uflow_nonneg (F := F64)
  have hB0 : 0 ≤ B := add_nonneg (absSumC_nonneg _ _ _) (by positivity)
  have hB2 : B ≤ 17 / 8 * Mg := by
    have g1 : (4 * η F64 / u F64 : ℝ) ≤ 1 / 2 ^ 900 := uflow64_le
    have g2 : (1 : ℝ) / 2 ^ 900 ≤ 1 / 2 ^ 423 := one_div_le_one_div_of_le (by positivity) (pow_le_pow_right₀ (by norm_num) (by norm_num))
    have g3 : (2 : ℝ) ^ A.dim * (4 * η F64 / u F64) ≤ 2 ^ 20 * (1 / 2 ^ 423) := mul_le_mul hL (g1.trans g2) hu0 (by positivity)
    have g4 : (2 : ℝ) ^ 20 * (1 / 2 ^ 423) = 1 / 2 ^ 400 / 8 := by
      have : (2 : ℝ) ^ 423 = 2 ^ 20 * (2 ^ 400 * 8) := by rw [show (8 : ℝ) = 2 ^ 3 by norm_num, ← pow_add, ← pow_add]
      rw [this]
      field_simp
    have g5 := absSumC_sq A.dim x
    rw [g4] at g3
    generalize (1 : ℝ) / 2 ^ 400 = t at *
    rw [hB]
    linarith
  have hLn : 2 ^ A.dim + 2 ≤ 2 ^ 21 := by
    have : 2 ^ A.dim ≤ 2 ^ 20 := Nat.pow_le_pow_right (by norm_num) hn
    omega
  have hok : (1 + u F64) ^ (2 ^ A.dim + 2) * B ≤ Ω F64 := okF (l := 2 ^ A.dim + 2) (by omega) (by
    have e : (2 : ℝ) ^ 423 = 4 * 2 ^ 421 := by rw [show (4 : ℝ) = 2 ^ 2 by norm_num, ← pow_add]
    have h5 : (2 : ℝ) ^ 423 ≤ 2 ^ 1000 := pow_le_pow_right₀ (by norm_num) (by norm_num)
    refine le_trans ?_ h5
    rw [e]
    clear e h5
    have h6 : (0 : ℝ) < 2 ^ 421 := by positivity
    generalize (2 : ℝ) ^ 421 = t at *
    linarith)
  obtain ⟨f1, f2, f3⟩ := h3 hok
  have him : z.im = 0 := (C56_float_real ha.valid h1).resolve_right fun h => by
    rw [h] at f2
    exact f2 rfl
  refine ⟨z.re, ?_, f1, ?_, ?_, hQM.trans M2⟩
  · rw [h1]
    congr 1
    exact Cx.ext' rfl him
  · have f4 : |re z.re - q| ≤ ((1 + u F64) ^ (2 ^ A.dim + 2) - 1) * B := by
      refine le_trans ?_ f3
      rw [Complex.ofReal_re]
      exact le_add_of_nonneg_right (abs_nonneg _)
    have hLr : ((2 ^ A.dim + 2 : ℕ) : ℝ) * u F64 ≤ 1 / 2 ^ 20 := by
      have : ((2 ^ A.dim + 2 : ℕ) : ℝ) ≤ (2 ^ 21 : ℕ) := by exact_mod_cast hLn
      rw [C69_f64.1]
      push_cast at this ⊢
      linarith
    have hpw := pow_sub_one_le (u_nonneg (F := F64)) (L := 2 ^ A.dim + 2) (by linarith)
    have hp0 : 0 ≤ 3 / 2 * (((2 ^ A.dim + 2 : ℕ) : ℝ) * u F64) := by
      have := u_nonneg (F := F64)
      positivity
    refine f4.trans ?_
    calc _ ≤ 3 / 2 * (((2 ^ A.dim + 2 : ℕ) : ℝ) * u F64) * (17 / 8 * (κ * |q|)) :=
          mul_le_mul (by linarith) (hB2.trans (mul_le_mul_of_nonneg_left hκ (by norm_num))) hB0 hp0
      _ ≤ _ := by
        rw [C69_f64.1]
        push_cast
        have : 0 ≤ κ * |q| * ((2 : ℝ) ^ A.dim + 2) / 2 ^ 53 := by
          have := hM0.le.trans hκ
          positivity
        have e : 3 / 2 * (((2 : ℝ) ^ A.dim + 2) * (1 / 2 ^ 53)) * (17 / 8 * (κ * |q|)) = 51 / 16 * (κ * |q| * ((2 : ℝ) ^ A.dim + 2) / 2 ^ 53) := by ring
        have e' : 7 / 2 * (κ * (2 ^ A.dim + 2)) / 2 ^ 53 * |q| = 7 / 2 * (κ * |q| * ((2 : ℝ) ^ A.dim + 2) / 2 ^ 53) := by ring
        rw [e, e']
        linarith
  · have hκ48 : κ ≤ 2 ^ 48 := by
      have h2 : 0 < κ * |q| := lt_of_lt_of_le hM0 hκ
      have hκ0 : 0 < κ := (mul_pos_iff_of_pos_right hq').mp h2
      refine le_trans ?_ hs
      exact le_mul_of_one_le_right hκ0.le (by have : (0 : ℝ) < 2 ^ A.dim := by positivity
                                              linarith)
    have h1 : 1 / 2 ^ 400 ≤ 2 ^ 50 * |q| :=
      M1.trans (hκ.trans (mul_le_mul_of_nonneg_right (hκ48.trans (by norm_num)) hq'.le))
    have h2 : (1 : ℝ) / 2 ^ 450 = 1 / 2 ^ 400 / 2 ^ 50 := by rw [div_div, ← pow_add]
    rw [h2, div_le_iff₀ (by positivity), mul_comm]
    exact h1

/-- **C56 with doubles: `revcm`.** Under the same conditions the parts of all coefficients of `a.revcm()` are finite and have a
relative error of at most `(4 κ (2ⁿ + 2) + 5) 2⁻⁵³`. -/
theorem C56_float_revcm (hA : A.WF) (hn : A.dim ≤ 20) (ha : SameValuesC a a' x)
    (hx : ∀ i < 2 ^ A.dim, MidR (x i).re ∧ MidR (x i).im) {q κ : ℝ}
    (hq : a'.cmag2 (starRingEnd ℂ) = .ok (q : ℂ)) (h0 : q ≠ 0) (hκ : sqSumC A.dim x ≤ κ * |q|) (hs : κ * (2 ^ A.dim + 2) ≤ 2 ^ 48) :
    ∃ (z : Nat → Cx F64) (e : Nat → ℂ), Coefs (a.revcmG Cx.conjF) z ∧ Coefs (a'.revcm (starRingEnd ℂ)) e ∧
      ∀ k < 2 ^ A.dim, fin (z k).re ∧ fin (z k).im ∧
        |re (z k).re - (e k).re| ≤ (4 * (κ * (2 ^ A.dim + 2)) + 5) / 2 ^ 53 * |(e k).re| ∧
        |re (z k).im - (e k).im| ≤ (4 * (κ * (2 ^ A.dim + 2)) + 5) / 2 ^ 53 * |(e k).im| := by
  obtain ⟨w, hw, wf, wn, Q1, Q2⟩ := C56_float_cmag2 hA hn ha hx hq h0 hκ hs
  have hq' : 0 < |q| := abs_pos.mpr h0
  have hρ0 := ρ_pos
  set δ := 7 / 2 * (κ * (2 ^ A.dim + 2)) / 2 ^ 53 with hδ
  have hδ8 : δ ≤ 1 / 8 := by
    rw [hδ, div_le_iff₀ (by positivity)]
    refine (mul_le_mul_of_nonneg_left hs (by norm_num)).trans (by norm_num)
  have h2 : δ * |q| ≤ 1 / 8 * |q| := mul_le_mul_of_nonneg_right hδ8 hq'.le
  have v1 : 1 / 2 ^ 451 ≤ |re w| := by
    have h1 := abs_sub_abs_le_abs_sub q (re w)
    rw [abs_sub_comm] at h1
    have e : (1 : ℝ) / 2 ^ 451 = 1 / 2 ^ 450 / 2 := by rw [pow_succ]; field_simp
    rw [e]
    clear e Q2
    generalize (1 : ℝ) / 2 ^ 450 = t at *
    linarith
  have v2 : |re w| ≤ 2 ^ 422 := by
    have h1 := abs_sub_abs_le_abs_sub (re w) q
    have e : (2 : ℝ) ^ 422 = 2 ^ 421 * 2 := pow_succ _ _
    rw [e]
    clear e v1 Q1
    generalize (2 : ℝ) ^ 421 = t at *
    linarith
  obtain ⟨r, r', r1, -, r3⟩ := ha.revc
  set y : Nat → Cx F64 := fun i => sgnC (rsg A.dim i) (x i).conjF with hy
  have hy' : ∀ i < 2 ^ A.dim, (y i).Fin ∧ (y i).val = rsg A.dim i • (starRingEnd ℂ) (x i).val ∧ MidR (y i).re ∧ MidR (y i).im := fun i hi => by
    obtain ⟨g1, g2⟩ := val_conj (ha.finite i hi)
    obtain ⟨g3, g4⟩ := val_sgnC g1 (rsg_unit A.dim i)
    obtain ⟨m1, m2⟩ := hx i hi
    have hv : (y i).val = rsg A.dim i • (starRingEnd ℂ) (x i).val := by rw [hy]; beta_reduce; rw [g4, g2]
    have e1 : |re (y i).re| = |re (x i).re| := by
      have := congrArg (fun z : ℂ => |z.re|) hv
      beta_reduce at this
      change |re (y i).re| = _ at this
      rw [this]
      rcases rsg_unit A.dim i with h | h <;> rw [h] <;> simp [Cx.val]
    have e2 : |re (y i).im| = |re (x i).im| := by
      have := congrArg (fun z : ℂ => |z.im|) hv
      beta_reduce at this
      change |re (y i).im| = _ at this
      rw [this]
      rcases rsg_unit A.dim i with h | h <;> rw [h] <;> simp [Cx.val]
    refine ⟨g3, hv, ⟨g3.1, ?_⟩, ⟨g3.2, ?_⟩⟩
    · rw [← abs_eq_zero, e1, abs_eq_zero]; exact m1.2
    · rw [← abs_eq_zero, e2, abs_eq_zero]; exact m2.2
  have m0 : MidR (0 : F64) := ⟨fin_zero, .inl re_zero⟩
  obtain ⟨⟨d1, d2⟩, -⟩ := quot_real m0 wf v1 v2
  have hz0 : (0 : Cx F64) / (⟨w, 0⟩ : Cx F64) = 0 := by
    rw [Cx.div_real ⟨fin_zero, fin_zero⟩]
    have e : (0 : F64) * w / (w * w) = 0 := by rw [FloatModel.zero_mul wf, FloatModel.zero_div d1 d2]
    exact Cx.ext' e e
  have hden : Denotes (a.revcmG Cx.conjF) (fun i => y i / (⟨w, 0⟩ : Cx F64)) := by
    obtain ⟨t, ht, htv, htf⟩ := mapFold_denotes r3.valid r3.valid.supp (fun _ c => c / (⟨w, 0⟩ : Cx F64)) (fun _ => hz0)
    refine ⟨t, ?_, htv, fun i hi => ?_⟩
    · unfold MV.revcmG
      simp only [r1, hw, bind, Except.bind]
      exact ht
    · rw [htf i hi]
      beta_reduce
      rw [r3.val hi]
  have hq0 : (q : ℂ) ≠ 0 := by exact_mod_cast h0
  have hex := revcm_denotes ha.valid' (conj := starRingEnd ℂ) (map_zero _) hq hq0
  refine ⟨_, _, hden.coefs, hex.coefs, fun k hk => ?_⟩
  obtain ⟨k1, k2, k3, k4⟩ := hy' k hk
  rw [Cx.div_real k1, ha.val' hk]
  change fin ((y k).re * w / (w * w)) ∧ fin ((y k).im * w / (w * w)) ∧ _
  obtain ⟨-, p1, p2⟩ := quot_real k3 wf v1 v2
  obtain ⟨-, p3, p4⟩ := quot_real k4 wf v1 v2
  have hc : 8 / 7 * (δ + 4 * ρ) ≤ (4 * (κ * (2 ^ A.dim + 2)) + 5) / 2 ^ 53 := by
    have hρ2 : ρ ≤ 35 / 32 * (1 / 2 ^ 53) := by unfold ρ; norm_num
    have e : (4 * (κ * (2 ^ A.dim + 2)) + 5) / 2 ^ 53 = 8 / 7 * δ + 5 * (1 / 2 ^ 53) := by rw [hδ]; ring
    rw [e]
    generalize (1 : ℝ) / 2 ^ 53 = t at *
    linarith
  have er : (rsg A.dim k • (starRingEnd ℂ) (x k).val / (q : ℂ)).re = re (y k).re / q := by
    rw [← k2, Complex.div_ofReal_re]; rfl
  have ei : (rsg A.dim k • (starRingEnd ℂ) (x k).val / (q : ℂ)).im = re (y k).im / q := by
    rw [← k2, Complex.div_ofReal_im]; rfl
  refine ⟨p1, p3, ?_, ?_⟩
  · change |re ((y k).re * w / (w * w)) - (rsg A.dim k • (starRingEnd ℂ) (x k).val / (q : ℂ)).re| ≤ _ * |(rsg A.dim k • (starRingEnd ℂ) (x k).val / (q : ℂ)).re|
    rw [er]
    exact (quot_nearC h0 (by positivity) hδ8 wn p2).trans (mul_le_mul_of_nonneg_right hc (abs_nonneg _))
  · change |re ((y k).im * w / (w * w)) - (rsg A.dim k • (starRingEnd ℂ) (x k).val / (q : ℂ)).im| ≤ _ * |(rsg A.dim k • (starRingEnd ℂ) (x k).val / (q : ℂ)).im|
    rw [ei]
    exact (quot_nearC h0 (by positivity) hδ8 wn p4).trans (mul_le_mul_of_nonneg_right hc (abs_nonneg _))

/-- **C56 with doubles: `revcm`** in Euclidean algebras. -/
theorem C56_float_revcm_euclidean (hA : A.WF) (hn : A.dim ≤ 20) (hi : A.imagMask = 0) (hp : A.projMask = 0) (ha : SameValuesC a a' x)
    (hx : ∀ i < 2 ^ A.dim, MidR (x i).re ∧ MidR (x i).im) (h0 : ∃ i < 2 ^ A.dim, (x i).val ≠ 0) :
    ∃ (z : Nat → Cx F64) (e : Nat → ℂ), Coefs (a.revcmG Cx.conjF) z ∧ Coefs (a'.revcm (starRingEnd ℂ)) e ∧
      ∀ k < 2 ^ A.dim, fin (z k).re ∧ fin (z k).im ∧
        |re (z k).re - (e k).re| ≤ (4 * (2 ^ A.dim + 2) + 5) / 2 ^ 53 * |(e k).re| ∧
        |re (z k).im - (e k).im| ≤ (4 * (2 ^ A.dim + 2) + 5) / 2 ^ 53 * |(e k).im| := by
  have hm := (C56_euclidean hA hi hp ha.valid' ha.coefs').1
  have e : ∑ i ∈ range (2 ^ A.dim), Complex.normSq (x i).val = sqSumC A.dim x := by
    refine sum_congr rfl fun i _ => ?_
    rw [Complex.normSq_apply]
    show re (x i).re * re (x i).re + re (x i).im * re (x i).im = _
    ring
  have hpos : 0 < sqSumC A.dim x := by
    obtain ⟨i, hi, hne⟩ := h0
    rw [← e]
    exact lt_of_lt_of_le (Complex.normSq_pos.mpr hne)
      (single_le_sum (f := fun i => Complex.normSq (x i).val) (fun _ _ => Complex.normSq_nonneg _) (mem_range.mpr hi))
  have hL : (2 : ℝ) ^ A.dim ≤ 2 ^ 20 := pow_le_pow_right₀ (by norm_num) hn
  have := C56_float_revcm hA hn ha hx (κ := 1) (q := sqSumC A.dim x) (by rw [← e]; exact hm) hpos.ne'
    (by rw [one_mul, abs_of_pos hpos]) (by rw [one_mul]; exact (add_le_add_left hL 2).trans (by norm_num))
  rw [one_mul] at this
  exact this

end

namespace Ex

example : ∃ (z : TClifford.Cx F64) (e : ℂ), (denseC xFC).cmag2 Cx.conjF = .ok z ∧ (denseCC xFC).cmag2 (starRingEnd ℂ) = .ok e ∧ fin z.re ∧ z.im = 0 := by
  obtain ⟨z, e, h1, h2, h3⟩ := C99_cmag2 E_wf sameFC rfl
  refine ⟨z, e, h1, h2, (h3 (scalar_ok rfl)).1, (C56_float_real sameFC.valid h1).resolve_right fun h => (h3 (scalar_ok rfl)).2.1 h⟩

/-- Coefficients with the parts 1, 3 and 4 -/
def xDC (i : Nat) : TClifford.Cx F64 := ⟨xD i, xD (i + 1)⟩

theorem sameDC : SameValuesC (denseC xDC) (denseCC xDC) xDC := sameC fun i _ => ⟨(xD_mid i).1, (xD_mid (i + 1)).1⟩

theorem xDC_ne : (xDC 0).val ≠ 0 := fun h => xD_ne (congrArg Complex.re h)

theorem sqDC_pos : 0 < sqSumC E.dim xDC :=
  lt_of_lt_of_le (add_pos_of_pos_of_nonneg (sq_pos_of_ne_zero xD_ne) (sq_nonneg _))
    (single_le_sum (f := fun i => re (xDC i).re ^ 2 + re (xDC i).im ^ 2) (fun _ _ => by positivity) (show 0 ∈ range (2 ^ E.dim) by decide))

theorem xDC_mag : (denseCC xDC).cmag2 (starRingEnd ℂ) = .ok ((sqSumC E.dim xDC : ℝ) : ℂ) := by
  rw [(C56_euclidean E_wf rfl rfl sameDC.valid' sameDC.coefs').1]
  congr 2
  refine sum_congr rfl fun i _ => ?_
  rw [Complex.normSq_apply]
  show re (xDC i).re * re (xDC i).re + re (xDC i).im * re (xDC i).im = _
  ring

example := C56_float_cmag2 E_wf (by decide) sameDC (fun i _ => ⟨xD_mid i, xD_mid (i + 1)⟩) (κ := 1) xDC_mag sqDC_pos.ne'
  (by rw [one_mul, abs_of_pos sqDC_pos]) (by rw [show E.dim = 3 from rfl]; norm_num)
example := C56_float_revcm E_wf (by decide) sameDC (fun i _ => ⟨xD_mid i, xD_mid (i + 1)⟩) (κ := 1) xDC_mag sqDC_pos.ne'
  (by rw [one_mul, abs_of_pos sqDC_pos]) (by rw [show E.dim = 3 from rfl]; norm_num)
example := C56_float_revcm_euclidean E_wf (by decide) rfl rfl sameDC (fun i _ => ⟨xD_mid i, xD_mid (i + 1)⟩) ⟨0, by decide, xDC_ne⟩

set_option exponentiation.threshold 2000 in
/-- When the products of the parts are too large the imaginary part is not a number: `conj` of `2⁶⁰⁰ + 2⁶⁰⁰ i` times itself. -/
example : (⟨Flt.ofRat (2 ^ 600), Flt.ofRat (2 ^ 600)⟩ : TClifford.Cx F64).conjF * ⟨Flt.ofRat (2 ^ 600), Flt.ofRat (2 ^ 600)⟩ =
    ⟨.nonFinite, .nonFinite⟩ := by decide +kernel

end Ex

end TClifford
