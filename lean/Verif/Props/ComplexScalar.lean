import Verif.Props.FloatComplex
import Verif.Proofs.FFTExpF
/-
The scalar products of multivectors with complex floating point coefficients: C99.
-/

set_option linter.unusedSectionVars false

namespace TClifford

open MV Finset FloatModel

variable {F : Type} [Zero F] [One F] [Add F] [Sub F] [Neg F] [Mul F] [Div F] [FloatModel F] [FloatSigns F] [DecidableEq F]
variable {A : ClAlg} {S : Type} [CoeffStorage S (Cx F)] [LawfulStorage S (Cx F)] {S' : Type} [CoeffStorage S' ℂ] [LawfulStorage S' ℂ]
variable {a b : MV A S} {a' b' : MV A S'} {x y : Nat → Cx F}

/-- Both computations succeed, and if `P` holds the parts of the floating point result are finite and off by at most `ε` together. -/
def NearSC (p : Res (Cx F)) (q : Res ℂ) (P : Prop) (ε : ℝ) : Prop :=
  ∃ z e, p = .ok z ∧ q = .ok e ∧ (P → fin z.re ∧ fin z.im ∧ |re z.re - e.re| + |re z.im - e.im| ≤ ε)

/-- Sum of the products of the absolute values (sums of those of the parts). -/
noncomputable def absSumC (n : Nat) (x y : Nat → Cx F) : ℝ :=
  ∑ i ∈ range (2 ^ n), (|re (x i).re| + |re (x i).im|) * (|re (y i).re| + |re (y i).im|)

theorem MV.SameValuesC.good (h4 : 4 ≤ M F) (hu : 0 < u F) (h : SameValuesC a a' x) {i : Nat} (hi : i < 2 ^ A.dim) :
    Cx.Good (Cx.nearRel h4 hu) (a.val i) := by
  rw [h.val hi]
  exact ⟨h.finite i hi, h.finite i hi, le_rfl, by rw [sub_self, Cx.n1_zero]; simp⟩

/-- A sum of products of given numbers. -/
theorem scalar_nearC (h4 : 4 ≤ M F) (hu : 0 < u F) {n : Nat} (hx : ∀ i < 2 ^ n, fin (x i).re ∧ fin (x i).im) (hy : ∀ i < 2 ^ n, fin (y i).re ∧ fin (y i).im)
    {c : Nat → ℤ} (hc : ∀ i < 2 ^ n, |c i| ≤ 1) {r : Cx F}
    (hr : Cx.Acc (Cx.nearRel h4 hu) r (∑ i ∈ range (2 ^ n), Cx.tau (c i) (x i) (y i))) {B : ℝ} (hB : B = absSumC n x y + 2 ^ n * (4 * η F / u F))
    (hok : (1 + u F) ^ (2 ^ n + 2) * B ≤ Ω F) :
    Cx.Near (2 ^ n + 2) r (∑ i ∈ range (2 ^ n), c i • ((x i).val * (y i).val)) B := by
  have self : ∀ v : Cx F, v.Fin → Cx.Near 0 v v.val (Cx.n1 v.val) := fun v hv => ⟨hv, le_rfl, by rw [sub_self, Cx.n1_zero]; simp⟩
  have e : B = ∑ i ∈ range (2 ^ n), Cx.n1 (x i).val * Cx.n1 (y i).val + (2 ^ n : ℕ) * Cx.uflow F := by
    rw [hB]; push_cast; rfl
  have := (Cx.near_sums h4 hu).sum (s := range (2 ^ n)) (c := c) (x := x) (y := y) (w := fun i => (x i).val) (w' := fun i => (y i).val)
    (β := fun i => Cx.n1 (x i).val) (γ := fun i => Cx.n1 (y i).val) (l := 0) (l' := 0) (N := 2 ^ n) (v := r)
    (fun i hi => hc i (mem_range.mp hi)) (by rw [card_range]) (fun i hi => self _ (hx i (mem_range.mp hi)))
    (fun i hi => self _ (hy i (mem_range.mp hi))) hr (by
      rw [_root_.zero_add, _root_.zero_add]
      show (1 + u F) ^ (2 ^ n + 2) * (_ + _ * Cx.uflow F) ≤ Ω F
      rw [← e]; exact hok)
  rw [_root_.zero_add, _root_.zero_add] at this
  change Cx.Near (2 ^ n + 2) r _ (_ + _ * Cx.uflow F) at this
  rw [e]; exact this

theorem Cx.Near.parts {l : Nat} {v : Cx F} {z : ℂ} {b : ℝ} (h : Cx.Near l v z b) :
    fin v.re ∧ fin v.im ∧ |FloatModel.re v.re - z.re| + |FloatModel.re v.im - z.im| ≤ ((1 + u F) ^ l - 1) * b := ⟨h.1.1, h.1.2, h.2.2⟩

theorem vdot_nearC (hA : A.WF) (h4 : 4 ≤ M F) (hu : 0 < u F) (ha : SameValuesC a a' x) (hb : SameValuesC b b' y) {B : ℝ}
    (hB : B = absSumC A.dim x y + 2 ^ A.dim * (4 * η F / u F)) : ∃ z e, a.vdot b = .ok z ∧ a'.vdot b' = .ok e ∧
      ((1 + u F) ^ (2 ^ A.dim + 2) * B ≤ Ω F → Cx.Near (2 ^ A.dim + 2) z e B) := by
  obtain ⟨r, h1, h2⟩ := signSum_inv (Cx.sumInv (Cx.nearRel h4 hu)) hA ha.valid hb.valid (fun _ x => x) (fun _ => rfl)
    (fun _ hi => ha.good h4 hu hi) (fun _ hi => hb.good h4 hu hi)
  refine ⟨r, _, h1, vdot_ok hA ha.valid' hb.valid', fun hP => ?_⟩
  have e1 : ∑ i ∈ range (2 ^ A.dim), Cx.tau (bsgn A.sigma A.dim i i) (a.val i) (b.val i) =
      ∑ i ∈ range (2 ^ A.dim), Cx.tau (bsgn A.sigma A.dim i i) (x i) (y i) :=
    sum_congr rfl fun i hi => by rw [ha.val (mem_range.mp hi), hb.val (mem_range.mp hi)]
  have e2 : geo A.sigma A.dim a'.val b'.val 0 = ∑ i ∈ range (2 ^ A.dim), bsgn A.sigma A.dim i i • ((x i).val * (y i).val) :=
    sum_congr rfl fun i hi => by rw [Nat.xor_zero, ha.val' (mem_range.mp hi), hb.val' (mem_range.mp hi)]
  rw [e1] at h2
  rw [e2]
  exact (scalar_nearC h4 hu ha.finite hb.finite (fun i hi => bsgn_sigma_abs hA hi hi) h2 hB hP)

theorem mag2_nearC (hA : A.WF) (h4 : 4 ≤ M F) (hu : 0 < u F) (ha : SameValuesC a a' x) {B : ℝ}
    (hB : B = absSumC A.dim x x + 2 ^ A.dim * (4 * η F / u F)) : ∃ z e, a.mag2 = .ok z ∧ a'.mag2 = .ok e ∧
      ((1 + u F) ^ (2 ^ A.dim + 2) * B ≤ Ω F → Cx.Near (2 ^ A.dim + 2) z e B) := by
  have I := Cx.sumInv (Cx.nearRel (F := F) h4 hu)
  obtain ⟨r, h1, h2⟩ := signSum_inv I hA ha.valid ha.valid (fun i x => revC i x)
    (by intro i; unfold revC; split <;> simp [SumLaws.neg_zero]) (fun i hi => by rw [revC_fl hi]; exact good_sgnC I _ (ha.good h4 hu hi))
    (fun _ hi => ha.good h4 hu hi)
  refine ⟨r, _, h1, mag2_ok hA ha.valid', fun hP => ?_⟩
  have e1 : ∑ i ∈ range (2 ^ A.dim), Cx.tau (bsgn A.sigma A.dim i i) (revC i (a.val i)) (a.val i) =
      ∑ i ∈ range (2 ^ A.dim), Cx.tau (bsgn A.sigma A.dim i i * rsg A.dim i) (x i) (x i) :=
    sum_congr rfl fun i hi => by
      rw [mem_range] at hi
      have := tau_sgnC I (rsg_unit A.dim i) (t := 1) (Or.inl rfl) (bsgn A.sigma A.dim i i) (ha.good h4 hu hi) (ha.good h4 hu hi)
      rw [mul_one, ha.val hi] at this
      rw [revC_fl hi, ha.val hi, ← this]
      simp [sgnC]
  have e2 : geo A.sigma A.dim (fun i => rsg A.dim i • a'.val i) a'.val 0 =
      ∑ i ∈ range (2 ^ A.dim), (bsgn A.sigma A.dim i i * rsg A.dim i) • ((x i).val * (x i).val) :=
    sum_congr rfl fun i hi => by
      beta_reduce
      rw [Nat.xor_zero, ha.val' (mem_range.mp hi), smul_mul_assoc, mul_smul]
  rw [e1] at h2
  rw [e2]
  refine (scalar_nearC h4 hu ha.finite ha.finite (fun i hi => ?_) h2 hB hP)
  rcases rsg_unit A.dim i with h | h <;> rw [h] <;> simpa using bsgn_sigma_abs hA hi hi

/-- **C99, `vdot`.** The computed `vdot` is within `((1+u)^(2^n+2) - 1) B` of the exact one, where `B` is the sum of the products of the
absolute values plus a term for underflow, if this is in the range. -/
theorem C99_vdot (hA : A.WF) (h4 : 4 ≤ M F) (hu : 0 < u F) (ha : SameValuesC a a' x) (hb : SameValuesC b b' y) {B : ℝ}
    (hB : B = absSumC A.dim x y + 2 ^ A.dim * (4 * η F / u F)) :
    NearSC (a.vdot b) (a'.vdot b') ((1 + u F) ^ (2 ^ A.dim + 2) * B ≤ Ω F) (((1 + u F) ^ (2 ^ A.dim + 2) - 1) * B) := by
  obtain ⟨z, e, h1, h2, h3⟩ := vdot_nearC hA h4 hu ha hb hB
  exact ⟨z, e, h1, h2, fun hP => (h3 hP).parts⟩

/-- **C99, `mag2`.** The same for `mag2`. -/
theorem C99_mag2 (hA : A.WF) (h4 : 4 ≤ M F) (hu : 0 < u F) (ha : SameValuesC a a' x) {B : ℝ}
    (hB : B = absSumC A.dim x x + 2 ^ A.dim * (4 * η F / u F)) :
    NearSC a.mag2 a'.mag2 ((1 + u F) ^ (2 ^ A.dim + 2) * B ≤ Ω F) (((1 + u F) ^ (2 ^ A.dim + 2) - 1) * B) := by
  obtain ⟨z, e, h1, h2, h3⟩ := mag2_nearC hA h4 hu ha hB
  exact ⟨z, e, h1, h2, fun hP => (h3 hP).parts⟩

theorem absSumC_le (n : Nat) (x y : Nat → Cx F) : absSumC n x y ≤ normC n x * normC n y := by
  unfold absSumC normC
  rw [sum_mul]
  refine sum_le_sum fun i hi => mul_le_mul_of_nonneg_left ?_ (by positivity)
  exact single_le_sum (f := fun i => |re (y i).re| + |re (y i).im|) (fun _ _ => by positivity) hi

theorem absSumC_nonneg (n : Nat) (x y : Nat → Cx F) : 0 ≤ absSumC n x y := sum_nonneg fun _ _ => by positivity

set_option exponentiation.threshold 2000 in
/-- The term for underflow. -/
theorem uflow64_le : Cx.uflow F64 ≤ 1 / 2 ^ 900 := by
  unfold Cx.uflow
  rw [C69_f64.2.1, C69_f64.1, show (1075 : ℕ) = 900 + 175 from rfl, pow_add]
  have h : (0 : ℝ) < 1 / 2 ^ 900 := by positivity
  rw [show (4 * (1 / (2 ^ 900 * 2 ^ 175)) / (1 / 2 ^ 53) : ℝ) = 1 / 2 ^ 900 * (4 * 2 ^ 53 / 2 ^ 175) by ring]
  exact mul_le_of_le_one_right h.le (by norm_num)

namespace Ex

set_option exponentiation.threshold 2000 in
/-- Without overflow -/
theorem scalar_ok {B : ℝ} (hB : B = absSumC E.dim xFC xFC + 2 ^ E.dim * (4 * η F64 / u F64)) :
    (1 + u F64) ^ (2 ^ E.dim + 2) * B ≤ Ω F64 := by
  have h : nearQ.ok (2 ^ E.dim + 2) B := okF (by decide) (by
    have h1 := absSumC_le E.dim xFC xFC
    have h2 := mul_le_mul xFC_norm xFC_norm (normC_nonneg _ _) (by norm_num)
    have h3 : (4 * η F64 / u F64 : ℝ) ≤ 1 / 2 ^ 900 := uflow64_le
    have h4 : (1 : ℝ) / 2 ^ 900 ≤ 1 := by rw [div_le_one (by positivity)]; exact one_le_pow₀ (by norm_num)
    have h5 : (2 : ℝ) ^ 20 ≤ 2 ^ 1000 := pow_le_pow_right₀ (by norm_num) (by norm_num)
    have h6 : (2 : ℝ) ^ E.dim = 8 := by rw [show E.dim = 3 from rfl]; norm_num
    have h7 : B ≤ 2 ^ 20 := by rw [hB, h6]; norm_num; linarith
    exact h7.trans h5)
  exact h

example : ∃ (z : TClifford.Cx F64) (e : ℂ), (denseC xFC).vdot (denseC xFC) = .ok z ∧ (denseCC xFC).vdot (denseCC xFC) = .ok e ∧ fin z.re ∧ fin z.im := by
  obtain ⟨z, e, h1, h2, h3⟩ := C99_vdot E_wf four_le_M64 u64_pos sameFC sameFC rfl
  exact ⟨z, e, h1, h2, (h3 (scalar_ok rfl)).1, (h3 (scalar_ok rfl)).2.1⟩

example : ∃ (z : TClifford.Cx F64) (e : ℂ), (denseC xFC).mag2 = .ok z ∧ (denseCC xFC).mag2 = .ok e ∧ fin z.re ∧ fin z.im := by
  obtain ⟨z, e, h1, h2, h3⟩ := C99_mag2 E_wf four_le_M64 u64_pos sameFC rfl
  exact ⟨z, e, h1, h2, (h3 (scalar_ok rfl)).1, (h3 (scalar_ok rfl)).2.1⟩

end Ex

end TClifford
