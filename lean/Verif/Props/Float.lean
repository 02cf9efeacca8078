import Verif.Proofs.FloatMV
import Verif.Proofs.Wedge
/-
Floating point coefficients: C69 to C72.
-/

set_option linter.unusedSectionVars false

namespace TClifford

open MV Finset FloatModel

section
variable {F : Type} [Zero F] [One F] [Add F] [Sub F] [Neg F] [Mul F] [Div F] [FloatModel F] [DecidableEq F]
variable {A : ClAlg} {S : Type} [CoeffStorage S F] [LawfulStorage S F] {S' : Type} [CoeffStorage S' ℝ] [LawfulStorage S' ℝ]

/-- The coefficients of `a`, as queried with `get_by_idx`, are the finite floating point numbers `x i`, and `a'` is the
multivector with the same coefficients as real numbers. -/
structure MV.SameValues (a : MV A S) (a' : MV A S') (x : Nat → F) : Prop where
  valid : a.Valid
  valid' : a'.Valid
  coefs : Coefs (.ok a) x
  coefs' : Coefs (.ok a') (fun i => re (x i))
  finite : ∀ i < 2 ^ A.dim, fin (x i)

/-- The floating point computation returns exactly the result of the computation with real numbers. -/
def MV.ExactR (x : Res (MV A S)) (y : Res (MV A S')) : Prop :=
  ∃ u v z, x = .ok u ∧ y = .ok v ∧ SameValues u v z

/-- Both computations succeed, and where the exact coefficient `e` satisfies `P`, the floating point coefficient is finite
and differs from `e` by at most `ε`. -/
def MV.NearR (x : Res (MV A S)) (y : Res (MV A S')) (P : Nat → ℝ → Prop) (ε : Nat → ℝ → ℝ) : Prop :=
  ∃ u v z e, x = .ok u ∧ y = .ok v ∧ u.Valid ∧ v.Valid ∧ Coefs (.ok u) z ∧ Coefs (.ok v) e ∧
    ∀ k < 2 ^ A.dim, P k (e k) → fin (z k) ∧ |re (z k) - e k| ≤ ε k (e k)

variable {a b : MV A S} {a' b' : MV A S'} {x y : Nat → F}

theorem MV.SameValues.val (h : SameValues a a' x) {i : Nat} (hi : i < 2 ^ A.dim) : a.val i = x i := h.coefs.val h.valid hi

theorem MV.SameValues.val' (h : SameValues a a' x) {i : Nat} (hi : i < 2 ^ A.dim) : a'.val i = re (x i) :=
  h.coefs'.val h.valid' hi

theorem MV.SameValues.good (h : SameValues a a' x) : ∀ i < 2 ^ A.dim, fin (a.val i) := by
  intro i hi
  rw [h.val hi]; exact h.finite i hi

theorem MV.ExactR.of_denotes {p : Res (MV A S)} {q : Res (MV A S')} {f : Nat → F} {g : Nat → ℝ} (hp : Denotes p f)
    (hq : Denotes q g) (hf : ∀ i < 2 ^ A.dim, fin (f i)) (he : ∀ i < 2 ^ A.dim, g i = re (f i)) : ExactR p q := by
  obtain ⟨u, rfl, hu, hu'⟩ := hp
  obtain ⟨v, rfl, hv, hv'⟩ := hq
  exact ⟨u, v, f, rfl, rfl, hu, hv, Denotes.coefs ⟨u, rfl, hu, hu'⟩,
    (Denotes.coefs ⟨v, rfl, hv, hv'⟩).congr he, hf⟩

theorem MV.NearR.of_denotes {p : Res (MV A S)} {q : Res (MV A S')} {f : Nat → F} {g : Nat → ℝ} (hp : Denotes p f)
    (hq : Denotes q g) {P : Nat → ℝ → Prop} {ε : Nat → ℝ → ℝ}
    (h : ∀ k < 2 ^ A.dim, P k (g k) → fin (f k) ∧ |re (f k) - g k| ≤ ε k (g k)) : NearR p q P ε := by
  obtain ⟨u, rfl, hu, hu'⟩ := hp
  obtain ⟨v, rfl, hv, hv'⟩ := hq
  exact ⟨u, v, f, g, rfl, rfl, hu, hv, Denotes.coefs ⟨u, rfl, hu, hu'⟩, Denotes.coefs ⟨v, rfl, hv, hv'⟩, h⟩

/-- **C69, sums.** A coefficient of `a + b` is the exact sum up to one rounding (relative error `u`), and is finite
unless the exact sum is beyond the largest finite number. -/
theorem C69_add (ha : SameValues a a' x) (hb : SameValues b b' y) :
    NearR (a.add b) (a'.add b') (fun _ e => |e| ≤ Ω F) (fun _ e => u F * |e|) := by
  refine NearR.of_denotes (add_denotes ha.valid hb.valid) (add_denotes ha.valid' hb.valid') ?_
  intro k hk h
  rw [ha.val' hk, hb.val' hk] at *
  rw [ha.val hk, hb.val hk]
  exact add_ok (ha.finite k hk) (hb.finite k hk) h

/-- **C69, differences.** -/
theorem C69_sub (ha : SameValues a a' x) (hb : SameValues b b' y) :
    NearR (a.sub b) (a'.sub b') (fun _ e => |e| ≤ Ω F) (fun _ e => u F * |e|) := by
  refine NearR.of_denotes (sub_denotes ha.valid hb.valid) (sub_denotes ha.valid' hb.valid') ?_
  intro k hk h
  rw [ha.val' hk, hb.val' hk] at *
  rw [ha.val hk, hb.val hk]
  exact sub_ok (ha.finite k hk) (hb.finite k hk) h

/-- **C69, scalar multiples.** Here the rounding can also underflow, which adds the absolute error `η`. -/
theorem C69_smul (ha : SameValues a a' x) {t : F} (ht : fin t) :
    NearR (a.smul t) (a'.smul (re t)) (fun _ e => |e| ≤ Ω F) (fun _ e => u F * |e| + η F) := by
  refine NearR.of_denotes (smul_fl ha.valid ht) (smul_denotes ha.valid' (re t)) ?_
  intro k hk h
  rw [ha.val' hk] at *
  rw [ha.val hk]
  exact mul_ok (ha.finite k hk) ht h

/-- **C69, quotients by a scalar.** -/
theorem C69_sdiv (ha : SameValues a a' x) {t : F} (ht : fin t) (h0 : t ≠ 0) :
    NearR (a.sdiv t) (a'.sdiv (re t)) (fun _ e => |e| ≤ Ω F) (fun _ e => u F * |e| + η F) := by
  have h0' : re t ≠ 0 := fun h => h0 (re_inj ht fin_zero (by rw [h, re_zero]))
  refine NearR.of_denotes (sdiv_fl ha.valid ht h0) (sdiv_denotes ha.valid' h0') ?_
  intro k hk h
  rw [ha.val' hk] at *
  rw [ha.val hk]
  exact div_ok (ha.finite k hk) ht h0' h

theorem exactR_sgn (ha : SameValues a a' x) {p : Res (MV A S)} {q : Res (MV A S')} (c : Nat → ℤ) (π : Nat → Nat)
    (hc : ∀ i, c i = 1 ∨ c i = -1) (hπ : ∀ i < 2 ^ A.dim, π i < 2 ^ A.dim)
    (hp : Denotes p (fun i => sgnC (c i) (a.val (π i)))) (hq : Denotes q (fun i => c i • a'.val (π i))) : ExactR p q := by
  refine ExactR.of_denotes hp hq ?_ ?_
  · intro i hi
    exact fin_sgnC _ (ha.good _ (hπ i hi))
  · intro i hi
    rw [re_sgnC (hc i) (ha.good _ (hπ i hi)), ha.val' (hπ i hi), ha.val (hπ i hi), zsmul_eq_mul]

/-- **C69, no rounding.** Negation, the involutions, dual and undual, grade projections and conversions between storages
are exact. -/
theorem C69_exact (hA : A.WF) (ha : SameValues a a' x) {k : Nat} (hk : k < 2 ^ 32) (mask : Nat) :
    ExactR a.neg a'.neg ∧ ExactR a.flip a'.flip ∧ ExactR (a.flipSubspace mask) (a'.flipSubspace mask) ∧
    ExactR a.rev a'.rev ∧ ExactR a.dual a'.dual ∧ ExactR a.undual a'.undual ∧
    ExactR (a.gradeExtract k) (a'.gradeExtract k) := by
  have hm : ∀ i < 2 ^ A.dim, i ^^^ (2 ^ A.dim - 1) < 2 ^ A.dim := fun i hi => xor_mask_lt hi
  refine ⟨?_, ?_, ?_, ?_, ?_, ?_, ?_⟩
  · refine ExactR.of_denotes (neg_fl ha.valid) (neg_denotes ha.valid') ?_ ?_
    · intro i hi; exact (neg_ok (ha.good i hi)).1
    · intro i hi; rw [(neg_ok (ha.good i hi)).2, ha.val' hi, ha.val hi]
  · exact exactR_sgn ha _ id (fun i => sg_cases _) (fun _ h => h) (flip_fl ha.valid) (flip_denotes ha.valid')
  · exact exactR_sgn ha _ id (fun i => sg_cases _) (fun _ h => h) (flipSubspace_fl ha.valid mask)
      (flipSubspace_denotes ha.valid' mask)
  · exact exactR_sgn ha _ id (fun i => rsg_unit _ _) (fun _ h => h) (rev_fl ha.valid) (rev_denotes ha.valid')
  · exact exactR_sgn ha _ (fun i => i ^^^ (2 ^ A.dim - 1)) (fun i => dualSign_unit) hm (dual_fl hA ha.valid)
      (dual_denotes hA ha.valid')
  · exact exactR_sgn ha _ (fun i => i ^^^ (2 ^ A.dim - 1)) (fun i => dualSign_unit') hm (undual_fl hA ha.valid)
      (undual_denotes hA ha.valid')
  · refine ExactR.of_denotes (gradeExtractAs_denotes ha.valid ha.valid.supp hk)
      (gradeExtractAs_denotes ha.valid' ha.valid'.supp hk) ?_ ?_
    · intro i hi
      split
      · exact ha.good i hi
      · exact fin_zero
    · intro i hi
      split
      · rw [ha.val' hi, ha.val hi]
      · rw [re_zero]

/-! ### Products -/

/-- Sum of the absolute values of the products `x i * y i`. -/
noncomputable def absSum (s : Finset ℕ) (x y : Nat → F) : ℝ := ∑ i ∈ s, |re (x i)| * |re (y i)|

/-- Number of the products `x i * y i` without a zero factor. -/
def nTerms (s : Finset ℕ) (x y : Nat → F) : ℕ := #{i ∈ s | x i ≠ 0 ∧ y i ≠ 0}

theorem absSum_nonneg (s : Finset ℕ) (x y : Nat → F) : 0 ≤ absSum s x y :=
  sum_nonneg fun _ _ => mul_nonneg (abs_nonneg _) (abs_nonneg _)

theorem Acc.of_sum {v : F} {s t : Finset ℕ} {c : ℕ → ℤ} {x y : ℕ → F} (hts : t ⊆ s)
    (h : Acc v (∑ i ∈ s, tau (c i) (x i) (y i))) (hc : ∀ i ∈ s, |c i| ≤ 1) (hp : ∀ i ∈ s, i ∉ t → c i = 0)
    (hb : absSum t x y + errB F (absSum t x y) (nTerms t x y) ≤ Ω F) :
    fin v ∧ |re v - ∑ i ∈ s, c i • (re (x i) * re (y i))| ≤ errB F (absSum t x y) (nTerms t x y) := by
  have e : ∑ i ∈ s, tau (c i) (x i) (y i) = ∑ i ∈ t, tau (c i) (x i) (y i) :=
    (sum_subset hts fun i hi hn => by rw [hp i hi hn]; simp [tau]).symm
  have e' : ∑ i ∈ s, c i • (re (x i) * re (y i)) = ∑ i ∈ t, c i • (re (x i) * re (y i)) :=
    (sum_subset hts fun i hi hn => by rw [hp i hi hn]; simp).symm
  rw [e] at h
  rw [e']
  obtain ⟨h0, h1, h2, h3⟩ := h
  have hA : (∑ i ∈ t, tau (c i) (x i) (y i)).2.1 ≤ absSum t x y := by
    rw [Prod.snd_sum, Prod.fst_sum]
    apply sum_le_sum
    intro i hi
    simp only [tau, abs_mul]
    have : |(c i : ℝ)| ≤ 1 := by exact_mod_cast hc i (hts hi)
    exact mul_le_of_le_one_left (by positivity) this
  have hN : (∑ i ∈ t, tau (c i) (x i) (y i)).2.2 ≤ nTerms t x y := by
    rw [Prod.snd_sum, Prod.snd_sum, nTerms, card_filter]
    apply sum_le_sum
    intro i hi
    simp only [tau]
    split_ifs <;> simp_all
  have hm := errB_mono (F := F) h0 hA hN
  obtain ⟨g1, g2⟩ := h3 (by linarith)
  refine ⟨g1, ?_⟩
  have e2 : (∑ i ∈ t, tau (c i) (x i) (y i)).1 = ∑ i ∈ t, c i • (re (x i) * re (y i)) := by
    rw [Prod.fst_sum]
    simp only [tau, zsmul_eq_mul]
  rw [e2] at g2
  linarith

theorem toInt_abs_le (s : Sign) : |s.toInt| ≤ 1 := by cases s <;> simp [Sign.toInt]

/-- **C70, products.** The coefficient of `e_k` in the floating point product differs from the exact one by at most
`((1+u)^(N+1) - 1) M + N η (1+u)^N`, where `M = Σ_i |x_i| |y_{i⊕k}|` and `N` is the number of pairs with nonzero factors;
if `M` plus this bound is not beyond the largest finite number, nothing overflows. -/
theorem C70_mul (hA : A.WF) (ha : SameValues a a' x) (hb : SameValues b b' y) :
    let M := fun k => absSum (range (2 ^ A.dim)) x (fun i => y (i ^^^ k))
    let N := fun k => nTerms (range (2 ^ A.dim)) x (fun i => y (i ^^^ k))
    NearR (a.naiveMulImpl b) (a'.naiveMulImpl b') (fun k _ => M k + errB F (M k) (N k) ≤ Ω F)
      (fun k _ => errB F (M k) (N k)) := by
  intro M N
  obtain ⟨r, h1, h2, h3⟩ := mul_inv sumInv_acc hA ha.valid hb.valid ha.good hb.good
  refine NearR.of_denotes ⟨r, h1, h2, fun _ _ => rfl⟩ (mul_denotes hA ha.valid' hb.valid') ?_
  intro k hk hP
  have e1 : ∑ i ∈ range (2 ^ A.dim), tau (bsgn A.sigma A.dim i (i ^^^ k)) (a.val i) (b.val (i ^^^ k)) =
      ∑ i ∈ range (2 ^ A.dim), tau (bsgn A.sigma A.dim i (i ^^^ k)) (x i) (y (i ^^^ k)) :=
    sum_congr rfl fun i hi => by
      rw [ha.val (mem_range.mp hi), hb.val (Nat.xor_lt_two_pow (mem_range.mp hi) hk)]
  have e2 : geo A.sigma A.dim a'.val b'.val k =
      ∑ i ∈ range (2 ^ A.dim), bsgn A.sigma A.dim i (i ^^^ k) • (re (x i) * re (y (i ^^^ k))) :=
    sum_congr rfl fun i hi => by
      rw [ha.val' (mem_range.mp hi), hb.val' (Nat.xor_lt_two_pow (mem_range.mp hi) hk)]
  have h := h3 k hk
  rw [e1] at h
  rw [e2]
  refine Acc.of_sum (subset_refl _) h ?_ (fun i h1 h2 => absurd h1 h2) hP
  intro i hi
  obtain ⟨s, -, hs⟩ := ClAlg.bladeGeoProductSign_eq hA (mem_range.mp hi) (Nat.xor_lt_two_pow (mem_range.mp hi) hk)
  rw [← hs]; exact toInt_abs_le s

theorem bsgn_wedge_abs {n i j : Nat} : |bsgn (fun _ => 0) n i j| ≤ 1 := by
  by_cases h : ∀ l < n, (i.testBit l && j.testBit l) = false
  · rcases bsgn_zero_unit h with h | h <;> rw [h] <;> simp
  · rw [bsgn_null h]; simp

theorem bsgn_wedge_zero {n i k : Nat} (hi : i < 2 ^ n) (h : ¬ i &&& k = i) : bsgn (fun _ => 0) n i (i ^^^ k) = 0 := by
  apply bsgn_null
  intro hc
  apply h
  apply Nat.eq_of_testBit_eq
  intro l
  rw [Nat.testBit_and]
  by_cases hl : l < n
  · have := hc l hl
    rw [Nat.testBit_xor] at this
    revert this
    cases i.testBit l <;> cases k.testBit l <;> simp
  · rw [testBit_eq_false_of_lt hi (by omega)]; simp

/-- A scalar result: both computations succeed, and if `P` holds the floating point result is finite and off by at most `ε`. -/
def NearS (x : Res F) (y : Res ℝ) (P : Prop) (ε : ℝ) : Prop :=
  ∃ z e, x = .ok z ∧ y = .ok e ∧ (P → fin z ∧ |re z - e| ≤ ε)

/-- **C70, `vsdot`.** -/
theorem C70_vsdot (ha : SameValues a a' x) (hb : SameValues b b' y) :
    let M := absSum (range (2 ^ A.dim)) x y
    let N := nTerms (range (2 ^ A.dim)) x y
    NearS (a.vsdot b) (a'.vsdot b') (M + errB F M N ≤ Ω F) (errB F M N) := by
  intro M N
  obtain ⟨r, h1, h2⟩ := vsdot_inv sumInv_acc ha.valid hb.valid ha.good hb.good
  refine ⟨r, _, h1, vsdot_ok ha.valid' hb.valid', fun hP => ?_⟩
  have e1 : ∑ i ∈ range (2 ^ A.dim), tau 1 (a.val i) (b.val i) = ∑ i ∈ range (2 ^ A.dim), tau 1 (x i) (y i) :=
    sum_congr rfl fun i hi => by rw [ha.val (mem_range.mp hi), hb.val (mem_range.mp hi)]
  have e2 : ∑ i ∈ range (2 ^ A.dim), a'.val i * b'.val i =
      ∑ i ∈ range (2 ^ A.dim), (1 : ℤ) • (re (x i) * re (y i)) :=
    sum_congr rfl fun i hi => by rw [ha.val' (mem_range.mp hi), hb.val' (mem_range.mp hi), one_smul]
  rw [e1] at h2
  rw [e2]
  exact Acc.of_sum (c := fun _ => 1) (subset_refl _) h2 (fun _ _ => by simp) (fun i h1 h2 => absurd h1 h2) hP

theorem bsgn_sigma_abs (hA : A.WF) {i j : Nat} (hi : i < 2 ^ A.dim) (hj : j < 2 ^ A.dim) : |bsgn A.sigma A.dim i j| ≤ 1 := by
  obtain ⟨s, -, hs⟩ := ClAlg.bladeGeoProductSign_eq hA hi hj
  rw [← hs]; exact toInt_abs_le s

/-- **C70, `vdot`.** -/
theorem C70_vdot (hA : A.WF) (ha : SameValues a a' x) (hb : SameValues b b' y) :
    let M := absSum (range (2 ^ A.dim)) x y
    let N := nTerms (range (2 ^ A.dim)) x y
    NearS (a.vdot b) (a'.vdot b') (M + errB F M N ≤ Ω F) (errB F M N) := by
  intro M N
  obtain ⟨r, h1, h2⟩ := signSum_inv sumInv_acc hA ha.valid hb.valid (fun _ x => x) (fun _ => rfl) ha.good hb.good
  refine ⟨r, _, h1, vdot_ok hA ha.valid' hb.valid', fun hP => ?_⟩
  have e1 : ∑ i ∈ range (2 ^ A.dim), tau (bsgn A.sigma A.dim i i) (a.val i) (b.val i) =
      ∑ i ∈ range (2 ^ A.dim), tau (bsgn A.sigma A.dim i i) (x i) (y i) :=
    sum_congr rfl fun i hi => by rw [ha.val (mem_range.mp hi), hb.val (mem_range.mp hi)]
  have e2 : geo A.sigma A.dim a'.val b'.val 0 =
      ∑ i ∈ range (2 ^ A.dim), bsgn A.sigma A.dim i i • (re (x i) * re (y i)) :=
    sum_congr rfl fun i hi => by rw [Nat.xor_zero, ha.val' (mem_range.mp hi), hb.val' (mem_range.mp hi)]
  rw [e1] at h2
  rw [e2]
  exact Acc.of_sum (subset_refl _) h2 (fun i hi => bsgn_sigma_abs hA (mem_range.mp hi) (mem_range.mp hi))
    (fun i h1 h2 => absurd h1 h2) hP

/-- **C70, `mag2`.** -/
theorem C70_mag2 (hA : A.WF) (ha : SameValues a a' x) :
    let M := absSum (range (2 ^ A.dim)) x x
    let N := nTerms (range (2 ^ A.dim)) x x
    NearS a.mag2 a'.mag2 (M + errB F M N ≤ Ω F) (errB F M N) := by
  intro M N
  have hr : ∀ i < 2 ^ A.dim, fin (revC i (a.val i)) := fun i hi => by
    rw [revC_fl hi]; exact fin_sgnC _ (ha.good i hi)
  obtain ⟨r, h1, h2⟩ := signSum_inv sumInv_acc hA ha.valid ha.valid (fun i x => revC i x)
    (by intro i; unfold revC; split <;> simp [fneg_zero]) hr ha.good
  refine ⟨r, _, h1, mag2_ok hA ha.valid', fun hP => ?_⟩
  have e1 : ∑ i ∈ range (2 ^ A.dim), tau (bsgn A.sigma A.dim i i) (revC i (a.val i)) (a.val i) =
      ∑ i ∈ range (2 ^ A.dim), tau (bsgn A.sigma A.dim i i * rsg A.dim i) (x i) (x i) :=
    sum_congr rfl fun i hi => by
      rw [mem_range] at hi
      have := tau_sgnC sumInv_acc (rsg_unit A.dim i) (t := 1) (Or.inl rfl) (bsgn A.sigma A.dim i i) (ha.finite i hi)
        (ha.finite i hi)
      rw [mul_one] at this
      rw [revC_fl hi, ha.val hi, ← this]
      simp [sgnC]
  have e2 : geo A.sigma A.dim (fun i => rsg A.dim i • a'.val i) a'.val 0 =
      ∑ i ∈ range (2 ^ A.dim), (bsgn A.sigma A.dim i i * rsg A.dim i) • (re (x i) * re (x i)) :=
    sum_congr rfl fun i hi => by
      beta_reduce
      rw [Nat.xor_zero, ha.val' (mem_range.mp hi), smul_mul_assoc, smul_smul]
  rw [e1] at h2
  rw [e2]
  refine Acc.of_sum (subset_refl _) h2 (fun i hi => ?_) (fun i h1 h2 => absurd h1 h2) hP
  rw [abs_mul]
  have h1 := bsgn_sigma_abs hA (mem_range.mp hi) (mem_range.mp hi)
  rcases rsg_unit A.dim i with h | h <;> rw [h] <;> simpa using h1

variable [WedgeProduct A S] [FloatWedge A S] [WedgeProduct A S'] [LawfulWedge A S']

/-- **C70, wedge.** The same with the blades `i` contained in `k` only. -/
theorem C70_wedge (ha : SameValues a a' x) (hb : SameValues b b' y) :
    let s := fun k => {i ∈ range (2 ^ A.dim) | i &&& k = i}
    let M := fun k => absSum (s k) x (fun i => y (i ^^^ k))
    let N := fun k => nTerms (s k) x (fun i => y (i ^^^ k))
    NearR (a.wedge b) (a'.wedge b') (fun k _ => M k + errB F (M k) (N k) ≤ Ω F)
      (fun k _ => errB F (M k) (N k)) := by
  intro s M N
  obtain ⟨r, h1, h2, h3⟩ := FloatWedge.wedge sumInv_acc ha.valid hb.valid ha.good hb.good
  refine NearR.of_denotes ⟨r, h1, h2, fun _ _ => rfl⟩ (LawfulWedge.wedge ha.valid' hb.valid') ?_
  intro k hk hP
  have e1 : ∑ i ∈ range (2 ^ A.dim), tau (bsgn (fun _ => 0) A.dim i (i ^^^ k)) (a.val i) (b.val (i ^^^ k)) =
      ∑ i ∈ range (2 ^ A.dim), tau (bsgn (fun _ => 0) A.dim i (i ^^^ k)) (x i) (y (i ^^^ k)) :=
    sum_congr rfl fun i hi => by
      rw [ha.val (mem_range.mp hi), hb.val (Nat.xor_lt_two_pow (mem_range.mp hi) hk)]
  have e2 : geo (fun _ => 0) A.dim a'.val b'.val k =
      ∑ i ∈ range (2 ^ A.dim), bsgn (fun _ => 0) A.dim i (i ^^^ k) • (re (x i) * re (y (i ^^^ k))) :=
    sum_congr rfl fun i hi => by
      rw [ha.val' (mem_range.mp hi), hb.val' (Nat.xor_lt_two_pow (mem_range.mp hi) hk)]
  have h := h3 k hk
  rw [e1] at h
  rw [e2]
  refine Acc.of_sum (t := s k) (filter_subset _ _) h (fun i _ => bsgn_wedge_abs) ?_ hP
  intro i hi hn
  apply bsgn_wedge_zero (mem_range.mp hi)
  intro hc
  exact hn (mem_filter.mpr ⟨hi, hc⟩)

theorem meetT_abs (n i k : Nat) : |meetT n i k| ≤ 1 := by
  unfold meetT
  have h1 := bsgn_wedge_abs (n := n) (i := k ^^^ (2 ^ n - 1)) (j := k)
  have h2 := bsgn_wedge_abs (n := n) (i := i) (j := i ^^^ (k ^^^ (2 ^ n - 1)))
  have h3 := bsgn_wedge_abs (n := n) (i := i) (j := i ^^^ (2 ^ n - 1))
  have h4 := bsgn_wedge_abs (n := n) (i := i ^^^ (k ^^^ (2 ^ n - 1))) (j := i ^^^ (k ^^^ (2 ^ n - 1)) ^^^ (2 ^ n - 1))
  rw [abs_mul, abs_mul, abs_mul]
  exact mul_le_one₀ h1 (by positivity) (mul_le_one₀ h2 (by positivity) (mul_le_one₀ h3 (by positivity) h4))

/-- **C70, meet.** The same with the blades `i` that contain `k`. -/
theorem C70_meet (hA : A.WF) (ha : SameValues a a' x) (hb : SameValues b b' y) :
    let s := fun k => {i ∈ range (2 ^ A.dim) | i &&& k = k}
    let M := fun k => absSum (s k) x (fun i => y (i ^^^ k ^^^ (2 ^ A.dim - 1)))
    let N := fun k => nTerms (s k) x (fun i => y (i ^^^ k ^^^ (2 ^ A.dim - 1)))
    NearR (a.meet b) (a'.meet b') (fun k _ => M k + errB F (M k) (N k) ≤ Ω F)
      (fun k _ => errB F (M k) (N k)) := by
  intro s M N
  have hm : (2 ^ A.dim - 1 : Nat) < 2 ^ A.dim := by have := Nat.two_pow_pos A.dim; omega
  obtain ⟨r, h1, h2, h3⟩ := FloatWedge.meet sumInv_acc hA ha.valid hb.valid ha.good hb.good
  refine NearR.of_denotes ⟨r, h1, h2, fun _ _ => rfl⟩ (LawfulWedge.meet hA ha.valid' hb.valid') ?_
  intro k hk hP
  have hi2 : ∀ i < 2 ^ A.dim, i ^^^ k ^^^ (2 ^ A.dim - 1) < 2 ^ A.dim := fun i hi => xor_mask_lt (Nat.xor_lt_two_pow hi hk)
  have e3 : ∀ i, i ^^^ (2 ^ A.dim - 1) ^^^ (k ^^^ (2 ^ A.dim - 1)) ^^^ (2 ^ A.dim - 1) = i ^^^ k ^^^ (2 ^ A.dim - 1) := by
    intro i
    rw [Nat.xor_comm k, ← Nat.xor_assoc, xor_mask_xor_mask]
  have h := h3 k hk
  rw [← sum_xor hm] at h
  have e1 : ∑ i ∈ range (2 ^ A.dim), tau (meetT A.dim (i ^^^ (2 ^ A.dim - 1)) k)
        (a.val (i ^^^ (2 ^ A.dim - 1) ^^^ (2 ^ A.dim - 1)))
        (b.val (i ^^^ (2 ^ A.dim - 1) ^^^ (k ^^^ (2 ^ A.dim - 1)) ^^^ (2 ^ A.dim - 1))) =
      ∑ i ∈ range (2 ^ A.dim), tau (meetT A.dim (i ^^^ (2 ^ A.dim - 1)) k) (x i) (y (i ^^^ k ^^^ (2 ^ A.dim - 1))) :=
    sum_congr rfl fun i hi => by
      rw [xor_mask_xor_mask, e3, ha.val (mem_range.mp hi), hb.val (hi2 i (mem_range.mp hi))]
  have e2 : meetF A.dim a'.val b'.val k = ∑ i ∈ range (2 ^ A.dim), meetT A.dim (i ^^^ (2 ^ A.dim - 1)) k •
      (re (x i) * re (y (i ^^^ k ^^^ (2 ^ A.dim - 1)))) := by
    rw [meetF_eq, ← sum_xor hm]
    exact sum_congr rfl fun i hi => by
      rw [xor_mask_xor_mask, e3, ha.val' (mem_range.mp hi), hb.val' (hi2 i (mem_range.mp hi))]
  rw [e1] at h
  rw [e2]
  refine Acc.of_sum (t := s k) (filter_subset _ _) h (fun i _ => meetT_abs _ _ _) ?_ hP
  intro i hi hn
  rw [mem_range] at hi
  have : bsgn (fun _ => 0) A.dim (i ^^^ (2 ^ A.dim - 1)) (i ^^^ (2 ^ A.dim - 1) ^^^ (k ^^^ (2 ^ A.dim - 1))) = 0 := by
    apply bsgn_wedge_zero (xor_mask_lt hi)
    intro hc
    apply hn
    refine mem_filter.mpr ⟨mem_range.mpr hi, ?_⟩
    apply Nat.eq_of_testBit_eq
    intro l
    have hc' := congrArg (fun z => Nat.testBit z l) hc
    simp only [Nat.testBit_and, Nat.testBit_xor, Nat.testBit_two_pow_sub_one] at hc'
    rw [Nat.testBit_and]
    by_cases hl : l < A.dim
    · revert hc'
      simp only [hl, decide_true]
      cases i.testBit l <;> cases k.testBit l <;> simp
    · rw [testBit_eq_false_of_lt hi (by omega), testBit_eq_false_of_lt hk (by omega)]; simp
  unfold meetT
  rw [this]
  ring

/-! ### Integers -/

/-- Sum of the absolute values of the coefficients. -/
noncomputable def normOne (n : Nat) (x : Nat → F) : ℝ := ∑ i ∈ range (2 ^ n), |re (x i)|

/-- `ExactR`, where moreover the coefficients of the result are integers whose absolute values sum up to at most `L`. -/
def MV.ExactZ (p : Res (MV A S)) (q : Res (MV A S')) (L : ℝ) : Prop :=
  ∃ u v z, p = .ok u ∧ q = .ok v ∧ SameValues u v z ∧ (∀ i < 2 ^ A.dim, ∃ m : ℤ, re (z i) = m) ∧ normOne A.dim z ≤ L

theorem normOne_nonneg (n : Nat) (x : Nat → F) : 0 ≤ normOne n x := sum_nonneg fun _ _ => abs_nonneg _

theorem abs_le_normOne {n : Nat} (x : Nat → F) {i : Nat} (hi : i < 2 ^ n) : |re (x i)| ≤ normOne n x :=
  single_le_sum (f := fun i => |re (x i)|) (fun _ _ => abs_nonneg _) (mem_range.mpr hi)

theorem sum_absSum {n m : Nat} (hm : m < 2 ^ n) (x y : Nat → F) :
    ∑ k ∈ range (2 ^ n), absSum (range (2 ^ n)) x (fun i => y (i ^^^ (k ^^^ m))) = normOne n x * normOne n y := by
  unfold absSum normOne
  rw [sum_comm, sum_mul]
  apply sum_congr rfl
  intro i hi
  rw [mem_range] at hi
  rw [← mul_sum]
  congr 1
  refine (sum_xor hm (fun k => |re (y (i ^^^ k))|)).trans ?_
  refine Eq.trans ?_ (sum_xor hi (fun k => |re (y k)|))
  exact sum_congr rfl fun k _ => by rw [Nat.xor_comm]

theorem exactZ_core {p : Res (MV A S)} {q : Res (MV A S')} {m : Nat} (hm : m < 2 ^ A.dim) {c : Nat → Nat → ℤ}
    (hx : ∀ i < 2 ^ A.dim, GoodZ (x i)) (hy : ∀ i < 2 ^ A.dim, GoodZ (y i))
    (hc : ∀ i < 2 ^ A.dim, ∀ k < 2 ^ A.dim, |c i k| ≤ 1)
    (hp : ∃ r, p = .ok r ∧ r.Valid ∧ ∀ k < 2 ^ A.dim, AccZ (r.val k) (∑ i ∈ range (2 ^ A.dim),
      (c i k * (toZ (x i) * toZ (y (i ^^^ (k ^^^ m)))), |c i k * (toZ (x i) * toZ (y (i ^^^ (k ^^^ m))))|)))
    (hq : Denotes q (fun k => ∑ i ∈ range (2 ^ A.dim), c i k • (re (x i) * re (y (i ^^^ (k ^^^ m))))))
    (hM : normOne A.dim x * normOne A.dim y ≤ FloatModel.M F) : ExactZ p q (normOne A.dim x * normOne A.dim y) := by
  obtain ⟨r, rfl, hr, h⟩ := hp
  have hxor : ∀ i < 2 ^ A.dim, ∀ k < 2 ^ A.dim, i ^^^ (k ^^^ m) < 2 ^ A.dim := fun i hi k hk =>
    Nat.xor_lt_two_pow hi (Nat.xor_lt_two_pow hk hm)
  have hk : ∀ k < 2 ^ A.dim, (fin (r.val k) ∧ (∃ z : ℤ, re (r.val k) = z) ∧
      re (r.val k) = ∑ i ∈ range (2 ^ A.dim), c i k • (re (x i) * re (y (i ^^^ (k ^^^ m))))) ∧
      |re (r.val k)| ≤ absSum (range (2 ^ A.dim)) x (fun i => y (i ^^^ (k ^^^ m))) := by
    intro k hk
    obtain ⟨h1, h2⟩ := h k hk
    have e1 : ((∑ i ∈ range (2 ^ A.dim), ((c i k * (toZ (x i) * toZ (y (i ^^^ (k ^^^ m)))),
        |c i k * (toZ (x i) * toZ (y (i ^^^ (k ^^^ m))))|) : ℤ × ℤ)).2 : ℝ) ≤
        absSum (range (2 ^ A.dim)) x (fun i => y (i ^^^ (k ^^^ m))) := by
      rw [Prod.snd_sum]
      push_cast
      apply sum_le_sum
      intro i hi
      rw [mem_range] at hi
      rw [abs_mul, abs_mul, (hx i hi).re, (hy _ (hxor i hi k hk)).re]
      have : |(c i k : ℝ)| ≤ 1 := by exact_mod_cast hc i hi k hk
      exact mul_le_of_le_one_left (by positivity) this
    have e2 : absSum (range (2 ^ A.dim)) x (fun i => y (i ^^^ (k ^^^ m))) ≤ normOne A.dim x * normOne A.dim y := by
      rw [← sum_absSum hm]
      exact single_le_sum (f := fun k => absSum (range (2 ^ A.dim)) x (fun i => y (i ^^^ (k ^^^ m))))
        (fun _ _ => absSum_nonneg _ _ _) (mem_range.mpr hk)
    obtain ⟨g1, g2⟩ := h2 (e1.trans (e2.trans hM))
    refine ⟨⟨g1, ⟨_, g2⟩, ?_⟩, ?_⟩
    · rw [g2, Prod.fst_sum]
      push_cast
      apply sum_congr rfl
      intro i hi
      rw [mem_range] at hi
      rw [(hx i hi).re, (hy _ (hxor i hi k hk)).re, zsmul_eq_mul]
    · rw [g2]
      refine le_trans ?_ e1
      exact_mod_cast h1
  obtain ⟨v, rfl, hv, hv'⟩ := hq
  refine ⟨r, v, r.val, rfl, rfl, ⟨hr, hv, Denotes.coefs ⟨r, rfl, hr, fun _ _ => rfl⟩,
    (Denotes.coefs ⟨v, rfl, hv, hv'⟩).congr fun i hi => ((hk i hi).1.2.2).symm, fun i hi => (hk i hi).1.1⟩,
    fun i hi => (hk i hi).1.2.1, ?_⟩
  rw [← sum_absSum hm]
  exact sum_le_sum fun k h => (hk k (mem_range.mp h)).2

section
variable (ha : SameValues a a' x) (hb : SameValues b b' y)
  (zx : ∀ i < 2 ^ A.dim, ∃ m : ℤ, re (x i) = m) (zy : ∀ i < 2 ^ A.dim, ∃ m : ℤ, re (y i) = m)
include ha hb zx zy

theorem goodZ_vals : (∀ i < 2 ^ A.dim, GoodZ (x i)) ∧ (∀ i < 2 ^ A.dim, GoodZ (y i)) ∧
    (∀ i < 2 ^ A.dim, GoodZ (a.val i)) ∧ (∀ i < 2 ^ A.dim, GoodZ (b.val i)) := by
  have h1 : ∀ i < 2 ^ A.dim, GoodZ (x i) := fun i hi => ⟨ha.finite i hi, zx i hi⟩
  have h2 : ∀ i < 2 ^ A.dim, GoodZ (y i) := fun i hi => ⟨hb.finite i hi, zy i hi⟩
  exact ⟨h1, h2, fun i hi => by rw [ha.val hi]; exact h1 i hi, fun i hi => by rw [hb.val hi]; exact h2 i hi⟩

/-- **C71, products.** For integer coefficients, if `‖a‖₁ ‖b‖₁ ≤ M` (`2^53` for `f64`) the product is exact. -/
theorem C71_mul (hA : A.WF) (hM : normOne A.dim x * normOne A.dim y ≤ FloatModel.M F) :
    ExactZ (a.naiveMulImpl b) (a'.naiveMulImpl b') (normOne A.dim x * normOne A.dim y) := by
  obtain ⟨gx, gy, ga, gb⟩ := goodZ_vals ha hb zx zy
  refine exactZ_core (m := 0) (Nat.two_pow_pos _) (c := fun i k => bsgn A.sigma A.dim i (i ^^^ k)) gx gy
    (fun i hi k hk => bsgn_sigma_abs hA hi (Nat.xor_lt_two_pow hi hk)) ?_ ?_ hM
  · obtain ⟨r, h1, h2, h3⟩ := mul_inv sumInv_accZ hA ha.valid hb.valid ga gb
    refine ⟨r, h1, h2, fun k hk => ?_⟩
    refine (congrArg (AccZ (r.val k)) (sum_congr rfl ?_)).mp (h3 k hk)
    intro i hi
    rw [Nat.xor_zero, ha.val (mem_range.mp hi), hb.val (Nat.xor_lt_two_pow (mem_range.mp hi) hk)]
  · refine (mul_denotes hA ha.valid' hb.valid').congr fun k hk => sum_congr rfl fun i hi => ?_
    rw [Nat.xor_zero, ha.val' (mem_range.mp hi), hb.val' (Nat.xor_lt_two_pow (mem_range.mp hi) hk)]

/-- **C71, wedge.** -/
theorem C71_wedge (hM : normOne A.dim x * normOne A.dim y ≤ FloatModel.M F) :
    ExactZ (a.wedge b) (a'.wedge b') (normOne A.dim x * normOne A.dim y) := by
  obtain ⟨gx, gy, ga, gb⟩ := goodZ_vals ha hb zx zy
  refine exactZ_core (m := 0) (Nat.two_pow_pos _) (c := fun i k => bsgn (fun _ => 0) A.dim i (i ^^^ k)) gx gy
    (fun i hi k hk => bsgn_wedge_abs) ?_ ?_ hM
  · obtain ⟨r, h1, h2, h3⟩ := FloatWedge.wedge sumInv_accZ ha.valid hb.valid ga gb
    refine ⟨r, h1, h2, fun k hk => ?_⟩
    refine (congrArg (AccZ (r.val k)) (sum_congr rfl ?_)).mp (h3 k hk)
    intro i hi
    rw [Nat.xor_zero, ha.val (mem_range.mp hi), hb.val (Nat.xor_lt_two_pow (mem_range.mp hi) hk)]
  · refine (LawfulWedge.wedge ha.valid' hb.valid').congr fun k hk => sum_congr rfl fun i hi => ?_
    rw [Nat.xor_zero, ha.val' (mem_range.mp hi), hb.val' (Nat.xor_lt_two_pow (mem_range.mp hi) hk)]

/-- **C71, meet.** -/
theorem C71_meet (hA : A.WF) (hM : normOne A.dim x * normOne A.dim y ≤ FloatModel.M F) :
    ExactZ (a.meet b) (a'.meet b') (normOne A.dim x * normOne A.dim y) := by
  obtain ⟨gx, gy, ga, gb⟩ := goodZ_vals ha hb zx zy
  have hm : (2 ^ A.dim - 1 : Nat) < 2 ^ A.dim := by have := Nat.two_pow_pos A.dim; omega
  have hi2 : ∀ i < 2 ^ A.dim, ∀ k < 2 ^ A.dim, i ^^^ (k ^^^ (2 ^ A.dim - 1)) < 2 ^ A.dim := fun i hi k hk =>
    Nat.xor_lt_two_pow hi (xor_mask_lt hk)
  have e3 : ∀ i k, i ^^^ (2 ^ A.dim - 1) ^^^ (k ^^^ (2 ^ A.dim - 1)) ^^^ (2 ^ A.dim - 1) = i ^^^ (k ^^^ (2 ^ A.dim - 1)) := by
    intro i k
    rw [Nat.xor_comm k, ← Nat.xor_assoc, xor_mask_xor_mask, Nat.xor_assoc, Nat.xor_comm k]
  refine exactZ_core (m := 2 ^ A.dim - 1) hm (c := fun i k => meetT A.dim (i ^^^ (2 ^ A.dim - 1)) k) gx gy
    (fun i hi k hk => meetT_abs _ _ _) ?_ ?_ hM
  · obtain ⟨r, h1, h2, h3⟩ := FloatWedge.meet sumInv_accZ hA ha.valid hb.valid ga gb
    refine ⟨r, h1, h2, fun k hk => ?_⟩
    have h := h3 k hk
    rw [← sum_xor hm] at h
    refine (congrArg (AccZ (r.val k)) (sum_congr rfl ?_)).mp h
    intro i hi
    rw [xor_mask_xor_mask, e3, ha.val (mem_range.mp hi), hb.val (hi2 i (mem_range.mp hi) k hk)]
  · refine (LawfulWedge.meet hA ha.valid' hb.valid').congr fun k hk => ?_
    rw [meetF_eq, ← sum_xor hm]
    refine sum_congr rfl fun i hi => ?_
    rw [xor_mask_xor_mask, e3, ha.val' (mem_range.mp hi), hb.val' (hi2 i (mem_range.mp hi) k hk)]

/-- **C71, sums.** -/
theorem C71_add (hM : normOne A.dim x + normOne A.dim y ≤ FloatModel.M F) :
    ExactZ (a.add b) (a'.add b') (normOne A.dim x + normOne A.dim y) := by
  obtain ⟨u, hu, hu1, hu2⟩ := add_denotes ha.valid hb.valid
  obtain ⟨v, hv, hv1, hv2⟩ := add_denotes ha.valid' hb.valid'
  have h : ∀ k < 2 ^ A.dim, fin (u.val k) ∧ (∃ m : ℤ, re (u.val k) = m) ∧ re (u.val k) = re (x k) + re (y k) := by
    intro k hk
    obtain ⟨m, hm⟩ := zx k hk
    obtain ⟨n, hn⟩ := zy k hk
    have h1 := abs_le_normOne x hk
    have h2 := abs_le_normOne y hk
    have h3 := abs_add_le (re (x k)) (re (y k))
    obtain ⟨g1, g2⟩ := add_int (ha.finite k hk) (hb.finite k hk) hm hn (by rw [← hm, ← hn]; linarith)
    rw [hu2 k hk]
    beta_reduce
    rw [ha.val hk, hb.val hk]
    exact ⟨g1, ⟨m + n, by rw [g2]; push_cast; rfl⟩, by rw [g2, hm, hn]⟩
  refine ⟨u, v, u.val, hu, hv, ⟨hu1, hv1, Denotes.coefs ⟨u, rfl, hu1, fun _ _ => rfl⟩,
    (Denotes.coefs ⟨v, rfl, hv1, hv2⟩).congr fun i hi => ?_, fun i hi => (h i hi).1⟩, fun i hi => (h i hi).2.1, ?_⟩
  · rw [(h i hi).2.2, ha.val' hi, hb.val' hi]
  · unfold normOne
    rw [← sum_add_distrib]
    exact sum_le_sum fun k hk => by rw [(h k (mem_range.mp hk)).2.2]; exact abs_add_le _ _

/-- **C71, differences.** -/
theorem C71_sub (hM : normOne A.dim x + normOne A.dim y ≤ FloatModel.M F) :
    ExactZ (a.sub b) (a'.sub b') (normOne A.dim x + normOne A.dim y) := by
  obtain ⟨u, hu, hu1, hu2⟩ := sub_denotes ha.valid hb.valid
  obtain ⟨v, hv, hv1, hv2⟩ := sub_denotes ha.valid' hb.valid'
  have h : ∀ k < 2 ^ A.dim, fin (u.val k) ∧ (∃ m : ℤ, re (u.val k) = m) ∧ re (u.val k) = re (x k) - re (y k) := by
    intro k hk
    obtain ⟨m, hm⟩ := zx k hk
    obtain ⟨n, hn⟩ := zy k hk
    have h1 := abs_le_normOne x hk
    have h2 := abs_le_normOne y hk
    have h3 := abs_sub (re (x k)) (re (y k))
    obtain ⟨g1, g2⟩ := sub_int (ha.finite k hk) (hb.finite k hk) hm hn (by rw [← hm, ← hn]; linarith)
    rw [hu2 k hk]
    beta_reduce
    rw [ha.val hk, hb.val hk]
    exact ⟨g1, ⟨m - n, by rw [g2]; push_cast; rfl⟩, by rw [g2, hm, hn]⟩
  refine ⟨u, v, u.val, hu, hv, ⟨hu1, hv1, Denotes.coefs ⟨u, rfl, hu1, fun _ _ => rfl⟩,
    (Denotes.coefs ⟨v, rfl, hv1, hv2⟩).congr fun i hi => ?_, fun i hi => (h i hi).1⟩, fun i hi => (h i hi).2.1, ?_⟩
  · rw [(h i hi).2.2, ha.val' hi, hb.val' hi]
  · unfold normOne
    rw [← sum_add_distrib]
    exact sum_le_sum fun k hk => by rw [(h k (mem_range.mp hk)).2.2]; exact abs_sub _ _

end

theorem ExactR.exactZ_sgn (ha : SameValues a a' x) (zx : ∀ i < 2 ^ A.dim, ∃ m : ℤ, re (x i) = m)
    {p : Res (MV A S)} {q : Res (MV A S')} (c : Nat → ℤ) (m : Nat) (hm : m < 2 ^ A.dim)
    (hc : ∀ i, c i = 1 ∨ c i = -1)
    (hp : Denotes p (fun i => sgnC (c i) (a.val (i ^^^ m)))) (hq : Denotes q (fun i => c i • a'.val (i ^^^ m))) :
    ExactZ p q (normOne A.dim x) := by
  have hx : ∀ i < 2 ^ A.dim, i ^^^ m < 2 ^ A.dim := fun i hi => Nat.xor_lt_two_pow hi hm
  obtain ⟨u, hu, hu1, hu2⟩ := hp
  obtain ⟨v, hv, hv1, hv2⟩ := hq
  have h : ∀ k < 2 ^ A.dim, re (u.val k) = c k * re (x (k ^^^ m)) := by
    intro k hk
    rw [hu2 k hk]
    beta_reduce
    rw [re_sgnC (hc k) (ha.good _ (hx k hk)), ha.val (hx k hk)]
  refine ⟨u, v, u.val, hu, hv, ⟨hu1, hv1, Denotes.coefs ⟨u, rfl, hu1, fun _ _ => rfl⟩,
    (Denotes.coefs ⟨v, rfl, hv1, hv2⟩).congr fun i hi => ?_, fun i hi => ?_⟩, fun i hi => ?_, ?_⟩
  · rw [h i hi, ha.val' (hx i hi), zsmul_eq_mul]
  · rw [hu2 i hi]; exact fin_sgnC _ (ha.good _ (hx i hi))
  · obtain ⟨z, hz⟩ := zx _ (hx i hi)
    exact ⟨c i * z, by rw [h i hi, hz]; push_cast; rfl⟩
  · unfold normOne
    rw [← sum_xor hm]
    refine (sum_congr rfl fun k hk => ?_).le
    rw [h _ (hx k (mem_range.mp hk)), abs_mul, Nat.xor_assoc, Nat.xor_self, Nat.xor_zero]
    rcases hc (k ^^^ m) with e | e <;> rw [e] <;> simp

/-- **C71, the involutions and duals** keep the sum of the absolute values. -/
theorem C71_exact (hA : A.WF) (ha : SameValues a a' x) (zx : ∀ i < 2 ^ A.dim, ∃ m : ℤ, re (x i) = m) (mask : Nat) :
    ExactZ a.neg a'.neg (normOne A.dim x) ∧ ExactZ a.flip a'.flip (normOne A.dim x) ∧
    ExactZ (a.flipSubspace mask) (a'.flipSubspace mask) (normOne A.dim x) ∧ ExactZ a.rev a'.rev (normOne A.dim x) ∧
    ExactZ a.dual a'.dual (normOne A.dim x) ∧ ExactZ a.undual a'.undual (normOne A.dim x) := by
  have hm : (2 ^ A.dim - 1 : Nat) < 2 ^ A.dim := by have := Nat.two_pow_pos A.dim; omega
  have h0 : 0 < 2 ^ A.dim := Nat.two_pow_pos _
  refine ⟨?_, ?_, ?_, ?_, ?_, ?_⟩
  · refine ExactR.exactZ_sgn ha zx (fun _ => -1) 0 h0 (fun _ => Or.inr rfl) ((neg_fl ha.valid).congr fun i _ => ?_)
      ((neg_denotes ha.valid').congr fun i _ => ?_)
    · simp [sgnC]
    · simp
  · exact ExactR.exactZ_sgn ha zx (fun i => sg (par A.dim i)) 0 h0 (fun i => sg_cases _)
      ((flip_fl ha.valid).congr fun _ _ => by rw [Nat.xor_zero]) ((flip_denotes ha.valid').congr fun _ _ => by simp [flp])
  · exact ExactR.exactZ_sgn ha zx (fun i => sg (par A.dim (i &&& mask))) 0 h0 (fun i => sg_cases _)
      ((flipSubspace_fl ha.valid mask).congr fun _ _ => by rw [Nat.xor_zero]) ((flipSubspace_denotes ha.valid' mask).congr
        fun _ _ => by rw [Nat.xor_zero])
  · exact ExactR.exactZ_sgn ha zx (fun i => rsg A.dim i) 0 h0 (fun i => rsg_unit _ _)
      ((rev_fl ha.valid).congr fun _ _ => by rw [Nat.xor_zero]) ((rev_denotes ha.valid').congr fun _ _ => by rw [Nat.xor_zero])
  · exact ExactR.exactZ_sgn ha zx _ _ hm (fun i => dualSign_unit) (dual_fl hA ha.valid) (dual_denotes hA ha.valid')
  · exact ExactR.exactZ_sgn ha zx _ _ hm (fun i => dualSign_unit') (undual_fl hA ha.valid) (undual_denotes hA ha.valid')

end

/-! ### Expressions -/

/-- Expressions in multivectors `X 0, X 1, …`. -/
inductive GExpr
  | X (i : Nat)
  | add (e f : GExpr)
  | sub (e f : GExpr)
  | mul (e f : GExpr)
  | wedge (e f : GExpr)
  | meet (e f : GExpr)
  | neg (e : GExpr)
  | rev (e : GExpr)
  | flip (e : GExpr)
  | flipSubspace (mask : Nat) (e : GExpr)
  | dual (e : GExpr)
  | undual (e : GExpr)

namespace GExpr

section
variable {T : Type} [Zero T] [One T] [Add T] [Sub T] [Neg T] [Mul T] [DecidableEq T] {A : ClAlg} {S : Type}
  [CoeffStorage S T] [WedgeProduct A S]

/-- The value of an expression. -/
def eval (ρ : Nat → MV A S) : GExpr → Res (MV A S)
  | X i => .ok (ρ i)
  | add e f => do (← e.eval ρ).add (← f.eval ρ)
  | sub e f => do (← e.eval ρ).sub (← f.eval ρ)
  | mul e f => do (← e.eval ρ).naiveMulImpl (← f.eval ρ)
  | wedge e f => do (← e.eval ρ).wedge (← f.eval ρ)
  | meet e f => do (← e.eval ρ).meet (← f.eval ρ)
  | neg e => do (← e.eval ρ).neg
  | rev e => do (← e.eval ρ).rev
  | flip e => do (← e.eval ρ).flip
  | flipSubspace mask e => do (← e.eval ρ).flipSubspace mask
  | dual e => do (← e.eval ρ).dual
  | undual e => do (← e.eval ρ).undual

end

/-- The bound for the sum of the absolute values of the coefficients, from bounds `l i` for the variables. -/
def bound (l : Nat → ℝ) : GExpr → ℝ
  | X i => l i
  | add e f | sub e f => e.bound l + f.bound l
  | mul e f | wedge e f | meet e f => e.bound l * f.bound l
  | neg e | rev e | flip e | flipSubspace _ e | dual e | undual e => e.bound l

/-- The bounds of all subexpressions are at most `M`. -/
def Fits (M : ℝ) (l : Nat → ℝ) : GExpr → Prop
  | X _ => True
  | add e f | sub e f => e.Fits M l ∧ f.Fits M l ∧ e.bound l + f.bound l ≤ M
  | mul e f | wedge e f | meet e f => e.Fits M l ∧ f.Fits M l ∧ e.bound l * f.bound l ≤ M
  | neg e | rev e | flip e | flipSubspace _ e | dual e | undual e => e.Fits M l

end GExpr

section
variable {F : Type} [Zero F] [One F] [Add F] [Sub F] [Neg F] [Mul F] [Div F] [FloatModel F] [DecidableEq F]
variable {A : ClAlg} {S : Type} [CoeffStorage S F] [LawfulStorage S F] {S' : Type} [CoeffStorage S' ℝ] [LawfulStorage S' ℝ]
  [WedgeProduct A S] [FloatWedge A S] [WedgeProduct A S'] [LawfulWedge A S']

theorem MV.ExactZ.mono {p : Res (MV A S)} {q : Res (MV A S')} {L L' : ℝ} (h : ExactZ p q L) (hL : L ≤ L') :
    ExactZ p q L' := by
  obtain ⟨u, v, z, h1, h2, h3, h4, h5⟩ := h
  exact ⟨u, v, z, h1, h2, h3, h4, h5.trans hL⟩

/-- **C71, expressions.** An expression in integer multivectors is evaluated exactly if the sums of absolute values,
added for sums and multiplied for products, stay below `M` (`2^53` for `f64`). -/
theorem C71_expression (hA : A.WF) {ρ : Nat → MV A S} {ρ' : Nat → MV A S'} {x : Nat → Nat → F} {l : Nat → ℝ}
    (hρ : ∀ i, SameValues (ρ i) (ρ' i) (x i)) (hz : ∀ i, ∀ j < 2 ^ A.dim, ∃ m : ℤ, re (x i j) = m)
    (hl : ∀ i, normOne A.dim (x i) ≤ l i) (e : GExpr) (he : e.Fits (FloatModel.M F) l) :
    ExactZ (e.eval ρ) (e.eval ρ') (e.bound l) := by
  induction e with
  | X i => exact ⟨_, _, x i, rfl, rfl, hρ i, hz i, hl i⟩
  | add e f ihe ihf | sub e f ihe ihf =>
    obtain ⟨h1, h2, h3⟩ := he
    obtain ⟨u, v, z, p1, p2, p3, p4, p5⟩ := ihe h1
    obtain ⟨u', v', z', q1, q2, q3, q4, q5⟩ := ihf h2
    simp only [GExpr.eval, p1, p2, q1, q2]
    have hb := add_le_add p5 q5
    first
      | exact (C71_add p3 q3 p4 q4 (hb.trans h3)).mono hb
      | exact (C71_sub p3 q3 p4 q4 (hb.trans h3)).mono hb
  | mul e f ihe ihf | wedge e f ihe ihf | meet e f ihe ihf =>
    obtain ⟨h1, h2, h3⟩ := he
    obtain ⟨u, v, z, p1, p2, p3, p4, p5⟩ := ihe h1
    obtain ⟨u', v', z', q1, q2, q3, q4, q5⟩ := ihf h2
    simp only [GExpr.eval, p1, p2, q1, q2]
    have hb := mul_le_mul p5 q5 (normOne_nonneg _ _) ((normOne_nonneg _ _).trans p5)
    first
      | exact (C71_mul p3 q3 p4 q4 hA (hb.trans h3)).mono hb
      | exact (C71_wedge p3 q3 p4 q4 (hb.trans h3)).mono hb
      | exact (C71_meet p3 q3 p4 q4 hA (hb.trans h3)).mono hb
  | flipSubspace mask e ih =>
    obtain ⟨u, v, z, p1, p2, p3, p4, p5⟩ := ih he
    simp only [GExpr.eval, p1, p2]
    exact (C71_exact hA p3 p4 mask).2.2.1.mono p5
  | neg e ih | rev e ih | flip e ih | dual e ih | undual e ih =>
    obtain ⟨u, v, z, p1, p2, p3, p4, p5⟩ := ih he
    simp only [GExpr.eval, p1, p2]
    obtain ⟨k1, k2, k3, k4, k5, k6⟩ := C71_exact hA p3 p4 0
    first
      | exact k1.mono p5 | exact k2.mono p5 | exact k4.mono p5 | exact k5.mono p5 | exact k6.mono p5

/-- **C71, identities.** An identity that holds for multivectors over the reals holds for integer floating point
multivectors for which no subexpression gets too large. -/
theorem C71_identity (hA : A.WF) {ρ : Nat → MV A S} {ρ' : Nat → MV A S'} {x : Nat → Nat → F} {l : Nat → ℝ}
    (hρ : ∀ i, SameValues (ρ i) (ρ' i) (x i)) (hz : ∀ i, ∀ j < 2 ^ A.dim, ∃ m : ℤ, re (x i j) = m)
    (hl : ∀ i, normOne A.dim (x i) ≤ l i) {e f : GExpr} (he : e.Fits (FloatModel.M F) l)
    (hf : f.Fits (FloatModel.M F) l) (h : e.eval ρ' ≈ᵣ f.eval ρ') : e.eval ρ ≈ᵣ f.eval ρ := by
  obtain ⟨u, v, z, p1, p2, p3, -, -⟩ := C71_expression hA hρ hz hl e he
  obtain ⟨u', v', z', q1, q2, q3, -, -⟩ := C71_expression hA hρ hz hl f hf
  obtain ⟨w, w', e1, e2, hw, hw', h⟩ := h
  rw [p2] at e1
  rw [q2] at e2
  injection e1 with e1
  injection e2 with e2
  subst e1 e2
  refine ⟨u, u', p1, q1, p3.valid, q3.valid, (beq_iff p3.valid q3.valid).mpr fun i hi => ?_⟩
  rw [p3.val hi, q3.val hi]
  apply re_inj (p3.finite i hi) (q3.finite i hi)
  rw [← p3.val' hi, ← q3.val' hi]
  exact (beq_iff hw hw').mp h i hi

end

end TClifford
