import Verif.Proofs.FloatPga
import Verif.Props.Pga
/-
Multivectors of src/pga.rs with doubles: points, their extraction, and products with translations.
-/

set_option linter.unusedSectionVars false

namespace TClifford

open Finset FloatModel MV

/-! ### Signs and indices -/

/-- The sign of the dual of a generator. -/
def dsg (n k : Nat) : ℤ := bsgn (fun _ => 0) n (2 ^ k ^^^ (2 ^ n - 1)) (2 ^ k)

theorem dsg_unit (n k : Nat) : dsg n k = 1 ∨ dsg n k = -1 := mul_self_eq_one_iff.mp GA.bsgn_compl_sq

theorem dsg_sq (n k : Nat) : dsg n k * dsg n k = 1 := GA.bsgn_compl_sq

theorem csg_unit (n : Nat) : GA.csg n = 1 ∨ GA.csg n = -1 := mul_self_eq_one_iff.mp (GA.csg_mul_self n)

theorem bsgn_common_null {σ : Nat → ℤ} {n a b g : Nat} (hg : g < n) (h0 : σ g = 0) (ha : a.testBit g = true)
    (hb : b.testBit g = true) : bsgn σ n a b = 0 := by
  induction n with
  | zero => omega
  | succ n ih =>
    rw [bsgn_succ]
    by_cases h : g = n
    · subst h
      rw [ha, hb, h0]; simp
    · rw [ih (by omega)]; simp

theorem or_eq_xor {d k : Nat} (h : k < d) : 2 ^ d ||| 2 ^ k = 2 ^ d ^^^ 2 ^ k := by
  apply Nat.eq_of_testBit_eq
  intro i
  rw [Nat.testBit_xor, Nat.testBit_or, Nat.testBit_two_pow, Nat.testBit_two_pow]
  by_cases h1 : d = i
  · have : k ≠ i := by omega
    simp [h1, this]
  · simp [h1]

section
variable {σ : Nat → ℤ} {d : Nat} (h1 : ∀ i < d, σ i = 1) (h0 : σ d = 0)
include h1 h0

theorem bsgn_trans_right {k : Nat} (hk : k < d) :
    bsgn σ (d + 1) (2 ^ d ^^^ (2 ^ (d + 1) - 1)) (2 ^ d ||| 2 ^ k) = dsg (d + 1) d * dsg (d + 1) k := by
  have h : (GA.D d * (GA.e d * GA.e k) : GA σ (d + 1) ℚ) = GA.D k := by
    rw [← mul_assoc, GA.D_mul_e (by omega), GA.ps_mul_e h1 h0 hk]
  rw [GA.e_mul_e_of_lt (by omega) hk] at h
  unfold GA.D at h
  rw [smul_mul_assoc, GA.bl_mul_bl (xor_mask_lt (GA.two_pow_lt (by omega))), smul_smul] at h
  have hx : 2 ^ d ^^^ (2 ^ (d + 1) - 1) ^^^ (2 ^ d ||| 2 ^ k) = 2 ^ k ^^^ (2 ^ (d + 1) - 1) := by
    rw [or_eq_xor hk, Nat.xor_comm (2 ^ d) (2 ^ (d + 1) - 1), Nat.xor_assoc, ← Nat.xor_assoc (2 ^ d), Nat.xor_self, Nat.zero_xor,
      Nat.xor_comm]
  rw [hx] at h
  have h2 := congrArg (fun g => GA.fn g (2 ^ k ^^^ (2 ^ (d + 1) - 1))) h
  beta_reduce at h2
  have hlt : 2 ^ k ^^^ (2 ^ (d + 1) - 1) < 2 ^ (d + 1) := xor_mask_lt (GA.two_pow_lt (by omega))
  rw [GA.fn_smul, GA.fn_smul, GA.fn_bl _ hlt, if_pos rfl, mul_one, mul_one] at h2
  have h2 : dsg (d + 1) d * bsgn σ (d + 1) (2 ^ d ^^^ (2 ^ (d + 1) - 1)) (2 ^ d ||| 2 ^ k) = dsg (d + 1) k := by unfold dsg; exact_mod_cast h2
  rw [← h2, ← mul_assoc, dsg_sq, one_mul]

theorem bsgn_trans_left {k : Nat} (hk : k < d) :
    bsgn σ (d + 1) (2 ^ d ||| 2 ^ k) (2 ^ d ^^^ (2 ^ (d + 1) - 1)) = -(dsg (d + 1) d * dsg (d + 1) k) := by
  have h : ((GA.e d * GA.e k) * GA.D d : GA σ (d + 1) ℚ) = -GA.D k := by
    have := GA.tb_mul_Dd (T := ℚ) h1 h0 (fun j => if j = k then 1 else 0)
    unfold GA.tb at this
    beta_reduce at this
    rw [sum_eq_single k (fun j _ hj => by rw [if_neg hj, zero_smul]) (fun h => absurd (mem_range.mpr hk) h),
      sum_eq_single k (fun j _ hj => by rw [if_neg hj, zero_smul]) (fun h => absurd (mem_range.mpr hk) h), if_pos rfl,
      one_smul, one_smul] at this
    exact this
  rw [GA.e_mul_e_of_lt (by omega) hk] at h
  unfold GA.D at h
  rw [mul_smul_comm, GA.bl_mul_bl (Nat.or_lt_two_pow (GA.two_pow_lt (by omega)) (GA.two_pow_lt (by omega))), smul_smul, ← neg_smul] at h
  have hx : (2 ^ d ||| 2 ^ k) ^^^ (2 ^ d ^^^ (2 ^ (d + 1) - 1)) = 2 ^ k ^^^ (2 ^ (d + 1) - 1) := by
    rw [or_eq_xor hk, Nat.xor_comm (2 ^ d) (2 ^ k), Nat.xor_assoc, ← Nat.xor_assoc (2 ^ d), Nat.xor_self, Nat.zero_xor]
  rw [hx] at h
  have h2 := congrArg (fun g => GA.fn g (2 ^ k ^^^ (2 ^ (d + 1) - 1))) h
  beta_reduce at h2
  have hlt : 2 ^ k ^^^ (2 ^ (d + 1) - 1) < 2 ^ (d + 1) := xor_mask_lt (GA.two_pow_lt (by omega))
  rw [GA.fn_smul, GA.fn_smul, GA.fn_bl _ hlt, if_pos rfl, mul_one, mul_one] at h2
  have h2 : dsg (d + 1) d * bsgn σ (d + 1) (2 ^ d ||| 2 ^ k) (2 ^ d ^^^ (2 ^ (d + 1) - 1)) = -dsg (d + 1) k := by unfold dsg; exact_mod_cast h2
  have h3 := congrArg (dsg (d + 1) d * ·) h2
  beta_reduce at h3
  rw [← mul_assoc, dsg_sq, one_mul] at h3
  rw [h3]; ring

end

/-! ### Sums of two products -/

theorem errB_small {a : ℝ} {n : Nat} (hn : n ≤ 2) (h0 : a = 0 → n = 0) (ha : a = 0 ∨ 1 / 2 ^ 1000 ≤ a) :
    errB F64 a n ≤ 4 * ρ * a := by
  rcases ha with ha | ha
  · rw [h0 ha, ha]; simp [errB]
  · have ha0 : 0 ≤ a := le_trans (by positivity) ha
    have h1 := errB_mono (F := F64) ha0 (le_refl a) hn
    refine h1.trans ?_
    have h2 := F64.under ha
    unfold errB
    have hu := C69_f64.1
    have hu0 : (0 : ℝ) ≤ u F64 := u_nonneg
    have hη0 : (0 : ℝ) ≤ η F64 := η_nonneg
    have e1 : (1 + u F64) ^ (2 + 1) - 1 ≤ 3 * u F64 + u F64 / 4 := by rw [hu]; norm_num
    have e2 : (1 + u F64) ^ 2 ≤ 2 := by rw [hu]; norm_num
    have e3 : η F64 * (2 : ℕ) * (1 + u F64) ^ 2 ≤ 4 * η F64 := by
      push_cast
      nlinarith
    have e4 : a * ((1 + u F64) ^ (2 + 1) - 1) ≤ (3 * u F64 + u F64 / 4) * a := by
      rw [mul_comm]; exact mul_le_mul_of_nonneg_right e1 ha0
    have h5 : 0 ≤ u F64 * a := mul_nonneg hu0 ha0
    refine (add_le_add e4 e3).trans ?_
    clear e1 e2 e3 e4 hu h1
    nlinarith only [h5, h2]

/-- A sum of products of which two may be non-zero. -/
theorem two_terms {v : F64} {s : Finset ℕ} {c : ℕ → ℤ} {x y : ℕ → F64} (h : Acc v (∑ i ∈ s, tau (c i) (x i) (y i)))
    {i j : ℕ} (hi : i ∈ s) (hj : j ∈ s) (hij : i ≠ j) (hz : ∀ l ∈ s, l ≠ i ∧ l ≠ j → c l = 0 ∨ x l = 0 ∨ y l = 0)
    (hf : fin (x i) ∧ fin (y i) ∧ fin (x j) ∧ fin (y j))
    (hl : |c i * (re (x i) * re (y i))| + |c j * (re (x j) * re (y j))| = 0 ∨
      1 / 2 ^ 1000 ≤ |c i * (re (x i) * re (y i))| + |c j * (re (x j) * re (y j))|)
    (hu : |c i * (re (x i) * re (y i))| + |c j * (re (x j) * re (y j))| ≤ 2 ^ 999) :
    fin v ∧ |re v - (c i * (re (x i) * re (y i)) + c j * (re (x j) * re (y j)))| ≤
      4 * ρ * (|c i * (re (x i) * re (y i))| + |c j * (re (x j) * re (y j))|) := by
  have hs : ∑ l ∈ s, tau (c l) (x l) (y l) = tau (c i) (x i) (y i) + tau (c j) (x j) (y j) := by
    refine sum_eq_add i j hij (fun l hl hn => ?_) (fun h => absurd hi h) (fun h => absurd hj h)
    unfold tau
    rcases hz l hl hn with h | h | h <;> rw [h] <;> simp [re_zero]
  rw [hs] at h
  obtain ⟨-, -, -, h3⟩ := h
  have hc : ∀ l, fin (x l) → fin (y l) → |c l * (re (x l) * re (y l))| = 0 → (tau (c l) (x l) (y l)).2.2 = 0 := by
    intro l hx hy h
    unfold tau
    rw [abs_eq_zero, mul_eq_zero, mul_eq_zero] at h
    refine if_pos ?_
    rcases h with h | h | h
    · left; exact_mod_cast h
    · right; left; exact F64.eq_zero hx h
    · right; right; exact F64.eq_zero hy h
  have hle : ∀ l, (tau (c l) (x l) (y l)).2.2 ≤ 1 := by
    intro l
    unfold tau
    dsimp only
    split <;> omega
  have hA : (tau (c i) (x i) (y i) + tau (c j) (x j) (y j)).2.1 = |c i * (re (x i) * re (y i))| + |c j * (re (x j) * re (y j))| := rfl
  have hE : (tau (c i) (x i) (y i) + tau (c j) (x j) (y j)).1 = c i * (re (x i) * re (y i)) + c j * (re (x j) * re (y j)) := rfl
  have hN : (tau (c i) (x i) (y i) + tau (c j) (x j) (y j)).2.2 = (tau (c i) (x i) (y i)).2.2 + (tau (c j) (x j) (y j)).2.2 := rfl
  rw [hA, hE] at h3
  have hb := errB_small (a := |c i * (re (x i) * re (y i))| + |c j * (re (x j) * re (y j))|)
    (n := (tau (c i) (x i) (y i) + tau (c j) (x j) (y j)).2.2) (by rw [hN]; have := hle i; have := hle j; omega) (by
      intro h
      have p1 := abs_nonneg (c i * (re (x i) * re (y i)) : ℝ)
      have p2 := abs_nonneg (c j * (re (x j) * re (y j)) : ℝ)
      rw [hN, hc i hf.1 hf.2.1 (by linarith), hc j hf.2.2.1 hf.2.2.2 (by linarith)]) hl
  have hρ := ρ_small
  have hρ0 := ρ_pos
  set a := |c i * (re (x i) * re (y i))| + |c j * (re (x j) * re (y j))|
  have ha0 : 0 ≤ a := by positivity
  obtain ⟨g1, g2⟩ := h3 (by
    refine F64.big (le_trans (add_le_add_right hb a) ?_)
    have : 4 * ρ * a ≤ a := mul_le_of_le_one_left ha0 (by norm_num at hρ; linarith)
    have e : (2 : ℝ) ^ 1000 = 2 ^ 999 + 2 ^ 999 := by rw [pow_succ]; ring
    rw [e]; linarith)
  exact ⟨g1, g2.trans hb⟩

theorem zero_terms {v : F64} {s : Finset ℕ} {c : ℕ → ℤ} {x y : ℕ → F64} (h : Acc v (∑ i ∈ s, tau (c i) (x i) (y i)))
    (hz : ∀ l ∈ s, c l = 0 ∨ x l = 0 ∨ y l = 0) : v = 0 := by
  rw [sum_eq_zero (fun l hl => by
    unfold tau
    rcases hz l hl with h | h | h <;> rw [h] <;> simp [re_zero])] at h
  exact (h.2.2.1 rfl).1

/-! ### Points and translations -/

section
variable {A : ClAlg} {d : Nat} {S : Type} [CoeffStorage S F64] [LawfulStorage S F64]

/-- The coefficient of the dual of the generator `k`. -/
def pc (a : MV A S) (k : Nat) : F64 := a.val (2 ^ k ^^^ (2 ^ A.dim - 1))

/-- A combination of the duals of the generators. -/
structure IsDp (d : Nat) (a : MV A S) : Prop where
  valid : a.Valid
  zero : ∀ i < 2 ^ A.dim, (∀ k ≤ d, i ≠ 2 ^ k ^^^ (2 ^ A.dim - 1)) → a.val i = 0
  fin : ∀ k ≤ d, FloatModel.fin (pc a k)

/-- One plus a combination of products of the null generator and another one. -/
structure IsT (d : Nat) (h : Nat → F64) (t : MV A S) : Prop where
  valid : t.Valid
  one : t.val 0 = 1
  bi : ∀ k < d, t.val (2 ^ d ||| 2 ^ k) = h k
  zero : ∀ i < 2 ^ A.dim, i ≠ 0 → (∀ k < d, i ≠ 2 ^ d ||| 2 ^ k) → t.val i = 0
  fin : ∀ k < d, FloatModel.fin (h k)

theorem two_pow_inj' {a b : Nat} (h : 2 ^ a = 2 ^ b) : a = b := Nat.pow_right_injective (le_refl 2) h

theorem Dk_inj {n k j : Nat} (h : 2 ^ k ^^^ (2 ^ n - 1) = 2 ^ j ^^^ (2 ^ n - 1)) : k = j := by
  have h2 := congrArg (· ^^^ (2 ^ n - 1)) h
  beta_reduce at h2
  rw [MV.xor_mask_xor_mask, MV.xor_mask_xor_mask] at h2
  exact two_pow_inj' h2

theorem testBit_Dk {n k g : Nat} (hg : g < n) (h : g ≠ k) : (2 ^ k ^^^ (2 ^ n - 1)).testBit g = true := by
  rw [Nat.testBit_xor, Nat.testBit_two_pow_sub_one, Nat.testBit_two_pow]
  simp [hg, Ne.symm h]

theorem IsDp.all_fin {p : MV A S} (hD : IsDp d p) {i : Nat} (hi : i < 2 ^ A.dim) : FloatModel.fin (p.val i) := by
  by_cases h : ∀ k ≤ d, i ≠ 2 ^ k ^^^ (2 ^ A.dim - 1)
  · rw [hD.zero i hi h]; exact fin_zero
  · push Not at h
    obtain ⟨k, hk, rfl⟩ := h
    exact hD.fin k hk

theorem IsT.all_fin {t : MV A S} {h : Nat → F64} (hT : IsT d h t) (h1 : FloatModel.fin (1 : F64)) {i : Nat} (hi : i < 2 ^ A.dim) :
    FloatModel.fin (t.val i) := by
  by_cases h0 : i = 0
  · rw [h0, hT.one]; exact h1
  · by_cases h : ∀ k < d, i ≠ 2 ^ d ||| 2 ^ k
    · rw [hT.zero i hi h0 h]; exact fin_zero
    · push Not at h
      obtain ⟨k, hk, rfl⟩ := h
      rw [hT.bi k hk]; exact hT.fin k hk

/-- The terms of a product of a translation and a point that can be different from zero. -/
theorem terms_left (hP : IsPga A d) {t p : MV A S} {h : Nat → F64} (hT : IsT d h t) (hD : IsDp d p) {i K : Nat} (hi : i < 2 ^ A.dim)
    (hK : K < 2 ^ A.dim) (hne : ¬ (bsgn A.sigma A.dim i (i ^^^ K) = 0 ∨ t.val i = 0 ∨ p.val (i ^^^ K) = 0)) :
    (i = 0 ∧ ∃ k ≤ d, K = 2 ^ k ^^^ (2 ^ A.dim - 1)) ∨ ∃ k < d, i = 2 ^ d ||| 2 ^ k ∧ K = 2 ^ k ^^^ (2 ^ A.dim - 1) := by
  push Not at hne
  obtain ⟨n1, n2, n3⟩ := hne
  have hl : ∃ l ≤ d, i ^^^ K = 2 ^ l ^^^ (2 ^ A.dim - 1) := by
    by_contra hc
    push Not at hc
    exact n3 (hD.zero _ (Nat.xor_lt_two_pow hi hK) hc)
  obtain ⟨l, hl, he⟩ := hl
  by_cases h0 : i = 0
  · left
    refine ⟨h0, l, hl, ?_⟩
    rw [h0, Nat.zero_xor] at he
    exact he
  · right
    have hk : ∃ k < d, i = 2 ^ d ||| 2 ^ k := by
      by_contra hc
      push Not at hc
      exact n2 (hT.zero i hi h0 hc)
    obtain ⟨k, hk, rfl⟩ := hk
    refine ⟨k, hk, rfl, ?_⟩
    have hld : l = d := by
      by_contra hne
      apply n1
      rw [he]
      refine bsgn_common_null (g := d) (by rw [hP.dim]; omega) hP.null ?_ (testBit_Dk (by rw [hP.dim]; omega) (Ne.symm hne))
      rw [Nat.testBit_or, Nat.testBit_two_pow_self]; rfl
    subst hld
    have : K = (2 ^ l ||| 2 ^ k) ^^^ (2 ^ l ^^^ (2 ^ A.dim - 1)) := by rw [← he, ← Nat.xor_assoc, Nat.xor_self, Nat.zero_xor]
    rw [this, or_eq_xor hk, Nat.xor_comm (2 ^ l) (2 ^ k), Nat.xor_assoc, ← Nat.xor_assoc (2 ^ l), Nat.xor_self, Nat.zero_xor]

theorem terms_right (hP : IsPga A d) {t p : MV A S} {h : Nat → F64} (hT : IsT d h t) (hD : IsDp d p) {i K : Nat} (hi : i < 2 ^ A.dim)
    (hK : K < 2 ^ A.dim) (hne : ¬ (bsgn A.sigma A.dim i (i ^^^ K) = 0 ∨ p.val i = 0 ∨ t.val (i ^^^ K) = 0)) :
    (i = K ∧ ∃ k ≤ d, K = 2 ^ k ^^^ (2 ^ A.dim - 1)) ∨
    ∃ k < d, i = 2 ^ d ^^^ (2 ^ A.dim - 1) ∧ i ^^^ K = 2 ^ d ||| 2 ^ k ∧ K = 2 ^ k ^^^ (2 ^ A.dim - 1) := by
  push Not at hne
  obtain ⟨n1, n2, n3⟩ := hne
  have hl : ∃ l ≤ d, i = 2 ^ l ^^^ (2 ^ A.dim - 1) := by
    by_contra hc
    push Not at hc
    exact n2 (hD.zero _ hi hc)
  obtain ⟨l, hl, he⟩ := hl
  by_cases h0 : i ^^^ K = 0
  · left
    have hiK : i = K := Nat.xor_eq_zero_iff.mp h0
    exact ⟨hiK, l, hl, by rw [← hiK, he]⟩
  · right
    have hk : ∃ k < d, i ^^^ K = 2 ^ d ||| 2 ^ k := by
      by_contra hc
      push Not at hc
      exact n3 (hT.zero _ (Nat.xor_lt_two_pow hi hK) h0 hc)
    obtain ⟨k, hk, hik⟩ := hk
    have hld : l = d := by
      by_contra hne
      apply n1
      rw [hik]
      refine bsgn_common_null (g := d) (by rw [hP.dim]; omega) hP.null ?_ ?_
      · rw [he]; exact testBit_Dk (by rw [hP.dim]; omega) (Ne.symm hne)
      · rw [Nat.testBit_or, Nat.testBit_two_pow_self]; rfl
    subst hld
    refine ⟨k, hk, he, hik, ?_⟩
    have : K = (2 ^ l ||| 2 ^ k) ^^^ (2 ^ l ^^^ (2 ^ A.dim - 1)) := by
      rw [← hik, ← he, Nat.xor_comm i K, Nat.xor_assoc, Nat.xor_self, Nat.xor_zero]
    rw [this, or_eq_xor hk, Nat.xor_comm (2 ^ l) (2 ^ k), Nat.xor_assoc, ← Nat.xor_assoc (2 ^ l), Nat.xor_self, Nat.zero_xor]

/-- The real numbers of a point, with the signs of the dual taken off. -/
noncomputable def nc (a : MV A S) (k : Nat) : ℝ := dsg A.dim k * re (pc a k)

theorem re_pc (a : MV A S) (k : Nat) : re (pc a k) = dsg A.dim k * nc a k := by
  unfold nc
  rw [← mul_assoc, ← Int.cast_mul, dsg_sq, Int.cast_one, one_mul]

theorem abs_dsg (n k : Nat) : |(dsg n k : ℝ)| = 1 := by rcases dsg_unit n k with h | h <;> rw [h] <;> simp

theorem abs_nc (a : MV A S) (k : Nat) : |nc a k| = |re (pc a k)| := by
  unfold nc; rw [abs_mul, abs_dsg, one_mul]

/-- Sizes that neither overflow nor underflow. -/
def SafeR (t : ℝ) : Prop := (t = 0 ∨ 1 / 2 ^ 1000 ≤ t) ∧ t ≤ 2 ^ 999

/-- Product with a translation from the left. -/
theorem mul_left_fl (hP : IsPga A d) {t p : MV A S} {h : Nat → F64} (hT : IsT d h t) (hD : IsDp d p)
    (h1 : FloatModel.fin (1 : F64) ∧ re (1 : F64) = 1)
    (hs : ∀ k < d, SafeR (|nc p k| + |re (h k) * nc p d|)) (hw : SafeR |nc p d|) :
    ∃ r, t.naiveMulImpl p = .ok r ∧ IsDp d r ∧
      (∀ k < d, |nc r k - (nc p k - re (h k) * nc p d)| ≤ 4 * ρ * (|nc p k| + |re (h k) * nc p d|)) ∧
      |nc r d - nc p d| ≤ 4 * ρ * |nc p d| := by
  have hdim := hP.dim
  obtain ⟨r, hr, hrv, hacc⟩ := mul_inv sumInv_acc hP.wf hT.valid hD.valid (fun i hi => hT.all_fin h1.1 hi) (fun i hi => hD.all_fin hi)
  have hDlt : ∀ k ≤ d, 2 ^ k ^^^ (2 ^ A.dim - 1) < 2 ^ A.dim := fun k hk => xor_mask_lt (GA.two_pow_lt (by omega))
  have hTlt : ∀ k < d, 2 ^ d ||| 2 ^ k < 2 ^ A.dim := fun k hk => by rw [hdim]; exact or_two_pow_lt (by omega)
  have hpos : 0 < 2 ^ A.dim := Nat.two_pow_pos _
  have hTne : ∀ k < d, 2 ^ d ||| 2 ^ k ≠ 0 := fun k hk h => by
    have := Nat.left_le_or (m := 2 ^ k) (n := 2 ^ d)
    have := Nat.two_pow_pos d
    omega
  have key : ∀ k < d, FloatModel.fin (pc r k) ∧
      |nc r k - (nc p k - re (h k) * nc p d)| ≤ 4 * ρ * (|nc p k| + |re (h k) * nc p d|) := by
    intro k hk
    have hx : (2 ^ d ||| 2 ^ k) ^^^ (2 ^ k ^^^ (2 ^ A.dim - 1)) = 2 ^ d ^^^ (2 ^ A.dim - 1) := by
      rw [or_eq_xor hk, Nat.xor_assoc, ← Nat.xor_assoc (2 ^ k), Nat.xor_self, Nat.zero_xor]
    have hsg : bsgn A.sigma A.dim (2 ^ d ||| 2 ^ k) (2 ^ d ^^^ (2 ^ A.dim - 1)) = -(dsg A.dim d * dsg A.dim k) := by
      rw [hdim]; exact bsgn_trans_left hP.unit hP.null hk
    have hsum : |((bsgn A.sigma A.dim 0 (0 ^^^ (2 ^ k ^^^ (2 ^ A.dim - 1))) : ℤ) : ℝ) * (re (t.val 0) * re (p.val (0 ^^^ (2 ^ k ^^^ (2 ^ A.dim - 1)))))| = |nc p k| ∧
        ((bsgn A.sigma A.dim 0 (0 ^^^ (2 ^ k ^^^ (2 ^ A.dim - 1))) : ℤ) : ℝ) * (re (t.val 0) * re (p.val (0 ^^^ (2 ^ k ^^^ (2 ^ A.dim - 1))))) = dsg A.dim k * nc p k := by
      rw [bsgn_zero_left, hT.one, h1.2, Nat.zero_xor, Int.cast_one, one_mul, one_mul]
      exact ⟨(abs_nc p k).symm, re_pc p k⟩
    have hsum2 : ((bsgn A.sigma A.dim (2 ^ d ||| 2 ^ k) ((2 ^ d ||| 2 ^ k) ^^^ (2 ^ k ^^^ (2 ^ A.dim - 1))) : ℤ) : ℝ) *
        (re (t.val (2 ^ d ||| 2 ^ k)) * re (p.val ((2 ^ d ||| 2 ^ k) ^^^ (2 ^ k ^^^ (2 ^ A.dim - 1))))) = -(dsg A.dim k * (re (h k) * nc p d)) := by
      rw [hx, hsg, hT.bi k hk]
      change _ * (_ * re (pc p d)) = _
      rw [re_pc]
      push_cast
      have := congrArg (Int.cast (R := ℝ)) (dsg_sq A.dim d)
      rw [Int.cast_mul, Int.cast_one] at this
      linear_combination (-(dsg A.dim k : ℝ) * re (h k) * nc p d) * this
    have hab2 : |-(dsg A.dim k * (re (h k) * nc p d))| = |re (h k) * nc p d| := by
      rw [abs_neg, abs_mul, abs_dsg, one_mul]
    obtain ⟨g1, g2⟩ := two_terms (hacc _ (hDlt k (by omega))) (i := 0) (j := 2 ^ d ||| 2 ^ k) (mem_range.mpr hpos)
      (mem_range.mpr (hTlt k hk)) (Ne.symm (hTne k hk)) (by
        intro l hl hn
        by_contra hc
        rcases terms_left hP hT hD (mem_range.mp hl) (hDlt k (by omega)) hc with h | ⟨j, hj, h2, h3⟩
        · exact hn.1 h.1
        · have : k = j := Dk_inj h3
          exact hn.2 (by rw [h2, this]))
      ⟨hT.all_fin h1.1 hpos, hD.all_fin (by rw [Nat.zero_xor]; exact hDlt k (by omega)), hT.all_fin h1.1 (hTlt k hk),
        hD.all_fin (by rw [hx]; exact hDlt d le_rfl)⟩
      (by rw [hsum.1, hsum2, hab2]; exact (hs k hk).1) (by rw [hsum.1, hsum2, hab2]; exact (hs k hk).2)
    rw [hsum.1, hsum.2, hsum2, hab2] at g2
    refine ⟨g1, le_trans (le_of_eq ?_) g2⟩
    change _ = |re (pc r k) - _|
    rw [re_pc, ← sub_eq_add_neg, ← mul_sub, ← mul_sub, abs_mul, abs_dsg, one_mul]
  have keyd : FloatModel.fin (pc r d) ∧ |nc r d - nc p d| ≤ 4 * ρ * |nc p d| := by
    have hp0 := hP.pos
    have e1 : ((bsgn A.sigma A.dim 0 (0 ^^^ (2 ^ d ^^^ (2 ^ A.dim - 1))) : ℤ) : ℝ) * (re (t.val 0) * re (p.val (0 ^^^ (2 ^ d ^^^ (2 ^ A.dim - 1))))) = dsg A.dim d * nc p d := by
      rw [bsgn_zero_left, hT.one, h1.2, Nat.zero_xor, Int.cast_one, one_mul, one_mul]
      exact re_pc p d
    have hall : ∀ l ∈ range (2 ^ A.dim), l ≠ 0 → bsgn A.sigma A.dim l (l ^^^ (2 ^ d ^^^ (2 ^ A.dim - 1))) = 0 ∨ t.val l = 0 ∨
        p.val (l ^^^ (2 ^ d ^^^ (2 ^ A.dim - 1))) = 0 := by
      intro l hl hn
      by_contra hc
      rcases terms_left hP hT hD (mem_range.mp hl) (hDlt d le_rfl) hc with h | ⟨j, hj, h2, h3⟩
      · exact hn h.1
      · have : d = j := Dk_inj h3
        omega
    have e2 : ((bsgn A.sigma A.dim (2 ^ d ||| 2 ^ 0) ((2 ^ d ||| 2 ^ 0) ^^^ (2 ^ d ^^^ (2 ^ A.dim - 1))) : ℤ) : ℝ) *
        (re (t.val (2 ^ d ||| 2 ^ 0)) * re (p.val ((2 ^ d ||| 2 ^ 0) ^^^ (2 ^ d ^^^ (2 ^ A.dim - 1))))) = 0 := by
      rcases hall _ (mem_range.mpr (hTlt 0 hp0)) (hTne 0 hp0) with h | h | h <;> rw [h] <;> simp [re_zero]
    have ea : |(dsg A.dim d : ℝ) * nc p d| + |(0 : ℝ)| = |nc p d| := by rw [abs_mul, abs_dsg, one_mul, abs_zero, add_zero]
    obtain ⟨g1, g2⟩ := two_terms (hacc _ (hDlt d le_rfl)) (i := 0) (j := 2 ^ d ||| 2 ^ 0) (mem_range.mpr hpos)
      (mem_range.mpr (hTlt 0 hp0)) (Ne.symm (hTne 0 hp0)) (fun l hl hn => hall l hl hn.1)
      ⟨hT.all_fin h1.1 hpos, hD.all_fin (by rw [Nat.zero_xor]; exact hDlt d le_rfl), hT.all_fin h1.1 (hTlt 0 hp0),
        hD.all_fin (Nat.xor_lt_two_pow (hTlt 0 hp0) (hDlt d le_rfl))⟩
      (by rw [e1, e2, ea]; exact hw.1) (by rw [e1, e2, ea]; exact hw.2)
    rw [e1, e2, ea] at g2
    refine ⟨g1, le_trans (le_of_eq ?_) g2⟩
    change _ = |re (pc r d) - _|
    rw [re_pc, add_zero, ← mul_sub, abs_mul, abs_dsg, one_mul]
  refine ⟨r, hr, ⟨hrv, ?_, ?_⟩, fun k hk => (key k hk).2, keyd.2⟩
  · intro K hK hne
    refine zero_terms (hacc K hK) fun l hl => ?_
    by_contra hc
    rcases terms_left hP hT hD (mem_range.mp hl) hK hc with ⟨-, k, hk, h⟩ | ⟨k, hk, -, h⟩
    · exact hne k hk h
    · exact hne k (by omega) h
  · intro k hk
    rcases Nat.lt_or_ge k d with h | h
    · exact (key k h).1
    · have : k = d := by omega
      rw [this]; exact keyd.1

/-- Product with a translation from the right. -/
theorem mul_right_fl (hP : IsPga A d) {t p : MV A S} {h : Nat → F64} (hT : IsT d h t) (hD : IsDp d p)
    (h1 : FloatModel.fin (1 : F64) ∧ re (1 : F64) = 1)
    (hs : ∀ k < d, SafeR (|nc p k| + |re (h k) * nc p d|)) (hw : SafeR |nc p d|) :
    ∃ r, p.naiveMulImpl t = .ok r ∧ IsDp d r ∧
      (∀ k < d, |nc r k - (nc p k + re (h k) * nc p d)| ≤ 4 * ρ * (|nc p k| + |re (h k) * nc p d|)) ∧
      |nc r d - nc p d| ≤ 4 * ρ * |nc p d| := by
  have hdim := hP.dim
  obtain ⟨r, hr, hrv, hacc⟩ := mul_inv sumInv_acc hP.wf hD.valid hT.valid (fun i hi => hD.all_fin hi) (fun i hi => hT.all_fin h1.1 hi)
  have hDlt : ∀ k ≤ d, 2 ^ k ^^^ (2 ^ A.dim - 1) < 2 ^ A.dim := fun k hk => xor_mask_lt (GA.two_pow_lt (by omega))
  have hTlt : ∀ k < d, 2 ^ d ||| 2 ^ k < 2 ^ A.dim := fun k hk => by rw [hdim]; exact or_two_pow_lt (by omega)
  have hpos : 0 < 2 ^ A.dim := Nat.two_pow_pos _
  have hDinj : ∀ {k j : Nat}, 2 ^ k ^^^ (2 ^ A.dim - 1) = 2 ^ j ^^^ (2 ^ A.dim - 1) → k = j := fun h3 =>
    Dk_inj h3
  have key : ∀ k < d, FloatModel.fin (pc r k) ∧
      |nc r k - (nc p k + re (h k) * nc p d)| ≤ 4 * ρ * (|nc p k| + |re (h k) * nc p d|) := by
    intro k hk
    have hx : (2 ^ d ^^^ (2 ^ A.dim - 1)) ^^^ (2 ^ k ^^^ (2 ^ A.dim - 1)) = 2 ^ d ||| 2 ^ k := by
      rw [or_eq_xor hk, Nat.xor_comm (2 ^ k), Nat.xor_assoc, ← Nat.xor_assoc (2 ^ A.dim - 1), Nat.xor_self, Nat.zero_xor]
    have hsg : bsgn A.sigma A.dim (2 ^ d ^^^ (2 ^ A.dim - 1)) (2 ^ d ||| 2 ^ k) = dsg A.dim d * dsg A.dim k := by
      rw [hdim]; exact bsgn_trans_right hP.unit hP.null hk
    have hsum : ((bsgn A.sigma A.dim (2 ^ k ^^^ (2 ^ A.dim - 1)) ((2 ^ k ^^^ (2 ^ A.dim - 1)) ^^^ (2 ^ k ^^^ (2 ^ A.dim - 1))) : ℤ) : ℝ) *
        (re (p.val (2 ^ k ^^^ (2 ^ A.dim - 1))) * re (t.val ((2 ^ k ^^^ (2 ^ A.dim - 1)) ^^^ (2 ^ k ^^^ (2 ^ A.dim - 1))))) = dsg A.dim k * nc p k := by
      rw [Nat.xor_self, bsgn_zero_right, hT.one, h1.2, Int.cast_one, one_mul, mul_one]
      exact re_pc p k
    have hsum2 : ((bsgn A.sigma A.dim (2 ^ d ^^^ (2 ^ A.dim - 1)) ((2 ^ d ^^^ (2 ^ A.dim - 1)) ^^^ (2 ^ k ^^^ (2 ^ A.dim - 1))) : ℤ) : ℝ) *
        (re (p.val (2 ^ d ^^^ (2 ^ A.dim - 1))) * re (t.val ((2 ^ d ^^^ (2 ^ A.dim - 1)) ^^^ (2 ^ k ^^^ (2 ^ A.dim - 1))))) = dsg A.dim k * (re (h k) * nc p d) := by
      rw [hx, hsg, hT.bi k hk]
      change _ * (re (pc p d) * _) = _
      rw [re_pc]
      push_cast
      have := congrArg (Int.cast (R := ℝ)) (dsg_sq A.dim d)
      rw [Int.cast_mul, Int.cast_one] at this
      linear_combination ((dsg A.dim k : ℝ) * re (h k) * nc p d) * this
    have hab : |(dsg A.dim k : ℝ) * nc p k| = |nc p k| := by rw [abs_mul, abs_dsg, one_mul]
    have hab2 : |(dsg A.dim k : ℝ) * (re (h k) * nc p d)| = |re (h k) * nc p d| := by rw [abs_mul, abs_dsg, one_mul]
    obtain ⟨g1, g2⟩ := two_terms (hacc _ (hDlt k (by omega))) (i := 2 ^ k ^^^ (2 ^ A.dim - 1)) (j := 2 ^ d ^^^ (2 ^ A.dim - 1))
      (mem_range.mpr (hDlt k (by omega))) (mem_range.mpr (hDlt d le_rfl)) (fun h => by have := hDinj h; omega) (by
        intro l hl hn
        by_contra hc
        rcases terms_right hP hT hD (mem_range.mp hl) (hDlt k (by omega)) hc with h | ⟨j, hj, h2, -⟩
        · exact hn.1 h.1
        · exact hn.2 h2)
      ⟨hD.all_fin (hDlt k (by omega)), hT.all_fin h1.1 (by rw [Nat.xor_self]; exact hpos), hD.all_fin (hDlt d le_rfl),
        hT.all_fin h1.1 (by rw [hx]; exact hTlt k hk)⟩
      (by rw [hsum, hsum2, hab, hab2]; exact (hs k hk).1) (by rw [hsum, hsum2, hab, hab2]; exact (hs k hk).2)
    rw [hsum, hsum2, hab, hab2] at g2
    refine ⟨g1, le_trans (le_of_eq ?_) g2⟩
    change _ = |re (pc r k) - _|
    rw [re_pc, ← mul_add, ← mul_sub, abs_mul, abs_dsg, one_mul]
  have keyd : FloatModel.fin (pc r d) ∧ |nc r d - nc p d| ≤ 4 * ρ * |nc p d| := by
    have hp0 := hP.pos
    have e1 : ((bsgn A.sigma A.dim (2 ^ d ^^^ (2 ^ A.dim - 1)) ((2 ^ d ^^^ (2 ^ A.dim - 1)) ^^^ (2 ^ d ^^^ (2 ^ A.dim - 1))) : ℤ) : ℝ) *
        (re (p.val (2 ^ d ^^^ (2 ^ A.dim - 1))) * re (t.val ((2 ^ d ^^^ (2 ^ A.dim - 1)) ^^^ (2 ^ d ^^^ (2 ^ A.dim - 1))))) = dsg A.dim d * nc p d := by
      rw [Nat.xor_self, bsgn_zero_right, hT.one, h1.2, Int.cast_one, one_mul, mul_one]
      exact re_pc p d
    have hall : ∀ l ∈ range (2 ^ A.dim), l ≠ 2 ^ d ^^^ (2 ^ A.dim - 1) → bsgn A.sigma A.dim l (l ^^^ (2 ^ d ^^^ (2 ^ A.dim - 1))) = 0 ∨
        p.val l = 0 ∨ t.val (l ^^^ (2 ^ d ^^^ (2 ^ A.dim - 1))) = 0 := by
      intro l hl hn
      by_contra hc
      rcases terms_right hP hT hD (mem_range.mp hl) (hDlt d le_rfl) hc with h | ⟨j, hj, h2, -, h3⟩
      · exact hn h.1
      · have := hDinj h3
        omega
    have hne : 2 ^ 0 ^^^ (2 ^ A.dim - 1) ≠ 2 ^ d ^^^ (2 ^ A.dim - 1) := fun h => by have := hDinj h; omega
    have e2 : ((bsgn A.sigma A.dim (2 ^ 0 ^^^ (2 ^ A.dim - 1)) ((2 ^ 0 ^^^ (2 ^ A.dim - 1)) ^^^ (2 ^ d ^^^ (2 ^ A.dim - 1))) : ℤ) : ℝ) *
        (re (p.val (2 ^ 0 ^^^ (2 ^ A.dim - 1))) * re (t.val ((2 ^ 0 ^^^ (2 ^ A.dim - 1)) ^^^ (2 ^ d ^^^ (2 ^ A.dim - 1))))) = 0 := by
      rcases hall _ (mem_range.mpr (hDlt 0 (by omega))) hne with h | h | h <;> rw [h] <;> simp [re_zero]
    have ea : |(dsg A.dim d : ℝ) * nc p d| + |(0 : ℝ)| = |nc p d| := by rw [abs_mul, abs_dsg, one_mul, abs_zero, add_zero]
    obtain ⟨g1, g2⟩ := two_terms (hacc _ (hDlt d le_rfl)) (i := 2 ^ d ^^^ (2 ^ A.dim - 1)) (j := 2 ^ 0 ^^^ (2 ^ A.dim - 1))
      (mem_range.mpr (hDlt d le_rfl)) (mem_range.mpr (hDlt 0 (by omega))) (Ne.symm hne) (fun l hl hn => hall l hl hn.1)
      ⟨hD.all_fin (hDlt d le_rfl), hT.all_fin h1.1 (by rw [Nat.xor_self]; exact hpos), hD.all_fin (hDlt 0 (by omega)),
        hT.all_fin h1.1 (Nat.xor_lt_two_pow (hDlt 0 (by omega)) (hDlt d le_rfl))⟩
      (by rw [e1, e2, ea]; exact hw.1) (by rw [e1, e2, ea]; exact hw.2)
    rw [e1, e2, ea] at g2
    refine ⟨g1, le_trans (le_of_eq ?_) g2⟩
    change _ = |re (pc r d) - _|
    rw [re_pc, add_zero, ← mul_sub, abs_mul, abs_dsg, one_mul]
  refine ⟨r, hr, ⟨hrv, ?_, ?_⟩, fun k hk => (key k hk).2, keyd.2⟩
  · intro K hK hne
    refine zero_terms (hacc K hK) fun l hl => ?_
    by_contra hc
    rcases terms_right hP hT hD (mem_range.mp hl) hK hc with ⟨-, k, hk, h⟩ | ⟨k, hk, -, -, h⟩
    · exact hne k hk h
    · exact hne k (by omega) h
  · intro k hk
    rcases Nat.lt_or_ge k d with h | h
    · exact (key k h).1
    · have : k = d := by omega
      rw [this]; exact keyd.1

end

end TClifford
