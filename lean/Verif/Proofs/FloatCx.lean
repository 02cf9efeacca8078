import Verif.Proofs.FFTFloat
import Verif.Proofs.FloatMV
/-
Products of multivectors with complex floating point coefficients.
-/

set_option linter.unusedSectionVars false

namespace TClifford

open Finset FloatModel

variable {F : Type} [Zero F] [One F] [Add F] [Sub F] [Neg F] [Mul F] [Div F] [FloatModel F] [FloatSigns F] [DecidableEq F]

namespace Cx

theorem mul_zero' {v : Cx F} (h : v.Fin) : v * 0 = 0 := by
  apply Cx.ext'
  · show v.re * 0 - v.im * 0 = 0
    rw [FloatModel.mul_zero h.1, FloatModel.mul_zero h.2, CoeffLaws.sub_zero]
  · show v.re * 0 + v.im * 0 = 0
    rw [FloatModel.mul_zero h.1, FloatModel.mul_zero h.2, CoeffLaws.add_zero]

theorem zero_mul' {v : Cx F} (h : v.Fin) : 0 * v = 0 := by
  apply Cx.ext'
  · show 0 * v.re - 0 * v.im = 0
    rw [FloatModel.zero_mul h.1, FloatModel.zero_mul h.2, CoeffLaws.sub_zero]
  · show 0 * v.im + 0 * v.re = 0
    rw [FloatModel.zero_mul h.1, FloatModel.zero_mul h.2, CoeffLaws.add_zero]

instance : SumLaws (Cx F) where
  neg_zero := Cx.ext' (fneg_zero (F := F)) (fneg_zero (F := F))
  zero_add x := Cx.ext' (FloatModel.zero_add x.re) (FloatModel.zero_add x.im)

theorem neg_eq_zero' {v : Cx F} : -v = 0 ↔ v = 0 := by
  constructor
  · intro h
    rw [← neg_neg' v, h]; exact SumLaws.neg_zero
  · rintro rfl; exact SumLaws.neg_zero

/-- contribution of a product to the sum, the sum of absolute values and the number of products -/
noncomputable def tau (c : ℤ) (x y : Cx F) : ℂ × ℝ × ℕ :=
  (c * (x.val * y.val), |(c : ℝ)| * (n1 x.val * n1 y.val), if c = 0 ∨ x = 0 ∨ y = 0 then 0 else 1)

/-- `v` is the computed value of a sum of products, for the relation `Q`. -/
def Acc (Q : CxRel (Cx F)) (v : Cx F) (s : ℂ × ℝ × ℕ) : Prop :=
  0 ≤ s.2.1 ∧ (s.2.2 = 0 → v = 0 ∧ s.1 = 0 ∧ s.2.1 = 0) ∧
    (Q.ok (s.2.2 + 2) (s.2.1 + s.2.2 * Q.D) → Q.R (s.2.2 + 2) v s.1 (s.2.1 + s.2.2 * Q.D))

/-- Coefficients to which the relation applies. -/
def Good (Q : CxRel (Cx F)) (x : Cx F) : Prop := x.Fin ∧ Q.R 0 x x.val (n1 x.val)

theorem Good.mul {Q : CxRel (Cx F)} {x y : Cx F} (hx : Good Q x) (hy : Good Q y) (hok : Q.ok 2 (n1 x.val * n1 y.val + Q.D)) :
    Q.R 2 (x * y) (x.val * y.val) (n1 x.val * n1 y.val + Q.D) := Q.mul hx.2 hy.2 hok

theorem tau_zero_left (c : ℤ) (y : Cx F) : tau c 0 y = 0 := by
  unfold tau
  rw [zero_Fin.2, n1_zero]; simp

theorem tau_zero_right (c : ℤ) (x : Cx F) : tau c x 0 = 0 := by
  unfold tau
  rw [zero_Fin.2, n1_zero]; simp

theorem Acc.step {Q : CxRel (Cx F)} {v : Cx F} {s : ℂ × ℝ × ℕ} (h : Acc Q v s) {x y : Cx F} (hx : Good Q x) (hy : Good Q y)
    (hne : ¬(x = 0 ∨ y = 0)) : Acc Q (v + x * y) (s + tau 1 x y) ∧ Acc Q (v - x * y) (s + tau (-1) x y) := by
  obtain ⟨h0, -, h2⟩ := h
  have hD := Q.D_nonneg
  have hxy := mul_nonneg (n1_nonneg x.val) (n1_nonneg y.val)
  have hn : (0 : ℝ) ≤ s.2.2 * Q.D := mul_nonneg (Nat.cast_nonneg _) hD
  have e1 : tau 1 x y = (x.val * y.val, n1 x.val * n1 y.val, 1) := by
    unfold tau
    rw [if_neg (by simpa using hne)]; simp
  have e2 : tau (-1) x y = (-(x.val * y.val), n1 x.val * n1 y.val, 1) := by
    unfold tau
    rw [if_neg (by simpa using hne)]; simp
  have e3 : s.2.1 + n1 x.val * n1 y.val + ((s.2.2 + 1 : ℕ) : ℝ) * Q.D = (s.2.1 + s.2.2 * Q.D) + (n1 x.val * n1 y.val + Q.D) := by
    push_cast; ring
  rw [e1, e2]
  constructor
  · refine ⟨add_nonneg h0 hxy, fun h => absurd h (Nat.succ_ne_zero _), fun hok => ?_⟩
    change Q.ok (s.2.2 + 1 + 2) (s.2.1 + n1 x.val * n1 y.val + ((s.2.2 + 1 : ℕ) : ℝ) * Q.D) at hok
    show Q.R (s.2.2 + 1 + 2) (v + x * y) (s.1 + x.val * y.val) (s.2.1 + n1 x.val * n1 y.val + ((s.2.2 + 1 : ℕ) : ℝ) * Q.D)
    rw [e3] at hok ⊢
    have k1 := h2 (Q.ok_mono hok (by omega) (by linarith))
    have k2 := hx.mul hy (Q.ok_mono hok (by omega) (by linarith))
    exact Q.add k1 (Q.mono k2 (by omega) le_rfl) hok
  · refine ⟨add_nonneg h0 hxy, fun h => absurd h (Nat.succ_ne_zero _), fun hok => ?_⟩
    change Q.ok (s.2.2 + 1 + 2) (s.2.1 + n1 x.val * n1 y.val + ((s.2.2 + 1 : ℕ) : ℝ) * Q.D) at hok
    show Q.R (s.2.2 + 1 + 2) (v - x * y) (s.1 + -(x.val * y.val)) (s.2.1 + n1 x.val * n1 y.val + ((s.2.2 + 1 : ℕ) : ℝ) * Q.D)
    rw [e3] at hok ⊢
    have k1 := h2 (Q.ok_mono hok (by omega) (by linarith))
    have k2 := hx.mul hy (Q.ok_mono hok (by omega) (by linarith))
    rw [← sub_eq_add_neg]
    exact Q.sub k1 (Q.mono k2 (by omega) le_rfl) hok

theorem Acc.add {Q : CxRel (Cx F)} {v w : Cx F} {s t : ℂ × ℝ × ℕ} (h : Acc Q v s) (g : Acc Q w t) : Acc Q (v + w) (s + t) := by
  obtain ⟨h0, h1, h2⟩ := h
  obtain ⟨g0, g1, g2⟩ := g
  obtain ⟨z, b, n⟩ := s
  obtain ⟨y, c, m⟩ := t
  have hD := Q.D_nonneg
  by_cases hn : n = 0
  · obtain ⟨rfl, rfl, rfl⟩ := h1 hn
    subst hn
    rw [SumLaws.zero_add, Prod.mk_add_mk, Prod.mk_add_mk, _root_.zero_add, _root_.zero_add, _root_.zero_add]
    exact ⟨g0, g1, g2⟩
  by_cases hm : m = 0
  · obtain ⟨rfl, rfl, rfl⟩ := g1 hm
    subst hm
    rw [CoeffLaws.add_zero, Prod.mk_add_mk, Prod.mk_add_mk, _root_.add_zero, _root_.add_zero, _root_.add_zero]
    exact ⟨h0, h1, h2⟩
  dsimp only at *
  have hn' : (0 : ℝ) ≤ n * Q.D := mul_nonneg (Nat.cast_nonneg _) hD
  have hm' : (0 : ℝ) ≤ m * Q.D := mul_nonneg (Nat.cast_nonneg _) hD
  refine ⟨add_nonneg h0 g0, fun h => absurd h (by show n + m ≠ 0; omega), fun hok => ?_⟩
  change Q.ok (n + m + 2) (b + c + ((n + m : ℕ) : ℝ) * Q.D) at hok
  show Q.R (n + m + 2) (v + w) (z + y) (b + c + ((n + m : ℕ) : ℝ) * Q.D)
  have e : b + c + ((n + m : ℕ) : ℝ) * Q.D = (b + n * Q.D) + (c + m * Q.D) := by push_cast; ring
  rw [e] at hok ⊢
  have k1 := h2 (Q.ok_mono hok (by omega) (by linarith))
  have k2 := g2 (Q.ok_mono hok (by omega) (by linarith))
  have k3 := Q.add (l := max n m + 2) (Q.mono k1 (by omega) le_rfl) (Q.mono k2 (by omega) le_rfl) (Q.ok_mono hok (by omega) le_rfl)
  exact Q.mono k3 (by omega) le_rfl

theorem sumInv (Q : CxRel (Cx F)) : SumInv (Cx F) (Good Q) (Acc Q) tau where
  zero := ⟨le_rfl, fun _ => ⟨rfl, rfl, rfl⟩, fun _ => by
    show Q.R (0 + 2) 0 0 (0 + ((0 : ℕ) : ℝ) * Q.D)
    have e : (0 : ℝ) + ((0 : ℕ) : ℝ) * Q.D = 0 := by simp
    rw [e]
    exact Q.mono Q.zero (by omega) le_rfl⟩
  left := tau_zero_left
  right := tau_zero_right
  null x y := by simp [tau]
  plus {v m x y} h hx hy := by
    by_cases h0 : x = 0 ∨ y = 0
    · have e : x * y = 0 ∧ tau 1 x y = 0 := by
        rcases h0 with rfl | rfl
        · exact ⟨zero_mul' hy.1, tau_zero_left _ _⟩
        · exact ⟨mul_zero' hx.1, tau_zero_right _ _⟩
      rw [e.1, e.2, _root_.add_zero, CoeffLaws.add_zero]
      exact h
    · exact (h.step hx hy h0).1
  minus {v m x y} h hx hy := by
    by_cases h0 : x = 0 ∨ y = 0
    · have e : x * y = 0 ∧ tau (-1) x y = 0 := by
        rcases h0 with rfl | rfl
        · exact ⟨zero_mul' hy.1, tau_zero_left _ _⟩
        · exact ⟨mul_zero' hx.1, tau_zero_right _ _⟩
      rw [e.1, e.2, _root_.add_zero, CoeffLaws.sub_zero]
      exact h
    · exact (h.step hx hy h0).2
  sum := Acc.add
  good_negneg _ := neg_neg' _
  good_neg h := ⟨(neg_Fin h.1).1, by rw [(neg_Fin h.1).2, n1_neg]; exact Q.neg h.2⟩
  neg {x} c y h := by
    unfold tau
    simp only [(neg_Fin h.1).2, neg_eq_zero', Int.cast_neg, neg_mul, mul_neg, neg_eq_zero, n1_neg, abs_neg]
  neg' {y} c x h := by
    unfold tau
    simp only [(neg_Fin h.1).2, neg_eq_zero', Int.cast_neg, neg_mul, mul_neg, neg_eq_zero, n1_neg, abs_neg]
  negSum {v} s c x y h := by
    have e : (∑ i ∈ s, tau (-c i) (x i) (y i)) = (-(∑ i ∈ s, tau (c i) (x i) (y i)).1,
        (∑ i ∈ s, tau (c i) (x i) (y i)).2.1, (∑ i ∈ s, tau (c i) (x i) (y i)).2.2) := by
      simp only [Prod.ext_iff, Prod.fst_sum, Prod.snd_sum, tau, Int.cast_neg, neg_mul, sum_neg_distrib, abs_neg,
        neg_eq_zero, and_self]
    rw [e]
    obtain ⟨h0, h1, h2⟩ := h
    refine ⟨h0, fun hn => ?_, fun hb => Q.neg (h2 hb)⟩
    obtain ⟨rfl, g1, g2⟩ := h1 hn
    exact ⟨SumLaws.neg_zero, by show -_ = (0 : ℂ); rw [g1, neg_zero], g2⟩

/-- Sums of products of computed numbers, compared with the exact numbers. -/
structure Sums (Q : CxRel (Cx F)) : Prop where
  good : ∀ {l v z b}, Q.R l v z b → Good Q v
  sum : ∀ {s : Finset ℕ} {c : ℕ → ℤ} {x y : ℕ → Cx F} {w w' : ℕ → ℂ} {β γ : ℕ → ℝ} {l l' N : ℕ} {v : Cx F},
    (∀ i ∈ s, |c i| ≤ 1) → #s ≤ N → (∀ i ∈ s, Q.R l (x i) (w i) (β i)) → (∀ i ∈ s, Q.R l' (y i) (w' i) (γ i)) →
    Acc Q v (∑ i ∈ s, tau (c i) (x i) (y i)) → Q.ok (l + l' + N + 2) (∑ i ∈ s, β i * γ i + N * Q.D) →
    Q.R (l + l' + N + 2) v (∑ i ∈ s, c i • (w i * w' i)) (∑ i ∈ s, β i * γ i + N * Q.D)

theorem tau_fst (s : Finset ℕ) (c : ℕ → ℤ) (x y : ℕ → Cx F) :
    (∑ i ∈ s, tau (c i) (x i) (y i)).1 = ∑ i ∈ s, c i • ((x i).val * (y i).val) := by
  rw [Prod.fst_sum]
  simp only [tau, zsmul_eq_mul]

theorem tau_snd_le {s : Finset ℕ} {c : ℕ → ℤ} {x y : ℕ → Cx F} (hc : ∀ i ∈ s, |c i| ≤ 1) {f : ℕ → ℝ}
    (hf : ∀ i ∈ s, n1 (x i).val * n1 (y i).val ≤ f i) : (∑ i ∈ s, tau (c i) (x i) (y i)).2.1 ≤ ∑ i ∈ s, f i := by
  rw [Prod.snd_sum, Prod.fst_sum]
  refine sum_le_sum fun i hi => ?_
  simp only [tau]
  have : |(c i : ℝ)| ≤ 1 := by exact_mod_cast hc i hi
  exact (mul_le_of_le_one_left (mul_nonneg (n1_nonneg _) (n1_nonneg _)) this).trans (hf i hi)

theorem tau_count (s : Finset ℕ) (c : ℕ → ℤ) (x y : ℕ → Cx F) : (∑ i ∈ s, tau (c i) (x i) (y i)).2.2 ≤ #s := by
  rw [Prod.snd_sum, Prod.snd_sum, card_eq_sum_ones]
  refine sum_le_sum fun i _ => ?_
  simp only [tau]
  split <;> omega

theorem n1_sum (s : Finset ℕ) (f : ℕ → ℂ) : n1 (∑ i ∈ s, f i) ≤ ∑ i ∈ s, n1 (f i) := by
  classical
  induction s using Finset.induction_on with
  | empty => simp [n1_zero]
  | insert a s ha ih =>
    rw [sum_insert ha, sum_insert ha]
    exact (n1_add _ _).trans (by linarith)

theorem n1_zsmul {c : ℤ} (hc : |c| ≤ 1) (z : ℂ) : n1 (c • z) ≤ n1 z := by
  have h := abs_le.mp hc
  have : c = 0 ∨ c = 1 ∨ c = -1 := by omega
  rcases this with rfl | rfl | rfl
  · rw [zero_smul, n1_zero]; exact n1_nonneg z
  · rw [one_smul]
  · rw [neg_one_smul, n1_neg]

theorem GInt.zsmul {z : ℂ} (h : GInt z) (c : ℤ) : GInt (c • z) := by
  obtain ⟨⟨m, hm⟩, n, hn⟩ := h
  refine ⟨⟨c * m, ?_⟩, c * n, ?_⟩
  · simp [hm]
  · simp [hn]

theorem GInt.sum {s : Finset ℕ} {f : ℕ → ℂ} (h : ∀ i ∈ s, GInt (f i)) : GInt (∑ i ∈ s, f i) := by
  classical
  induction s using Finset.induction_on with
  | empty => exact ⟨⟨0, by simp⟩, 0, by simp⟩
  | insert a s ha ih =>
    rw [sum_insert ha]
    exact (h a (mem_insert_self _ _)).add (ih fun i hi => h i (mem_insert_of_mem hi))

theorem exact_sums (h4 : 4 ≤ M F) : Sums (exactRel (F := F) h4) where
  good h := by
    obtain ⟨h1, rfl, h3, -⟩ := h
    exact ⟨h1, h1, rfl, h3, le_rfl⟩
  sum {s c x y w w' β γ l l' N v} hc hN hx hy h hok := by
    have hx' : ∀ i ∈ s, (x i).val = w i ∧ GInt (w i) ∧ n1 (w i) ≤ β i := fun i hi => (hx i hi).2
    have hy' : ∀ i ∈ s, (y i).val = w' i ∧ GInt (w' i) ∧ n1 (w' i) ≤ γ i := fun i hi => (hy i hi).2
    have e : ∀ t : ℝ, t * (exactRel (F := F) h4).D = 0 := fun t => MulZeroClass.mul_zero t
    rw [e, _root_.add_zero] at hok ⊢
    have hb := tau_snd_le (x := x) (y := y) hc (f := fun i => β i * γ i) fun i hi => by
      rw [(hx' i hi).1, (hy' i hi).1]
      exact mul_le_mul (hx' i hi).2.2 (hy' i hi).2.2 (n1_nonneg _) ((n1_nonneg _).trans (hx' i hi).2.2)
    obtain ⟨h0, -, h2⟩ := h
    rw [e, _root_.add_zero] at h2
    obtain ⟨k1, k2, -, k4⟩ := h2 (hb.trans hok)
    rw [tau_fst] at k2 k4
    have e2 : ∑ i ∈ s, c i • ((x i).val * (y i).val) = ∑ i ∈ s, c i • (w i * w' i) :=
      sum_congr rfl fun i hi => by rw [(hx' i hi).1, (hy' i hi).1]
    rw [e2] at k2 k4
    exact ⟨k1, k2, GInt.sum fun i hi => ((hx' i hi).2.1.mul (hy' i hi).2.1).zsmul _, k4.trans hb⟩

theorem near_sums (h4 : 4 ≤ M F) (hu : 0 < u F) : Sums (nearRel (F := F) h4 hu) where
  good {l v z b} h := ⟨h.1, h.1, le_rfl, by rw [sub_self, n1_zero]; simp⟩
  sum {s c x y w w' β γ l l' N v} hc hN hx hy h hok := by
    have hx' : ∀ i ∈ s, Near l (x i) (w i) (β i) := hx
    have hy' : ∀ i ∈ s, Near l' (y i) (w' i) (γ i) := hy
    change (1 + u F) ^ (l + l' + N + 2) * (∑ i ∈ s, β i * γ i + N * uflow F) ≤ Ω F at hok
    show Near (l + l' + N + 2) v (∑ i ∈ s, c i • (w i * w' i)) (∑ i ∈ s, β i * γ i + N * uflow F)
    obtain ⟨h0, -, h2⟩ := h
    have hP := one_le_pow' (F := F) l
    have hQ := one_le_pow' (F := F) l'
    have hR := one_le_pow' (F := F) (N + 2)
    have hPQ : 1 ≤ (1 + u F) ^ l * (1 + u F) ^ l' := one_le_mul_of_one_le_of_one_le hP hQ
    have eall : (1 + u F) ^ (l + l' + N + 2) = (1 + u F) ^ l * (1 + u F) ^ l' * (1 + u F) ^ (N + 2) := by
      rw [← pow_add, ← pow_add]; rfl
    have hD := uflow_nonneg (F := F)
    have hb := tau_snd_le (x := x) (y := y) hc (f := fun i => (1 + u F) ^ l * (1 + u F) ^ l' * (β i * γ i)) fun i hi => by
      refine (mul_le_mul (hx' i hi).size (hy' i hi).size (n1_nonneg _) ((n1_nonneg _).trans (hx' i hi).size)).trans_eq ?_
      ring
    rw [← mul_sum] at hb
    have hn := (tau_count s c x y).trans hN
    have hT : 0 ≤ ∑ i ∈ s, β i * γ i := sum_nonneg fun i hi => mul_nonneg (hx' i hi).nonneg (hy' i hi).nonneg
    have bw : n1 (∑ i ∈ s, c i • (w i * w' i)) ≤ ∑ i ∈ s, β i * γ i :=
      (n1_sum _ _).trans (sum_le_sum fun i hi => (n1_zsmul (hc i hi) _).trans ((n1_mul _ _).trans
        (mul_le_mul (hx' i hi).2.1 (hy' i hi).2.1 (n1_nonneg _) (hx' i hi).nonneg)))
    have bd : n1 (∑ i ∈ s, c i • ((x i).val * (y i).val) - ∑ i ∈ s, c i • (w i * w' i)) ≤
        ((1 + u F) ^ l * (1 + u F) ^ l' - 1) * ∑ i ∈ s, β i * γ i := by
      rw [← sum_sub_distrib, mul_sum]
      refine (n1_sum _ _).trans (sum_le_sum fun i hi => ?_)
      rw [← smul_sub]
      refine (n1_zsmul (hc i hi) _).trans ?_
      have e : (x i).val * (y i).val - w i * w' i = ((x i).val - w i) * (y i).val + w i * ((y i).val - w' i) := by ring
      rw [e]
      refine (n1_add _ _).trans ?_
      have a1 := (n1_mul ((x i).val - w i) (y i).val).trans
        (mul_le_mul (hx' i hi).2.2 (hy' i hi).size (n1_nonneg _) ((n1_nonneg _).trans (hx' i hi).2.2))
      have a2 := (n1_mul (w i) ((y i).val - w' i)).trans
        (mul_le_mul (hx' i hi).2.1 (hy' i hi).2.2 (n1_nonneg _) (hx' i hi).nonneg)
      exact (add_le_add a1 a2).trans_eq (by ring)
    have hnr : ((∑ i ∈ s, tau (c i) (x i) (y i)).2.2 : ℝ) ≤ N := by exact_mod_cast hn
    have hsz : (∑ i ∈ s, tau (c i) (x i) (y i)).2.1 + (∑ i ∈ s, tau (c i) (x i) (y i)).2.2 * uflow F ≤
        (1 + u F) ^ l * (1 + u F) ^ l' * ∑ i ∈ s, β i * γ i + N * uflow F :=
      add_le_add hb (mul_le_mul_of_nonneg_right hnr hD)
    have hND : 0 ≤ (N : ℝ) * uflow F := by positivity
    have ok1 : (1 + u F) ^ (N + 2) * ((1 + u F) ^ l * (1 + u F) ^ l' * ∑ i ∈ s, β i * γ i + N * uflow F) ≤ Ω F := by
      refine le_trans ?_ hok
      rw [eall]
      have : (1 + u F) ^ (N + 2) * (N * uflow F) ≤ (1 + u F) ^ l * (1 + u F) ^ l' * (1 + u F) ^ (N + 2) * (N * uflow F) :=
        mul_le_mul_of_nonneg_right (le_mul_of_one_le_left (by linarith) hPQ) hND
      linarith
    have key := Near.mono (h2 ((nearRel (F := F) h4 hu).ok_mono ok1 (by omega) hsz)) (l' := N + 2) (by omega) hsz
    rw [tau_fst] at key
    refine ⟨key.1, by linarith, ?_⟩
    have tri := n1_add (v.val - ∑ i ∈ s, c i • ((x i).val * (y i).val))
      (∑ i ∈ s, c i • ((x i).val * (y i).val) - ∑ i ∈ s, c i • (w i * w' i))
    rw [sub_add_sub_cancel] at tri
    have k3 := key.2.2
    rw [eall]
    have : (1 + u F) ^ (N + 2) * (N * uflow F) ≤ (1 + u F) ^ l * (1 + u F) ^ l' * (1 + u F) ^ (N + 2) * (N * uflow F) :=
      mul_le_mul_of_nonneg_right (le_mul_of_one_le_left (by linarith) hPQ) hND
    generalize (1 + u F) ^ l * (1 + u F) ^ l' = PQ at *
    generalize (1 + u F) ^ (N + 2) = R at *
    generalize (N : ℝ) * uflow F = D at *
    generalize ∑ i ∈ s, β i * γ i = T at *
    nlinarith only [tri, k3, bd, this, hT, hND, hPQ, hR]

end Cx

end TClifford
