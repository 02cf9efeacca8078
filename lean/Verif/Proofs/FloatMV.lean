import Verif.Proofs.Float
import Verif.Proofs.MV
import Verif.Proofs.Wedge
import Mathlib.Algebra.Order.Archimedean.Real.Basic
/-
Rounding error analysis of the multivector operations over a coefficient type with the standard model of floating point
arithmetic.
-/

set_option linter.unusedSectionVars false

namespace TClifford

open Finset FloatModel

/-- The laws that the algorithms for products rely on. -/
class SumLaws (F : Type) [Zero F] [Add F] [Sub F] [Neg F] [CoeffLaws F] : Prop where
  neg_zero : -(0 : F) = 0
  zero_add : ∀ x : F, 0 + x = x

section
variable {F : Type} [Zero F] [One F] [Add F] [Sub F] [Neg F] [Mul F] [Div F] [FloatModel F] [DecidableEq F]

namespace FloatModel

theorem fneg_zero : -(0 : F) = 0 := by
  have h := neg_ok (F := F) fin_zero
  apply re_inj h.1 fin_zero
  rw [h.2, re_zero, neg_zero]

instance : SumLaws F := ⟨fneg_zero, FloatModel.zero_add⟩

/-! ### Accumulation of rounding errors -/

/-- Error bound of a sum of `n` products with absolute values adding up to `a`. -/
noncomputable def errB (F : Type) [Zero F] [One F] [Add F] [Sub F] [Neg F] [Mul F] [Div F] [FloatModel F]
    (a : ℝ) (n : ℕ) : ℝ := a * ((1 + u F) ^ (n + 1) - 1) + η F * n * (1 + u F) ^ n

/-- `v` is the computed value of a sum `e` of `n` products with absolute values adding up to `a`. -/
def Acc (v : F) (s : ℝ × ℝ × ℕ) : Prop :=
  0 ≤ s.2.1 ∧ |s.1| ≤ s.2.1 ∧ (s.2.2 = 0 → v = 0 ∧ s.2.1 = 0) ∧ (s.2.1 + errB F s.2.1 s.2.2 ≤ Ω F → fin v ∧ |re v - s.1| ≤ errB F s.2.1 s.2.2)

theorem Acc.zero : Acc (0 : F) 0 := by
  refine ⟨le_refl _, by simp, fun _ => ⟨rfl, rfl⟩, fun _ => ⟨fin_zero, ?_⟩⟩
  simp [errB, re_zero]

theorem one_le_pow_u (n : ℕ) : (1 : ℝ) ≤ (1 + u F) ^ n := one_le_pow₀ (by have := u_nonneg (F := F); linarith)

theorem errB_nonneg {a : ℝ} (ha : 0 ≤ a) (n : ℕ) : 0 ≤ errB F a n := by
  unfold errB
  have h1 := one_le_pow_u (F := F) (n + 1)
  have h2 := one_le_pow_u (F := F) n
  have h3 := η_nonneg (F := F)
  have : 0 ≤ a * ((1 + u F) ^ (n + 1) - 1) := mul_nonneg ha (by linarith)
  positivity

theorem errB_mono {a a' : ℝ} (ha : 0 ≤ a) (h : a ≤ a') {n n' : ℕ} (hn : n ≤ n') : errB F a n ≤ errB F a' n' := by
  have ha' : 0 ≤ a' := ha.trans h
  unfold errB
  have hu : (1 : ℝ) ≤ 1 + u F := by have := u_nonneg (F := F); linarith
  have h1 := one_le_pow_u (F := F) (n + 1)
  have h2 : (1 + u F) ^ (n + 1) ≤ (1 + u F) ^ (n' + 1) := pow_le_pow_right₀ hu (by omega)
  have h3 : (1 + u F) ^ n ≤ (1 + u F) ^ n' := pow_le_pow_right₀ hu hn
  have h4 := η_nonneg (F := F)
  have h5 : (n : ℝ) ≤ n' := by exact_mod_cast hn
  have h6 := one_le_pow_u (F := F) n
  apply add_le_add
  · apply mul_le_mul h (by linarith) (by linarith) (by linarith)
  · apply mul_le_mul (mul_le_mul_of_nonneg_left h5 h4) h3 (by linarith) (by positivity)

/-- One step of the error recursion. -/
theorem errB_step {a t : ℝ} (_ha : 0 ≤ a) (ht : 0 ≤ t) (n : ℕ) :
    (1 + u F) * (errB F a n + u F * t + η F) + u F * (a + t) ≤ errB F (a + t) (n + 1) := by
  unfold errB
  have hu := u_nonneg (F := F)
  have hη := η_nonneg (F := F)
  set w := 1 + u F with hw
  have huw : u F = w - 1 := by rw [hw]; ring
  have hw1 : 1 ≤ w := by rw [hw]; linarith
  have p1 : 1 ≤ w ^ n := one_le_pow₀ hw1
  rw [huw]
  push_cast
  have e1 : w ^ (n + 1) = w * w ^ n := by ring
  have e2 : w ^ (n + 1 + 1) = w * w * w ^ n := by ring
  rw [e1, e2]
  have k1 : 0 ≤ t * (w * w * (w ^ n - 1)) := by
    have : 0 ≤ w ^ n - 1 := by linarith
    have : 0 ≤ w * w := by positivity
    positivity
  have k2 : 0 ≤ η F * (w * (w ^ n - 1)) := by
    have : 0 ≤ w ^ n - 1 := by linarith
    have : 0 ≤ w := by linarith
    positivity
  nlinarith

theorem Acc.step {v p : F} {s : ℝ × ℝ × ℕ} (h : Acc v s) {t : ℝ}
    (hp : |t| ≤ Ω F → fin p ∧ |re p - t| ≤ u F * |t| + η F) :
    Acc (v + p) (s + (t, |t|, 1)) ∧ Acc (v - p) (s + (-t, |t|, 1)) := by
  obtain ⟨h0, h1, -, h2⟩ := h
  obtain ⟨e, a, n⟩ := s
  simp only [Prod.mk_add_mk] at *
  have hu := u_nonneg (F := F)
  have ht := abs_nonneg t
  have hη := η_nonneg (F := F)
  have hstep := errB_step (F := F) h0 ht n
  have hE0 := errB_nonneg (F := F) h0 n
  have hE1 := errB_nonneg (F := F) (add_nonneg h0 ht) (n + 1)
  refine ⟨⟨add_nonneg h0 ht, (abs_add_le _ _).trans (by linarith), fun h => absurd h (by simp), fun hb => ?_⟩,
    ⟨add_nonneg h0 ht, (abs_add_le _ _).trans (by rw [abs_neg]; linarith), fun h => absurd h (by simp), fun hb => ?_⟩⟩
  all_goals
    have hm := errB_mono (F := F) h0 (show a ≤ a + |t| by linarith) (Nat.le_succ n)
    obtain ⟨g1, g2⟩ := h2 (by linarith)
    obtain ⟨q1, q2⟩ := hp (by linarith)
    have hbig : (1 + u F) * (errB F a n + u F * |t| + η F) + u F * (a + |t|) =
      (errB F a n + u F * |t| + η F) + u F * (a + |t| + (errB F a n + u F * |t| + η F)) := by ring
    have hpos : 0 ≤ errB F a n + u F * |t| + η F := by positivity
  · have e1 : |re v + re p - (e + t)| ≤ errB F a n + u F * |t| + η F := by
      have : re v + re p - (e + t) = (re v - e) + (re p - t) := by ring
      rw [this]
      exact (abs_add_le _ _).trans (by linarith)
    have e2 : |re v + re p| ≤ a + |t| + (errB F a n + u F * |t| + η F) := by
      have : re v + re p = (re v + re p - (e + t)) + (e + t) := by ring
      rw [this]
      refine (abs_add_le _ _).trans ?_
      have := abs_add_le e t
      linarith
    have e3 : |re v + re p| ≤ Ω F := by
      refine e2.trans ?_
      have : 0 ≤ u F * (a + |t| + (errB F a n + u F * |t| + η F)) := by positivity
      linarith
    obtain ⟨r1, r2⟩ := add_ok g1 q1 e3
    refine ⟨r1, ?_⟩
    have : re (v + p) - (e + t) = (re (v + p) - (re v + re p)) + (re v + re p - (e + t)) := by ring
    rw [this]
    refine (abs_add_le _ _).trans ?_
    have := mul_le_mul_of_nonneg_left e2 hu
    linarith
  · have e1 : |re v - re p - (e + -t)| ≤ errB F a n + u F * |t| + η F := by
      have : re v - re p - (e + -t) = (re v - e) - (re p - t) := by ring
      rw [this]
      exact (abs_sub _ _).trans (by linarith)
    have e2 : |re v - re p| ≤ a + |t| + (errB F a n + u F * |t| + η F) := by
      have : re v - re p = (re v - re p - (e + -t)) + (e + -t) := by ring
      rw [this]
      refine (abs_add_le _ _).trans ?_
      have := abs_add_le e (-t)
      rw [abs_neg] at this
      linarith
    have e3 : |re v - re p| ≤ Ω F := by
      refine e2.trans ?_
      have : 0 ≤ u F * (a + |t| + (errB F a n + u F * |t| + η F)) := by positivity
      linarith
    obtain ⟨r1, r2⟩ := sub_ok g1 q1 e3
    refine ⟨r1, ?_⟩
    have : re (v - p) - (e + -t) = (re (v - p) - (re v - re p)) + (re v - re p - (e + -t)) := by ring
    rw [this]
    refine (abs_add_le _ _).trans ?_
    have := mul_le_mul_of_nonneg_left e2 hu
    linarith

theorem errB_add {a b : ℝ} (ha : 0 ≤ a) (hb : 0 ≤ b) {m n : ℕ} (hm : m ≠ 0) (hn : n ≠ 0) :
    (1 + u F) * (errB F a m + errB F b n) + u F * (a + b) ≤ errB F (a + b) (m + n) := by
  have hu : (1 : ℝ) ≤ 1 + u F := by have := u_nonneg (F := F); linarith
  have hη := η_nonneg (F := F)
  unfold errB
  set w := 1 + u F with hw
  have huw : u F = w - 1 := by rw [hw]; ring
  rw [huw]
  have p1 : w * w ^ (m + 1) ≤ w ^ (m + n + 1) := by
    rw [← pow_succ']; exact pow_le_pow_right₀ hu (by omega)
  have p2 : w * w ^ (n + 1) ≤ w ^ (m + n + 1) := by
    rw [← pow_succ']; exact pow_le_pow_right₀ hu (by omega)
  have p3 : w * w ^ m ≤ w ^ (m + n) := by
    rw [← pow_succ']; exact pow_le_pow_right₀ hu (by omega)
  have p4 : w * w ^ n ≤ w ^ (m + n) := by
    rw [← pow_succ']; exact pow_le_pow_right₀ hu (by omega)
  have q1 := mul_le_mul_of_nonneg_left p1 ha
  have q2 := mul_le_mul_of_nonneg_left p2 hb
  have q3 := mul_le_mul_of_nonneg_left p3 (mul_nonneg hη (Nat.cast_nonneg (α := ℝ) m))
  have q4 := mul_le_mul_of_nonneg_left p4 (mul_nonneg hη (Nat.cast_nonneg (α := ℝ) n))
  push_cast
  linarith

theorem Acc.add {v w : F} {s t : ℝ × ℝ × ℕ} (h : Acc v s) (g : Acc w t) : Acc (v + w) (s + t) := by
  obtain ⟨h0, h1, h2, h3⟩ := h
  obtain ⟨g0, g1, g2, g3⟩ := g
  obtain ⟨e, a, m⟩ := s
  obtain ⟨d, b, n⟩ := t
  simp only [Prod.mk_add_mk] at *
  have habs : |e + d| ≤ a + b := (abs_add_le _ _).trans (by linarith)
  by_cases hm : m = 0
  · obtain ⟨rfl, rfl⟩ := h2 hm
    subst hm
    have he : e = 0 := abs_nonpos_iff.mp h1
    subst he
    rw [FloatModel.zero_add, _root_.zero_add, _root_.zero_add, _root_.zero_add]
    exact ⟨g0, g1, g2, g3⟩
  by_cases hn : n = 0
  · obtain ⟨rfl, rfl⟩ := g2 hn
    subst hn
    have he : d = 0 := abs_nonpos_iff.mp g1
    subst he
    rw [CoeffLaws.add_zero, _root_.add_zero, _root_.add_zero, _root_.add_zero]
    exact ⟨h0, h1, h2, h3⟩
  refine ⟨add_nonneg h0 g0, habs, fun hc => absurd hc (by simp only; omega), fun hb => ?_⟩
  simp only at hb ⊢
  have hu := u_nonneg (F := F)
  have hstep := errB_add (F := F) h0 g0 hm hn
  have hE1 := errB_nonneg (F := F) h0 m
  have hE2 := errB_nonneg (F := F) g0 n
  have hbig : (1 + u F) * (errB F a m + errB F b n) + u F * (a + b) =
      (errB F a m + errB F b n) + u F * (a + b + (errB F a m + errB F b n)) := by ring
  have hpos : 0 ≤ u F * (a + b + (errB F a m + errB F b n)) := by positivity
  obtain ⟨f1, k1⟩ := h3 (by linarith)
  obtain ⟨f2, k2⟩ := g3 (by linarith)
  have e1 : |re v + re w - (e + d)| ≤ errB F a m + errB F b n := by
    have : re v + re w - (e + d) = (re v - e) + (re w - d) := by ring
    rw [this]
    exact (abs_add_le _ _).trans (by linarith)
  have e2 : |re v + re w| ≤ a + b + (errB F a m + errB F b n) := by
    have : re v + re w = (re v + re w - (e + d)) + (e + d) := by ring
    rw [this]
    exact (abs_add_le _ _).trans (by linarith)
  obtain ⟨r1, r2⟩ := add_ok f1 f2 (by linarith)
  refine ⟨r1, ?_⟩
  have : re (v + w) - (e + d) = (re (v + w) - (re v + re w)) + (re v + re w - (e + d)) := by ring
  rw [this]
  refine (abs_add_le _ _).trans ?_
  have := mul_le_mul_of_nonneg_left e2 hu
  linarith

theorem fneg_neg {x : F} (h : fin x) : - -x = x := by
  have h1 := neg_ok h
  have h2 := neg_ok h1.1
  exact re_inj h2.1 h (by rw [h2.2, h1.2, neg_neg])

theorem fneg_eq_zero {x : F} (h : fin x) : -x = 0 ↔ x = 0 := by
  constructor
  · intro h0
    rw [← fneg_neg h, h0, fneg_zero]
  · rintro rfl; exact fneg_zero

end FloatModel

/-! ### Invariants of folds -/

/-- What a sum of signed products does to a property `R` of the accumulator: `τ c x y` is the contribution of
`c * x * y`. -/
structure SumInv0 (F : Type) [Zero F] [One F] [Add F] [Sub F] [Neg F] [Mul F] [Div F] {M : Type}
    [AddCommMonoid M] (good : F → Prop) (R : F → M → Prop) (τ : ℤ → F → F → M) : Prop where
  zero : R 0 0
  null : ∀ x y, τ 0 x y = 0
  plus : ∀ {v m x y}, R v m → good x → good y → R (v + x * y) (m + τ 1 x y)
  minus : ∀ {v m x y}, R v m → good x → good y → R (v - x * y) (m + τ (-1) x y)
  sum : ∀ {v m w n}, R v m → R w n → R (v + w) (m + n)
  good_negneg : ∀ {x}, good x → - -x = x
  good_neg : ∀ {x}, good x → good (-x)
  neg : ∀ {x} (c : ℤ) (y), good x → τ c (-x) y = τ (-c) x y
  neg' : ∀ {y} (c : ℤ) (x), good y → τ c x (-y) = τ (-c) x y
  negSum : ∀ {v} (s : Finset ℕ) (c : ℕ → ℤ) (x y : ℕ → F), R v (∑ i ∈ s, τ (c i) (x i) (y i)) →
    R (-v) (∑ i ∈ s, τ (-c i) (x i) (y i))

/-- The same, for algorithms that leave products with a zero out. -/
structure SumInv (F : Type) [Zero F] [One F] [Add F] [Sub F] [Neg F] [Mul F] [Div F] {M : Type}
    [AddCommMonoid M] (good : F → Prop) (R : F → M → Prop) (τ : ℤ → F → F → M) : Prop extends SumInv0 F good R τ where
  left : ∀ c y, τ c 0 y = 0
  right : ∀ c x, τ c x 0 = 0

/-- contribution of a product to the sum, the sum of absolute values and the number of products -/
noncomputable def tau (c : ℤ) (x y : F) : ℝ × ℝ × ℕ :=
  (c * (re x * re y), |c * (re x * re y)|, if c = 0 ∨ x = 0 ∨ y = 0 then 0 else 1)

theorem sumInv_acc : SumInv F (fun x => fin x) Acc tau where
  zero := Acc.zero
  left c y := by simp [tau, re_zero]
  right c x := by simp [tau, re_zero]
  null x y := by simp [tau]
  plus {v m x y} h hx hy := by
    by_cases h0 : x = 0 ∨ y = 0
    · have e : x * y = 0 := by
        rcases h0 with rfl | rfl
        · exact FloatModel.zero_mul hy
        · exact FloatModel.mul_zero hx
      have e2 : tau 1 x y = 0 := by
        unfold tau
        rcases h0 with rfl | rfl <;> simp [re_zero]
      rw [e, e2, add_zero, CoeffLaws.add_zero]
      exact h
    · have := (h.step (p := x * y) (t := re x * re y) (fun hb => mul_ok hx hy hb)).1
      unfold tau
      rw [if_neg (by simpa using h0), Int.cast_one, one_mul]
      exact this
  minus {v m x y} h hx hy := by
    by_cases h0 : x = 0 ∨ y = 0
    · have e : x * y = 0 := by
        rcases h0 with rfl | rfl
        · exact FloatModel.zero_mul hy
        · exact FloatModel.mul_zero hx
      have e2 : tau (-1) x y = 0 := by
        unfold tau
        rcases h0 with rfl | rfl <;> simp [re_zero]
      rw [e, e2, add_zero, CoeffLaws.sub_zero]
      exact h
    · have := (h.step (p := x * y) (t := re x * re y) (fun hb => mul_ok hx hy hb)).2
      unfold tau
      rw [if_neg (by simpa using h0), Int.cast_neg, Int.cast_one, neg_one_mul, abs_neg]
      exact this

  sum := Acc.add
  good_negneg h := fneg_neg h
  good_neg h := (neg_ok h).1
  neg {x} c y h := by
    unfold tau
    simp only [(neg_ok h).2, fneg_eq_zero h, Int.cast_neg, neg_mul, mul_neg, neg_eq_zero]
  neg' {y} c x h := by
    unfold tau
    simp only [(neg_ok h).2, fneg_eq_zero h, Int.cast_neg, neg_mul, mul_neg, neg_eq_zero]
  negSum {v} s c x y h := by
    have e : (∑ i ∈ s, tau (-c i) (x i) (y i)) = (-(∑ i ∈ s, tau (c i) (x i) (y i)).1,
        (∑ i ∈ s, tau (c i) (x i) (y i)).2.1, (∑ i ∈ s, tau (c i) (x i) (y i)).2.2) := by
      simp only [Prod.ext_iff, Prod.fst_sum, Prod.snd_sum, tau, Int.cast_neg, neg_mul, sum_neg_distrib, abs_neg,
        neg_eq_zero, and_self]
    rw [e]
    obtain ⟨h0, h1, h2, h3⟩ := h
    refine ⟨h0, by simpa using h1, fun hn => ?_, fun hb => ?_⟩
    · obtain ⟨rfl, g⟩ := h2 hn
      exact ⟨fneg_zero, g⟩
    · obtain ⟨f1, g1⟩ := h3 hb
      refine ⟨(neg_ok f1).1, ?_⟩
      rw [(neg_ok f1).2, ← abs_neg]
      simp only [sub_neg_eq_add, neg_add_rev, neg_neg] at *
      convert g1 using 2
      ring

/-! ### Exact integers -/

/-- `v` is the integer `s.1`, provided that the absolute values add up to at most `M`. -/
def AccZ (v : F) (s : ℤ × ℤ) : Prop :=
  |s.1| ≤ s.2 ∧ ((s.2 : ℝ) ≤ FloatModel.M F → fin v ∧ re v = s.1)

/-- the integer value of a number -/
noncomputable def toZ (x : F) : ℤ := ⌊re x⌋

/-- a finite number with an integer value -/
def GoodZ (x : F) : Prop := fin x ∧ ∃ m : ℤ, re x = m

theorem GoodZ.re {x : F} (h : GoodZ x) : re x = (toZ x : ℝ) := by
  obtain ⟨-, m, hm⟩ := h
  rw [toZ, hm, Int.floor_intCast]

theorem toZ_zero : toZ (0 : F) = 0 := by simp [toZ, re_zero]

theorem GoodZ.neg {x : F} (h : GoodZ x) : GoodZ (-x) := by
  obtain ⟨h1, m, h2⟩ := h
  exact ⟨(neg_ok h1).1, -m, by rw [(neg_ok h1).2, h2]; push_cast; rfl⟩

theorem toZ_neg {x : F} (h : GoodZ x) : toZ (-x) = -toZ x := by
  have h1 := h.neg.re
  rw [(neg_ok h.1).2, h.re] at h1
  exact_mod_cast h1.symm

theorem AccZ.add {v w : F} {s t : ℤ × ℤ} (h : AccZ v s) (g : AccZ w t) : AccZ (v + w) (s + t) := by
  obtain ⟨e, a⟩ := s
  obtain ⟨d, b⟩ := t
  obtain ⟨h1, h2⟩ := h
  obtain ⟨g1, g2⟩ := g
  simp only [Prod.mk_add_mk] at *
  have habs : |e + d| ≤ a + b := (abs_add_le _ _).trans (by omega)
  refine ⟨habs, fun hb => ?_⟩
  simp only at hb ⊢
  have ha : 0 ≤ a := (abs_nonneg e).trans h1
  have hb0 : 0 ≤ b := (abs_nonneg d).trans g1
  have ha' : (0 : ℝ) ≤ a := by exact_mod_cast ha
  have hb' : (0 : ℝ) ≤ b := by exact_mod_cast hb0
  rw [Int.cast_add] at hb
  obtain ⟨f1, k1⟩ := h2 (by linarith)
  obtain ⟨f2, k2⟩ := g2 (by linarith)
  have := add_int f1 f2 k1 k2 (by
    have e1 : |(e : ℝ) + (d : ℝ)| = ((|e + d| : ℤ) : ℝ) := by push_cast; rfl
    rw [e1]
    have : ((|e + d| : ℤ) : ℝ) ≤ (a : ℝ) + (b : ℝ) := by exact_mod_cast habs
    linarith)
  refine ⟨this.1, ?_⟩
  rw [this.2]; push_cast; rfl

theorem sumInv_accZ : SumInv F GoodZ AccZ (fun c x y => (c * (toZ x * toZ y), |c * (toZ x * toZ y)|)) where
  zero := ⟨by simp, fun _ => ⟨fin_zero, by simp [re_zero]⟩⟩
  left c y := by simp [toZ_zero]
  right c x := by simp [toZ_zero]
  null x y := by simp
  plus {v m x y} h hx hy := by
    obtain ⟨e, a⟩ := m
    obtain ⟨h1, h2⟩ := h
    simp only [Prod.mk_add_mk, one_mul] at *
    refine ⟨(abs_add_le _ _).trans (by simp only; omega), fun hb => ?_⟩
    simp only at hb h1 h2
    have hp : (0 : ℤ) ≤ |toZ x * toZ y| := abs_nonneg _
    have hp' : (0 : ℝ) ≤ ((|toZ x * toZ y| : ℤ) : ℝ) := by exact_mod_cast hp
    have ha' : (0 : ℝ) ≤ (a : ℝ) := by
      have : 0 ≤ a := (abs_nonneg e).trans h1
      exact_mod_cast this
    rw [Int.cast_add] at hb
    obtain ⟨g1, g2⟩ := h2 (by linarith)
    obtain ⟨q1, q2⟩ := mul_int hx.1 hy.1 hx.re hy.re (by
      have : |(toZ x * toZ y : ℝ)| = ((|toZ x * toZ y| : ℤ) : ℝ) := by push_cast; rfl
      rw [this]; linarith)
    rw [← Int.cast_mul] at q2
    have := add_int g1 q1 g2 q2 (by
      have e1 : |(e : ℝ) + ((toZ x * toZ y : ℤ) : ℝ)| = ((|e + toZ x * toZ y| : ℤ) : ℝ) := by push_cast; rfl
      rw [e1]
      have : |e + toZ x * toZ y| ≤ a + |toZ x * toZ y| := (abs_add_le _ _).trans (by omega)
      have : ((|e + toZ x * toZ y| : ℤ) : ℝ) ≤ (a : ℝ) + ((|toZ x * toZ y| : ℤ) : ℝ) := by exact_mod_cast this
      linarith)
    refine ⟨this.1, ?_⟩
    rw [this.2]; push_cast; ring
  minus {v m x y} h hx hy := by
    obtain ⟨e, a⟩ := m
    obtain ⟨h1, h2⟩ := h
    simp only [Prod.mk_add_mk, neg_one_mul, abs_neg] at *
    refine ⟨(abs_add_le _ _).trans (by simp only [abs_neg]; omega), fun hb => ?_⟩
    simp only at hb h1 h2
    have hp : (0 : ℤ) ≤ |toZ x * toZ y| := abs_nonneg _
    have hp' : (0 : ℝ) ≤ ((|toZ x * toZ y| : ℤ) : ℝ) := by exact_mod_cast hp
    have ha' : (0 : ℝ) ≤ (a : ℝ) := by
      have : 0 ≤ a := (abs_nonneg e).trans h1
      exact_mod_cast this
    rw [Int.cast_add] at hb
    obtain ⟨g1, g2⟩ := h2 (by linarith)
    obtain ⟨q1, q2⟩ := mul_int hx.1 hy.1 hx.re hy.re (by
      have : |(toZ x * toZ y : ℝ)| = ((|toZ x * toZ y| : ℤ) : ℝ) := by push_cast; rfl
      rw [this]; linarith)
    rw [← Int.cast_mul] at q2
    have := sub_int g1 q1 g2 q2 (by
      have e1 : |(e : ℝ) - ((toZ x * toZ y : ℤ) : ℝ)| = ((|e - toZ x * toZ y| : ℤ) : ℝ) := by push_cast; rfl
      rw [e1]
      have : |e - toZ x * toZ y| ≤ a + |toZ x * toZ y| := (abs_sub _ _).trans (by omega)
      have : ((|e - toZ x * toZ y| : ℤ) : ℝ) ≤ (a : ℝ) + ((|toZ x * toZ y| : ℤ) : ℝ) := by exact_mod_cast this
      linarith)
    refine ⟨this.1, ?_⟩
    rw [this.2]; push_cast; ring

  sum := AccZ.add
  good_negneg h := fneg_neg h.1
  good_neg h := h.neg
  neg {x} c y h := by
    simp only [toZ_neg h, neg_mul, mul_neg]
  neg' {y} c x h := by
    simp only [toZ_neg h, neg_mul, mul_neg]
  negSum {v} s c x y h := by
    have e : (∑ i ∈ s, (-c i * (toZ (x i) * toZ (y i)), |-c i * (toZ (x i) * toZ (y i))|)) =
        (-(∑ i ∈ s, (c i * (toZ (x i) * toZ (y i)), |c i * (toZ (x i) * toZ (y i))|)).1,
        (∑ i ∈ s, (c i * (toZ (x i) * toZ (y i)), |c i * (toZ (x i) * toZ (y i))|)).2) := by
      simp only [Prod.ext_iff, Prod.fst_sum, Prod.snd_sum, neg_mul, sum_neg_distrib, abs_neg, and_self]
    rw [e]
    obtain ⟨h1, h2⟩ := h
    refine ⟨by simpa using h1, fun hb => ?_⟩
    obtain ⟨f1, g1⟩ := h2 hb
    refine ⟨(neg_ok f1).1, ?_⟩
    rw [(neg_ok f1).2, g1]; push_cast; rfl

end

section
variable {F : Type} [Zero F] [One F] [Add F] [Sub F] [Neg F] [Mul F] [Div F] [CoeffLaws F] [SumLaws F] [DecidableEq F]

theorem SumInv0.mul {M : Type} [AddCommMonoid M] {good : F → Prop} {R : F → M → Prop} {τ : ℤ → F → F → M}
    (I : SumInv0 F good R τ) {x y : F} (hx : good x) (hy : good y) : R (x * y) (τ 1 x y) := by
  have := I.plus I.zero hx hy
  rwa [SumLaws.zero_add, _root_.zero_add] at this

/-- The recursive wedge of buffers of length `2^n`. -/
theorem wedgeImpl_inv {M : Type} [AddCommMonoid M] {good : F → Prop} {R : F → M → Prop} {τ : ℤ → F → F → M}
    (I : SumInv0 F good R τ) (n : Nat) (a b dest : Arr1 F) (ha : a.len = 2 ^ n) (hb : b.len = 2 ^ n)
    (hd : dest.len = 2 ^ n) (ga : ∀ i < 2 ^ n, good (a.get i)) (gb : ∀ i < 2 ^ n, good (b.get i)) :
    (wedgeImpl a b dest).1.len = 2 ^ n ∧ (wedgeImpl a b dest).2.len = 2 ^ n ∧
    ∀ k < 2 ^ n, (wedgeImpl a b dest).1.get k = a.get k ∧
      R ((wedgeImpl a b dest).2.get k)
        (∑ i ∈ range (2 ^ n), τ (bsgn (fun _ => 0) n i (i ^^^ k)) (a.get i) (b.get (i ^^^ k))) := by
  induction n generalizing a b dest with
  | zero =>
    unfold wedgeImpl
    rw [if_neg (by rw [ha]; decide), dif_pos (by rw [ha]; rfl)]
    refine ⟨ha, hd, ?_⟩
    intro i hi
    have : i = 0 := by simpa using hi
    subst this
    refine ⟨rfl, ?_⟩
    simpa [Arr1.set, bsgn] using I.mul (ga 0 (by simp)) (gb 0 (by simp))
  | succ n ih =>
    have h2 : 0 < 2 ^ n := Nat.two_pow_pos n
    have hp : 2 ^ (n + 1) = 2 ^ n + 2 ^ n := by rw [Nat.pow_succ]; omega
    have hhalf : a.len / 2 = 2 ^ n := by rw [ha, hp]; omega
    unfold wedgeImpl
    rw [if_neg (by omega), dif_neg (by omega)]
    simp only [hhalf]
    set a01 := a.splitAt (2 ^ n) with ha01
    set b01 := b.splitAt (2 ^ n) with hb01
    set d01 := dest.splitAt (2 ^ n) with hd01
    have hla : a.len - 2 ^ n = 2 ^ n := by omega
    have hlb : b.len - 2 ^ n = 2 ^ n := by omega
    have hld : dest.len - 2 ^ n = 2 ^ n := by omega
    have ga0 : ∀ i < 2 ^ n, good (a.get i) := fun i hi => ga i (by omega)
    have gb0 : ∀ i < 2 ^ n, good (b01.1.get i) := fun i hi => gb i (by omega)
    have ga1 : ∀ i < 2 ^ n, good (a01.2.get i) := fun i hi => ga _ (by omega)
    have gb1 : ∀ i < 2 ^ n, good (b01.2.get i) := fun i hi => gb _ (by omega)
    have gal : ∀ i < 2 ^ n, good ((alphaInplace ⟨2 ^ n, a.get⟩ : Arr1 F).get i) := by
      intro i hi
      show good (if countOnes i &&& 1 ≠ 0 then -a.get i else a.get i)
      split
      · exact I.good_neg (ga0 i hi)
      · exact ga0 i hi
    obtain ⟨-, -, r1⟩ := ih a01.2 b01.1 d01.2 hla rfl hld ga1 gb0
    set r1v := wedgeImpl a01.2 b01.1 d01.2
    obtain ⟨-, -, r2⟩ := ih (alphaInplace ⟨2 ^ n, a.get⟩) b01.2 d01.1 rfl hlb rfl gal gb1
    set r2v := wedgeImpl (alphaInplace ⟨2 ^ n, a.get⟩) b01.2 d01.1
    have hd1 : d01.1.len = 2 ^ n := rfl
    have hd2 : d01.2.len = 2 ^ n := hld
    simp only [hd1, hd2]
    set a0' : Arr1 F := ⟨2 ^ n, fun idx =>
      if idx < 2 ^ n ∧ countOnes idx &&& 1 ≠ 0 then -r2v.1.get idx else r2v.1.get idx⟩ with ha0'
    have ha0 : ∀ i < 2 ^ n, a0'.get i = a.get i := by
      intro i hi
      show (if i < 2 ^ n ∧ countOnes i &&& 1 ≠ 0 then -r2v.1.get i else r2v.1.get i) = _
      rw [(r2 i hi).1]
      show (if i < 2 ^ n ∧ countOnes i &&& 1 ≠ 0 then -(if countOnes i &&& 1 ≠ 0 then -a.get i else a.get i)
        else (if countOnes i &&& 1 ≠ 0 then -a.get i else a.get i)) = _
      by_cases hc : countOnes i &&& 1 ≠ 0
      · rw [if_pos ⟨hi, hc⟩, if_pos hc, I.good_negneg (ga0 i hi)]
      · rw [if_neg (by tauto), if_neg hc]
    obtain ⟨-, -, r3⟩ := ih a0' b01.1 ⟨2 ^ n, r2v.2.get⟩ rfl rfl rfl (fun i hi => by rw [ha0 i hi]; exact ga0 i hi) gb0
    set r3v := wedgeImpl a0' b01.1 ⟨2 ^ n, r2v.2.get⟩
    refine ⟨by simp only [Arr1.join]; omega, by simp only [Arr1.join]; omega, ?_⟩
    intro i hi
    simp only [Arr1.join]
    by_cases hlt : i < 2 ^ n
    · rw [if_pos hlt, if_pos hlt]
      refine ⟨by rw [(r3 i hlt).1, ha0 i hlt], ?_⟩
      have e : (∑ j ∈ range (2 ^ (n + 1)), τ (bsgn (fun _ => 0) (n + 1) j (j ^^^ i)) (a.get j) (b.get (j ^^^ i))) =
          ∑ j ∈ range (2 ^ n), τ (bsgn (fun _ => 0) n j (j ^^^ i)) (a0'.get j) (b01.1.get (j ^^^ i)) := by
        rw [sum_two_pow_succ]
        have z : (∑ j ∈ range (2 ^ n), τ (bsgn (fun _ => 0) (n + 1) (j + 2 ^ n) ((j + 2 ^ n) ^^^ i)) (a.get (j + 2 ^ n))
            (b.get ((j + 2 ^ n) ^^^ i))) = 0 := by
          apply sum_eq_zero
          intro j hj
          rw [mem_range] at hj
          have hx := Nat.xor_lt_two_pow hj hlt
          rw [add_two_pow_xor hj hlt, bsgn_hi_hi hj hx]
          simp [I.null]
        rw [z, _root_.add_zero]
        apply sum_congr rfl
        intro j hj
        rw [mem_range] at hj
        rw [bsgn_lo_lo (Nat.xor_lt_two_pow hj hlt), ha0 j hj]
        rfl
      rw [e]
      exact (r3 i hlt).2
    · obtain ⟨k, rfl⟩ : ∃ k, i = k + 2 ^ n := ⟨i - 2 ^ n, by omega⟩
      have hk : k < 2 ^ n := by omega
      rw [if_neg hlt, if_neg hlt, Nat.add_sub_cancel, if_pos hk]
      refine ⟨(r1 k hk).1, ?_⟩
      have e : (∑ j ∈ range (2 ^ (n + 1)), τ (bsgn (fun _ => 0) (n + 1) j (j ^^^ (k + 2 ^ n))) (a.get j)
            (b.get (j ^^^ (k + 2 ^ n)))) =
          (∑ j ∈ range (2 ^ n), τ (bsgn (fun _ => 0) n j (j ^^^ k)) (a01.2.get j) (b01.1.get (j ^^^ k))) +
          ∑ j ∈ range (2 ^ n), τ (bsgn (fun _ => 0) n j (j ^^^ k)) ((alphaInplace ⟨2 ^ n, a.get⟩ : Arr1 F).get j)
            (b01.2.get (j ^^^ k)) := by
        rw [sum_two_pow_succ, add_comm]
        congr 1
        · apply sum_congr rfl
          intro j hj
          rw [mem_range] at hj
          have hx := Nat.xor_lt_two_pow hj hk
          rw [add_two_pow_xor_add_two_pow hj hk, bsgn_hi_lo hj hx]
          rfl
        · apply sum_congr rfl
          intro j hj
          rw [mem_range] at hj
          have hx := Nat.xor_lt_two_pow hj hk
          rw [xor_add_two_pow hj hk, bsgn_lo_hi hj hx]
          show _ = τ _ (if countOnes j &&& 1 ≠ 0 then -a.get j else a.get j) _
          by_cases hc : par n j = true
          · rw [if_pos ((countOnes_and_one hj).mpr hc), I.neg _ _ (ga0 j hj), hc]
            simp [sg]
            rfl
          · rw [if_neg (fun h => hc ((countOnes_and_one hj).mp h)), Bool.eq_false_iff.mpr hc]
            simp [sg]
            rfl
      rw [e]
      exact I.sum (r1 k hk).2 (r2 k hk).2

/-! ### Products -/

namespace MV
variable {A : ClAlg} {S : Type} [CoeffStorage S F] [LawfulStorage S F] {M : Type} [AddCommMonoid M]

theorem foldlM_inv {X : Type} (l : List X) (step : MV A S → X → Res (MV A S)) (R : F → M → Prop) (δ : X → Nat → M)
    (h : ∀ (u : MV A S), u.Valid → ∀ x ∈ l, ∃ u', step u x = .ok u' ∧ u'.Valid ∧
      ∀ k < 2 ^ A.dim, ∀ m, R (u.val k) m → R (u'.val k) (m + δ x k))
    (u : MV A S) (hu : u.Valid) :
    ∃ u', l.foldlM step u = .ok u' ∧ u'.Valid ∧
      ∀ k < 2 ^ A.dim, ∀ m, R (u.val k) m → R (u'.val k) (m + (l.map (fun x => δ x k)).sum) := by
  induction l generalizing u with
  | nil => exact ⟨u, rfl, hu, by simp⟩
  | cons x xs ih =>
    obtain ⟨u1, h1, h2, h3⟩ := h u hu x (by simp)
    obtain ⟨u2, g1, g2, g3⟩ := ih (fun u hu y hy => h u hu y (by simp [hy])) u1 h2
    refine ⟨u2, ?_, g2, ?_⟩
    · rw [List.foldlM_cons, h1]; exact g1
    · intro k hk m hm
      rw [List.map_cons, List.sum_cons, ← add_assoc]
      exact g3 k hk _ (h3 k hk m hm)

theorem foldlM_inv_scalar {X : Type} (l : List X) (step : F → X → Res F) (R : F → M → Prop) (δ : X → M)
    (h : ∀ (v : F), ∀ x ∈ l, ∃ v', step v x = .ok v' ∧ ∀ m, R v m → R v' (m + δ x)) (v : F) :
    ∃ v', l.foldlM step v = .ok v' ∧ ∀ m, R v m → R v' (m + (l.map δ).sum) := by
  induction l generalizing v with
  | nil => exact ⟨v, rfl, by simp⟩
  | cons x xs ih =>
    obtain ⟨u1, h1, h3⟩ := h v x (by simp)
    obtain ⟨u2, g1, g3⟩ := ih (fun u y hy => h u y (by simp [hy])) u1
    refine ⟨u2, ?_, ?_⟩
    · rw [List.foldlM_cons, h1]; exact g1
    · intro m hm
      rw [List.map_cons, List.sum_cons, ← add_assoc]
      exact g3 _ (h3 m hm)

variable {good : F → Prop} {R : F → M → Prop} {τ : ℤ → F → F → M}

theorem accumulate_inv (I : SumInv0 F good R τ) {u : MV A S} (hu : u.Valid) {idx : Nat} (hi : idx < 2 ^ A.dim) {sgn : Res Sign}
    {s : Sign} (hs : sgn = .ok s) {x y : F} (hx : good x) (hy : good y) :
    ∃ u', u.accumulate idx sgn x y = .ok u' ∧ u'.Valid ∧
      ∀ k < 2 ^ A.dim, ∀ m, R (u.val k) m → R (u'.val k) (m + if k = idx then τ s.toInt x y else 0) := by
  subst hs
  unfold accumulate
  rw [hu.get hi]
  cases s with
  | Null =>
    refine ⟨u, rfl, hu, ?_⟩
    intro k _ m hm
    simpa [Sign.toInt, I.null] using hm
  | Plus =>
    refine ⟨_, rfl, hu.set _ _, ?_⟩
    intro k _ m hm
    rw [hu.set_val hi]
    by_cases h : k = idx
    · subst h; rw [if_pos rfl, if_pos rfl]; exact I.plus hm hx hy
    · simpa [h] using hm
  | Minus =>
    refine ⟨_, rfl, hu.set _ _, ?_⟩
    intro k _ m hm
    rw [hu.set_val hi]
    by_cases h : k = idx
    · subst h; rw [if_pos rfl, if_pos rfl]; exact I.minus hm hx hy
    · simpa [h] using hm

theorem product_list_inv (I : SumInv0 F good R τ) {a b : MV A S} (ha : a.Valid) (hb : b.Valid)
    (ga : ∀ p ∈ a.coeffEnumerate, good p.2) (gb : ∀ p ∈ b.coeffEnumerate, good p.2)
    (ι : Nat → Nat → Nat) (sgn : Nat → Nat → Res Sign) (c : Nat → Nat → ℤ)
    (h : ∀ i < 2 ^ A.dim, ∀ j < 2 ^ A.dim, ι i j < 2 ^ A.dim ∧ ∃ s, sgn i j = .ok s ∧ s.toInt = c i j) :
    ∃ r, (do
      let ret ← default (A := A) (S := S) (T := F)
      a.coeffEnumerate.foldlM (fun (ret : MV A S) (p : Nat × F) =>
        b.coeffEnumerate.foldlM (fun (ret : MV A S) (q : Nat × F) =>
          ret.accumulate (ι p.1 q.1) (sgn p.1 q.1) p.2 q.2) ret) ret) = .ok r ∧ r.Valid ∧
      ∀ k < 2 ^ A.dim, R (r.val k) ((a.coeffEnumerate.map fun p => (b.coeffEnumerate.map fun q =>
        if k = ι p.1 q.1 then τ (c p.1 q.1) p.2 q.2 else 0).sum).sum) := by
  obtain ⟨u, hu0, hu, hz⟩ := default_denotes (A := A) (S := S) ha.supp
  rw [hu0]
  obtain ⟨u', h1, h2, h3⟩ := foldlM_inv (A := A) (S := S) a.coeffEnumerate
    (fun (ret : MV A S) p => b.coeffEnumerate.foldlM (fun (ret : MV A S) q =>
          ret.accumulate (ι p.1 q.1) (sgn p.1 q.1) p.2 q.2) ret) R
    (fun p k => (b.coeffEnumerate.map (fun q => if k = ι p.1 q.1 then τ (c p.1 q.1) p.2 q.2 else 0)).sum)
    (by
      intro u hu p hp
      apply foldlM_inv (A := A) (S := S) b.coeffEnumerate _ R
        (fun q k => if k = ι p.1 q.1 then τ (c p.1 q.1) p.2 q.2 else 0) _ u hu
      intro u hu q hq
      have hi := ha.enum.mem p hp
      have hj := hb.enum.mem q hq
      obtain ⟨hι, s, hs1, hs2⟩ := h _ hi.1 _ hj.1
      rw [← hs2]
      exact accumulate_inv I hu hι hs1 (ga p hp) (gb q hq)) u hu
  refine ⟨u', h1, h2, ?_⟩
  intro k hk
  have hR := h3 k hk 0 (by rw [hz k hk]; exact I.zero)
  rwa [_root_.zero_add] at hR

theorem product_inv' (I : SumInv F good R τ) {a b : MV A S} (ha : a.Valid) (hb : b.Valid)
    (ga : ∀ p ∈ a.coeffEnumerate, good p.2) (gb : ∀ p ∈ b.coeffEnumerate, good p.2)
    (ι : Nat → Nat → Nat) (sgn : Nat → Nat → Res Sign) (c : Nat → Nat → ℤ)
    (h : ∀ i < 2 ^ A.dim, ∀ j < 2 ^ A.dim, ι i j < 2 ^ A.dim ∧ ∃ s, sgn i j = .ok s ∧ s.toInt = c i j) :
    ∃ r, (do
      let ret ← default (A := A) (S := S) (T := F)
      a.coeffEnumerate.foldlM (fun (ret : MV A S) (p : Nat × F) =>
        b.coeffEnumerate.foldlM (fun (ret : MV A S) (q : Nat × F) =>
          ret.accumulate (ι p.1 q.1) (sgn p.1 q.1) p.2 q.2) ret) ret) = .ok r ∧ r.Valid ∧
      ∀ k < 2 ^ A.dim, R (r.val k) (∑ i ∈ range (2 ^ A.dim), ∑ j ∈ range (2 ^ A.dim),
        if k = ι i j then τ (c i j) (a.val i) (b.val j) else 0) := by
  obtain ⟨r, h1, h2, h3⟩ := product_list_inv I.toSumInv0 ha hb ga gb ι sgn c h
  refine ⟨r, h1, h2, fun k hk => ?_⟩
  have hR := h3 k hk
  have e : ∀ p ∈ a.coeffEnumerate,
      (b.coeffEnumerate.map (fun q => if k = ι p.1 q.1 then τ (c p.1 q.1) p.2 q.2 else 0)).sum =
      ∑ j ∈ range (2 ^ A.dim), if k = ι p.1 j then τ (c p.1 j) p.2 (b.val j) else 0 := by
    intro p _
    exact hb.enum.sum (fun j x => if k = ι p.1 j then τ (c p.1 j) p.2 x else 0) (by simp [I.right])
  rw [List.map_congr_left e] at hR
  rwa [ha.enum.sum (fun i x => ∑ j ∈ range (2 ^ A.dim), if k = ι i j then τ (c i j) x (b.val j) else 0)
    (by simp [I.left])] at hR

theorem good_enum {a : MV A S} (ha : a.Valid) (ga : ∀ i < 2 ^ A.dim, good (a.val i)) : ∀ p ∈ a.coeffEnumerate, good p.2 := by
  intro p hp
  have hi := ha.enum.mem p hp
  rw [hi.2]
  exact ga _ hi.1

theorem product_inv (I : SumInv F good R τ) {a b : MV A S} (ha : a.Valid) (hb : b.Valid)
    (ga : ∀ i < 2 ^ A.dim, good (a.val i)) (gb : ∀ i < 2 ^ A.dim, good (b.val i))
    (ι : Nat → Nat → Nat) (sgn : Nat → Nat → Res Sign) (c : Nat → Nat → ℤ)
    (h : ∀ i < 2 ^ A.dim, ∀ j < 2 ^ A.dim, ι i j < 2 ^ A.dim ∧ ∃ s, sgn i j = .ok s ∧ s.toInt = c i j) :
    ∃ r, (do
      let ret ← default (A := A) (S := S) (T := F)
      a.coeffEnumerate.foldlM (fun (ret : MV A S) (p : Nat × F) =>
        b.coeffEnumerate.foldlM (fun (ret : MV A S) (q : Nat × F) =>
          ret.accumulate (ι p.1 q.1) (sgn p.1 q.1) p.2 q.2) ret) ret) = .ok r ∧ r.Valid ∧
      ∀ k < 2 ^ A.dim, R (r.val k) (∑ i ∈ range (2 ^ A.dim), ∑ j ∈ range (2 ^ A.dim),
        if k = ι i j then τ (c i j) (a.val i) (b.val j) else 0) :=
  product_inv' I ha hb (good_enum ha ga) (good_enum hb gb) ι sgn c h

theorem product_xor_inv' (I : SumInv F good R τ) {a b : MV A S} (ha : a.Valid) (hb : b.Valid)
    (ga : ∀ p ∈ a.coeffEnumerate, good p.2) (gb : ∀ p ∈ b.coeffEnumerate, good p.2)
    (sgn : Nat → Nat → Res Sign) (c : Nat → Nat → ℤ)
    (h : ∀ i < 2 ^ A.dim, ∀ j < 2 ^ A.dim, ∃ s, sgn i j = .ok s ∧ s.toInt = c i j) :
    ∃ r, (do
      let ret ← default (A := A) (S := S) (T := F)
      a.coeffEnumerate.foldlM (fun (ret : MV A S) (p : Nat × F) =>
        b.coeffEnumerate.foldlM (fun (ret : MV A S) (q : Nat × F) =>
          ret.accumulate (p.1 ^^^ q.1) (sgn p.1 q.1) p.2 q.2) ret) ret) = .ok r ∧ r.Valid ∧
      ∀ k < 2 ^ A.dim, R (r.val k) (∑ i ∈ range (2 ^ A.dim), τ (c i (i ^^^ k)) (a.val i) (b.val (i ^^^ k))) := by
  obtain ⟨r, h1, h2, h3⟩ := product_inv' I ha hb ga gb (fun i j => i ^^^ j) sgn c
    (fun i hi j hj => ⟨Nat.xor_lt_two_pow hi hj, h i hi j hj⟩)
  refine ⟨r, h1, h2, fun k hk => ?_⟩
  have e : (∑ i ∈ range (2 ^ A.dim), ∑ j ∈ range (2 ^ A.dim),
        if k = i ^^^ j then τ (c i j) (a.val i) (b.val j) else 0) =
      ∑ i ∈ range (2 ^ A.dim), τ (c i (i ^^^ k)) (a.val i) (b.val (i ^^^ k)) := by
    apply sum_congr rfl
    intro i hi
    rw [mem_range] at hi
    rw [sum_eq_single (i ^^^ k)]
    · rw [xor_xor_cancel, if_pos rfl]
    · intro j _ hj
      rw [if_neg]
      rintro rfl
      exact hj (xor_xor_cancel _ _).symm
    · intro hc
      exact absurd (mem_range.mpr (Nat.xor_lt_two_pow hi hk)) hc
  rw [← e]
  exact h3 k hk

theorem product_xor_inv (I : SumInv F good R τ) {a b : MV A S} (ha : a.Valid) (hb : b.Valid)
    (ga : ∀ i < 2 ^ A.dim, good (a.val i)) (gb : ∀ i < 2 ^ A.dim, good (b.val i))
    (sgn : Nat → Nat → Res Sign) (c : Nat → Nat → ℤ)
    (h : ∀ i < 2 ^ A.dim, ∀ j < 2 ^ A.dim, ∃ s, sgn i j = .ok s ∧ s.toInt = c i j) :
    ∃ r, (do
      let ret ← default (A := A) (S := S) (T := F)
      a.coeffEnumerate.foldlM (fun (ret : MV A S) (p : Nat × F) =>
        b.coeffEnumerate.foldlM (fun (ret : MV A S) (q : Nat × F) =>
          ret.accumulate (p.1 ^^^ q.1) (sgn p.1 q.1) p.2 q.2) ret) ret) = .ok r ∧ r.Valid ∧
      ∀ k < 2 ^ A.dim, R (r.val k) (∑ i ∈ range (2 ^ A.dim), τ (c i (i ^^^ k)) (a.val i) (b.val (i ^^^ k))) :=
  product_xor_inv' I ha hb (good_enum ha ga) (good_enum hb gb) sgn c h

theorem vsdot_inv (I : SumInv F good R τ) {a b : MV A S} (ha : a.Valid) (hb : b.Valid)
    (ga : ∀ i < 2 ^ A.dim, good (a.val i)) (gb : ∀ i < 2 ^ A.dim, good (b.val i)) :
    ∃ r, a.vsdot b = .ok r ∧ R r (∑ i ∈ range (2 ^ A.dim), τ 1 (a.val i) (b.val i)) := by
  unfold vsdot
  obtain ⟨v, h1, h2⟩ := foldlM_inv_scalar a.coeffEnumerate
    (fun ret p => do return ret + p.2 * (← b.getByIdx p.1)) R (fun p => τ 1 p.2 (b.val p.1)) (by
      intro v p hp
      have hi := ha.enum.mem p hp
      rw [hb.get hi.1]
      exact ⟨_, rfl, fun m hm => I.plus hm (by rw [hi.2]; exact ga _ hi.1) (gb _ hi.1)⟩) 0
  refine ⟨v, h1, ?_⟩
  have := h2 0 I.zero
  rwa [_root_.zero_add, ha.enum.sum (fun i x => τ 1 x (b.val i)) (by simp [I.left])] at this

theorem signSum_inv (I : SumInv F good R τ) (hA : A.WF) {a b : MV A S} (ha : a.Valid) (hb : b.Valid)
    (ψ : Nat → F → F) (h0 : ∀ i, ψ i 0 = 0)
    (ga : ∀ i < 2 ^ A.dim, good (ψ i (a.val i))) (gb : ∀ i < 2 ^ A.dim, good (b.val i)) :
    ∃ r, a.coeffEnumerate.foldlM (fun ret p => do
      match (← A.bladeGeoProductSign p.1 p.1) with
      | .Null => return ret
      | .Plus => return ret + ψ p.1 p.2 * (← b.getByIdx p.1)
      | .Minus => return ret - ψ p.1 p.2 * (← b.getByIdx p.1)) 0 = (.ok r : Res F) ∧
      R r (∑ i ∈ range (2 ^ A.dim), τ (bsgn A.sigma A.dim i i) (ψ i (a.val i)) (b.val i)) := by
  obtain ⟨v, h1, h2⟩ := foldlM_inv_scalar a.coeffEnumerate (fun ret p => do
      match (← A.bladeGeoProductSign p.1 p.1) with
      | .Null => return ret
      | .Plus => return ret + ψ p.1 p.2 * (← b.getByIdx p.1)
      | .Minus => return ret - ψ p.1 p.2 * (← b.getByIdx p.1)) R
      (fun p => τ (bsgn A.sigma A.dim p.1 p.1) (ψ p.1 p.2) (b.val p.1)) (by
      intro v p hp
      have hi := ha.enum.mem p hp
      obtain ⟨s, h1, h2⟩ := ClAlg.bladeGeoProductSign_eq hA hi.1 hi.1
      rw [h1, hb.get hi.1, ← h2]
      have g1 : good (ψ p.1 p.2) := by rw [hi.2]; exact ga _ hi.1
      cases s with
      | Null => exact ⟨v, rfl, fun m hm => by simpa [Sign.toInt, I.null] using hm⟩
      | Plus => exact ⟨_, rfl, fun m hm => I.plus hm g1 (gb _ hi.1)⟩
      | Minus => exact ⟨_, rfl, fun m hm => I.minus hm g1 (gb _ hi.1)⟩) 0
  refine ⟨v, h1, ?_⟩
  have := h2 0 I.zero
  rwa [_root_.zero_add, ha.enum.sum (fun i x => τ (bsgn A.sigma A.dim i i) (ψ i x) (b.val i)) (by simp [I.left, h0])] at this

/-! ### Signs and duals -/

/-- The sign change by `c = ±1`. -/
def sgnC (c : ℤ) (x : F) : F := if c = -1 then -x else x

theorem sgnC_zero (c : ℤ) : sgnC c (0 : F) = 0 := by
  unfold sgnC
  split
  · exact SumLaws.neg_zero
  · rfl

theorem good_sgnC (I : SumInv F good R τ) (c : ℤ) {x : F} (hx : good x) : good (sgnC c x) := by
  unfold sgnC
  split
  · exact I.good_neg hx
  · exact hx

theorem tau_sgnC (I : SumInv F good R τ) {s t : ℤ} (hs : s = 1 ∨ s = -1) (ht : t = 1 ∨ t = -1) (c : ℤ) {x y : F}
    (hx : good x) (hy : good y) : τ c (sgnC s x) (sgnC t y) = τ (c * (s * t)) x y := by
  unfold sgnC
  rcases hs with rfl | rfl <;> rcases ht with rfl | rfl
  · simp
  · simp [I.neg' c x hy]
  · simp [I.neg c _ hx]
  · rw [if_pos rfl, if_pos rfl, I.neg c _ hx, I.neg' _ _ hy]; simp

theorem sg_cases (b : Bool) : sg b = 1 ∨ sg b = -1 := by cases b <;> simp [sg]

theorem bsgn_zero_unit {n a b : Nat} (h : ∀ i < n, (a.testBit i && b.testBit i) = false) :
    bsgn (fun _ => 0) n a b = 1 ∨ bsgn (fun _ => 0) n a b = -1 := by
  rw [bsgn_disjoint _ (fun _ => 1) h]
  have := bsgn_plus_sq n a b
  exact mul_self_eq_one_iff.mp this

theorem dualSign_unit {n i : Nat} : bsgn (fun _ => 0) n i (i ^^^ (2 ^ n - 1)) = 1 ∨
    bsgn (fun _ => 0) n i (i ^^^ (2 ^ n - 1)) = -1 := by
  apply bsgn_zero_unit
  intro j hj
  rw [Nat.testBit_xor, Nat.testBit_two_pow_sub_one]
  simp [hj]

theorem dualSign_unit' {n i : Nat} : bsgn (fun _ => 0) n (i ^^^ (2 ^ n - 1)) i = 1 ∨
    bsgn (fun _ => 0) n (i ^^^ (2 ^ n - 1)) i = -1 := by
  apply bsgn_zero_unit
  intro j hj
  rw [Nat.testBit_xor, Nat.testBit_two_pow_sub_one]
  simp [hj]

theorem dualFold_fl (hA : A.WF) {a : MV A S} (ha : a.Valid) (sgn : Nat → Nat → Res Sign) (c : Nat → ℤ)
    (hs : ∀ i < 2 ^ A.dim, ∃ s, sgn (i ^^^ (2 ^ A.dim - 1)) i = .ok s ∧ s ≠ .Null ∧ s.toInt = c i) :
    Denotes (do
      let ret ← default (A := A) (S := S) (T := F)
      a.coeffEnumerate.foldlM (fun (ret : MV A S) p => do
        let dualIdx := unot p.1 &&& (A.projMask ||| A.imagMask ||| A.realMask)
        match (← sgn dualIdx p.1) with
        | .Null => .error .panic
        | .Plus => return ret.setByIdx dualIdx p.2
        | .Minus => return ret.setByIdx dualIdx (-p.2)) ret)
      (fun i => sgnC (c (i ^^^ (2 ^ A.dim - 1))) (a.val (i ^^^ (2 ^ A.dim - 1)))) := by
  refine (default_denotes ha.supp).bind ?_
  intro u hu hz
  rw [foldlM_set _ _ (fun p => (p.1 ^^^ (2 ^ A.dim - 1), sgnC (c p.1) p.2))]
  · rw [List.foldl_map]
    exact foldl_set_enum' ha.enum (fun i => i ^^^ (2 ^ A.dim - 1)) (fun i hi => ⟨xor_mask_lt hi, xor_mask_xor_mask _ _⟩)
      (fun i x => sgnC (c i) x) (fun i => sgnC_zero _) u hu hz
  · intro u p hp
    have hlt := (ha.enum.mem p hp).1
    obtain ⟨s, h1, h2, h3⟩ := hs _ hlt
    simp only [dual_index hA hlt]
    rw [h1]
    cases s with
    | Null => exact absurd rfl h2
    | Plus => rw [← h3]; simp [Sign.toInt, Bind.bind, Except.bind, sgnC]; rfl
    | Minus => rw [← h3]; simp [Sign.toInt, Bind.bind, Except.bind, sgnC]; rfl

theorem dual_fl (hA : A.WF) {a : MV A S} (ha : a.Valid) : Denotes a.dual (fun i =>
    sgnC (bsgn (fun _ => 0) A.dim i (i ^^^ (2 ^ A.dim - 1))) (a.val (i ^^^ (2 ^ A.dim - 1)))) := by
  refine (dualFold_fl hA ha (fun x y => A.bladeWedgeProductSign x y)
    (fun i => bsgn (fun _ => 0) A.dim (i ^^^ (2 ^ A.dim - 1)) i) ?_).congr ?_
  · intro i hi
    exact wedgeSign_compl hA (xor_mask_lt hi) hi (disjoint_compl hi)
  · intro i _; rw [xor_mask_xor_mask]

theorem undual_fl (hA : A.WF) {a : MV A S} (ha : a.Valid) : Denotes a.undual (fun i =>
    sgnC (bsgn (fun _ => 0) A.dim (i ^^^ (2 ^ A.dim - 1)) i) (a.val (i ^^^ (2 ^ A.dim - 1)))) := by
  refine (dualFold_fl hA ha (fun x y => A.bladeWedgeProductSign y x)
    (fun i => bsgn (fun _ => 0) A.dim i (i ^^^ (2 ^ A.dim - 1))) ?_).congr ?_
  · intro i hi
    exact wedgeSign_compl hA hi (xor_mask_lt hi) (by rw [Nat.and_comm]; exact disjoint_compl hi)
  · intro i _; rw [xor_mask_xor_mask]

theorem neg_fl {a : MV A S} (ha : a.Valid) : Denotes a.neg (fun i => -a.val i) :=
  (fromIndexedIter_enum ha.supp (ha.enum.map (fun _ c => -c) (fun _ => SumLaws.neg_zero))).unwrap

theorem ite_sgnC {p : Prop} [Decidable p] {c : ℤ} (h : c = if p then 1 else -1) (x : F) :
    (if p then x else -x) = sgnC c x := by
  rw [h]
  unfold sgnC
  split <;> simp

theorem flip_fl {a : MV A S} (ha : a.Valid) : Denotes a.flip (fun i => sgnC (sg (par A.dim i)) (a.val i)) := by
  refine (mapFold_denotes ha ha.supp (fun i c => if countOnes i % 2 = 0 then c else -c) (by simp [SumLaws.neg_zero])).congr ?_
  intro i hi
  apply ite_sgnC
  by_cases h : par A.dim i = true
  · have := (countOnes_mod_two hi).mpr h
    rw [h, if_neg (by omega)]; rfl
  · have h' : par A.dim i = false := by simpa using h
    rw [h', if_pos ((countOnes_mod_two' hi).mpr h')]; rfl

theorem flipSubspace_fl {a : MV A S} (ha : a.Valid) (mask : Nat) :
    Denotes (a.flipSubspace mask) (fun i => sgnC (sg (par A.dim (i &&& mask))) (a.val i)) := by
  refine (mapFold_denotes ha ha.supp (fun i c => if countOnes (i &&& mask) % 2 = 0 then c else -c)
    (by simp [SumLaws.neg_zero])).congr ?_
  intro i hi
  have hlt : i &&& mask < 2 ^ A.dim := lt_of_le_of_lt Nat.and_le_left hi
  apply ite_sgnC
  by_cases h : par A.dim (i &&& mask) = true
  · have := (countOnes_mod_two hlt).mpr h
    rw [h, if_neg (by omega)]; rfl
  · have h' : par A.dim (i &&& mask) = false := by simpa using h
    rw [h', if_pos ((countOnes_mod_two' hlt).mpr h')]; rfl

theorem revC_fl {n i : Nat} (hi : i < 2 ^ n) (c : F) : revC i c = sgnC (rsg n i) c := by
  unfold revC
  apply ite_sgnC
  rw [rsg_eq, countOnes_eq_cnt hi]

theorem rsg_unit (n i : Nat) : rsg n i = 1 ∨ rsg n i = -1 := by
  rw [rsg_eq]
  split <;> simp

theorem rev_fl {a : MV A S} (ha : a.Valid) : Denotes a.rev (fun i => sgnC (rsg A.dim i) (a.val i)) := by
  refine (mapFold_denotes ha ha.supp (fun i c => revC i c) ?_).congr ?_
  · intro i; unfold revC; split <;> simp [SumLaws.neg_zero]
  · intro i hi; exact revC_fl hi _

/-! ### Wedge and meet -/

/-- The sign of a term of the meet. -/
def meetT (n i k : Nat) : ℤ :=
  bsgn (fun _ => 0) n (k ^^^ (2 ^ n - 1)) k * (bsgn (fun _ => 0) n i (i ^^^ (k ^^^ (2 ^ n - 1))) *
    (bsgn (fun _ => 0) n i (i ^^^ (2 ^ n - 1)) *
      bsgn (fun _ => 0) n (i ^^^ (k ^^^ (2 ^ n - 1))) (i ^^^ (k ^^^ (2 ^ n - 1)) ^^^ (2 ^ n - 1))))

theorem meetF_eq {T : Type} [Ring T] (n : Nat) (f g : Nat → T) (k : Nat) : meetF n f g k =
    ∑ i ∈ range (2 ^ n), meetT n i k • (f (i ^^^ (2 ^ n - 1)) * g (i ^^^ (k ^^^ (2 ^ n - 1)) ^^^ (2 ^ n - 1))) := by
  unfold meetF geo
  rw [smul_sum]
  apply sum_congr rfl
  intro i _
  rw [smul_mul_smul_comm, smul_smul, smul_smul]
  unfold meetT
  rw [mul_assoc]

theorem naiveMeet_inv (I : SumInv F good R τ) (hA : A.WF) {a b : MV A S} (ha : a.Valid) (hb : b.Valid)
    (ga : ∀ i < 2 ^ A.dim, good (a.val i)) (gb : ∀ i < 2 ^ A.dim, good (b.val i)) :
    ∃ r, a.naiveMeetImpl b = .ok r ∧ r.Valid ∧ ∀ k < 2 ^ A.dim, R (r.val k)
      (∑ i ∈ range (2 ^ A.dim), τ (meetT A.dim i k) (a.val (i ^^^ (2 ^ A.dim - 1)))
        (b.val (i ^^^ (k ^^^ (2 ^ A.dim - 1)) ^^^ (2 ^ A.dim - 1)))) := by
  have hm : (2 ^ A.dim - 1 : Nat) < 2 ^ A.dim := by have := Nat.two_pow_pos A.dim; omega
  obtain ⟨r, h1, h2, h3⟩ := product_inv I ha hb ga gb
    (fun i j => (A.realMask ||| A.imagMask ||| A.projMask) &&& unot (i ^^^ j))
    (fun i j => meetSign A (A.realMask ||| A.imagMask ||| A.projMask) i j) (fun i j => meetC A.dim i j) (by
      intro i hi j hj
      refine ⟨?_, meetSign_eq hA hi hj⟩
      rw [meetIndex hA (Nat.xor_lt_two_pow hi hj)]
      exact xor_mask_lt (Nat.xor_lt_two_pow hi hj))
  refine ⟨r, h1, h2, fun k hk => ?_⟩
  have h := h3 k hk
  rw [← sum_xor hm] at h
  refine (congrArg (R (r.val k)) (sum_congr rfl ?_)).mp h
  intro i hi
  rw [mem_range] at hi
  have hi' := xor_mask_lt hi
  have e0 : ∀ j m : Nat, i ^^^ m ^^^ j ^^^ m = i ^^^ j := by
    intro j m
    rw [Nat.xor_assoc, Nat.xor_assoc, Nat.xor_comm j, xor_xor_cancel]
  rw [sum_eq_single (i ^^^ k)]
  · have e1 : i ^^^ (2 ^ A.dim - 1) ^^^ (i ^^^ k) = k ^^^ (2 ^ A.dim - 1) := by
      rw [Nat.xor_comm i, Nat.xor_assoc, xor_xor_cancel, Nat.xor_comm]
    have e2 : i ^^^ (k ^^^ (2 ^ A.dim - 1)) = i ^^^ k ^^^ (2 ^ A.dim - 1) := by rw [Nat.xor_assoc]
    rw [meetIndex hA (Nat.xor_lt_two_pow hi' (Nat.xor_lt_two_pow hi hk)), e0, xor_xor_cancel, if_pos rfl]
    unfold meetT
    rw [e2, xor_mask_xor_mask]
    congr 1
    unfold meetC
    rw [xor_mask_xor_mask, e1, xor_mask_xor_mask]
    ring
  · intro j hj hne
    rw [mem_range] at hj
    rw [if_neg]
    rw [meetIndex hA (Nat.xor_lt_two_pow hi' hj), e0]
    rintro rfl
    exact hne (xor_xor_cancel _ _).symm
  · intro hc
    exact absurd (mem_range.mpr (Nat.xor_lt_two_pow hi hk)) hc

theorem naiveWedge_inv (I : SumInv F good R τ) {a b : MV A S} (ha : a.Valid) (hb : b.Valid)
    (ga : ∀ i < 2 ^ A.dim, good (a.val i)) (gb : ∀ i < 2 ^ A.dim, good (b.val i)) :
    ∃ r, a.naiveWedgeImpl b = .ok r ∧ r.Valid ∧ ∀ k < 2 ^ A.dim, R (r.val k)
      (∑ i ∈ range (2 ^ A.dim), τ (bsgn (fun _ => 0) A.dim i (i ^^^ k)) (a.val i) (b.val (i ^^^ k))) :=
  product_xor_inv I ha hb ga gb _ _
    (fun _ hi _ hj => ClAlg.bladeWedgeProductSign_eq (by have := ha.dim_le; omega) hi hj)

theorem mul_inv (I : SumInv F good R τ) (hA : A.WF) {a b : MV A S} (ha : a.Valid) (hb : b.Valid)
    (ga : ∀ i < 2 ^ A.dim, good (a.val i)) (gb : ∀ i < 2 ^ A.dim, good (b.val i)) :
    ∃ r, a.naiveMulImpl b = .ok r ∧ r.Valid ∧ ∀ k < 2 ^ A.dim, R (r.val k)
      (∑ i ∈ range (2 ^ A.dim), τ (bsgn A.sigma A.dim i (i ^^^ k)) (a.val i) (b.val (i ^^^ k))) :=
  product_xor_inv I ha hb ga gb _ _ (fun _ hi _ hj => ClAlg.bladeGeoProductSign_eq hA hi hj)

theorem arr_val' {a : MV A (ArrayStorage F)} (ha : a.Valid) {i : Nat} (hi : i < 2 ^ A.dim) :
    a.val i = a.coeffs.array.get i := by
  show (if i < a.coeffs.array.len then _ else _) = _
  rw [if_pos]
  rw [ha.2.2]; exact hi

theorem wedgeImplMV_inv (I : SumInv0 F good R τ) {a b d : MV A (ArrayStorage F)} (ha : a.Valid) (hb : b.Valid)
    (hd : d.Valid) (ga : ∀ i < 2 ^ A.dim, good (a.val i)) (gb : ∀ i < 2 ^ A.dim, good (b.val i)) :
    let r : MV A (ArrayStorage F) := ⟨⟨d.coeffs.dim, (wedgeImpl a.coeffs.array b.coeffs.array d.coeffs.array).2⟩⟩
    r.Valid ∧ ∀ k < 2 ^ A.dim, R (r.val k)
      (∑ i ∈ range (2 ^ A.dim), τ (bsgn (fun _ => 0) A.dim i (i ^^^ k)) (a.val i) (b.val (i ^^^ k))) := by
  obtain ⟨-, h2, h3⟩ := wedgeImpl_inv I A.dim a.coeffs.array b.coeffs.array d.coeffs.array ha.2.2 hb.2.2 hd.2.2
    (fun i hi => by rw [← arr_val' ha hi]; exact ga i hi) (fun i hi => by rw [← arr_val' hb hi]; exact gb i hi)
  intro r
  have hv : r.Valid := ⟨hd.1, hd.2.1, h2⟩
  refine ⟨hv, fun k hk => ?_⟩
  rw [arr_val' hv hk]
  refine (congrArg (R _) (sum_congr rfl ?_)).mp (h3 k hk).2
  intro i hi
  rw [mem_range] at hi
  rw [arr_val' ha hi, arr_val' hb (Nat.xor_lt_two_pow hi hk)]

end MV

/-- Wedge and meet compute the sums of products of the definition, in some order. -/
class FloatWedge (A : ClAlg) (S : Type) {F : outParam Type} [Zero F] [One F] [Add F] [Sub F] [Neg F] [Mul F] [Div F]
    [CoeffLaws F] [SumLaws F] [DecidableEq F] [CoeffStorage S F] [LawfulStorage S F] [WedgeProduct A S] : Prop where
  wedge : ∀ {M : Type} [AddCommMonoid M] {good : F → Prop} {R : F → M → Prop} {τ : ℤ → F → F → M}, SumInv F good R τ →
    ∀ {a b : MV A S}, a.Valid → b.Valid → (∀ i < 2 ^ A.dim, good (a.val i)) → (∀ i < 2 ^ A.dim, good (b.val i)) →
    ∃ r, a.wedge b = .ok r ∧ r.Valid ∧ ∀ k < 2 ^ A.dim, R (r.val k)
      (∑ i ∈ range (2 ^ A.dim), τ (bsgn (fun _ => 0) A.dim i (i ^^^ k)) (a.val i) (b.val (i ^^^ k)))
  meet : ∀ {M : Type} [AddCommMonoid M] {good : F → Prop} {R : F → M → Prop} {τ : ℤ → F → F → M}, SumInv F good R τ →
    A.WF → ∀ {a b : MV A S}, a.Valid → b.Valid → (∀ i < 2 ^ A.dim, good (a.val i)) →
    (∀ i < 2 ^ A.dim, good (b.val i)) →
    ∃ r, a.meet b = .ok r ∧ r.Valid ∧ ∀ k < 2 ^ A.dim, R (r.val k)
      (∑ i ∈ range (2 ^ A.dim), τ (MV.meetT A.dim i k) (a.val (i ^^^ (2 ^ A.dim - 1)))
        (b.val (i ^^^ (k ^^^ (2 ^ A.dim - 1)) ^^^ (2 ^ A.dim - 1))))

instance {A : ClAlg} [HashOrder F] : FloatWedge A (SparseStorage F) :=
  ⟨fun I _ _ ha hb ga gb => MV.naiveWedge_inv I ha hb ga gb, fun I hA _ _ ha hb ga gb => MV.naiveMeet_inv I hA ha hb ga gb⟩

open MV in
instance {A : ClAlg} : FloatWedge A (ArrayStorage F) where
  wedge {M _ good R τ} I a b ha hb ga gb := by
    show ∃ r, a.wedgeDense b = .ok r ∧ _
    unfold wedgeDense
    split
    · exact MV.naiveWedge_inv I ha hb ga gb
    · obtain ⟨u, hu0, hu, -⟩ := default_denotes (A := A) (S := ArrayStorage F) ha.supp
      rw [hu0]
      have h := wedgeImplMV_inv I.toSumInv0 ha hb hu ga gb
      exact ⟨_, rfl, h.1, h.2⟩
  meet {M _ good R τ} I hA a b ha hb ga gb := by
    show ∃ r, a.meetDense b = .ok r ∧ _
    unfold meetDense
    split
    · exact MV.naiveMeet_inv I hA ha hb ga gb
    · obtain ⟨u, hu0, hu, -⟩ := default_denotes (A := A) (S := ArrayStorage F) ha.supp
      obtain ⟨x, hx0, hx, hxv⟩ := dual_fl hA ha
      obtain ⟨y, hy0, hy, hyv⟩ := dual_fl hA hb
      rw [hu0, hx0, hy0]
      have gx : ∀ i < 2 ^ A.dim, good (x.val i) := fun i hi => by
        rw [hxv i hi]; exact good_sgnC I _ (ga _ (xor_mask_lt hi))
      have gy : ∀ i < 2 ^ A.dim, good (y.val i) := fun i hi => by
        rw [hyv i hi]; exact good_sgnC I _ (gb _ (xor_mask_lt hi))
      obtain ⟨hw, hwv⟩ := wedgeImplMV_inv I.toSumInv0 hx hy hu gx gy
      obtain ⟨r, hr0, hr, hrv⟩ := undual_fl hA hw
      refine ⟨r, hr0, hr, fun k hk => ?_⟩
      have hk' := xor_mask_lt hk
      rw [hrv k hk]
      have h := hwv _ hk'
      have e : ∀ i ∈ range (2 ^ A.dim), τ (bsgn (fun _ => 0) A.dim i (i ^^^ (k ^^^ (2 ^ A.dim - 1)))) (x.val i)
            (y.val (i ^^^ (k ^^^ (2 ^ A.dim - 1)))) =
          τ (bsgn (fun _ => 0) A.dim i (i ^^^ (k ^^^ (2 ^ A.dim - 1))) *
            (bsgn (fun _ => 0) A.dim i (i ^^^ (2 ^ A.dim - 1)) *
            bsgn (fun _ => 0) A.dim (i ^^^ (k ^^^ (2 ^ A.dim - 1))) (i ^^^ (k ^^^ (2 ^ A.dim - 1)) ^^^ (2 ^ A.dim - 1))))
            (a.val (i ^^^ (2 ^ A.dim - 1))) (b.val (i ^^^ (k ^^^ (2 ^ A.dim - 1)) ^^^ (2 ^ A.dim - 1))) := by
        intro i hi
        rw [mem_range] at hi
        have hj := Nat.xor_lt_two_pow hi hk'
        rw [hxv i hi, hyv _ hj, tau_sgnC I dualSign_unit dualSign_unit _ (ga _ (xor_mask_lt hi))
          (gb _ (xor_mask_lt hj))]
      rw [sum_congr rfl e] at h
      unfold meetT
      rcases dualSign_unit' (n := A.dim) (i := k) with hs | hs
      · beta_reduce
        unfold sgnC
        rw [hs, if_neg (by decide)]
        simp only [one_mul]
        exact h
      · beta_reduce
        unfold sgnC
        rw [hs, if_pos rfl]
        have := I.negSum _ _ _ _ h
        simp only [neg_one_mul]
        exact this

end

section
variable {F : Type} [Zero F] [One F] [Add F] [Sub F] [Neg F] [Mul F] [Div F] [FloatModel F] [DecidableEq F]

namespace MV
variable {A : ClAlg} {S : Type} [CoeffStorage S F] [LawfulStorage S F]

theorem re_sgnC {c : ℤ} (hc : c = 1 ∨ c = -1) {x : F} (hx : fin x) : re (sgnC c x) = c * re x := by
  unfold sgnC
  rcases hc with rfl | rfl
  · rw [if_neg (by decide)]; simp
  · rw [if_pos rfl, (neg_ok hx).2]; simp

theorem fin_sgnC (c : ℤ) {x : F} (hx : fin x) : fin (sgnC c x) := by
  unfold sgnC
  split
  · exact (neg_ok hx).1
  · exact hx

theorem smul_fl {a : MV A S} (ha : a.Valid) {t : F} (ht : fin t) : Denotes (a.smul t) (fun i => a.val i * t) :=
  mapFold_denotes ha ha.supp (fun _ c => c * t) (fun _ => FloatModel.zero_mul ht)

theorem sdiv_fl {a : MV A S} (ha : a.Valid) {t : F} (ht : fin t) (h0 : t ≠ 0) :
    Denotes (a.sdiv t) (fun i => a.val i / t) := by
  unfold sdiv
  refine (default_denotes ha.supp).bind ?_
  intro u hu hz
  rw [foldlM_set _ _ (fun p => (p.1, p.2 / t))]
  · rw [List.foldl_map]
    exact foldl_set_enum' ha.enum id (fun i hi => ⟨hi, rfl⟩) (fun _ x => x / t) (fun _ => FloatModel.zero_div ht h0) u hu hz
  · intro u p _
    simp only [fdiv, if_neg h0]
    rfl

end MV

end

end TClifford
