import Verif.Proofs.FloatMV
/-
How infinities and NaNs spread through sums of products.
-/

set_option linter.unusedSectionVars false

namespace TClifford

open Finset FloatModel

variable {F : Type} [Zero F] [One F] [Add F] [Sub F] [Neg F] [Mul F] [Div F] [FloatModel F] [DecidableEq F]

/-- An operation with an operand that is not finite has no finite result. -/
class FinAbsorb (F : Type) [Zero F] [One F] [Add F] [Sub F] [Neg F] [Mul F] [Div F] [FloatModel F] : Prop where
  add : ∀ {x y : F}, fin (x + y) → fin x ∧ fin y
  sub : ∀ {x y : F}, fin (x - y) → fin x ∧ fin y
  mul : ∀ {x y : F}, fin (x * y) → fin x ∧ fin y
  neg : ∀ {x : F}, fin (-x) → fin x
  negneg : ∀ {x : F}, - -x = x

instance {f : Fmt} : FinAbsorb (Flt f) where
  add {x y} h := by
    cases x <;> cases y <;> first | exact ⟨Flt.fin_num _, Flt.fin_num _⟩ | exact absurd rfl h
  sub {x y} h := by
    cases x <;> cases y <;> first | exact ⟨Flt.fin_num _, Flt.fin_num _⟩ | exact absurd rfl h
  mul {x y} h := by
    cases x <;> cases y <;> first | exact ⟨Flt.fin_num _, Flt.fin_num _⟩ | exact absurd rfl h
  neg {x} h := by cases x <;> first | exact Flt.fin_num _ | exact absurd rfl h
  negneg {x} := by
    cases x with
    | num x => exact fneg_neg (F := Flt f) (Flt.fin_num _)
    | nonFinite => rfl

variable [FinAbsorb F]

theorem fin_neg_iff {x : F} : fin (-x) ↔ fin x := ⟨FinAbsorb.neg, fun h => (neg_ok h).1⟩

theorem neg_eq_zero_iff' {x : F} : -x = 0 ↔ x = 0 := by
  constructor
  · intro h
    rw [← FinAbsorb.negneg (x := x), h, fneg_zero]
  · rintro rfl; exact fneg_zero

/-- the product `c x y` has a factor that is not finite -/
def Bad0 (c : ℤ) (x y : F) : Prop := c ≠ 0 ∧ (¬ fin x ∨ ¬ fin y)

/-- the product `c x y` is formed and has a factor that is not finite -/
def Bad (c : ℤ) (x y : F) : Prop := c ≠ 0 ∧ x ≠ 0 ∧ y ≠ 0 ∧ (¬ fin x ∨ ¬ fin y)

theorem Bad0.neg (c : ℤ) (x y : F) : Bad0 c (-x) y ↔ Bad0 (-c) x y := by
  simp only [Bad0, fin_neg_iff, ne_eq, Int.neg_eq_zero]

theorem Bad0.neg' (c : ℤ) (x y : F) : Bad0 c x (-y) ↔ Bad0 (-c) x y := by
  simp only [Bad0, fin_neg_iff, ne_eq, Int.neg_eq_zero]

theorem Bad0.sgn (c : ℤ) (x y : F) : Bad0 (-c) x y ↔ Bad0 c x y := by simp only [Bad0, ne_eq, Int.neg_eq_zero]

theorem Bad.neg (c : ℤ) (x y : F) : Bad c (-x) y ↔ Bad (-c) x y := by
  simp only [Bad, fin_neg_iff, neg_eq_zero_iff', ne_eq, Int.neg_eq_zero]

theorem Bad.neg' (c : ℤ) (x y : F) : Bad c x (-y) ↔ Bad (-c) x y := by
  simp only [Bad, fin_neg_iff, neg_eq_zero_iff', ne_eq, Int.neg_eq_zero]

theorem Bad.sgn (c : ℤ) (x y : F) : Bad (-c) x y ↔ Bad c x y := by simp only [Bad, ne_eq, Int.neg_eq_zero]

open Classical in
/-- number of bad products -/
noncomputable def bad (c : ℤ) (x y : F) : ℕ := if Bad c x y then 1 else 0

open Classical in
/-- number of bad products, including those with a zero -/
noncomputable def bad0 (c : ℤ) (x y : F) : ℕ := if Bad0 c x y then 1 else 0

theorem bad_congr {c c' : ℤ} {x x' y y' : F} (h : Bad c x y ↔ Bad c' x' y') : bad c x y = bad c' x' y' := by
  unfold bad; by_cases g : Bad c x y
  · rw [if_pos g, if_pos (h.mp g)]
  · rw [if_neg g, if_neg fun g' => g (h.mpr g')]

theorem bad0_congr {c c' : ℤ} {x x' y y' : F} (h : Bad0 c x y ↔ Bad0 c' x' y') : bad0 c x y = bad0 c' x' y' := by
  unfold bad0; by_cases g : Bad0 c x y
  · rw [if_pos g, if_pos (h.mp g)]
  · rw [if_neg g, if_neg fun g' => g (h.mpr g')]

theorem bad_zero {c : ℤ} {x y : F} (h : ¬ Bad c x y) : bad c x y = 0 := if_neg h

theorem bad0_zero {c : ℤ} {x y : F} (h : ¬ Bad0 c x y) : bad0 c x y = 0 := if_neg h

/-- A sum with a term that is not finite is not finite. -/
theorem sumInv_bad : SumInv F (fun _ => True) (fun v (m : ℕ) => m ≠ 0 → ¬ fin v) bad where
  zero h := absurd rfl h
  null x y := bad_zero (by simp [Bad])
  left c y := bad_zero (by simp [Bad])
  right c x := bad_zero (by simp [Bad])
  plus {v m x y} h _ _ hm hf := by
    obtain ⟨h1, h2⟩ := FinAbsorb.add hf
    obtain ⟨h3, h4⟩ := FinAbsorb.mul h2
    by_cases h0 : m = 0
    · subst h0
      rw [bad_zero (by simp [Bad, h3, h4])] at hm
      exact hm rfl
    · exact h h0 h1
  minus {v m x y} h _ _ hm hf := by
    obtain ⟨h1, h2⟩ := FinAbsorb.sub hf
    obtain ⟨h3, h4⟩ := FinAbsorb.mul h2
    by_cases h0 : m = 0
    · subst h0
      rw [bad_zero (by simp [Bad, h3, h4])] at hm
      exact hm rfl
    · exact h h0 h1
  sum {v m w n} h g hm hf := by
    obtain ⟨h1, h2⟩ := FinAbsorb.add hf
    by_cases h0 : m = 0
    · exact g (by omega) h2
    · exact h h0 h1
  good_negneg _ := FinAbsorb.negneg
  good_neg _ := trivial
  neg {x} c y _ := bad_congr (Bad.neg c x y)
  neg' {y} c x _ := bad_congr (Bad.neg' c x y)
  negSum {v} s c x y h hm hf := by
    refine h ?_ (fin_neg_iff.mp hf)
    rwa [sum_congr rfl fun i _ => bad_congr (Bad.sgn (c i) (x i) (y i))] at hm

theorem sumInv_bad0 : SumInv0 F (fun _ => True) (fun v (m : ℕ) => m ≠ 0 → ¬ fin v) bad0 where
  zero h := absurd rfl h
  null x y := bad0_zero (by simp [Bad0])
  plus {v m x y} h _ _ hm hf := by
    obtain ⟨h1, h2⟩ := FinAbsorb.add hf
    obtain ⟨h3, h4⟩ := FinAbsorb.mul h2
    by_cases h0 : m = 0
    · subst h0
      rw [bad0_zero (by simp [Bad0, h3, h4])] at hm
      exact hm rfl
    · exact h h0 h1
  minus {v m x y} h _ _ hm hf := by
    obtain ⟨h1, h2⟩ := FinAbsorb.sub hf
    obtain ⟨h3, h4⟩ := FinAbsorb.mul h2
    by_cases h0 : m = 0
    · subst h0
      rw [bad0_zero (by simp [Bad0, h3, h4])] at hm
      exact hm rfl
    · exact h h0 h1
  sum {v m w n} h g hm hf := by
    obtain ⟨h1, h2⟩ := FinAbsorb.add hf
    by_cases h0 : m = 0
    · exact g (by omega) h2
    · exact h h0 h1
  good_negneg _ := FinAbsorb.negneg
  good_neg _ := trivial
  neg {x} c y _ := bad0_congr (Bad0.neg c x y)
  neg' {y} c x _ := bad0_congr (Bad0.neg' c x y)
  negSum {v} s c x y h hm hf := by
    refine h ?_ (fin_neg_iff.mp hf)
    rwa [sum_congr rfl fun i _ => bad0_congr (Bad0.sgn (c i) (x i) (y i))] at hm

open Classical in
/-- contribution of a product to the quantities of the error bound, and to the number of terms that are not finite -/
noncomputable def mix (c : ℤ) (x y : F) : (ℝ × ℝ × ℕ) × ℕ :=
  if Bad c x y then (0, 1) else (tau c x y, 0)

theorem mix_sum {s : Finset ℕ} {c : ℕ → ℤ} {x y : ℕ → F} (h : (∑ i ∈ s, mix (c i) (x i) (y i)).2 = 0) :
    (∑ i ∈ s, mix (c i) (x i) (y i)).1 = ∑ i ∈ s, tau (c i) (x i) (y i) := by
  rw [Prod.snd_sum, sum_eq_zero_iff] at h
  rw [Prod.fst_sum]
  refine sum_congr rfl fun i hi => ?_
  have := h i hi
  unfold mix at *
  by_cases hc : Bad (c i) (x i) (y i)
  · rw [if_pos hc] at this
    simp at this
  · rw [if_neg hc]

theorem mix_two (c : ℤ) (x y : F) : (mix c x y).2 = bad c x y := by
  unfold mix bad
  split_ifs <;> rfl

/-- Where no product with a factor that is not finite is formed, the error bounds hold. -/
theorem sumInv_mix : SumInv F (fun x => x ≠ 0) (fun v (m : (ℝ × ℝ × ℕ) × ℕ) => m.2 = 0 → Acc v m.1) mix where
  zero _ := Acc.zero
  null x y := by
    unfold mix
    rw [if_neg (by simp [Bad]), sumInv_acc.null]; rfl
  left c y := by
    unfold mix
    rw [if_neg (by simp [Bad]), sumInv_acc.left]; rfl
  right c x := by
    unfold mix
    rw [if_neg (by simp [Bad]), sumInv_acc.right]; rfl
  plus {v m x y} h hx hy hm := by
    simp only [Prod.snd_add, Nat.add_eq_zero_iff] at hm
    by_cases hf : fin x ∧ fin y
    · have e : mix 1 x y = (tau 1 x y, 0) := if_neg (by unfold Bad; tauto)
      rw [e]
      exact sumInv_acc.plus (h hm.1) hf.1 hf.2
    · have e : mix 1 x y = (0, 1) := if_pos ⟨one_ne_zero, hx, hy, by tauto⟩
      rw [e] at hm
      simp at hm
  minus {v m x y} h hx hy hm := by
    simp only [Prod.snd_add, Nat.add_eq_zero_iff] at hm
    by_cases hf : fin x ∧ fin y
    · have e : mix (-1) x y = (tau (-1) x y, 0) := if_neg (by unfold Bad; tauto)
      rw [e]
      exact sumInv_acc.minus (h hm.1) hf.1 hf.2
    · have e : mix (-1) x y = (0, 1) := if_pos ⟨by decide, hx, hy, by tauto⟩
      rw [e] at hm
      simp at hm
  sum {v m w n} h g hm := by
    simp only [Prod.snd_add, Nat.add_eq_zero_iff] at hm
    exact Acc.add (h hm.1) (g hm.2)
  good_negneg _ := FinAbsorb.negneg
  good_neg h := fun h' => h (neg_eq_zero_iff'.mp h')
  neg {x} c y hx := by
    unfold mix
    by_cases hf : fin x
    · rw [sumInv_acc.neg c y hf]
      by_cases hb : Bad (-c) x y
      · rw [if_pos hb, if_pos ((Bad.neg c x y).mpr hb)]
      · rw [if_neg hb, if_neg fun h => hb ((Bad.neg c x y).mp h)]
    · by_cases hc : c = 0
      · rw [hc, Int.neg_zero, if_neg (by simp [Bad]), if_neg (by simp [Bad]), sumInv_acc.null, sumInv_acc.null]
      · by_cases hy : y = 0
        · rw [hy, if_neg (by simp [Bad]), if_neg (by simp [Bad]), sumInv_acc.right, sumInv_acc.right]
        · have hb : Bad (-c) x y := ⟨by omega, hx, hy, by tauto⟩
          rw [if_pos hb, if_pos ((Bad.neg c x y).mpr hb)]
  neg' {y} c x hy := by
    unfold mix
    by_cases hf : fin y
    · rw [sumInv_acc.neg' c x hf]
      by_cases hb : Bad (-c) x y
      · rw [if_pos hb, if_pos ((Bad.neg' c x y).mpr hb)]
      · rw [if_neg hb, if_neg fun h => hb ((Bad.neg' c x y).mp h)]
    · by_cases hc : c = 0
      · rw [hc, Int.neg_zero, if_neg (by simp [Bad]), if_neg (by simp [Bad]), sumInv_acc.null, sumInv_acc.null]
      · by_cases hx : x = 0
        · rw [hx, if_neg (by simp [Bad]), if_neg (by simp [Bad]), sumInv_acc.left, sumInv_acc.left]
        · have hb : Bad (-c) x y := ⟨by omega, hx, hy, by tauto⟩
          rw [if_pos hb, if_pos ((Bad.neg' c x y).mpr hb)]
  negSum {v} s c x y h hm := by
    have hm' : (∑ i ∈ s, mix (c i) (x i) (y i)).2 = 0 := by
      rw [Prod.snd_sum] at hm ⊢
      simp only [mix_two] at hm ⊢
      rwa [sum_congr rfl fun i _ => bad_congr (Bad.sgn (c i) (x i) (y i))] at hm
    rw [mix_sum hm]
    exact sumInv_acc.negSum s c x y (by rw [← mix_sum hm']; exact h hm')

end TClifford
