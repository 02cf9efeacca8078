import Verif.Model.Cx
import Verif.Proofs.FFTRepr
import Verif.Spec.Arrays
import Mathlib.Data.Complex.Basic
import Mathlib.Tactic.Linarith
import Mathlib.Tactic.Positivity
/-
Transfer of a relation between computed and exact complex numbers through the transforms.
-/

set_option linter.unusedSectionVars false

namespace TClifford

open Finset

/-- A relation `R l v z b` between a computed number `v` and the exact number `z`: `l` counts roundings and `b` bounds the
size.  `G` restricts the exact numbers that occur as a half, `ok` excludes overflow. -/
structure CxRel (K : Type) [Zero K] [One K] [Add K] [Sub K] [Neg K] [Mul K] [Div K] [HasI K] where
  R : Nat → K → ℂ → ℝ → Prop
  G : ℂ → Prop
  ok : Nat → ℝ → Prop
  D : ℝ
  D_nonneg : 0 ≤ D
  G_add : ∀ {z y}, G z → G y → G (z + y)
  G_neg : ∀ {z}, G z → G (-z)
  ok_mono : ∀ {l l' b b'}, ok l' b' → l ≤ l' → b ≤ b' → ok l b
  nonneg : ∀ {l v z b}, R l v z b → 0 ≤ b
  mono : ∀ {l l' v z b b'}, R l v z b → l ≤ l' → b ≤ b' → R l' v z b'
  zero : R 0 0 0 0
  neg : ∀ {l v z b}, R l v z b → R l (-v) (-z) b
  add : ∀ {l v z b w y c}, R l v z b → R l w y c → ok (l + 1) (b + c) → R (l + 1) (v + w) (z + y) (b + c)
  sub : ∀ {l v z b w y c}, R l v z b → R l w y c → ok (l + 1) (b + c) → R (l + 1) (v - w) (z - y) (b + c)
  mul : ∀ {l l' v z b w y c}, R l v z b → R l' w y c → ok (l + l' + 2) (b * c + D) → R (l + l' + 2) (v * w) (z * y) (b * c + D)
  half : ∀ {l v z b}, R l v z b → G (z / 2) → ok (l + 2) (2 * b + D) → R (l + 2) (v / (1 + 1)) (z / 2) (b / 2 + D)
  G_zero : G 0
  G_iPow : ∀ {z} (n : Nat), G z → G (z * iPow n)
  mul_iPow : ∀ {l v z b} (n : Nat), R l v z b → R l (v * iPow n) (z * iPow n) b
  mul_iPowNeg : ∀ {l v z b} (n : Nat), R l v z b → R l (v * iPowNeg n) (z * iPowNeg n) b
  iPow_mul : ∀ {l v z b} (n : Nat), R l v z b → R l (iPow n * v) (iPow n * z) b
  iPowNeg_mul : ∀ {l v z b} (n : Nat), R l v z b → R l (iPowNeg n * v) (iPowNeg n * z) b

/-- Sizes of the entries of the transform. -/
noncomputable def cnnB : Nat → (Nat → ℝ) → Nat → Nat → ℝ
  | 0, b => fun _ _ => b 0
  | m + 1, b => blk m
      (fun i j => cnnB m b i j + cnnB m (hi (2 * m) (hi (2 * m + 1) b)) i j)
      (fun i j => cnnB m (hi (2 * m) b) i j + cnnB m (hi (2 * m + 1) b) i j)
      (fun i j => cnnB m (hi (2 * m) b) i j + cnnB m (hi (2 * m + 1) b) i j)
      (fun i j => cnnB m b i j + cnnB m (hi (2 * m) (hi (2 * m + 1) b)) i j)

theorem sum_four (m : Nat) (b : Nat → ℝ) : ∑ k ∈ range (2 ^ (2 * (m + 1))), b k =
    (∑ k ∈ range (2 ^ (2 * m)), b k + ∑ k ∈ range (2 ^ (2 * m)), hi (2 * m) b k) +
    (∑ k ∈ range (2 ^ (2 * m)), hi (2 * m + 1) b k + ∑ k ∈ range (2 ^ (2 * m)), hi (2 * m) (hi (2 * m + 1) b) k) := by
  rw [show 2 * (m + 1) = 2 * m + 1 + 1 by ring, sum_two_pow_succ, sum_two_pow_succ, sum_two_pow_succ]
  rfl

theorem four_pow (m : Nat) : 2 ^ (2 * (m + 1)) = 2 ^ (2 * m) + 2 ^ (2 * m) + 2 ^ (2 * m) + 2 ^ (2 * m) ∧
    2 ^ (2 * m + 1) = 2 ^ (2 * m) + 2 ^ (2 * m) := by
  constructor
  · rw [show 2 * (m + 1) = 2 * m + 1 + 1 by ring, pow_succ, pow_succ]; ring
  · rw [pow_succ]; ring

/-- A condition on the coefficients holds for the four quarters. -/
theorem quarters_of {m : Nat} {P : Nat → Prop} (h : ∀ k < 2 ^ (2 * (m + 1)), P k) :
    (∀ k < 2 ^ (2 * m), P k) ∧ (∀ k < 2 ^ (2 * m), P (k + 2 ^ (2 * m))) ∧ (∀ k < 2 ^ (2 * m), P (k + 2 ^ (2 * m + 1))) ∧
    (∀ k < 2 ^ (2 * m), P (k + 2 ^ (2 * m) + 2 ^ (2 * m + 1))) := by
  obtain ⟨h4, h2⟩ := four_pow m
  exact ⟨fun k hk => h k (by omega), fun k hk => h _ (by omega), fun k hk => h _ (by omega), fun k hk => h _ (by omega)⟩

/-- The row sums of the sizes. -/
theorem cnnB_row (m : Nat) (b : Nat → ℝ) {i : Nat} (hi' : i < 2 ^ m) :
    ∑ j ∈ range (2 ^ m), cnnB m b i j = ∑ k ∈ range (2 ^ (2 * m)), b k := by
  induction m generalizing b i with
  | zero => simp [cnnB]
  | succ m ih =>
    rw [sum_two_pow_succ, sum_four]
    have key : ∀ i < 2 ^ m, ∀ (f g : Nat → ℝ), ∑ j ∈ range (2 ^ m), (cnnB m f i j + cnnB m g i j) =
        ∑ k ∈ range (2 ^ (2 * m)), f k + ∑ k ∈ range (2 ^ (2 * m)), g k := by
      intro i hi' f g
      rw [sum_add_distrib, ih f hi', ih g hi']
    by_cases h : i < 2 ^ m
    · have e1 : ∑ j ∈ range (2 ^ m), cnnB (m + 1) b i j =
          ∑ j ∈ range (2 ^ m), (cnnB m b i j + cnnB m (hi (2 * m) (hi (2 * m + 1) b)) i j) :=
        sum_congr rfl fun j hj => by simp only [cnnB, blk, h, mem_range.mp hj, if_true]
      have e2 : ∑ j ∈ range (2 ^ m), cnnB (m + 1) b i (j + 2 ^ m) =
          ∑ j ∈ range (2 ^ m), (cnnB m (hi (2 * m) b) i j + cnnB m (hi (2 * m + 1) b) i j) :=
        sum_congr rfl fun j hj => by simp [cnnB, blk, h]
      rw [e1, e2, key _ h, key _ h]; ring
    · have h' : i - 2 ^ m < 2 ^ m := by rw [pow_succ] at hi'; omega
      have e1 : ∑ j ∈ range (2 ^ m), cnnB (m + 1) b i j =
          ∑ j ∈ range (2 ^ m), (cnnB m (hi (2 * m) b) (i - 2 ^ m) j + cnnB m (hi (2 * m + 1) b) (i - 2 ^ m) j) :=
        sum_congr rfl fun j hj => by simp only [cnnB, blk, h, mem_range.mp hj, if_true, if_false]
      have e2 : ∑ j ∈ range (2 ^ m), cnnB (m + 1) b i (j + 2 ^ m) =
          ∑ j ∈ range (2 ^ m), (cnnB m b (i - 2 ^ m) j + cnnB m (hi (2 * m) (hi (2 * m + 1) b)) (i - 2 ^ m) j) :=
        sum_congr rfl fun j hj => by simp [cnnB, blk, h]
      rw [e1, e2, key _ h', key _ h']; ring

theorem cnnB_symm (m : Nat) (b : Nat → ℝ) : ∀ i j, cnnB m b i j = cnnB m b j i := by
  induction m generalizing b with
  | zero => intro i j; rfl
  | succ m ih =>
    intro i j
    simp only [cnnB, blk]
    by_cases h : i < 2 ^ m <;> by_cases h' : j < 2 ^ m <;> simp only [h, h', if_true, if_false]
    · rw [ih b i j, ih (hi (2 * m) (hi (2 * m + 1) b)) i j]
    · rw [ih (hi (2 * m) b) i, ih (hi (2 * m + 1) b) i]
    · rw [ih (hi (2 * m) b) _ j, ih (hi (2 * m + 1) b) _ j]
    · rw [ih b, ih (hi (2 * m) (hi (2 * m + 1) b))]

theorem cnnB_col (m : Nat) (b : Nat → ℝ) {j : Nat} (hj : j < 2 ^ m) :
    ∑ i ∈ range (2 ^ m), cnnB m b i j = ∑ k ∈ range (2 ^ (2 * m)), b k := by
  rw [← cnnB_row m b hj]
  exact sum_congr rfl fun i _ => cnnB_symm m b i j

theorem blk_rel {α β : Type} {P : α → β → ℝ → Prop} {m : Nat} {A B C D : Nat → Nat → α} {A' B' C' D' : Nat → Nat → β}
    {a b c d : Nat → Nat → ℝ}
    (hA : ∀ i < 2 ^ m, ∀ j < 2 ^ m, P (A i j) (A' i j) (a i j)) (hB : ∀ i < 2 ^ m, ∀ j < 2 ^ m, P (B i j) (B' i j) (b i j))
    (hC : ∀ i < 2 ^ m, ∀ j < 2 ^ m, P (C i j) (C' i j) (c i j)) (hD : ∀ i < 2 ^ m, ∀ j < 2 ^ m, P (D i j) (D' i j) (d i j)) :
    ∀ i < 2 ^ (m + 1), ∀ j < 2 ^ (m + 1), P (blk m A B C D i j) (blk m A' B' C' D' i j) (blk m a b c d i j) := by
  intro i hi j hj
  rw [pow_succ] at hi hj
  unfold blk
  by_cases h1 : i < 2 ^ m <;> by_cases h2 : j < 2 ^ m <;> simp only [h1, h2, if_true, if_false]
  · exact hA i h1 j h2
  · exact hB i h1 _ (by omega)
  · exact hC _ (by omega) j h2
  · exact hD _ (by omega) _ (by omega)

namespace CxRel

variable {K : Type} [Zero K] [One K] [Add K] [Sub K] [Neg K] [Mul K] [Div K] [HasI K] (Q : CxRel K)

theorem alpha {l : Nat} {v : K} {z : ℂ} {b : ℝ} (h : Q.R l v z b) (i j : Nat) :
    Q.R l (TClifford.alpha v i j) (TClifford.alpha z i j) b := by
  unfold TClifford.alpha
  split
  · exact Q.neg h
  · exact h

theorem sum_nonneg {n : Nat} {l : Nat} {v : Nat → K} {z : Nat → ℂ} {b : Nat → ℝ} (h : ∀ k < n, Q.R l (v k) (z k) (b k)) :
    0 ≤ ∑ k ∈ range n, b k := Finset.sum_nonneg fun k hk => Q.nonneg (h k (mem_range.mp hk))

/-- The transform. -/
theorem cnn (m : Nat) {l : Nat} {v : Nat → K} {z : Nat → ℂ} {b : Nat → ℝ} (h : ∀ k < 2 ^ (2 * m), Q.R l (v k) (z k) (b k))
    (hok : Q.ok (l + m) (∑ k ∈ range (2 ^ (2 * m)), b k)) :
    ∀ i < 2 ^ m, ∀ j < 2 ^ m, Q.R (l + m) (cnnO m v i j) (cnnO m z i j) (cnnB m b i j) := by
  induction m generalizing v z b with
  | zero => intro i _ j _; exact h 0 (by norm_num)
  | succ m ih =>
    obtain ⟨h00, h01, h10, h11⟩ := quarters_of h
    have n00 := Q.sum_nonneg h00
    have n01 := Q.sum_nonneg h01
    have n10 := Q.sum_nonneg h10
    have n11 := Q.sum_nonneg h11
    rw [sum_four] at hok
    unfold hi at hok
    have k00 := ih h00 (Q.ok_mono hok (by omega) (by linarith))
    have k01 := ih (v := hi (2 * m) v) (z := hi (2 * m) z) (b := hi (2 * m) b) h01 (Q.ok_mono hok (by omega) (by unfold hi; linarith))
    have k10 := ih (v := hi (2 * m + 1) v) (z := hi (2 * m + 1) z) (b := hi (2 * m + 1) b) h10
      (Q.ok_mono hok (by omega) (by unfold hi; linarith))
    have k11 := ih (v := hi (2 * m) (hi (2 * m + 1) v)) (z := hi (2 * m) (hi (2 * m + 1) z)) (b := hi (2 * m) (hi (2 * m + 1) b)) h11
      (Q.ok_mono hok (by omega) (by unfold hi; linarith))
    have small : ∀ (f g : Nat → ℝ) i, i < 2 ^ m → ∀ j, j < 2 ^ m → (∀ i < 2 ^ m, ∀ j < 2 ^ m, 0 ≤ cnnB m f i j) →
        (∀ i < 2 ^ m, ∀ j < 2 ^ m, 0 ≤ cnnB m g i j) → cnnB m f i j + cnnB m g i j ≤
        ∑ k ∈ range (2 ^ (2 * m)), f k + ∑ k ∈ range (2 ^ (2 * m)), g k := by
      intro f g i hi' j hj hf hg
      rw [← cnnB_row m f hi', ← cnnB_row m g hi']
      exact add_le_add (single_le_sum (f := fun j => cnnB m f i j) (fun j hj => hf i hi' j (mem_range.mp hj)) (mem_range.mpr hj))
        (single_le_sum (f := fun j => cnnB m g i j) (fun j hj => hg i hi' j (mem_range.mp hj)) (mem_range.mpr hj))
    have p00 : ∀ i < 2 ^ m, ∀ j < 2 ^ m, 0 ≤ cnnB m b i j := fun i hi' j hj => Q.nonneg (k00 i hi' j hj)
    have p01 : ∀ i < 2 ^ m, ∀ j < 2 ^ m, 0 ≤ cnnB m (hi (2 * m) b) i j := fun i hi' j hj => Q.nonneg (k01 i hi' j hj)
    have p10 : ∀ i < 2 ^ m, ∀ j < 2 ^ m, 0 ≤ cnnB m (hi (2 * m + 1) b) i j := fun i hi' j hj => Q.nonneg (k10 i hi' j hj)
    have p11 : ∀ i < 2 ^ m, ∀ j < 2 ^ m, 0 ≤ cnnB m (hi (2 * m) (hi (2 * m + 1) b)) i j :=
      fun i hi' j hj => Q.nonneg (k11 i hi' j hj)
    have ok1 : ∀ i < 2 ^ m, ∀ j < 2 ^ m, Q.ok (l + m + 1) (cnnB m b i j + cnnB m (hi (2 * m) (hi (2 * m + 1) b)) i j) :=
      fun i hi' j hj => Q.ok_mono hok (by omega) ((small _ _ i hi' j hj p00 p11).trans (by unfold hi; linarith))
    have ok2 : ∀ i < 2 ^ m, ∀ j < 2 ^ m, Q.ok (l + m + 1) (cnnB m (hi (2 * m) b) i j + cnnB m (hi (2 * m + 1) b) i j) :=
      fun i hi' j hj => Q.ok_mono hok (by omega) ((small _ _ i hi' j hj p01 p10).trans (by unfold hi; linarith))
    rw [cnnO_succ, cnnO_succ]
    exact blk_rel (P := fun v z b => Q.R (l + (m + 1)) v z b)
      (fun i hi' j hj => Q.add (k00 i hi' j hj) (k11 i hi' j hj) (ok1 i hi' j hj))
      (fun i hi' j hj => Q.alpha (Q.add (k01 i hi' j hj) (k10 i hi' j hj) (ok2 i hi' j hj)) _ _)
      (fun i hi' j hj => Q.sub (k01 i hi' j hj) (k10 i hi' j hj) (ok2 i hi' j hj))
      (fun i hi' j hj => Q.alpha (Q.sub (k00 i hi' j hj) (k11 i hi' j hj) (ok1 i hi' j hj)) _ _)

/-- A matrix whose sizes add up to at most `b` in every row and every column. -/
def Mat (m l : Nat) (V : Nat → Nat → K) (X : Nat → Nat → ℂ) (b : ℝ) : Prop :=
  ∃ β : Nat → Nat → ℝ, (∀ i < 2 ^ m, ∀ j < 2 ^ m, Q.R l (V i j) (X i j) (β i j)) ∧
    (∀ i < 2 ^ m, ∑ j ∈ range (2 ^ m), β i j ≤ b) ∧ ∀ j < 2 ^ m, ∑ i ∈ range (2 ^ m), β i j ≤ b

variable {Q}

theorem Mat.nonneg {m l : Nat} {V : Nat → Nat → K} {X : Nat → Nat → ℂ} {b : ℝ} (h : Q.Mat m l V X b) : 0 ≤ b := by
  obtain ⟨β, h1, h2, -⟩ := h
  exact (Q.sum_nonneg (h1 0 (Nat.two_pow_pos m))).trans (h2 0 (Nat.two_pow_pos m))

theorem Mat.mono {m l l' : Nat} {V : Nat → Nat → K} {X : Nat → Nat → ℂ} {b b' : ℝ} (h : Q.Mat m l V X b)
    (hl : l ≤ l') (hb : b ≤ b') : Q.Mat m l' V X b' := by
  obtain ⟨β, h1, h2, h3⟩ := h
  exact ⟨β, fun i hi j hj => Q.mono (h1 i hi j hj) hl le_rfl, fun i hi => (h2 i hi).trans hb, fun j hj => (h3 j hj).trans hb⟩

theorem Mat.entry {m l : Nat} {V : Nat → Nat → K} {X : Nat → Nat → ℂ} {b : ℝ} (h : Q.Mat m l V X b)
    {i j : Nat} (hi : i < 2 ^ m) (hj : j < 2 ^ m) : Q.R l (V i j) (X i j) b := by
  obtain ⟨β, h1, h2, -⟩ := h
  exact Q.mono (h1 i hi j hj) le_rfl
    ((single_le_sum (f := β i) (fun j hj => Q.nonneg (h1 i hi j (mem_range.mp hj))) (mem_range.mpr hj)).trans (h2 i hi))

theorem Mat.congr {m l : Nat} {V V' : Nat → Nat → K} {X X' : Nat → Nat → ℂ} {b : ℝ} (h : Q.Mat m l V X b)
    (hV : ∀ i < 2 ^ m, ∀ j < 2 ^ m, V' i j = V i j) (hX : ∀ i < 2 ^ m, ∀ j < 2 ^ m, X' i j = X i j) : Q.Mat m l V' X' b := by
  obtain ⟨β, h1, h2⟩ := h
  exact ⟨β, fun i hi j hj => by rw [hV i hi j hj, hX i hi j hj]; exact h1 i hi j hj, h2⟩

/-- Entries replaced one by one. -/
theorem Mat.map {m l : Nat} {V V' : Nat → Nat → K} {X X' : Nat → Nat → ℂ} {b : ℝ} (h : Q.Mat m l V X b)
    (h' : ∀ i < 2 ^ m, ∀ j < 2 ^ m, ∀ c, Q.R l (V i j) (X i j) c → Q.R l (V' i j) (X' i j) c) : Q.Mat m l V' X' b := by
  obtain ⟨β, h1, h2⟩ := h
  exact ⟨β, fun i hi j hj => h' i hi j hj _ (h1 i hi j hj), h2⟩

/-- Sums and differences of matrices. -/
theorem Mat.zip {m l : Nat} {V V' : Nat → Nat → K} {X X' : Nat → Nat → ℂ} {b b' : ℝ} {op : K → K → K} {op' : ℂ → ℂ → ℂ}
    (hop : ∀ {v z b w y c}, Q.R l v z b → Q.R l w y c → Q.ok (l + 1) (b + c) → Q.R (l + 1) (op v w) (op' z y) (b + c))
    (h : Q.Mat m l V X b) (h' : Q.Mat m l V' X' b') (hok : Q.ok (l + 1) (b + b')) :
    Q.Mat m (l + 1) (fun i j => op (V i j) (V' i j)) (fun i j => op' (X i j) (X' i j)) (b + b') := by
  obtain ⟨β, h1, h2, h5⟩ := h
  obtain ⟨γ, h3, h4, h6⟩ := h'
  refine ⟨fun i j => β i j + γ i j, fun i hi j hj => hop (h1 i hi j hj) (h3 i hi j hj) (Q.ok_mono hok le_rfl ?_), ?_, ?_⟩
  · exact add_le_add
      ((single_le_sum (f := β i) (fun j hj => Q.nonneg (h1 i hi j (mem_range.mp hj))) (mem_range.mpr hj)).trans (h2 i hi))
      ((single_le_sum (f := γ i) (fun j hj => Q.nonneg (h3 i hi j (mem_range.mp hj))) (mem_range.mpr hj)).trans (h4 i hi))
  · intro i hi; rw [sum_add_distrib]; exact add_le_add (h2 i hi) (h4 i hi)
  · intro j hj; rw [sum_add_distrib]; exact add_le_add (h5 j hj) (h6 j hj)

/-- Products of matrices. -/
theorem Mat.mm {m l l' : Nat} {V U : Nat → Nat → K} {X Y : Nat → Nat → ℂ} {b c : ℝ}
    (h : Q.Mat m l V X b) (h' : Q.Mat m l' U Y c)
    (hok : Q.ok (l + l' + 2 + 2 ^ m) (b * c + 2 ^ m * (2 ^ m * Q.D))) :
    Q.Mat m (l + l' + 2 + 2 ^ m) (mmO m V U) (mmO m X Y) (b * c + 2 ^ m * (2 ^ m * Q.D)) := by
  have hc : 0 ≤ c := h'.nonneg
  have hb : 0 ≤ b := h.nonneg
  obtain ⟨β, h1, h2, h3⟩ := h
  obtain ⟨γ, h4, h5, h6⟩ := h'
  have hβ : ∀ i < 2 ^ m, ∀ k < 2 ^ m, 0 ≤ β i k := fun i hi k hk => Q.nonneg (h1 i hi k hk)
  have hD := Q.D_nonneg
  have hγ : ∀ k < 2 ^ m, ∀ j < 2 ^ m, 0 ≤ γ k j := fun k hk j hj => Q.nonneg (h4 k hk j hj)
  have htot : ∀ i < 2 ^ m, ∑ j ∈ range (2 ^ m), ∑ k ∈ range (2 ^ m), (β i k * γ k j + Q.D) ≤ b * c + 2 ^ m * (2 ^ m * Q.D) := by
    intro i hi
    simp only [sum_add_distrib, sum_const, card_range, nsmul_eq_mul]
    rw [sum_comm]
    push_cast
    refine add_le_add ?_ le_rfl
    calc ∑ k ∈ range (2 ^ m), ∑ j ∈ range (2 ^ m), β i k * γ k j ≤ ∑ k ∈ range (2 ^ m), β i k * c :=
          sum_le_sum fun k hk => by
            rw [← mul_sum]
            exact mul_le_mul_of_nonneg_left (h5 k (mem_range.mp hk)) (hβ i hi k (mem_range.mp hk))
      _ ≤ b * c := by rw [← sum_mul]; exact mul_le_mul_of_nonneg_right (h2 i hi) hc
  have htot' : ∀ j < 2 ^ m, ∑ i ∈ range (2 ^ m), ∑ k ∈ range (2 ^ m), (β i k * γ k j + Q.D) ≤ b * c + 2 ^ m * (2 ^ m * Q.D) := by
    intro j hj
    simp only [sum_add_distrib, sum_const, card_range, nsmul_eq_mul]
    rw [sum_comm]
    push_cast
    refine add_le_add ?_ le_rfl
    calc ∑ k ∈ range (2 ^ m), ∑ i ∈ range (2 ^ m), β i k * γ k j ≤ ∑ k ∈ range (2 ^ m), b * γ k j :=
          sum_le_sum fun k hk => by
            rw [← sum_mul]
            exact mul_le_mul_of_nonneg_right (h3 k (mem_range.mp hk)) (hγ k (mem_range.mp hk) j hj)
      _ ≤ b * c := by rw [← mul_sum]; exact mul_le_mul_of_nonneg_left (h6 j hj) hb
  have hterm : ∀ i < 2 ^ m, ∀ k < 2 ^ m, ∀ j < 2 ^ m, 0 ≤ β i k * γ k j + Q.D := fun i hi k hk j hj =>
    add_nonneg (mul_nonneg (hβ i hi k hk) (hγ k hk j hj)) hD
  refine ⟨fun i j => ∑ k ∈ range (2 ^ m), (β i k * γ k j + Q.D), fun i hi j hj => ?_, htot, htot'⟩
  have hone : ∑ k ∈ range (2 ^ m), (β i k * γ k j + Q.D) ≤ b * c + 2 ^ m * (2 ^ m * Q.D) :=
    (single_le_sum (f := fun j => ∑ k ∈ range (2 ^ m), (β i k * γ k j + Q.D)) (fun j hj => Finset.sum_nonneg fun k hk =>
      hterm i hi k (mem_range.mp hk) j (mem_range.mp hj)) (mem_range.mpr hj)).trans (htot i hi)
  have hsz : ∀ n ≤ 2 ^ m, ∑ k ∈ range n, (β i k * γ k j + Q.D) ≤ b * c + 2 ^ m * (2 ^ m * Q.D) := fun n hn =>
    (sum_le_sum_of_subset_of_nonneg (range_mono hn) fun k hk _ => hterm i hi k (mem_range.mp hk) j hj).trans hone
  have key : ∀ n ≤ 2 ^ m, Q.R (l + l' + 2 + n) (((List.range n).map (fun k => V i k * U k j)).foldl (· + ·) 0)
      (((List.range n).map (fun k => X i k * Y k j)).foldl (· + ·) 0) (∑ k ∈ range n, (β i k * γ k j + Q.D)) := by
    intro n
    induction n with
    | zero => intro _; exact Q.mono Q.zero (by omega) le_rfl
    | succ n ih =>
      intro hn
      have hs := hsz (n + 1) hn
      rw [sum_range_succ] at hs
      rw [List.range_succ, List.map_append, List.foldl_append, List.map_append, List.foldl_append, sum_range_succ]
      have p0 : 0 ≤ ∑ k ∈ range n, (β i k * γ k j + Q.D) := Finset.sum_nonneg fun k hk =>
        hterm i hi k (by have := mem_range.mp hk; omega) j hj
      have hm := Q.mul (h1 i hi n (by omega)) (h4 n (by omega) j hj) (Q.ok_mono hok (by omega) (by linarith))
      exact Q.add (l := l + l' + 2 + n) (ih (by omega)) (Q.mono hm (by omega) le_rfl) (Q.ok_mono hok (by omega) hs)
  exact key _ le_rfl

/-- Transposition, with the indices in reverse order. -/
theorem Mat.transpose {m l : Nat} {V V' : Nat → Nat → K} {X X' : Nat → Nat → ℂ} {b : ℝ} (h : Q.Mat m l V X b)
    (h' : ∀ i < 2 ^ m, ∀ j < 2 ^ m, ∀ c, Q.R l (V (2 ^ m - 1 - j) (2 ^ m - 1 - i)) (X (2 ^ m - 1 - j) (2 ^ m - 1 - i)) c →
      Q.R l (V' i j) (X' i j) c) : Q.Mat m l V' X' b := by
  obtain ⟨β, h1, h2, h3⟩ := h
  have hp := Nat.two_pow_pos m
  refine ⟨fun i j => β (2 ^ m - 1 - j) (2 ^ m - 1 - i), fun i hi j hj => h' i hi j hj _ (h1 _ (by omega) _ (by omega)), ?_, ?_⟩
  · intro i hi
    rw [sum_range_reflect (fun j => β j (2 ^ m - 1 - i)) (2 ^ m)]
    exact h3 _ (by omega)
  · intro j hj
    rw [sum_range_reflect (fun i => β (2 ^ m - 1 - j) i) (2 ^ m)]
    exact h2 _ (by omega)

variable (Q)

theorem alW {l : Nat} {V : Nat → Nat → Nat → K} {X : Nat → Nat → Nat → ℂ} {w i j : Nat} {b : ℝ} (h : Q.R l (V w i j) (X w i j) b) :
    Q.R l (alWO V w i j) (alWO X w i j) b := by
  unfold alWO
  split
  · exact Q.neg h
  · exact h

/-- Products of families of matrices. -/
theorem W (m s : Nat) {l l' : Nat} {V U : Nat → Nat → Nat → K} {X Y : Nat → Nat → Nat → ℂ} {b c : Nat → ℝ}
    (h : ∀ w < 2 ^ s, Q.Mat m l (V w) (X w) (b w))
    (h' : ∀ w < 2 ^ s, Q.Mat m l' (U w) (Y w) (c w))
    (hok : Q.ok (l + l' + 2 + 2 ^ m + s) ((∑ w ∈ range (2 ^ s), b w) * (∑ w ∈ range (2 ^ s), c w) + 3 ^ s * (2 ^ m * (2 ^ m * Q.D)))) :
    ∃ d : Nat → ℝ, ∑ w ∈ range (2 ^ s), d w ≤
        (∑ w ∈ range (2 ^ s), b w) * (∑ w ∈ range (2 ^ s), c w) + 3 ^ s * (2 ^ m * (2 ^ m * Q.D)) ∧
      ∀ w < 2 ^ s, Q.Mat m (l + l' + 2 + 2 ^ m + s) (WO m s V U w) (WO m s X Y w) (d w) := by
  induction s generalizing V U X Y b c with
  | zero =>
    have e : (∑ w ∈ range (2 ^ 0), b w) * (∑ w ∈ range (2 ^ 0), c w) + 3 ^ 0 * (2 ^ m * (2 ^ m * Q.D)) =
        b 0 * c 0 + 2 ^ m * (2 ^ m * Q.D) := by simp
    rw [e] at hok ⊢
    refine ⟨fun _ => b 0 * c 0 + 2 ^ m * (2 ^ m * Q.D), by simp, fun w _ => ?_⟩
    exact Mat.mm (h 0 (by norm_num)) (h' 0 (by norm_num)) hok
  | succ s ih =>
    have hp : 2 ^ (s + 1) = 2 ^ s + 2 ^ s := by rw [pow_succ]; omega
    have hm0 := Nat.two_pow_pos m
    have hD := Q.D_nonneg
    have hb : ∀ w < 2 ^ (s + 1), 0 ≤ b w := fun w hw => (h w hw).nonneg
    have hc : ∀ w < 2 ^ (s + 1), 0 ≤ c w := fun w hw => (h' w hw).nonneg
    have eb : ∑ w ∈ range (2 ^ (s + 1)), b w = ∑ w ∈ range (2 ^ s), b w + ∑ w ∈ range (2 ^ s), b (w + 2 ^ s) := sum_two_pow_succ _ _
    have ec : ∑ w ∈ range (2 ^ (s + 1)), c w = ∑ w ∈ range (2 ^ s), c w + ∑ w ∈ range (2 ^ s), c (w + 2 ^ s) := sum_two_pow_succ _ _
    have pb0 : 0 ≤ ∑ w ∈ range (2 ^ s), b w := Finset.sum_nonneg fun w hw => hb w (by have := mem_range.mp hw; omega)
    have pb1 : 0 ≤ ∑ w ∈ range (2 ^ s), b (w + 2 ^ s) := Finset.sum_nonneg fun w hw => hb _ (by have := mem_range.mp hw; omega)
    have pc0 : 0 ≤ ∑ w ∈ range (2 ^ s), c w := Finset.sum_nonneg fun w hw => hc w (by have := mem_range.mp hw; omega)
    have pc1 : 0 ≤ ∑ w ∈ range (2 ^ s), c (w + 2 ^ s) := Finset.sum_nonneg fun w hw => hc _ (by have := mem_range.mp hw; omega)
    have e2 : (3 : ℝ) ^ (s + 1) * (2 ^ m * (2 ^ m * Q.D)) = 3 ^ s * (2 ^ m * (2 ^ m * Q.D)) + 3 ^ s * (2 ^ m * (2 ^ m * Q.D)) +
        3 ^ s * (2 ^ m * (2 ^ m * Q.D)) := by rw [pow_succ]; ring
    have pD : 0 ≤ (3 : ℝ) ^ s * (2 ^ m * (2 ^ m * Q.D)) := by positivity
    rw [eb, ec, e2] at hok ⊢
    set B0 := ∑ w ∈ range (2 ^ s), b w
    set B1 := ∑ w ∈ range (2 ^ s), b (w + 2 ^ s)
    set C0 := ∑ w ∈ range (2 ^ s), c w
    set C1 := ∑ w ∈ range (2 ^ s), c (w + 2 ^ s)
    have q00 := mul_nonneg pb0 pc0
    have q01 := mul_nonneg pb0 pc1
    have q10 := mul_nonneg pb1 pc0
    have q11 := mul_nonneg pb1 pc1
    have eq : (B0 + B1) * (C0 + C1) = B0 * C0 + B0 * C1 + B1 * C0 + B1 * C1 := by ring
    obtain ⟨d0, s0, k0⟩ := ih (fun w hw => h w (by omega)) (fun w hw => h' w (by omega))
      (Q.ok_mono hok (by omega) (by linarith))
    obtain ⟨d1, s1, k1⟩ := ih (V := hiW s V) (X := hiW s X) (b := fun w => b (w + 2 ^ s)) (fun w hw => h (w + 2 ^ s) (by omega))
      (fun w hw => h' w (by omega)) (Q.ok_mono hok (by omega) (by linarith))
    obtain ⟨d2, s2, k2⟩ := ih (V := alWO V) (X := alWO X) (b := b) (U := hiW s U) (Y := hiW s Y) (c := fun w => c (w + 2 ^ s))
        (fun w hw => (h w (by omega)).map fun i _ j _ c hc => Q.alW hc)
        (fun w hw => h' (w + 2 ^ s) (by omega)) (Q.ok_mono hok (by omega) (by linarith))
    refine ⟨fun w => if w < 2 ^ s then d0 w else d1 (w - 2 ^ s) + d2 (w - 2 ^ s), ?_, ?_⟩
    · rw [sum_two_pow_succ]
      have e3 : ∑ w ∈ range (2 ^ s), (if w < 2 ^ s then d0 w else d1 (w - 2 ^ s) + d2 (w - 2 ^ s)) = ∑ w ∈ range (2 ^ s), d0 w :=
        sum_congr rfl fun w hw => if_pos (mem_range.mp hw)
      have e4 : ∑ w ∈ range (2 ^ s), (if w + 2 ^ s < 2 ^ s then d0 (w + 2 ^ s) else d1 (w + 2 ^ s - 2 ^ s) + d2 (w + 2 ^ s - 2 ^ s)) =
          ∑ w ∈ range (2 ^ s), d1 w + ∑ w ∈ range (2 ^ s), d2 w := by
        rw [← sum_add_distrib]
        exact sum_congr rfl fun w hw => by rw [if_neg (by omega), Nat.add_sub_cancel]
      rw [e3, e4]
      linarith
    · intro w hw
      show Q.Mat m _ (if w < 2 ^ s then _ else _) (if w < 2 ^ s then _ else _) (if w < 2 ^ s then _ else _)
      by_cases hw' : w < 2 ^ s
      · rw [if_pos hw', if_pos hw', if_pos hw']
        exact (k0 w hw').mono (by omega) le_rfl
      · obtain ⟨v, hv, rfl⟩ := two_pow_succ_half hw hw'
        rw [if_neg hw', if_neg hw', if_neg hw', Nat.add_sub_cancel]
        have n1 : ∀ w < 2 ^ s, 0 ≤ d1 w := fun w hw => (k1 w hw).nonneg
        have n2 : ∀ w < 2 ^ s, 0 ≤ d2 w := fun w hw => (k2 w hw).nonneg
        have l1 : d1 v ≤ ∑ w ∈ range (2 ^ s), d1 w := single_le_sum (fun w hw => n1 w (mem_range.mp hw)) (mem_range.mpr hv)
        have l2 : d2 v ≤ ∑ w ∈ range (2 ^ s), d2 w := single_le_sum (fun w hw => n2 w (mem_range.mp hw)) (mem_range.mpr hv)
        exact Mat.zip (op := (· + ·)) (op' := (· + ·)) (fun h1 h2 h3 => Q.add h1 h2 h3) (k1 v hv) (k2 v hv)
          (Q.ok_mono hok le_rfl (by linarith))

/-- The inverse transform. -/
theorem icnn (m : Nat) {l : Nat} {V : Nat → Nat → K} {z : Nat → ℂ} {b : ℝ}
    (h : ∀ i < 2 ^ m, ∀ j < 2 ^ m, Q.R l (V i j) (TClifford.cnn m z i j) b)
    (hG : ∀ k < 2 ^ (2 * m), Q.G (z k)) (hok : Q.ok (l + 3 * m) (4 * (b + m * Q.D))) :
    ∀ k < 2 ^ (2 * m), Q.R (l + 3 * m) (icnnO m V k) (z k) (b + m * Q.D) := by
  induction m generalizing V z with
  | zero =>
    intro k hk
    have : k = 0 := by simpa using hk
    subst this
    refine Q.mono (h 0 (by norm_num) 0 (by norm_num)) (by omega) (by simp)
  | succ m ih =>
    obtain ⟨g00, g01, g10, g11⟩ := quarters_of hG
    obtain ⟨h4, h2⟩ := four_pow m
    have hp : 2 ^ (m + 1) = 2 ^ m + 2 ^ m := by rw [pow_succ]; omega
    have hD := Q.D_nonneg
    have hb : 0 ≤ b := Q.nonneg (h 0 (Nat.two_pow_pos _) 0 (Nat.two_pow_pos _))
    have hmD : 0 ≤ (m : ℝ) * Q.D := by positivity
    have eD : ((m + 1 : ℕ) : ℝ) * Q.D = m * Q.D + Q.D := by push_cast; ring
    rw [eD] at hok ⊢
    rw [hp, cnn_succ] at h
    -- the blocks
    set z00 : Nat → ℂ := z with hz00
    set z01 : Nat → ℂ := hi (2 * m) z with hz01
    set z10 : Nat → ℂ := hi (2 * m + 1) z with hz10
    set z11 : Nat → ℂ := hi (2 * m) (hi (2 * m + 1) z) with hz11
    have hA : ∀ i < 2 ^ m, ∀ j < 2 ^ m, Q.R l (V i j) (TClifford.cnn m (z00 + z11) i j) b := by
      intro i hi' j hj
      have := h i (by omega) j (by omega)
      simp only [blk, hi', hj, if_true] at this
      rw [cnn_add]; exact this
    have hB : ∀ i < 2 ^ m, ∀ j < 2 ^ m, Q.R l (q01 m V i j) (TClifford.cnn m (flp (2 * m) (z01 + z10)) i j) b := by
      intro i hi' j hj
      have := h i (by omega) (j + 2 ^ m) (by omega)
      simp only [blk, hi', if_true, show ¬ j + 2 ^ m < 2 ^ m by omega, if_false, Nat.add_sub_cancel] at this
      rw [cnn_flp m _ i hi' j hj, cnn_add]; exact this
    have hC : ∀ i < 2 ^ m, ∀ j < 2 ^ m, Q.R l (q10 m V i j) (TClifford.cnn m (z01 - z10) i j) b := by
      intro i hi' j hj
      have := h (i + 2 ^ m) (by omega) j (by omega)
      simp only [blk, hj, if_true, show ¬ i + 2 ^ m < 2 ^ m by omega, if_false, Nat.add_sub_cancel] at this
      rw [cnn_sub]; exact this
    have hDD : ∀ i < 2 ^ m, ∀ j < 2 ^ m, Q.R l (q11 m V i j) (TClifford.cnn m (flp (2 * m) (z00 - z11)) i j) b := by
      intro i hi' j hj
      have := h (i + 2 ^ m) (by omega) (j + 2 ^ m) (by omega)
      simp only [blk, show ¬ i + 2 ^ m < 2 ^ m by omega, show ¬ j + 2 ^ m < 2 ^ m by omega, if_false, Nat.add_sub_cancel] at this
      rw [cnn_flp m _ i hi' j hj, cnn_sub]; exact this
    have Gsub : ∀ {z y : ℂ}, Q.G z → Q.G y → Q.G (z - y) := fun hz hy => by rw [sub_eq_add_neg]; exact Q.G_add hz (Q.G_neg hy)
    have Gflp : ∀ (f : Nat → ℂ) k, Q.G (f k) → Q.G (flp (2 * m) f k) := by
      intro f k hf
      unfold flp
      cases par (2 * m) k
      · simpa using hf
      · simpa using Q.G_neg hf
    have hok' : Q.ok (l + 3 * m) (4 * (b + m * Q.D)) := Q.ok_mono hok (by omega) (by linarith)
    have kA := ih hA (fun k hk => Q.G_add (g00 k hk) (g11 k hk)) hok'
    have kB := ih hB (fun k hk => Gflp _ k (Q.G_add (g01 k hk) (g10 k hk))) hok'
    have kC := ih hC (fun k hk => Gsub (g01 k hk) (g10 k hk)) hok'
    have kD := ih hDD (fun k hk => Gflp _ k (Gsub (g00 k hk) (g11 k hk))) hok'
    have unflp : ∀ (f : Nat → ℂ) k, k < 2 ^ (2 * m) → TClifford.alpha (flp (2 * m) f k) k 0 = f k := by
      intro f k hk
      rw [alpha_zero hk]
      unfold flp
      rw [smul_smul, sg_mul_self, one_smul]
    have fin : ∀ {v : K} {y : ℂ}, Q.R (l + 3 * m + 1) v (y + y) ((b + m * Q.D) + (b + m * Q.D)) → Q.G y →
        Q.R (l + 3 * (m + 1)) (v / (1 + 1)) y (b + (m * Q.D + Q.D)) := by
      intro v y hv hy
      have e : (y + y) / 2 = y := by ring
      have := Q.half hv (by rw [e]; exact hy) (Q.ok_mono hok (by omega) (by linarith))
      rw [e] at this
      exact Q.mono this (by omega) (by linarith)
    have oka : Q.ok (l + 3 * m + 1) ((b + m * Q.D) + (b + m * Q.D)) := Q.ok_mono hok (by omega) (by linarith)
    have c00 : ∀ k < 2 ^ (2 * m), Q.R (l + 3 * (m + 1)) ((icnnO m V k + TClifford.alpha (icnnO m (q11 m V) k) k 0) / (1 + 1)) (z00 k)
        (b + (m * Q.D + Q.D)) := by
      intro k hk
      have := Q.add (kA k hk) (Q.alpha (kD k hk) k 0) oka
      rw [unflp _ _ hk] at this
      refine fin ?_ (g00 k hk)
      have e : (z00 + z11) k + (z00 - z11) k = z00 k + z00 k := by simp only [Pi.add_apply, Pi.sub_apply]; ring
      rw [← e]; exact this
    have c11 : ∀ k < 2 ^ (2 * m), Q.R (l + 3 * (m + 1)) ((icnnO m V k - TClifford.alpha (icnnO m (q11 m V) k) k 0) / (1 + 1)) (z11 k)
        (b + (m * Q.D + Q.D)) := by
      intro k hk
      have := Q.sub (kA k hk) (Q.alpha (kD k hk) k 0) oka
      rw [unflp _ _ hk] at this
      refine fin ?_ (g11 k hk)
      have e : (z00 + z11) k - (z00 - z11) k = z11 k + z11 k := by simp only [Pi.add_apply, Pi.sub_apply]; ring
      rw [← e]; exact this
    have c01 : ∀ k < 2 ^ (2 * m), Q.R (l + 3 * (m + 1)) ((TClifford.alpha (icnnO m (q01 m V) k) k 0 + icnnO m (q10 m V) k) / (1 + 1)) (z01 k)
        (b + (m * Q.D + Q.D)) := by
      intro k hk
      have := Q.add (Q.alpha (kB k hk) k 0) (kC k hk) oka
      rw [unflp _ _ hk] at this
      refine fin ?_ (g01 k hk)
      have e : (z01 + z10) k + (z01 - z10) k = z01 k + z01 k := by simp only [Pi.add_apply, Pi.sub_apply]; ring
      rw [← e]; exact this
    have c10 : ∀ k < 2 ^ (2 * m), Q.R (l + 3 * (m + 1)) ((TClifford.alpha (icnnO m (q01 m V) k) k 0 - icnnO m (q10 m V) k) / (1 + 1)) (z10 k)
        (b + (m * Q.D + Q.D)) := by
      intro k hk
      have := Q.sub (Q.alpha (kB k hk) k 0) (kC k hk) oka
      rw [unflp _ _ hk] at this
      refine fin ?_ (g10 k hk)
      have e : (z01 + z10) k - (z01 - z10) k = z10 k + z10 k := by simp only [Pi.add_apply, Pi.sub_apply]; ring
      rw [← e]; exact this
    intro k hk
    rw [h4] at hk
    unfold icnnO
    simp only [jn]
    by_cases k1 : k < 2 ^ (2 * m + 1)
    · simp only [k1, if_true]
      by_cases k2 : k < 2 ^ (2 * m)
      · simp only [k2, if_true]; exact c00 k k2
      · have k3 : k - 2 ^ (2 * m) < 2 ^ (2 * m) := by omega
        simp only [k2, if_false]
        have := c01 _ k3
        rw [hz01] at this
        unfold hi at this
        rwa [Nat.sub_add_cancel (by omega)] at this
    · simp only [k1, if_false]
      by_cases k2 : k - 2 ^ (2 * m + 1) < 2 ^ (2 * m)
      · simp only [k2, if_true]
        have := c10 _ k2
        rw [hz10] at this
        unfold hi at this
        rwa [Nat.sub_add_cancel (by omega)] at this
      · have k3 : k - 2 ^ (2 * m + 1) - 2 ^ (2 * m) < 2 ^ (2 * m) := by omega
        simp only [k2, if_false]
        have := c11 _ k3
        rw [hz11] at this
        unfold hi at this
        rwa [Nat.sub_add_cancel (by omega), Nat.sub_add_cancel (by omega)] at this

/-! ### Representations -/

theorem pscO {n l : Nat} {v : Nat → K} {z : Nat → ℂ} {b : Nat → ℝ} (h : ∀ k < 2 ^ n, Q.R l (v k) (z k) (b k)) (k : Nat) :
    Q.R l (TClifford.pscO n v k) (TClifford.pscO n z k) (if k < 2 ^ n then b k else 0) := by
  unfold TClifford.pscO
  by_cases hk : k < 2 ^ n
  · simp only [hk, if_true]; exact Q.mul_iPow _ (h k hk)
  · simp only [hk, if_false]; exact Q.mono Q.zero (Nat.zero_le _) le_rfl

/-- The transform with padding. -/
theorem ctrO {m n l : Nat} (hn : n ≤ 2 * m) {v : Nat → K} {z : Nat → ℂ} {b : Nat → ℝ} (h : ∀ k < 2 ^ n, Q.R l (v k) (z k) (b k))
    (hok : Q.ok (l + m) (∑ k ∈ range (2 ^ n), b k)) :
    Q.Mat m (l + m) (TClifford.ctrO m n v) (TClifford.ctrO m n z) (∑ k ∈ range (2 ^ n), b k) := by
  have hle : 2 ^ n ≤ 2 ^ (2 * m) := Nat.pow_le_pow_right (by norm_num) hn
  have e : ∑ k ∈ range (2 ^ (2 * m)), (if k < 2 ^ n then b k else 0) = ∑ k ∈ range (2 ^ n), b k := by
    rw [← sum_filter]
    congr 1
    ext k
    simp only [mem_filter, mem_range]
    omega
  refine ⟨cnnB m (fun k => if k < 2 ^ n then b k else 0), ?_, fun i hi' => ?_, fun j hj' => ?_⟩
  · exact Q.cnn m (fun k _ => Q.pscO h k) (by rw [e]; exact hok)
  · rw [cnnB_row m _ hi', e]
  · rw [cnnB_col m _ hj', e]

/-- `r` is a computed representation of the exact coefficients `f`. -/
def Rep (A : ClAlg) (l : Nat) (r : FFTRepr A K) (f : Nat → ℂ) (b : ℝ) : Prop :=
  r.arr.Is A.projDim A.half ∧ ∃ c : Nat → ℝ, ∑ w ∈ range (2 ^ A.projDim), c w ≤ b ∧
    ∀ w < 2 ^ A.projDim, Q.Mat A.half l (r.arr.get w) (FL A.half A.nn f w) (c w)

variable {Q} {A : ClAlg}

theorem Rep.nonneg {l : Nat} {r : FFTRepr A K} {f : Nat → ℂ} {b : ℝ} (h : Q.Rep A l r f b) : 0 ≤ b := by
  obtain ⟨-, c, h1, h2⟩ := h
  exact (Finset.sum_nonneg fun w hw => (h2 w (mem_range.mp hw)).nonneg).trans h1

theorem Rep.mono {l l' : Nat} {r : FFTRepr A K} {f : Nat → ℂ} {b b' : ℝ} (h : Q.Rep A l r f b) (hl : l ≤ l') (hb : b ≤ b') :
    Q.Rep A l' r f b' := by
  obtain ⟨h0, c, h1, h2⟩ := h
  exact ⟨h0, c, h1.trans hb, fun w hw => (h2 w hw).mono hl le_rfl⟩

theorem Rep.congr {l : Nat} (hA : A.WF) {r : FFTRepr A K} {f g : Nat → ℂ} {b : ℝ} (h : Q.Rep A l r f b)
    (hfg : ∀ k < 2 ^ A.dim, g k = f k) : Q.Rep A l r g b := by
  obtain ⟨h0, c, h1, h2⟩ := h
  refine ⟨h0, c, h1, fun w hw => (h2 w hw).congr (fun _ _ _ _ => rfl) fun i _ j _ => ?_⟩
  rw [FL_congr (f := g) (g := f) (s := A.projDim) (fun k hk => hfg k (by rw [← hA.dims]; exact hk)) hw]

theorem Rep.entry_le {l : Nat} {r : FFTRepr A K} {f : Nat → ℂ} {b : ℝ} (h : Q.Rep A l r f b) {w i j : Nat}
    (hw : w < 2 ^ A.projDim) (hi : i < 2 ^ A.half) (hj : j < 2 ^ A.half) : Q.R l (r.arr.get w i j) (FL A.half A.nn f w i j) b := by
  obtain ⟨h0, c, h1, h2⟩ := h
  exact Q.mono ((h2 w hw).entry hi hj) le_rfl ((single_le_sum (f := c) (fun w hw =>
    (h2 w (mem_range.mp hw)).nonneg) (mem_range.mpr hw)).trans h1)

/-- Sums over the layers. -/
theorem sum_layers {p s : Nat} (b : Nat → ℝ) :
    ∑ w ∈ range (2 ^ s), ∑ k ∈ range (2 ^ p), b (k + w * 2 ^ p) = ∑ k ∈ range (2 ^ (p + s)), b k := by
  have key : ∀ n N : Nat, ∑ w ∈ range n, ∑ k ∈ range N, b (k + w * N) = ∑ k ∈ range (n * N), b k := by
    intro n N
    induction n with
    | zero => simp
    | succ n ihn =>
      rw [sum_range_succ, ihn, Nat.add_mul, one_mul, sum_range_add]
      congr 1
      exact sum_congr rfl fun k _ => by rw [add_comm]
  rw [key, pow_add, mul_comm]

/-- The transform of a multivector. -/
theorem Rep.fft (hA : A.WF) {l : Nat} {r : FFTRepr A K} {v : Nat → K} {z : Nat → ℂ} {b : Nat → ℝ}
    (h0 : r.arr.Is A.projDim A.half) (h1 : WEq A.projDim A.half r.arr.get (FLO A.half A.nn v))
    (h : ∀ k < 2 ^ A.dim, Q.R l (v k) (z k) (b k)) (hok : Q.ok (l + A.half) (∑ k ∈ range (2 ^ A.dim), b k)) :
    Q.Rep A (l + A.half) r z (∑ k ∈ range (2 ^ A.dim), b k) := by
  have hd : A.nn + A.projDim = A.dim := hA.dims
  have hb : ∀ w < 2 ^ A.projDim, ∀ k < 2 ^ A.nn, k + w * 2 ^ A.nn < 2 ^ A.dim := fun w hw k hk => by
    rw [← hd]; exact add_mul_lt hk hw
  rw [← hd, ← sum_layers] at hok ⊢
  refine ⟨h0, fun w => ∑ k ∈ range (2 ^ A.nn), b (k + w * 2 ^ A.nn), le_rfl, fun w hw => ?_⟩
  have hl : ∑ k ∈ range (2 ^ A.nn), b (k + w * 2 ^ A.nn) ≤
      ∑ w ∈ range (2 ^ A.projDim), ∑ k ∈ range (2 ^ A.nn), b (k + w * 2 ^ A.nn) :=
    single_le_sum (f := fun w => ∑ k ∈ range (2 ^ A.nn), b (k + w * 2 ^ A.nn)) (fun w hw => Finset.sum_nonneg fun k hk =>
      Q.nonneg (h _ (hb w (mem_range.mp hw) k (mem_range.mp hk)))) (mem_range.mpr hw)
  refine (Q.ctrO (half_ge A) (v := lay A.nn v w) (z := lay A.nn z w) (b := fun k => b (k + w * 2 ^ A.nn))
    (fun k hk => h _ (hb w hw k hk)) (Q.ok_mono hok le_rfl hl)).congr (fun i hi j hj => h1 w hw i hi j hj) (fun i hi j hj => ?_)
  exact (ctrO_eq A.half A.nn _ i hi j hj).symm

theorem Rep.mul (hA : A.WF) (hn : ∀ x : K, - -x = x) {l l' : Nat} {r s : FFTRepr A K} {f g : Nat → ℂ} {b c : ℝ}
    (hr : Q.Rep A l r f b) (hs : Q.Rep A l' s g c)
    (hok : Q.ok (l + l' + 2 + 2 ^ A.half + A.projDim) (b * c + 3 ^ A.projDim * (2 ^ A.half * (2 ^ A.half * Q.D)))) :
    ∃ t, r.mul s = .ok t ∧ Q.Rep A (l + l' + 2 + 2 ^ A.half + A.projDim) t (geo A.complexification.sigma A.dim f g)
      (b * c + 3 ^ A.projDim * (2 ^ A.half * (2 ^ A.half * Q.D))) := by
  obtain ⟨t, h1, h2, h3⟩ := mul_ops hn hr.1 hs.1
  refine ⟨t, h1, h2, ?_⟩
  obtain ⟨-, bb, b1, b2⟩ := hr
  obtain ⟨-, cc, c1, c2⟩ := hs
  have hD := Q.D_nonneg
  have nb : 0 ≤ ∑ w ∈ range (2 ^ A.projDim), bb w := Finset.sum_nonneg fun w hw => (b2 w (mem_range.mp hw)).nonneg
  have nc : 0 ≤ ∑ w ∈ range (2 ^ A.projDim), cc w := Finset.sum_nonneg fun w hw => (c2 w (mem_range.mp hw)).nonneg
  have hle : (∑ w ∈ range (2 ^ A.projDim), bb w) * (∑ w ∈ range (2 ^ A.projDim), cc w) ≤ b * c :=
    mul_le_mul b1 c1 nc (nb.trans b1)
  obtain ⟨d, d1, d2⟩ := Q.W A.half A.projDim b2 c2 (Q.ok_mono hok le_rfl (by linarith))
  refine ⟨d, by linarith, fun w hw => (d2 w hw).congr (fun i hi j hj => h3 w hw i hi j hj) fun i hi j hj => ?_⟩
  have hd : A.nn + A.projDim = A.dim := hA.dims
  rw [WO_eq A.projDim A.half _ _ w hw i hi j hj, ← hd]
  refine (W_FL (half_le hA) (half_ge A) A.projDim A.complexification.sigma ?_ ?_ f g w hw i hi j hj).symm
  · intro i hi
    rw [hA.sigma_complexification (by omega), if_pos hi]
  · intro i h1 h2
    rw [hA.sigma_complexification (by omega), if_neg (by omega)]

theorem Rep.zip {l : Nat} {r s : FFTRepr A K} {f g h : Nat → ℂ} {b c : ℝ} {op : K → K → K} {op' : ℂ → ℂ → ℂ}
    (hop : ∀ {v z b w y c}, Q.R l v z b → Q.R l w y c → Q.ok (l + 1) (b + c) → Q.R (l + 1) (op v w) (op' z y) (b + c))
    (hop' : ∀ w i j, FL A.half A.nn h w i j = op' (FL A.half A.nn f w i j) (FL A.half A.nn g w i j))
    (hr : Q.Rep A l r f b) (hs : Q.Rep A l s g c) (hok : Q.ok (l + 1) (b + c)) :
    ∃ t, (do return ⟨← Arr3.zip op r.arr s.arr⟩ : Res (FFTRepr A K)) = .ok t ∧ Q.Rep A (l + 1) t h (b + c) := by
  obtain ⟨⟨a1, a2, a3⟩, bb, b1, b2⟩ := hr
  obtain ⟨⟨e1, e2, e3⟩, cc, c1, c2⟩ := hs
  unfold Arr3.zip
  rw [if_pos (by unfold Arr3.dims; rw [a1, a2, a3, e1, e2, e3])]
  refine ⟨_, rfl, ⟨a1, a2, a3⟩, fun w => bb w + cc w, by rw [sum_add_distrib]; linarith, fun w hw => ?_⟩
  have n1 : ∀ w < 2 ^ A.projDim, 0 ≤ bb w := fun w hw => (b2 w hw).nonneg
  have n2 : ∀ w < 2 ^ A.projDim, 0 ≤ cc w := fun w hw => (c2 w hw).nonneg
  have l1 : bb w ≤ ∑ w ∈ range (2 ^ A.projDim), bb w := single_le_sum (fun w hw => n1 w (mem_range.mp hw)) (mem_range.mpr hw)
  have l2 : cc w ≤ ∑ w ∈ range (2 ^ A.projDim), cc w := single_le_sum (fun w hw => n2 w (mem_range.mp hw)) (mem_range.mpr hw)
  exact (Mat.zip hop (b2 w hw) (c2 w hw) (Q.ok_mono hok le_rfl (by linarith))).congr (fun _ _ _ _ => rfl)
    (fun i _ j _ => hop' w i j)

theorem Rep.add {l : Nat} {r s : FFTRepr A K} {f g : Nat → ℂ} {b c : ℝ} (hr : Q.Rep A l r f b) (hs : Q.Rep A l s g c)
    (hok : Q.ok (l + 1) (b + c)) : ∃ t, r.add s = .ok t ∧ Q.Rep A (l + 1) t (fun k => f k + g k) (b + c) :=
  Rep.zip (op' := (· + ·)) (fun h1 h2 h3 => Q.add h1 h2 h3) (fun w i j => by rw [FL_add]; rfl) hr hs hok

theorem Rep.sub {l : Nat} {r s : FFTRepr A K} {f g : Nat → ℂ} {b c : ℝ} (hr : Q.Rep A l r f b) (hs : Q.Rep A l s g c)
    (hok : Q.ok (l + 1) (b + c)) : ∃ t, r.sub s = .ok t ∧ Q.Rep A (l + 1) t (fun k => f k - g k) (b + c) :=
  Rep.zip (op' := (· - ·)) (fun h1 h2 h3 => Q.sub h1 h2 h3) (fun w i j => by rw [FL_sub]; rfl) hr hs hok

theorem Rep.neg {l : Nat} {r : FFTRepr A K} {f : Nat → ℂ} {b : ℝ} (hr : Q.Rep A l r f b) :
    Q.Rep A l r.neg (fun k => -f k) b := by
  obtain ⟨h0, c, h1, h2⟩ := hr
  refine ⟨h0, c, h1, fun w hw => (h2 w hw).map fun i _ j _ c hc => ?_⟩
  rw [FL_neg]
  exact Q.neg hc

/-- The inverse transform. -/
theorem Rep.unfl (hA : A.WF) {l : Nat} {r : FFTRepr A K} {f : Nat → ℂ} {b : ℝ} (hr : Q.Rep A l r f b)
    (hG : ∀ k < 2 ^ A.dim, Q.G (f k)) (hok : Q.ok (l + 3 * A.half) (4 * (b + A.half * Q.D))) {k : Nat} (hk : k < 2 ^ A.dim) :
    Q.R (l + 3 * A.half) (unflO A.half A.nn r.arr.get k) (f k) (b + A.half * Q.D) := by
  have hd : A.nn + A.projDim = A.dim := hA.dims
  have hw : k / 2 ^ A.nn < 2 ^ A.projDim := by
    rw [Nat.div_lt_iff_lt_mul (Nat.two_pow_pos _), ← pow_add, add_comm, hd]; exact hk
  have hr' : k % 2 ^ A.nn < 2 ^ A.nn := Nat.mod_lt _ (Nat.two_pow_pos _)
  have hr2 : k % 2 ^ A.nn < 2 ^ (2 * A.half) := lt_of_lt_of_le hr' (Nat.pow_le_pow_right (by norm_num) (half_ge A))
  have h := Q.icnn A.half (V := r.arr.get (k / 2 ^ A.nn)) (z := psc A.half A.nn (lay A.nn f (k / 2 ^ A.nn)))
    (fun i hi j hj => hr.entry_le hw hi hj) (fun j hj => by
      rw [← pscO_eq _ hj]
      unfold TClifford.pscO
      split
      · rename_i hj'
        exact Q.G_iPow _ (hG _ (by rw [← hd]; exact add_mul_lt hj' hw))
      · exact Q.G_zero) hok _ hr2
  have h' := Q.mul_iPowNeg (countOnes (k % 2 ^ A.nn &&& oddMask)) h
  have e : psc A.half A.nn (lay A.nn f (k / 2 ^ A.nn)) (k % 2 ^ A.nn) * iPowNeg (countOnes (k % 2 ^ A.nn &&& oddMask)) = f k := by
    rw [← pscO_eq _ hr2]
    unfold TClifford.pscO
    rw [if_pos hr', mul_assoc, iPow_mul_iPowNeg, mul_one]
    unfold lay
    rw [Nat.mod_add_div']
  rw [e] at h'
  exact h'

end CxRel

end TClifford
