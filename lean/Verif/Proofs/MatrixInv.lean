import Verif.Model.MatrixInv
import Mathlib.LinearAlgebra.FiniteDimensional.Basic
import Mathlib.Algebra.BigOperators.Fin
import Mathlib.Tactic.IntervalCases
import Mathlib.Tactic.FieldSimp
/-
`matrix_inv` of src/fftrepr/matrix.rs returns a two-sided inverse whenever it returns anything.

Every row of the working array `[L | R]` satisfies `R · mat = L` (`RowOk`), a property kept by row operations.
-/

set_option linter.unusedSectionVars false

namespace TClifford

open Finset

section
variable {T N : Type} [DivisionRing T] [DecidableEq T] [LinearOrder N] [Zero N]

/-- The right half of the row, multiplied by the matrix, is the left half. -/
def RowOk (mat : Arr2 T) (n : Nat) (row : Nat → T) : Prop :=
  ∀ m < n, ∑ k ∈ range n, row (n + k) * mat.get k m = row m

theorem RowOk.scale {mat : Arr2 T} {n : Nat} {row : Nat → T} (h : RowOk mat n row) (c : T) : RowOk mat n (fun m => c * row m) := by
  intro m hm
  simp only [mul_assoc, ← mul_sum]
  rw [h m hm]

theorem RowOk.sub {mat : Arr2 T} {n : Nat} {row row' : Nat → T} (h : RowOk mat n row) (h' : RowOk mat n row') :
    RowOk mat n (fun m => row m - row' m) := by
  intro m hm
  simp only [sub_mul, sum_sub_distrib]
  rw [h m hm, h' m hm]

/-- All rows are consistent. -/
def RowsOk (mat : Arr2 T) (n : Nat) (w : Nat → Nat → T) : Prop := ∀ r < n, RowOk mat n (w r)

/-- The first `i` columns of the left half are zero below the diagonal. -/
def LowZero (n i : Nat) (w : Nat → Nat → T) : Prop := ∀ c < i, ∀ r < n, c < r → w r c = 0

/-- The first `i` diagonal entries are one. -/
def DiagOne (i : Nat) (w : Nat → Nat → T) : Prop := ∀ c < i, w c c = 1

theorem invInit_ok (mat : Arr2 T) : RowsOk mat mat.rows (invInit mat) := by
  intro r hr m hm
  unfold invInit
  simp only [if_pos hm]
  rw [sum_eq_single r]
  · rw [if_neg (by omega), if_pos rfl, one_mul]
  · intro b hb hbr
    rw [if_neg (by omega), if_neg (by omega), zero_mul]
  · intro h; exact absurd (mem_range.mpr hr) h

theorem invPivot_spec (norm : T → N) (n i : Nat) (hi : i < n) (w : Nat → Nat → T) :
    ∃ k, i ≤ k ∧ k < n ∧ invPivot norm n i w = (norm (w k i), k) := by
  unfold invPivot
  have : ∀ (l : List Nat) (st : N × Nat), (∀ j ∈ l, i ≤ j ∧ j < n) → (∃ k, i ≤ k ∧ k < n ∧ st = (norm (w k i), k)) →
      ∃ k, i ≤ k ∧ k < n ∧ l.foldl (fun (st : N × Nat) j => if norm (w j i) > st.1 then (norm (w j i), j) else st) st =
        (norm (w k i), k) := by
    intro l
    induction l with
    | nil => intro st _ h; exact h
    | cons j l ih =>
      intro st hl h
      rw [List.foldl_cons]
      refine ih _ (fun j' hj' => hl j' (List.mem_cons_of_mem _ hj')) ?_
      split
      · exact ⟨j, (hl j List.mem_cons_self).1, (hl j List.mem_cons_self).2, rfl⟩
      · exact h
  exact this _ _ (fun j hj => by rw [List.mem_range'_1] at hj; omega) ⟨i, le_refl _, hi, rfl⟩

theorem invSwap_ok {mat : Arr2 T} {n i k : Nat} {w : Nat → Nat → T} (hi : i < n) (hk : k < n) (h : RowsOk mat n w) :
    RowsOk mat n (invSwap i k w) := by
  intro r hr
  unfold invSwap
  by_cases h1 : r = i
  · simp only [h1, if_true]; exact h k hk
  · by_cases h2 : r = k
    · simp only [h2, if_true]
      split
      · exact h k hk
      · exact h i hi
    · simp only [h1, h2, if_false]; exact h r hr

theorem invSwap_low {n i k : Nat} {w : Nat → Nat → T} (hi : i < n) (hk : k < n) (hik : i ≤ k) (h : LowZero n i w) :
    LowZero n i (invSwap i k w) := by
  intro c hc r hr hcr
  unfold invSwap
  split
  · exact h c hc k hk (by omega)
  · split
    · exact h c hc i hi hc
    · exact h c hc r hr hcr

theorem invSwap_diag {i k : Nat} {w : Nat → Nat → T} (hik : i ≤ k) (h : DiagOne i w) : DiagOne i (invSwap i k w) := by
  intro c hc
  unfold invSwap
  rw [if_neg (by omega), if_neg (by omega)]
  exact h c hc

theorem invNormalize_row {n i : Nat} {w : Nat → Nat → T} (hi : i < n) (h : LowZero n i w) :
    invNormalize i w i = fun m => 1 / w i i * w i m := by
  funext m
  unfold invNormalize
  by_cases hm : i ≤ m
  · rw [if_pos ⟨rfl, hm⟩]
  · rw [if_neg (by simp [hm]), h m (by omega) i hi (by omega), mul_zero]

theorem invNormalize_row_ne {i r : Nat} {w : Nat → Nat → T} (h : r ≠ i) : invNormalize i w r = w r := by
  funext m
  unfold invNormalize
  rw [if_neg (by simp [h])]

theorem invNormalize_ok {mat : Arr2 T} {n i : Nat} {w : Nat → Nat → T} (hi : i < n) (hl : LowZero n i w) (h : RowsOk mat n w) :
    RowsOk mat n (invNormalize i w) := by
  intro r hr
  by_cases h1 : r = i
  · subst h1; rw [invNormalize_row hr hl]; exact (h r hr).scale _
  · rw [invNormalize_row_ne h1]; exact h r hr

theorem invNormalize_low {n i : Nat} {w : Nat → Nat → T} (hi : i < n) (h : LowZero n i w) : LowZero n i (invNormalize i w) := by
  intro c hc r hr hcr
  by_cases h1 : r = i
  · subst h1; rw [invNormalize_row hr h]; beta_reduce; rw [h c hc r hr hcr, mul_zero]
  · rw [invNormalize_row_ne h1]; exact h c hc r hr hcr

theorem invNormalize_diag {n i : Nat} {w : Nat → Nat → T} (hi : i < n) (hl : LowZero n i w) (h : DiagOne i w) (h0 : w i i ≠ 0) :
    DiagOne (i + 1) (invNormalize i w) := by
  intro c hc
  by_cases h1 : c = i
  · subst h1; rw [invNormalize_row hi hl]; beta_reduce; rw [one_div, inv_mul_cancel₀ h0]
  · rw [invNormalize_row_ne h1]; exact h c (by omega)

theorem invSubRow_row {i j lo : Nat} {coeff : T} {w : Nat → Nat → T} (h : ∀ m < lo, w i m = 0) :
    invSubRow i j lo coeff w j = fun m => w j m - coeff * w i m := by
  funext m
  unfold invSubRow
  by_cases hm : lo ≤ m
  · rw [if_pos ⟨rfl, hm⟩]
  · rw [if_neg (by simp [hm]), h m (by omega), mul_zero, sub_zero]

theorem invSubRow_row_ne {i j lo r : Nat} {coeff : T} {w : Nat → Nat → T} (h : r ≠ j) : invSubRow i j lo coeff w r = w r := by
  funext m
  unfold invSubRow
  rw [if_neg (by simp [h])]

theorem invSubRow_ok {mat : Arr2 T} {n i j lo : Nat} {coeff : T} {w : Nat → Nat → T} (hi : i < n) (h : RowsOk mat n w)
    (hz : ∀ m < lo, w i m = 0) : RowsOk mat n (invSubRow i j lo coeff w) := by
  intro r hr
  by_cases h1 : r = j
  · subst h1; rw [invSubRow_row hz]; exact (h r hr).sub ((h i hi).scale coeff)
  · rw [invSubRow_row_ne h1]; exact h r hr

theorem foldlM_option_inv {α β : Type} {f : α → β → Option α} {P : α → Prop} {l : List β}
    (hs : ∀ x, ∀ b ∈ l, P x → ∀ y, f x b = some y → P y) {a y : α} (h0 : P a) (h : l.foldlM f a = some y) : P y := by
  induction l generalizing a with
  | nil =>
    have : a = y := by simpa using h
    exact this ▸ h0
  | cons b l ih =>
    rw [List.foldlM_cons] at h
    cases hb : f a b with
    | none => rw [hb] at h; exact absurd h (by simp)
    | some x =>
      rw [hb] at h
      exact ih (fun x b hb => hs x b (List.mem_cons_of_mem _ hb)) (hs a b List.mem_cons_self h0 x hb) h

/-- A loop invariant depending on the position, for a loop over `lo, lo+1, …` that may return early. -/
theorem range'_foldlM_option {α : Type} {f : α → Nat → Option α} (P : Nat → α → Prop) (k : Nat) :
    ∀ (lo : Nat) (a y : α), P lo a → (∀ i, lo ≤ i → i < lo + k → ∀ x, P i x → ∀ y, f x i = some y → P (i + 1) y) →
      (List.range' lo k).foldlM f a = some y → P (lo + k) y := by
  induction k with
  | zero =>
    intro lo a y h0 _ h
    have : a = y := by simpa using h
    exact this ▸ h0
  | succ k ih =>
    intro lo a y h0 hs h
    rw [List.range'_succ, List.foldlM_cons] at h
    cases hb : f a lo with
    | none => rw [hb] at h; exact absurd h (by simp)
    | some x =>
      rw [hb] at h
      have := ih (lo + 1) x y (hs lo (le_refl _) (by omega) a h0 x hb) (fun i h1 h2 => hs i (by omega) (by omega)) h
      rwa [show lo + 1 + k = lo + (k + 1) by omega] at this

/-- What holds after `i` steps of the forward phase. -/
structure Fwd (mat : Arr2 T) (n i : Nat) (w : Nat → Nat → T) : Prop where
  rows : RowsOk mat n w
  low : LowZero n i w
  diag : DiagOne i w

theorem invEliminate_spec {mat : Arr2 T} {n i : Nat} (hi : i < n) {w y : Nat → Nat → T} (h : RowsOk mat n w) (hl : LowZero n i w)
    (hd : DiagOne (i + 1) w) (hy : invEliminate n i w = some y) : Fwd mat n (i + 1) y := by
  have key := range'_foldlM_option (fun j w => RowsOk mat n w ∧ LowZero n i w ∧ DiagOne (i + 1) w ∧ ∀ r, i < r → r < j → w r i = 0)
    (n - (i + 1)) (i + 1) w y ⟨h, hl, hd, fun r h1 h2 => by omega⟩ ?_ hy
  · obtain ⟨h1, h2, h3, h4⟩ := key
    refine ⟨h1, fun c hc r hr hcr => ?_, h3⟩
    by_cases e : c = i
    · subst e; exact h4 r hcr (by omega)
    · exact h2 c (by omega) r hr hcr
  · intro j hj1 hj2 x ⟨h1, h2, h3, h4⟩ y hxy
    have hz : ∀ m < i, x i m = 0 := fun m hm => h2 m hm i hi hm
    have hx : y = invSubRow i j i (x j i) x := by
      revert hxy
      dsimp only
      split
      · intro h; exact absurd h (by simp)
      · intro h; exact (Option.some.inj h).symm
    subst hx
    refine ⟨invSubRow_ok hi h1 hz, fun c hc r hr hcr => ?_, fun c hc => ?_, fun r hr1 hr2 => ?_⟩
    · by_cases e : r = j
      · subst e; rw [invSubRow_row hz]; beta_reduce; rw [h2 c hc r hr hcr, hz c hc]; simp
      · rw [invSubRow_row_ne e]; exact h2 c hc r hr hcr
    · rw [invSubRow_row_ne (by omega)]; exact h3 c hc
    · by_cases e : r = j
      · subst e; rw [invSubRow_row hz]; beta_reduce; rw [h3 i (by omega)]; simp
      · rw [invSubRow_row_ne e]; exact h4 r hr1 (by omega)

theorem invForwardStep_spec {norm : T → N} (hN : ∀ x, norm x = 0 ↔ x = 0) {mat : Arr2 T} {n i : Nat} (hi : i < n)
    {w y : Nat → Nat → T} (h : Fwd mat n i w) (hy : invForwardStep norm n w i = some y) : Fwd mat n (i + 1) y := by
  obtain ⟨k, hik, hk, hp⟩ := invPivot_spec norm n i hi w
  unfold invForwardStep at hy
  simp only [hp] at hy
  split at hy
  · exact absurd hy (by simp)
  · rename_i h0
    have hl := invSwap_low hi hk hik h.low
    refine invEliminate_spec hi (invNormalize_ok hi hl (invSwap_ok hi hk h.rows)) (invNormalize_low hi hl)
      (invNormalize_diag hi hl (invSwap_diag hik h.diag) ?_) hy
    show (if i = i then w k i else _) ≠ 0
    rw [if_pos rfl]
    exact fun e => h0 ((hN _).mpr e)

theorem forward_spec {norm : T → N} (hN : ∀ x, norm x = 0 ↔ x = 0) {mat : Arr2 T} {y : Nat → Nat → T}
    (hy : (List.range mat.rows).foldlM (invForwardStep norm mat.rows) (invInit mat) = some y) : Fwd mat mat.rows mat.rows y := by
  rw [List.range_eq_range'] at hy
  have := range'_foldlM_option (fun i w => Fwd mat mat.rows i w) mat.rows 0 (invInit mat) y
    ⟨invInit_ok mat, fun c hc => by omega, fun c hc => by omega⟩
    (fun i _ hi x hx z hz => invForwardStep_spec hN (by omega) hx hz) hy
  rwa [Nat.zero_add] at this

/-- A loop invariant for a loop over `k-1, …, 0`. -/
theorem reverse_range_foldl {α : Type} {f : α → Nat → α} (P : Nat → α → Prop) (k : Nat) :
    ∀ (a : α), P k a → (∀ i < k, ∀ x, P (i + 1) x → P i (f x i)) → P 0 ((List.range k).reverse.foldl f a) := by
  induction k with
  | zero => intro a h _; exact h
  | succ k ih =>
    intro a h hs
    rw [List.range_succ, List.reverse_append, List.reverse_singleton, List.singleton_append, List.foldl_cons]
    exact ih _ (hs k (by omega) a h) (fun i hi => hs i (by omega))

theorem invBackward_spec {mat : Arr2 T} {n : Nat} {w : Nat → Nat → T} (h : Fwd mat n n w) :
    RowsOk mat n (invBackward n w) ∧ ∀ r < n, ∀ c < n, invBackward n w r c = if r = c then 1 else 0 := by
  have key := reverse_range_foldl (fun i w => Fwd mat n n w ∧ ∀ c, i ≤ c → c < n → ∀ r < c, w r c = 0) n w
    ⟨h, fun c h1 h2 => by omega⟩
    (f := fun w i => (List.range i).reverse.foldl (fun w j => invSubRow i j j (1 / w i i * w j i) w) w) ?_
  · obtain ⟨h1, h2⟩ := key
    refine ⟨h1.rows, fun r hr c hc => ?_⟩
    rcases lt_trichotomy r c with e | e | e
    · rw [if_neg (by omega)]; exact h2 c (by omega) hc r e
    · subst e; rw [if_pos rfl]; exact h1.diag r hr
    · rw [if_neg (by omega)]; exact h1.low c hc r hr e
  · intro i hi x ⟨h1, h2⟩
    have inner := reverse_range_foldl (fun j w => Fwd mat n n w ∧ (∀ c, i + 1 ≤ c → c < n → ∀ r < c, w r c = 0) ∧
        ∀ r, j ≤ r → r < i → w r i = 0) i x ⟨h1, h2, fun r h1 h2 => by omega⟩
      (f := fun w j => invSubRow i j j (1 / w i i * w j i) w) ?_
    · obtain ⟨h3, h4, h5⟩ := inner
      refine ⟨h3, fun c hc1 hc2 r hr => ?_⟩
      by_cases e : c = i
      · subst e; exact h5 r (Nat.zero_le _) hr
      · exact h4 c (by omega) hc2 r hr
    · intro j hj y ⟨g1, g2, g3⟩
      have hz : ∀ m < j, y i m = 0 := fun m hm => g1.low m (by omega) i hi (by omega)
      refine ⟨⟨invSubRow_ok hi g1.rows hz, fun c hc r hr hcr => ?_, fun c hc => ?_⟩, fun c hc1 hc2 r hr => ?_, fun r hr1 hr2 => ?_⟩
      · by_cases e : r = j
        · subst e; rw [invSubRow_row hz]; beta_reduce; rw [g1.low c hc r hr hcr, g1.low c hc i hi (by omega)]; simp
        · rw [invSubRow_row_ne e]; exact g1.low c hc r hr hcr
      · by_cases e : c = j
        · subst e; rw [invSubRow_row hz]; beta_reduce; rw [g1.diag c hc, g1.low c hc i hi hj]; simp
        · rw [invSubRow_row_ne e]; exact g1.diag c hc
      · by_cases e : r = j
        · subst e; rw [invSubRow_row hz]; beta_reduce; rw [g2 c hc1 hc2 r hr, g2 c hc1 hc2 i (by omega)]; simp
        · rw [invSubRow_row_ne e]; exact g2 c hc1 hc2 r hr
      · by_cases e : r = j
        · subst e; rw [invSubRow_row hz]; beta_reduce; rw [g1.diag i hi]; simp
        · rw [invSubRow_row_ne e]; exact g3 r (by omega) hr2

/-- `matrix_inv` returns a left inverse, if anything. -/
theorem matrixInv_left {norm : T → N} (hN : ∀ x, norm x = 0 ↔ x = 0) {mat y : Arr2 T} (h : matrixInv norm mat = some y) :
    mat.cols = mat.rows ∧ y.rows = mat.rows ∧ y.cols = mat.rows ∧ ∀ i < mat.rows, ∀ j < mat.rows,
      ∑ k ∈ range mat.rows, y.get i k * mat.get k j = if i = j then 1 else 0 := by
  unfold matrixInv at h
  split at h
  · exact absurd h (by simp)
  · rename_i hsq
    have hsq : mat.rows = mat.cols := by simpa using hsq
    cases hw : (List.range mat.rows).foldlM (invForwardStep norm mat.rows) (invInit mat) with
    | none => simp only [hw] at h; exact absurd h (by simp)
    | some w =>
      simp only [hw] at h
      have h := (Option.some.inj h).symm
      subst h
      obtain ⟨h1, h2⟩ := invBackward_spec (forward_spec hN hw)
      refine ⟨hsq.symm, rfl, rfl, fun i hi j hj => ?_⟩
      rw [← h2 i hi j hj]
      exact h1 i hi j hj

/-- Over a division ring a left inverse is a right inverse. -/
theorem left_inv_right {n : Nat} {x y : Nat → Nat → T}
    (h : ∀ i < n, ∀ j < n, ∑ k ∈ range n, y i k * x k j = if i = j then 1 else 0) :
    ∀ i < n, ∀ j < n, ∑ k ∈ range n, x i k * y k j = if i = j then 1 else 0 := by
  have hm : (Matrix.of fun i j : Fin n => y i j) * (Matrix.of fun i j : Fin n => x i j) = 1 := by
    ext i j
    rw [Matrix.mul_apply, Matrix.one_apply]
    have := h i i.2 j j.2
    rw [← Fin.sum_univ_eq_sum_range (fun k => y i k * x k j)] at this
    simpa [Fin.ext_iff] using this
  have hm' := mul_eq_one_symm hm
  intro i hi j hj
  have := congrFun (congrFun hm' ⟨i, hi⟩) ⟨j, hj⟩
  rw [Matrix.mul_apply, Matrix.one_apply] at this
  rw [← Fin.sum_univ_eq_sum_range (fun k => x i k * y k j)]
  simpa [Fin.ext_iff] using this

theorem invPivot_max (norm : T → N) (n i : Nat) (w : Nat → Nat → T) : ∀ r, i ≤ r → r < n → norm (w r i) ≤ (invPivot norm n i w).1 := by
  unfold invPivot
  have : ∀ (l : List Nat) (st : N × Nat), let e := l.foldl (fun (st : N × Nat) j => if norm (w j i) > st.1 then (norm (w j i), j) else st) st
      st.1 ≤ e.1 ∧ ∀ r ∈ l, norm (w r i) ≤ e.1 := by
    intro l
    induction l with
    | nil => intro st; exact ⟨le_refl _, fun r hr => absurd hr (by simp)⟩
    | cons j l ih =>
      intro st
      dsimp only
      rw [List.foldl_cons]
      obtain ⟨h1, h2⟩ := ih (if norm (w j i) > st.1 then (norm (w j i), j) else st)
      have h3 : st.1 ≤ (if norm (w j i) > st.1 then (norm (w j i), j) else st).1 ∧
          norm (w j i) ≤ (if norm (w j i) > st.1 then (norm (w j i), j) else st).1 := by
        split
        · rename_i h; exact ⟨le_of_lt h, le_refl _⟩
        · rename_i h; exact ⟨le_refl _, not_lt.mp h⟩
      refine ⟨h3.1.trans h1, fun r hr => ?_⟩
      rcases List.mem_cons.mp hr with e | e
      · subst e; exact h3.2.trans h1
      · exact h2 r e
  intro r h1 h2
  obtain ⟨g1, g2⟩ := this (List.range' (i + 1) (n - (i + 1))) (norm (w i i), i)
  by_cases e : r = i
  · subst e; exact g1
  · exact g2 r (by rw [List.mem_range'_1]; omega)

/-- A matrix whose first column has no entries except in the second row, and whose third diagonal entry is zero, is rejected. -/
theorem matrixInv_none {norm : T → N} (hN : ∀ x, norm x = 0 ↔ x = 0) {mat : Arr2 T} (h3 : 3 ≤ mat.rows)
    (hcol : ∀ r < mat.rows, r ≠ 1 → mat.get r 0 = 0) (h22 : mat.get 2 2 = 0) : matrixInv norm mat = none := by
  unfold matrixInv
  split
  · rfl
  · obtain ⟨n, hn⟩ : ∃ n, mat.rows = n + 3 := ⟨mat.rows - 3, by omega⟩
    have hstep : invForwardStep norm mat.rows (invInit mat) 0 = none := by
      obtain ⟨k, -, hk, hp⟩ := invPivot_spec norm mat.rows 0 (by omega) (invInit mat)
      have hw : ∀ r m, m < mat.rows → invInit mat r m = mat.get r m := fun r m hm => if_pos hm
      unfold invForwardStep
      simp only [hp]
      split
      · rfl
      · rename_i h0
        have hk1 : k = 1 := by
          by_contra hk1
          rw [hw k 0 (by omega), hcol k hk hk1] at h0
          exact h0 ((hN 0).mpr rfl)
        subst hk1
        unfold invEliminate
        rw [show mat.rows - (0 + 1) = n + 2 by omega, List.range'_succ, List.range'_succ, List.foldlM_cons]
        dsimp only
        split
        · rfl
        · show List.foldlM _ _ _ = none
          rw [List.foldlM_cons]
          rw [if_pos]
          · rfl
          · have e2 : ∀ m, m < mat.rows → invNormalize 0 (invSwap 0 1 (invInit mat)) 2 m = mat.get 2 m := fun m hm => by
              rw [invNormalize_row_ne (by omega)]
              exact hw 2 m hm
            show (if _ ∧ _ then _ - _ * _ else _) = 0
            rw [if_pos ⟨rfl, by omega⟩]
            rw [invSubRow_row_ne (r := 0 + 1 + 1) (by omega), e2 0 (by omega), e2 2 (by omega), hcol 2 (by omega) (by omega), h22]
            simp
    rw [hn] at hstep ⊢
    dsimp only
    rw [List.range_succ_eq_map, List.foldlM_cons]
    rw [hstep]
    rfl

end

section
variable {K N : Type} [Field K] [DecidableEq K] [LinearOrder N] [Zero N]

theorem matrixInv_one {norm : K → N} (hN : ∀ x, norm x = 0 ↔ x = 0) {mat : Arr2 K} (hr : mat.rows = 1) (hc : mat.cols = 1)
    (h0 : mat.get 0 0 ≠ 0) : (matrixInv norm mat).isSome := by
  unfold matrixInv
  rw [if_neg (by omega), hr]
  have : invForwardStep norm 1 (invInit mat) 0 ≠ none := by
    unfold invForwardStep
    have e : (invPivot norm 1 0 (invInit mat)).1 = norm (mat.get 0 0) := by
      show norm (invInit mat 0 0) = _
      unfold invInit; rw [if_pos (by omega)]
    dsimp only
    rw [e, if_neg (fun h => h0 ((hN _).mp h))]
    simp [invEliminate]
  obtain ⟨w, hw⟩ := Option.ne_none_iff_exists'.mp this
  simp [List.range_succ, hw]

theorem matrixInv_two {norm : K → N} (hN : ∀ x, norm x = 0 ↔ x = 0) (hpos : ∀ x, 0 ≤ norm x) {mat : Arr2 K} (hr : mat.rows = 2)
    (hc : mat.cols = 2) (hdet : mat.get 0 0 * mat.get 1 1 - mat.get 0 1 * mat.get 1 0 ≠ 0) : (matrixInv norm mat).isSome := by
  have hw : ∀ r m, m < 2 → invInit mat r m = mat.get r m := fun r m hm => if_pos (by omega)
  unfold matrixInv
  rw [if_neg (by omega), hr]
  have hstep : ∃ w, invForwardStep norm 2 (invInit mat) 0 = some w ∧ w 1 1 ≠ 0 := by
    obtain ⟨k, -, hk, hp⟩ := invPivot_spec norm 2 0 (by omega) (invInit mat)
    have hm0 := invPivot_max norm 2 0 (invInit mat) 0 (by omega) (by omega)
    have hm1 := invPivot_max norm 2 0 (invInit mat) 1 (by omega) (by omega)
    rw [hp, hw _ 0 (by omega), hw _ 0 (by omega)] at hm0 hm1
    dsimp only at hm0 hm1
    have hk0 : mat.get k 0 ≠ 0 := by
      intro h
      rw [h, (hN 0).mpr rfl] at hm0 hm1
      have h1 := (hN _).mp (le_antisymm hm0 (hpos _))
      have h2 := (hN _).mp (le_antisymm hm1 (hpos _))
      rw [h1, h2] at hdet
      simp at hdet
    unfold invForwardStep
    simp only [hp]
    rw [hw k 0 (by omega), if_neg (fun h => hk0 ((hN _).mp h))]
    set v := invNormalize 0 (invSwap 0 k (invInit mat)) with hv
    have hl : LowZero 2 0 (invSwap 0 k (invInit mat)) := fun c hc => by omega
    have v0 : v 0 = fun m => 1 / invInit mat k 0 * invInit mat k m := by
      rw [hv, invNormalize_row (n := 2) (by omega) hl]; rfl
    have v1 : v 1 = invInit mat (1 - k) := by
      rw [hv, invNormalize_row_ne (by omega)]
      funext m
      unfold invSwap
      rw [if_neg (by omega)]
      interval_cases k <;> rfl
    have hs : v 1 1 - v 1 0 * v 0 1 ≠ 0 := by
      rw [v0, v1]
      dsimp only
      rw [hw _ _ (by omega), hw _ _ (by omega), hw _ _ (by omega), hw _ _ (by omega)]
      intro h
      apply hdet
      interval_cases k
      · have : mat.get 0 0 * (mat.get (1 - 0) 1 - mat.get (1 - 0) 0 * (1 / mat.get 0 0 * mat.get 0 1)) = 0 := by rw [h, mul_zero]
        rw [← this]; field_simp
      · have : mat.get 1 0 * (mat.get (1 - 1) 1 - mat.get (1 - 1) 0 * (1 / mat.get 1 0 * mat.get 1 1)) = 0 := by rw [h, mul_zero]
        rw [← neg_eq_zero, ← this]; field_simp; try ring
    refine ⟨invSubRow 0 1 0 (v 1 0) v, ?_, ?_⟩
    · unfold invEliminate
      show (if invSubRow 0 1 0 (v 1 0) v 1 1 = 0 then none else some _) >>= _ = some _
      rw [if_neg]
      · rfl
      · show ¬ (if _ ∧ _ then _ else _) = 0
        rw [if_pos ⟨rfl, by omega⟩]; exact hs
    · show (if _ ∧ _ then _ else _) ≠ 0
      rw [if_pos ⟨rfl, by omega⟩]; exact hs
  obtain ⟨w, h1, h2⟩ := hstep
  have hstep2 : invForwardStep norm 2 w 1 ≠ none := by
    unfold invForwardStep
    have e : (invPivot norm 2 1 w).1 = norm (w 1 1) := rfl
    dsimp only
    rw [e, if_neg (fun h => h2 ((hN _).mp h))]
    simp [invEliminate]
  obtain ⟨x, hx⟩ := Option.ne_none_iff_exists'.mp hstep2
  simp [List.range_succ, h1, hx]

end

end TClifford
