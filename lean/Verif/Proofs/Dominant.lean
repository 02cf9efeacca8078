import Verif.Proofs.MatrixInv
import Mathlib.Analysis.Normed.Field.Basic
import Mathlib.Algebra.Order.Interval.Finset.SuccPred
import Verif.Proofs.Clifft
/-
`matrix_inv` succeeds on strictly column diagonally dominant matrices: the pivot is always the diagonal entry, and the
elimination keeps the remaining part of the matrix dominant.
-/

set_option linter.unusedSectionVars false

namespace TClifford

open Finset

variable {K : Type} [NormedField K] [DecidableEq K]

/-- In the columns from `i` on, the diagonal entry is larger than the other entries in rows from `i` on together. -/
def Dominant (n i : Nat) (w : Nat → Nat → K) : Prop :=
  ∀ m, i ≤ m → m < n → ∑ j ∈ (Ico i n).erase m, ‖w j m‖ < ‖w m m‖

theorem Dominant.lt {n i : Nat} {w : Nat → Nat → K} (h : Dominant n i w) {m j : Nat} (hm : i ≤ m) (hm' : m < n) (hj : i ≤ j)
    (hj' : j < n) (hne : j ≠ m) : ‖w j m‖ < ‖w m m‖ :=
  lt_of_le_of_lt (single_le_sum (f := fun j => ‖w j m‖) (fun _ _ => norm_nonneg _) (mem_erase.mpr ⟨hne, mem_Ico.mpr ⟨hj, hj'⟩⟩))
    (h m hm hm')

theorem Dominant.ne_zero {n i : Nat} {w : Nat → Nat → K} (h : Dominant n i w) {m : Nat} (hm : i ≤ m) (hm' : m < n) :
    w m m ≠ 0 := by
  have := h m hm hm'
  have h0 : 0 ≤ ∑ j ∈ (Ico i n).erase m, ‖w j m‖ := sum_nonneg fun _ _ => norm_nonneg _
  exact norm_pos_iff.mp (lt_of_le_of_lt h0 this)

theorem invPivot_dominant {n i : Nat} {w : Nat → Nat → K} (h : Dominant n i w) (hi : i < n) :
    invPivot (fun x : K => ‖x‖) n i w = (‖w i i‖, i) := by
  unfold invPivot
  have : ∀ l : List Nat, (∀ j ∈ l, i < j ∧ j < n) → l.foldl (fun (st : ℝ × Nat) j => if ‖w j i‖ > st.1 then (‖w j i‖, j) else st)
      (‖w i i‖, i) = (‖w i i‖, i) := by
    intro l
    induction l with
    | nil => intro _; rfl
    | cons j l ih =>
      intro hl
      rw [List.foldl_cons]
      have hj := hl j List.mem_cons_self
      rw [if_neg (not_lt.mpr (h.lt (le_refl _) hi hj.1.le hj.2 (by omega)).le)]
      exact ih fun j' hj' => hl j' (List.mem_cons_of_mem _ hj')
  exact this _ fun j hj => by rw [List.mem_range'_1] at hj; omega

theorem invSwap_self (i : Nat) (w : Nat → Nat → K) : invSwap i i w = w := by
  funext r m
  unfold invSwap
  split
  · rename_i h; rw [h]
  · rfl

theorem invEliminate_some (i : Nat) (v : Nat → Nat → K) (k : Nat)
    (h : ∀ r, i < r → r < i + 1 + k → v r r - v r i * v i r ≠ 0) :
    (List.range' (i + 1) k).foldlM (fun w j =>
      let w := invSubRow i j i (w j i) w
      if w j j = 0 then none else some w) v =
      some (fun r m => if i < r ∧ r < i + 1 + k ∧ i ≤ m then v r m - v r i * v i m else v r m) := by
  induction k with
  | zero =>
    show some v = _
    congr 1
    funext r m
    rw [if_neg (by omega)]
  | succ k ih =>
    rw [List.range'_1_concat, List.foldlM_append, ih fun r h1 h2 => h r h1 (by omega)]
    show (if _ then none else some _) >>= _ = _
    have e : invSubRow i (i + 1 + k) i ((fun r m => if i < r ∧ r < i + 1 + k ∧ i ≤ m then v r m - v r i * v i m else v r m)
        (i + 1 + k) i) (fun r m => if i < r ∧ r < i + 1 + k ∧ i ≤ m then v r m - v r i * v i m else v r m) =
        fun r m => if i < r ∧ r < i + 1 + (k + 1) ∧ i ≤ m then v r m - v r i * v i m else v r m := by
      funext r m
      unfold invSubRow
      dsimp only
      by_cases h1 : r = i + 1 + k ∧ i ≤ m
      · rw [if_pos h1, if_neg (by omega), if_neg (by omega), if_neg (by omega), if_pos (by omega), h1.1]
      · rw [if_neg h1]
        by_cases h2 : i < r ∧ r < i + 1 + k ∧ i ≤ m
        · rw [if_pos h2, if_pos (by omega)]
        · rw [if_neg h2, if_neg (by omega)]
    rw [e, if_neg]
    · rfl
    · dsimp only
      rw [if_pos (by omega)]
      exact h _ (by omega) (by omega)

theorem invForwardStep_dominant {n i : Nat} {w : Nat → Nat → K} (h : Dominant n i w) (hi : i < n) :
    ∃ y, invForwardStep (fun x : K => ‖x‖) n w i = some y ∧ Dominant n (i + 1) y := by
  have h0 := h.ne_zero (le_refl i) hi
  have hp : 0 < ‖w i i‖ := norm_pos_iff.mpr h0
  unfold invForwardStep
  dsimp only
  rw [invPivot_dominant h hi]
  rw [if_neg hp.ne', invSwap_self]
  unfold invEliminate
  set v := invNormalize i w with hv
  have v1 : ∀ r, r ≠ i → v r = w r := fun r hr => invNormalize_row_ne hr
  have v2 : ∀ m, i ≤ m → v i m = 1 / w i i * w i m := fun m hm => if_pos ⟨rfl, hm⟩
  -- the new entries
  have key : ∀ m, i < m → m < n → ∑ j ∈ (Ico (i + 1) n).erase m, ‖v j m - v j i * v i m‖ < ‖v m m - v m i * v i m‖ := by
    intro m hm hmn
    rw [v1 m (by omega), v2 m hm.le]
    have e1 : ∑ j ∈ (Ico (i + 1) n).erase m, ‖v j m - v j i * (1 / w i i * w i m)‖ ≤
        ∑ j ∈ (Ico (i + 1) n).erase m, (‖w j m‖ + ‖w j i‖ * (‖w i m‖ / ‖w i i‖)) := by
      apply sum_le_sum
      intro j hj
      rw [mem_erase, mem_Ico] at hj
      rw [v1 j (by omega)]
      refine (norm_sub_le _ _).trans ?_
      rw [norm_mul, norm_mul, norm_div, norm_one]
      apply le_of_eq
      ring
    refine lt_of_le_of_lt e1 ?_
    rw [sum_add_distrib, ← sum_mul]
    have s1 : ∑ j ∈ (Ico i n).erase m, ‖w j m‖ = ‖w i m‖ + ∑ j ∈ (Ico (i + 1) n).erase m, ‖w j m‖ := by
      rw [← insert_Ico_add_one_left_eq_Ico hi, erase_insert_of_ne (by omega), sum_insert]
      simp
    have s2 : ∑ j ∈ (Ico i n).erase i, ‖w j i‖ = ‖w m i‖ + ∑ j ∈ (Ico (i + 1) n).erase m, ‖w j i‖ := by
      rw [← insert_Ico_add_one_left_eq_Ico hi, erase_insert (by simp), add_sum_erase (a := m) (f := fun j => ‖w j i‖)]
      rw [mem_Ico]; omega
    have d1 := h m hm.le hmn
    have d2 := h i (le_refl _) hi
    rw [s1] at d1
    rw [s2] at d2
    have hq : 0 ≤ ‖w i m‖ / ‖w i i‖ := by positivity
    have t1 : (∑ j ∈ (Ico (i + 1) n).erase m, ‖w j i‖) * (‖w i m‖ / ‖w i i‖) ≤ (‖w i i‖ - ‖w m i‖) * (‖w i m‖ / ‖w i i‖) :=
      mul_le_mul_of_nonneg_right (by linarith) hq
    have t2 : (‖w i i‖ - ‖w m i‖) * (‖w i m‖ / ‖w i i‖) = ‖w i m‖ - ‖w m i‖ * (‖w i m‖ / ‖w i i‖) := by
      field_simp
    have t3 : ‖w m m‖ - ‖w m i‖ * (‖w i m‖ / ‖w i i‖) ≤ ‖w m m - w m i * (1 / w i i * w i m)‖ := by
      have := norm_sub_norm_le (w m m) (w m i * (1 / w i i * w i m))
      rw [norm_mul, norm_mul, norm_div, norm_one] at this
      refine le_trans (le_of_eq ?_) this
      ring
    linarith
  have hne : ∀ r, i < r → r < i + 1 + (n - (i + 1)) → v r r - v r i * v i r ≠ 0 := by
    intro r h1 h2
    have := key r h1 (by omega)
    have g : 0 ≤ ∑ j ∈ (Ico (i + 1) n).erase r, ‖v j r - v j i * v i r‖ := sum_nonneg fun _ _ => norm_nonneg _
    exact norm_pos_iff.mp (lt_of_le_of_lt g this)
  refine ⟨_, invEliminate_some i v _ hne, fun m hm hmn => ?_⟩
  have := key m hm hmn
  rw [if_pos (by omega)]
  refine lt_of_le_of_lt (le_of_eq (sum_congr rfl fun j hj => ?_)) this
  rw [mem_erase, mem_Ico] at hj
  rw [if_pos (by omega)]

/-- `matrix_inv` finds an inverse of every strictly column diagonally dominant matrix. -/
theorem matrixInv_dominant {mat : Arr2 K} (hs : mat.rows = mat.cols) (h : Dominant mat.rows 0 mat.get) :
    (matrixInv (fun x : K => ‖x‖) mat).isSome := by
  unfold matrixInv
  rw [if_neg (by simpa using hs)]
  have key : ∀ k ≤ mat.rows, ∃ y, (List.range' 0 k).foldlM (invForwardStep (fun x : K => ‖x‖) mat.rows) (invInit mat) = some y ∧
      Dominant mat.rows k y := by
    intro k
    induction k with
    | zero =>
      intro _
      refine ⟨invInit mat, rfl, fun m _ hm => ?_⟩
      have e : ∀ r, invInit mat r m = mat.get r m := fun r => if_pos hm
      simp only [e]
      exact h m (Nat.zero_le _) hm
    | succ k ih =>
      intro hk
      obtain ⟨y, e, hy⟩ := ih (by omega)
      obtain ⟨z, e', hz⟩ := invForwardStep_dominant hy (by omega)
      refine ⟨z, ?_, hz⟩
      rw [List.range'_1_concat, List.foldlM_append, e]
      simp [e']
  obtain ⟨y, e, -⟩ := key mat.rows (le_refl _)
  rw [← List.range_eq_range'] at e
  simp [e]

/-! ### Matrices of multivectors -/

theorem norm_sg_smul (b : Bool) (x : K) : ‖sg b • x‖ = ‖x‖ := by cases b <;> simp [sg]

theorem sum_double {n : Nat} (f : Nat → ℝ) :
    ∑ i ∈ range (2 ^ (n + 1)), f i = ∑ i ∈ range (2 ^ n), f i + ∑ i ∈ range (2 ^ n), f (i + 2 ^ n) := by
  rw [pow_succ, mul_two, sum_range_add]
  simp only [add_comm]

/-- The entries of a column of the transform are together at most as large as the coefficients. -/
theorem cnn_column (m : Nat) (x : Nat → K) {j : Nat} (hj : j < 2 ^ m) :
    ∑ i ∈ range (2 ^ m), ‖cnn m x i j‖ ≤ ∑ k ∈ range (2 ^ (2 * m)), ‖x k‖ := by
  induction m generalizing x j with
  | zero => simp [cnn]
  | succ m ih =>
    have hq : ∑ k ∈ range (2 ^ (2 * (m + 1))), ‖x k‖ = ∑ k ∈ range (2 ^ (2 * m)), ‖x k‖ +
        ∑ k ∈ range (2 ^ (2 * m)), ‖hi (2 * m) x k‖ + (∑ k ∈ range (2 ^ (2 * m)), ‖hi (2 * m + 1) x k‖ +
        ∑ k ∈ range (2 ^ (2 * m)), ‖hi (2 * m) (hi (2 * m + 1) x) k‖) := by
      rw [show 2 * (m + 1) = 2 * m + 1 + 1 by ring, sum_double, sum_double, sum_double]
      rfl
    have bound : ∀ (y z y' z' : Nat → K) (c : Nat), c < 2 ^ m → ∑ i ∈ range (2 ^ m), ‖(cnn m y + cnn m z) i c‖ +
        ∑ i ∈ range (2 ^ m), ‖(cnn m y' - cnn m z') i c‖ ≤ ∑ k ∈ range (2 ^ (2 * m)), ‖y k‖ + ∑ k ∈ range (2 ^ (2 * m)), ‖z k‖ +
        (∑ k ∈ range (2 ^ (2 * m)), ‖y' k‖ + ∑ k ∈ range (2 ^ (2 * m)), ‖z' k‖) := by
      intro y z y' z' c hc
      have h1 : ∑ i ∈ range (2 ^ m), ‖(cnn m y + cnn m z) i c‖ ≤ ∑ i ∈ range (2 ^ m), (‖cnn m y i c‖ + ‖cnn m z i c‖) :=
        sum_le_sum fun i _ => norm_add_le _ _
      have h2 : ∑ i ∈ range (2 ^ m), ‖(cnn m y' - cnn m z') i c‖ ≤ ∑ i ∈ range (2 ^ m), (‖cnn m y' i c‖ + ‖cnn m z' i c‖) :=
        sum_le_sum fun i _ => norm_sub_le _ _
      rw [sum_add_distrib] at h1 h2
      linarith [ih y hc, ih z hc, ih y' hc, ih z' hc]
    rw [sum_double, hq, cnn_succ]
    have lo : ∀ i ∈ range (2 ^ m), i < 2 ^ m := fun i hi => mem_range.mp hi
    by_cases hc : j < 2 ^ m
    · have e1 : ∀ A B C D : Nat → Nat → K, ∑ i ∈ range (2 ^ m), ‖blk m A B C D i j‖ + ∑ i ∈ range (2 ^ m), ‖blk m A B C D (i + 2 ^ m) j‖ =
          ∑ i ∈ range (2 ^ m), ‖A i j‖ + ∑ i ∈ range (2 ^ m), ‖C i j‖ := by
        intro A B C D
        congr 1 <;> refine sum_congr rfl fun i hi => ?_
        · rw [blk, if_pos (lo i hi), if_pos hc]
        · rw [blk, if_neg (by omega), if_pos hc, Nat.add_sub_cancel]
      rw [e1]
      linarith [bound x (hi (2 * m) (hi (2 * m + 1) x)) (hi (2 * m) x) (hi (2 * m + 1) x) j hc]
    · have e1 : ∀ A B C D : Nat → Nat → K, ∑ i ∈ range (2 ^ m), ‖blk m A (al m B) C (al m D) i j‖ +
          ∑ i ∈ range (2 ^ m), ‖blk m A (al m B) C (al m D) (i + 2 ^ m) j‖ =
          ∑ i ∈ range (2 ^ m), ‖B i (j - 2 ^ m)‖ + ∑ i ∈ range (2 ^ m), ‖D i (j - 2 ^ m)‖ := by
        intro A B C D
        congr 1 <;> refine sum_congr rfl fun i hi => ?_
        · rw [blk, if_pos (lo i hi), if_neg hc, al, norm_sg_smul]
        · rw [blk, if_neg (by omega), if_neg hc, Nat.add_sub_cancel, al, norm_sg_smul]
      rw [e1]
      have hj' : j - 2 ^ m < 2 ^ m := by rw [pow_succ] at hj; omega
      linarith [bound (hi (2 * m) x) (hi (2 * m + 1) x) x (hi (2 * m) (hi (2 * m + 1) x)) (j - 2 ^ m) hj']

section
variable [ImagUnit K]

local notation "𝐢" => (HasI.I : K)

theorem norm_imag : ‖𝐢‖ = 1 := by
  have h : ‖𝐢‖ ^ 2 = 1 := by
    rw [← norm_pow, pow_two, ImagUnit.I_mul_I, norm_neg, norm_one]
  exact (pow_eq_one_iff_of_nonneg (norm_nonneg _) two_ne_zero).mp h

theorem norm_bprod_imag (mask n k : Nat) : ‖bprod (fun i => if mask.testBit i then 𝐢 else 1) n k‖ = 1 := by
  rw [bprod_mask, norm_pow, norm_imag, one_pow]

theorem norm_iPowNeg (n : Nat) : ‖(iPowNeg n : K)‖ = 1 := by
  rw [iPowNeg_eq, norm_pow, norm_neg, norm_imag, one_pow]

theorem ctr_column {m n : Nat} (hn : n ≤ 2 * m) (x : Nat → K) {j : Nat} (hj : j < 2 ^ m) :
    ∑ i ∈ range (2 ^ m), ‖ctr m n x i j‖ ≤ ∑ k ∈ range (2 ^ n), ‖x k‖ := by
  refine (cnn_column m _ hj).trans (le_of_eq ?_)
  have hle : 2 ^ n ≤ 2 ^ (2 * m) := Nat.pow_le_pow_right (by norm_num) hn
  symm
  refine sum_subset_zero_on_sdiff (range_subset_range.mpr hle) ?_ ?_
  · intro k hk
    rw [mem_sdiff, mem_range, mem_range] at hk
    unfold psc pad
    rw [if_neg hk.2, mul_zero, norm_zero]
  · intro k hk
    unfold psc pad
    rw [if_pos (mem_range.mp hk), norm_mul, norm_bprod_imag, one_mul]

/-- If the scalar part is larger than the other coefficients together, the matrix is dominant. -/
theorem ctr_dominant {m n : Nat} (hn : n ≤ 2 * m) {x : Nat → K} (h : ∑ k ∈ (range (2 ^ n)).erase 0, ‖x k‖ < ‖x 0‖) :
    Dominant (2 ^ m) 0 (ctr m n x) := by
  intro j _ hj
  set g : Nat → K := fun k => if k = 0 then 0 else x k with hg
  have hx : x = g + fun k => (single 0 1 : Nat → K) k * x 0 := by
    funext k
    by_cases hk : k = 0
    · subst hk; simp [hg, single]
    · simp [hg, single, hk]
  have e : ∀ i < 2 ^ m, ctr m n x i j = ctr m n g i j + if i = j then x 0 else 0 := by
    intro i hi
    conv_lhs => rw [hx, ctr_add, ctr_smul]
    show ctr m n g i j + ctr m n (single 0 1) i j * x 0 = _
    rw [ctr_one m n i hi j hj]
    unfold idm
    split <;> simp
  have hG := ctr_column hn g hj
  have hs : ∑ k ∈ range (2 ^ n), ‖g k‖ = ∑ k ∈ (range (2 ^ n)).erase 0, ‖x k‖ := by
    rw [← add_sum_erase (range (2 ^ n)) (fun k => ‖g k‖) (mem_range.mpr (Nat.two_pow_pos n))]
    rw [show ‖g 0‖ = 0 by simp [hg], zero_add]
    refine sum_congr rfl fun k hk => ?_
    rw [hg]
    dsimp only
    rw [if_neg (ne_of_mem_erase hk)]
  rw [hs, ← add_sum_erase (range (2 ^ m)) (fun i => ‖ctr m n g i j‖) (mem_range.mpr hj)] at hG
  have h1 : ∑ i ∈ (Ico 0 (2 ^ m)).erase j, ‖ctr m n x i j‖ = ∑ i ∈ (range (2 ^ m)).erase j, ‖ctr m n g i j‖ := by
    rw [← range_eq_Ico]
    refine sum_congr rfl fun i hi => ?_
    rw [e i (mem_range.mp (mem_of_mem_erase hi)), if_neg (ne_of_mem_erase hi), add_zero]
  rw [h1, e j hj, if_pos rfl]
  have h2 : ‖x 0‖ - ‖ctr m n g j j‖ ≤ ‖ctr m n g j j + x 0‖ := by
    have := norm_sub_norm_le (x 0) (-ctr m n g j j)
    rwa [norm_neg, sub_neg_eq_add, add_comm (x 0)] at this
  linarith

end

end TClifford
