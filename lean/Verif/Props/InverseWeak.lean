import Verif.Props.Inverse
import Verif.Proofs.Debug
/-
C37: `inv` finds the inverse of every invertible multivector whose scalar part is at least as large as the other coefficients
together; `fft_inv_test` of the crate with real numbers.
-/

set_option linter.unusedSectionVars false

namespace TClifford

open Finset MV

section
variable {K : Type} [NormedField K] [DecidableEq K]

/-- In the columns from `i` on, the diagonal entry is at least as large as the other entries in rows from `i` on together. -/
def WeakDom (n i : Nat) (w : Nat → Nat → K) : Prop :=
  ∀ m, i ≤ m → m < n → ∑ j ∈ (Ico i n).erase m, ‖w j m‖ ≤ ‖w m m‖

/-- The rows and columns from `i` on form an invertible matrix. -/
def Regular (n i : Nat) (w : Nat → Nat → K) : Prop :=
  ∀ x : Nat → K, (∀ j, i ≤ j → j < n → ∑ m ∈ Ico i n, w j m * x m = 0) → ∀ m, i ≤ m → m < n → x m = 0

theorem WeakDom.le {n i : Nat} {w : Nat → Nat → K} (h : WeakDom n i w) {m j : Nat} (hm : i ≤ m) (hm' : m < n) (hj : i ≤ j)
    (hj' : j < n) (hne : j ≠ m) : ‖w j m‖ ≤ ‖w m m‖ :=
  (single_le_sum (f := fun j => ‖w j m‖) (fun _ _ => norm_nonneg _) (mem_erase.mpr ⟨hne, mem_Ico.mpr ⟨hj, hj'⟩⟩)).trans (h m hm hm')

theorem WeakDom.ne_zero {n i : Nat} {w : Nat → Nat → K} (h : WeakDom n i w) (hr : Regular n i w) {m : Nat} (hm : i ≤ m) (hm' : m < n) :
    w m m ≠ 0 := by
  intro h0
  have hc : ∀ j, i ≤ j → j < n → w j m = 0 := by
    intro j hj hj'
    by_cases hne : j = m
    · rw [hne, h0]
    · have := h.le hm hm' hj hj' hne
      rw [h0, norm_zero] at this
      exact norm_le_zero_iff.mp this
  have := hr (fun k => if k = m then 1 else 0) (fun j hj hj' => by
    refine sum_eq_zero fun k hk => ?_
    by_cases hk' : k = m
    · rw [hk', hc j hj hj', zero_mul]
    · rw [if_neg hk', mul_zero]) m hm hm'
  rw [if_pos rfl] at this
  exact one_ne_zero this

theorem invPivot_weak {n i : Nat} {w : Nat → Nat → K} (h : WeakDom n i w) (hi : i < n) :
    invPivot (fun x : K => ‖x‖) n i w = (‖w i i‖, i) := by
  unfold invPivot
  have : ∀ l : List Nat, (∀ j ∈ l, i < j ∧ j < n) → l.foldl (fun (st : ℝ × Nat) j => if ‖w j i‖ > st.1 then (‖w j i‖, j) else st)
      (‖w i i‖, i) = (‖w i i‖, i) := by
    intro l
    induction l with
    | nil => intro _; rfl
    | cons j l ih =>
      intro hl
      rw [List.foldl_cons]
      have hj := hl j List.mem_cons_self
      rw [if_neg (not_lt.mpr (h.le (le_refl _) hi hj.1.le hj.2 (by omega)))]
      exact ih fun j' hj' => hl j' (List.mem_cons_of_mem _ hj')
  exact this _ fun j hj => by rw [List.mem_range'_1] at hj; omega

theorem invForwardStep_weak {n i : Nat} {w : Nat → Nat → K} (h : WeakDom n i w) (hr : Regular n i w) (hi : i < n) :
    ∃ y, invForwardStep (fun x : K => ‖x‖) n w i = some y ∧ WeakDom n (i + 1) y ∧ Regular n (i + 1) y := by
  have h0 := h.ne_zero hr (le_refl i) hi
  have hp : 0 < ‖w i i‖ := norm_pos_iff.mpr h0
  unfold invForwardStep
  dsimp only
  rw [invPivot_weak h hi]
  rw [if_neg hp.ne', invSwap_self]
  unfold invEliminate
  set v := invNormalize i w with hv
  have v1 : ∀ r, r ≠ i → v r = w r := fun r hr => invNormalize_row_ne hr
  have v2 : ∀ m, i ≤ m → v i m = 1 / w i i * w i m := fun m hm => if_pos ⟨rfl, hm⟩
  -- the new entries
  have key : ∀ m, i < m → m < n → ∑ j ∈ (Ico (i + 1) n).erase m, ‖v j m - v j i * v i m‖ ≤ ‖v m m - v m i * v i m‖ := by
    intro m hm hmn
    rw [v1 m (by omega), v2 m hm.le]
    have e1 : ∑ j ∈ (Ico (i + 1) n).erase m, ‖v j m - v j i * (1 / w i i * w i m)‖ ≤
        ∑ j ∈ (Ico (i + 1) n).erase m, (‖w j m‖ + ‖w j i‖ * (‖w i m‖ / ‖w i i‖)) := by
      apply sum_le_sum
      intro j hj
      rw [mem_erase, mem_Ico] at hj
      rw [v1 j (by omega)]
      refine (norm_sub_le _ _).trans ?_
      rw [norm_mul, norm_mul, norm_div, norm_one]
      apply le_of_eq
      ring
    refine e1.trans ?_
    rw [sum_add_distrib, ← sum_mul]
    have s1 : ∑ j ∈ (Ico i n).erase m, ‖w j m‖ = ‖w i m‖ + ∑ j ∈ (Ico (i + 1) n).erase m, ‖w j m‖ := by
      rw [← insert_Ico_add_one_left_eq_Ico hi, erase_insert_of_ne (by omega), sum_insert]
      simp
    have s2 : ∑ j ∈ (Ico i n).erase i, ‖w j i‖ = ‖w m i‖ + ∑ j ∈ (Ico (i + 1) n).erase m, ‖w j i‖ := by
      rw [← insert_Ico_add_one_left_eq_Ico hi, erase_insert (by simp), add_sum_erase (a := m) (f := fun j => ‖w j i‖)]
      rw [mem_Ico]; omega
    have d1 := h m hm.le hmn
    have d2 := h i (le_refl _) hi
    rw [s1] at d1
    rw [s2] at d2
    have hq : 0 ≤ ‖w i m‖ / ‖w i i‖ := by positivity
    have t1 : (∑ j ∈ (Ico (i + 1) n).erase m, ‖w j i‖) * (‖w i m‖ / ‖w i i‖) ≤ (‖w i i‖ - ‖w m i‖) * (‖w i m‖ / ‖w i i‖) :=
      mul_le_mul_of_nonneg_right (by linarith) hq
    have t2 : (‖w i i‖ - ‖w m i‖) * (‖w i m‖ / ‖w i i‖) = ‖w i m‖ - ‖w m i‖ * (‖w i m‖ / ‖w i i‖) := by
      field_simp
    have t3 : ‖w m m‖ - ‖w m i‖ * (‖w i m‖ / ‖w i i‖) ≤ ‖w m m - w m i * (1 / w i i * w i m)‖ := by
      have := norm_sub_norm_le (w m m) (w m i * (1 / w i i * w i m))
      rw [norm_mul, norm_mul, norm_div, norm_one] at this
      refine le_trans (le_of_eq ?_) this
      ring
    linarith
  have kd : WeakDom n (i + 1) (fun r m => v r m - v r i * v i m) := fun m hm hmn => key m hm hmn
  have kr : Regular n (i + 1) (fun r m => v r m - v r i * v i m) := by
    intro x hx
    set z : Nat → K := fun m => if m = i then -∑ m ∈ Ico (i + 1) n, v i m * x m else x m with hz
    have zi : z i = -∑ m ∈ Ico (i + 1) n, v i m * x m := if_pos rfl
    have zs : ∀ f : Nat → K, ∑ m ∈ Ico (i + 1) n, f m * z m = ∑ m ∈ Ico (i + 1) n, f m * x m := fun f =>
      sum_congr rfl fun m hm => by rw [hz]; beta_reduce; rw [if_neg (by have := (mem_Ico.mp hm).1; omega)]
    have := hr z (fun j hj hj' => by
      rw [← insert_Ico_add_one_left_eq_Ico hi, sum_insert (by simp), zs, zi]
      by_cases hji : j = i
      · subst hji
        rw [sum_congr rfl fun m hm => by rw [v2 m (by have := (mem_Ico.mp hm).1; omega)], ← sum_neg_distrib, mul_sum, ← sum_add_distrib]
        refine sum_eq_zero fun m _ => ?_
        field_simp
        ring
      · have hx := hx j (by omega) hj'
        beta_reduce at hx
        simp only [v1 j hji] at hx
        rw [← hx, mul_neg, mul_sum, ← sum_neg_distrib, ← sum_add_distrib]
        exact sum_congr rfl fun m _ => by ring)
    intro m hm hmn
    have := this m (by omega) hmn
    rw [hz] at this
    beta_reduce at this
    rwa [if_neg (by omega)] at this
  have hne : ∀ r, i < r → r < i + 1 + (n - (i + 1)) → v r r - v r i * v i r ≠ 0 := fun r h1 h2 => kd.ne_zero kr h1 (by omega)
  refine ⟨_, invEliminate_some i v _ hne, fun m hm hmn => ?_, fun x hx => kr x fun j hj hj' => ?_⟩
  · have := key m hm hmn
    beta_reduce
    rw [if_pos (by omega)]
    refine le_trans (le_of_eq (sum_congr rfl fun j hj => ?_)) this
    rw [mem_erase, mem_Ico] at hj
    rw [if_pos (by omega)]
  · rw [← hx j hj hj']
    refine sum_congr rfl fun m hm => ?_
    have := (mem_Ico.mp hm).1
    beta_reduce
    rw [if_pos (by omega)]

/-- `matrix_inv` finds the inverse of every invertible, weakly column diagonally dominant matrix. -/
theorem matrixInv_weak {mat : Arr2 K} (hs : mat.rows = mat.cols) (h : WeakDom mat.rows 0 mat.get) (hr : Regular mat.rows 0 mat.get) :
    (matrixInv (fun x : K => ‖x‖) mat).isSome := by
  unfold matrixInv
  rw [if_neg (by simpa using hs)]
  have key : ∀ k ≤ mat.rows, ∃ y, (List.range' 0 k).foldlM (invForwardStep (fun x : K => ‖x‖) mat.rows) (invInit mat) = some y ∧
      WeakDom mat.rows k y ∧ Regular mat.rows k y := by
    intro k
    induction k with
    | zero =>
      intro _
      have e : ∀ r, ∀ m < mat.rows, invInit mat r m = mat.get r m := fun r m hm => if_pos hm
      refine ⟨invInit mat, rfl, fun m _ hm => ?_, fun x hx => hr x fun j hj hj' => ?_⟩
      · simp only [e _ m hm]
        exact h m (Nat.zero_le _) hm
      · rw [← hx j hj hj']
        exact sum_congr rfl fun m hm => by rw [e j m (mem_Ico.mp hm).2]
    | succ k ih =>
      intro hk
      obtain ⟨y, e, hy, hy'⟩ := ih (by omega)
      obtain ⟨z, e', hz⟩ := invForwardStep_weak hy hy' (by omega)
      refine ⟨z, ?_, hz⟩
      rw [List.range'_1_concat, List.foldlM_append, e]
      simp [e']
  obtain ⟨y, e, -⟩ := key mat.rows (le_refl _)
  rw [← List.range_eq_range'] at e
  simp [e]

end

section
variable {K : Type} [NormedField K] [DecidableEq K] [ImagUnit K]

/-- If the scalar part is at least as large as the other coefficients together, the matrix is weakly dominant. -/
theorem ctr_weak {m n : Nat} (hn : n ≤ 2 * m) {x : Nat → K} (h : ∑ k ∈ (range (2 ^ n)).erase 0, ‖x k‖ ≤ ‖x 0‖) :
    WeakDom (2 ^ m) 0 (ctr m n x) := by
  intro j _ hj
  set g : Nat → K := fun k => if k = 0 then 0 else x k with hg
  have hx : x = g + fun k => (single 0 1 : Nat → K) k * x 0 := by
    funext k
    by_cases hk : k = 0
    · subst hk; simp [hg, single]
    · simp [hg, single, hk]
  have e : ∀ i < 2 ^ m, ctr m n x i j = ctr m n g i j + if i = j then x 0 else 0 := by
    intro i hi
    conv_lhs => rw [hx, ctr_add, ctr_smul]
    show ctr m n g i j + ctr m n (single 0 1) i j * x 0 = _
    rw [ctr_one m n i hi j hj]
    unfold idm
    split <;> simp
  have hG := ctr_column hn g hj
  have hs : ∑ k ∈ range (2 ^ n), ‖g k‖ = ∑ k ∈ (range (2 ^ n)).erase 0, ‖x k‖ := by
    rw [← add_sum_erase (range (2 ^ n)) (fun k => ‖g k‖) (mem_range.mpr (Nat.two_pow_pos n))]
    rw [show ‖g 0‖ = 0 by simp [hg], zero_add]
    refine sum_congr rfl fun k hk => ?_
    rw [hg]
    dsimp only
    rw [if_neg (ne_of_mem_erase hk)]
  rw [hs, ← add_sum_erase (range (2 ^ m)) (fun i => ‖ctr m n g i j‖) (mem_range.mpr hj)] at hG
  have h1 : ∑ i ∈ (Ico 0 (2 ^ m)).erase j, ‖ctr m n x i j‖ = ∑ i ∈ (range (2 ^ m)).erase j, ‖ctr m n g i j‖ := by
    rw [← range_eq_Ico]
    refine sum_congr rfl fun i hi => ?_
    rw [e i (mem_range.mp (mem_of_mem_erase hi)), if_neg (ne_of_mem_erase hi), add_zero]
  rw [h1, e j hj, if_pos rfl]
  have h2 : ‖x 0‖ - ‖ctr m n g j j‖ ≤ ‖ctr m n g j j + x 0‖ := by
    have := norm_sub_norm_le (x 0) (-ctr m n g j j)
    rwa [norm_neg, sub_neg_eq_add, add_comm (x 0)] at this
  linarith

variable {A : ClAlg} {T : Type} [Ring T] [DecidableEq T] [IntoComplex T K] [LawfulInto T K]

/-- **C37, a part that holds.** In any non-degenerate algebra `a.fft().inv()` is `Some` for every `a` with a left inverse
whose scalar part is at least as large as the sum of the absolute values of the other coefficients.
(Missing for the full claim: elements with smaller scalar part, for which it is false, see `C37_inv_misses_vector`.) -/
theorem C37_inv_weakly_dominant_partial (hA : A.WF) (hn : A.projDim = 0) (hd : A.dim < 63) {a b : MV A (ArrayStorage T)} (ha : a.Valid)
    (hb : b.Valid) (hab : b.naiveMulImpl a ≈ᵣ MV.one) {f : Nat → T} (hf : Coefs (.ok a) f)
    (h : ∑ k ∈ (range (2 ^ A.dim)).erase 0, ‖(IntoComplex.into (f k) : K)‖ ≤ ‖(IntoComplex.into (f 0) : K)‖) :
    ∃ s, (do let r ← (a.fft : Res (FFTRepr A K)); return r.inv (fun x : K => ‖x‖)) = .ok (some s) := by
  have hnn := nondegenerate_dims hA hn
  have hS : A.dim ≤ 63 := by omega
  obtain ⟨r, e1, hr⟩ := fft_represents (K := K) hA hd ha
  obtain ⟨t, e2, ht⟩ := fft_represents (K := K) hA hd hb
  rw [e1]
  have hI : r.arr.Is 0 A.half := hn ▸ hr.1
  have htI : t.arr.Is 0 A.half := hn ▸ ht.1
  -- the matrix of `b` is a left inverse
  have hmul : ∀ k < 2 ^ A.dim, geo A.complexification.sigma A.dim (cx (K := K) A b.val) (cx A a.val) k = single 0 1 k := by
    intro k hk
    obtain ⟨u, v, hu, hv, huV, hvV, huv⟩ := hab
    obtain ⟨u', hu', -, hmu⟩ := mul_denotes hA hb ha
    obtain ⟨v', hv', -, hmv⟩ := one_denotes (A := A) (S := ArrayStorage T) (T := T) hS
    rw [hu] at hu'
    rw [hv] at hv'
    cases hu'; cases hv'
    rw [← cx_geo hA _ _ hk, ← cx_single (T := T)]
    apply cx_congr
    rw [← hmu k hk, (beq_iff huV hvV).mp huv k hk, hmv k hk]
  obtain ⟨p, e3, hp⟩ := (mul_represents hA ht hr).congr hA hmul
  obtain ⟨p', e3', hpI, hpg⟩ := mul_one_layer htI hI
  rw [e3] at e3'
  cases e3'
  have hl : MEq (2 ^ A.half) (2 ^ A.half) (mm A.half (t.arr.get 0) (r.arr.get 0)) idm := by
    refine hpg.symm.trans ((hp.2 0 (Nat.two_pow_pos _)).trans ?_)
    show MEq _ _ (ctr A.half A.nn (lay A.nn (single 0 1) 0)) idm
    rw [lay_zero]
    exact ctr_one _ _
  suffices hsome : (matrixInv (fun x : K => ‖x‖) (r.arr.layer 0)).isSome by
    obtain ⟨y, hy⟩ := Option.isSome_iff_exists.mp hsome
    refine ⟨⟨Arr3.ofArr2 y⟩, ?_⟩
    show Except.ok (r.inv _) = _
    unfold FFTRepr.inv
    rw [hy]; rfl
  have hrows : (r.arr.layer 0).rows = 2 ^ A.half := hI.2.1
  have hcols : (r.arr.layer 0).cols = 2 ^ A.half := hI.2.2
  refine matrixInv_weak (by rw [hrows, hcols]) ?_ ?_
  · rw [hrows]
    have hg : MEq (2 ^ A.half) (2 ^ A.half) (r.arr.get 0) (ctr A.half A.nn (cx A a.val)) := by
      have := hr.2 0 (Nat.two_pow_pos _)
      unfold FL at this
      rwa [lay_zero] at this
    have hle : A.nn ≤ 2 * A.half := by unfold ClAlg.half; omega
    have hv : ∀ k < 2 ^ A.dim, ‖cx (K := K) A a.val k‖ = ‖(IntoComplex.into (f k) : K)‖ := by
      intro k hk
      unfold cx
      rw [norm_mul, norm_iPowNeg, one_mul, hf.val ha hk]
    have hc : ∑ k ∈ (range (2 ^ A.nn)).erase 0, ‖cx (K := K) A a.val k‖ ≤ ‖cx (K := K) A a.val 0‖ := by
      rw [hnn, hv 0 (Nat.two_pow_pos _)]
      refine le_trans (le_of_eq (sum_congr rfl fun k hk => ?_)) h
      exact hv k (mem_range.mp (mem_of_mem_erase hk))
    intro m h0 hm
    have := ctr_weak hle hc m h0 hm
    show ∑ j ∈ _, ‖r.arr.get 0 j m‖ ≤ ‖r.arr.get 0 m m‖
    rw [hg m hm m hm]
    refine le_trans (le_of_eq (sum_congr rfl fun j hj => ?_)) this
    rw [hg j (mem_Ico.mp (mem_of_mem_erase hj)).2 m hm]
  · rw [hrows]
    intro x hx m _ hm
    have e : ∑ j ∈ range (2 ^ A.half), t.arr.get 0 m j * ∑ k ∈ range (2 ^ A.half), r.arr.get 0 j k * x k =
        ∑ k ∈ range (2 ^ A.half), (∑ j ∈ range (2 ^ A.half), t.arr.get 0 m j * r.arr.get 0 j k) * x k := by
      simp only [mul_sum, sum_mul, mul_assoc]
      exact sum_comm
    rw [sum_eq_zero fun j hj => by
      rw [range_eq_Ico]
      rw [show ∑ k ∈ Ico 0 (2 ^ A.half), r.arr.get 0 j k * x k = 0 from hx j (Nat.zero_le _) (mem_range.mp hj), mul_zero]] at e
    rw [sum_congr rfl fun k hk => by rw [show ∑ j ∈ range (2 ^ A.half), t.arr.get 0 m j * r.arr.get 0 j k = idm m k from hl m hm k (mem_range.mp hk)]] at e
    rw [sum_eq_single m] at e
    · simpa [idm] using e.symm
    · intro k _ hne
      simp [idm, hne.symm]
    · intro hc
      exact absurd (mem_range.mpr hm) hc

end

/-! ### `fft_inv_test` -/

section
variable {A : ClAlg}

/-- The products of `1 + b` with `1 - b` for a basis blade `b`. -/
theorem geo_one_add_blade {σ : Nat → ℤ} {n j : Nat} (hj : j < 2 ^ n) {k : Nat} (hk : k < 2 ^ n) :
    geo σ n (fun i => (single 0 1 : Nat → ℝ) i + single j 1 i) (fun i => single 0 1 i - single j 1 i) k =
      single 0 (1 - (bsgn σ n j j : ℝ)) k ∧
    geo σ n (fun i => (single 0 1 : Nat → ℝ) i - single j 1 i) (fun i => single 0 1 i + single j 1 i) k =
      single 0 (1 - (bsgn σ n j j : ℝ)) k := by
  constructor
  · rw [geo_add_left, geo_sub_right, geo_sub_right, geo_one_left, geo_one_left, geo_one_right _ _ _ hk, geo_single_single _ hj]
    simp only [single, Nat.xor_self]
    split <;> simp
  · rw [geo_sub_left, geo_add_right, geo_add_right, geo_one_left, geo_one_left, geo_one_right _ _ _ hk, geo_single_single _ hj]
    simp only [single, Nat.xor_self]
    split <;> simp
    ring

/-- **C36, C37.** In any non-degenerate algebra, for every basis blade `b` other than 1: if `b * b == 1` then
`(1 + b).fft().inv()` is `None`, and if `b * b == -1` then it is `Some`, and its `ifft()` is `(1 - b) / 2`. -/
theorem C37_one_plus_blade_partial (hA : A.WF) (hn : A.projDim = 0) (hd : A.dim < 63) {b : MV A (ArrayStorage ℝ)} (hb : b.Valid) {j : Nat}
    (hj0 : j ≠ 0) (hj : j < 2 ^ A.dim) (hf : Coefs (.ok b) (single j 1)) :
    (b.naiveMulImpl b ≈ᵣ MV.one →
      (do let o ← (MV.one : Res (MV A (ArrayStorage ℝ))); let a ← o.add b; let r ← (a.fft : Res (FFTRepr A ℂ)); return r.inv (fun z : ℂ => ‖z‖)) =
        .ok none) ∧
    (b.naiveMulImpl b ≈ᵣ fromScalar (-1 : ℝ) → ∃ s,
      (do let o ← (MV.one : Res (MV A (ArrayStorage ℝ))); let a ← o.add b; let r ← (a.fft : Res (FFTRepr A ℂ)); return r.inv (fun z : ℂ => ‖z‖)) =
        .ok (some s) ∧
      s.ifft ≈ᵣ (do let o ← (MV.one : Res (MV A (ArrayStorage ℝ))); let d ← o.sub b; d.sdiv 2)) := by
  have hS : A.dim ≤ 63 := by omega
  have h0 := Nat.two_pow_pos A.dim
  have hbv : ∀ k < 2 ^ A.dim, b.val k = single j 1 k := fun k hk => hf.val hb hk
  have hsq : Denotes (b.naiveMulImpl b) (single 0 (bsgn A.sigma A.dim j j : ℝ)) := (mul_denotes hA hb hb).congr fun k hk => by
    rw [geo_congr (fun _ _ => rfl) hbv hbv hk, geo_single_single _ hj, Nat.xor_self]
    simp
  have hsc : ∀ {c : ℝ} {y : Res (MV A (ArrayStorage ℝ))}, Denotes y (single 0 c) → b.naiveMulImpl b ≈ᵣ y → (bsgn A.sigma A.dim j j : ℝ) = c := by
    intro c y hy hh
    obtain ⟨u, v, hu, hv, huV, hvV, huv⟩ := hh
    obtain ⟨u', hu', -, hmu⟩ := hsq
    obtain ⟨v', hv', -, hmv⟩ := hy
    rw [hu] at hu'
    rw [hv] at hv'
    cases hu'; cases hv'
    have := (beq_iff huV hvV).mp huv 0 h0
    rwa [hmu 0 h0, hmv 0 h0] at this
  obtain ⟨o, eo, ho, hov⟩ := one_denotes (A := A) (S := ArrayStorage ℝ) (T := ℝ) hS
  obtain ⟨a, ea, ha, hav'⟩ := add_denotes ho hb
  have hav : ∀ k < 2 ^ A.dim, a.val k = (single 0 1 : Nat → ℝ) k + single j 1 k := fun k hk => by
    rw [hav' k hk]
    beta_reduce
    rw [hov k hk, hbv k hk]
  have hsub : Denotes (o.sub b) (fun k => (single 0 1 : Nat → ℝ) k - single j 1 k) :=
    (sub_denotes ho hb).congr fun k hk => by rw [hov k hk, hbv k hk]
  rw [eo]
  simp only [ok_bind', ea]
  constructor
  · intro h
    have hs := hsc (eo ▸ one_denotes hS) h
    refine C36_singular (fun _ => norm_eq_zero) two_ne_zero hA hd hn ha ?_
    rintro ⟨c, hc, u, v, hu, hv, huV, hvV, huv⟩
    obtain ⟨u', hu', -, hmu⟩ := mul_denotes hA hc ha
    obtain ⟨v', hv', -, hmv⟩ := one_denotes (A := A) (S := ArrayStorage ℝ) (T := ℝ) hS
    rw [hu] at hu'
    rw [hv] at hv'
    cases hu'; cases hv'
    have hca : ∀ k < 2 ^ A.dim, geo A.sigma A.dim c.val (fun i => (single 0 1 : Nat → ℝ) i + single j 1 i) k = single 0 1 k := fun k hk => by
      rw [← geo_congr (fun _ _ => rfl) (fun _ _ => rfl) hav hk, ← hmu k hk, (beq_iff huV hvV).mp huv k hk, hmv k hk]
    have e := geo_assoc A.sigma A.dim c.val (fun i => (single 0 1 : Nat → ℝ) i + single j 1 i) (fun i => single 0 1 i - single j 1 i) 0
    rw [geo_congr (fun _ _ => rfl) hca (fun _ _ => rfl) h0, geo_one_left,
      geo_congr (g' := 0) (fun _ _ => rfl) (fun _ _ => rfl) (fun k hk => by rw [(geo_one_add_blade hj hk).1, hs]; simp [single]) h0] at e
    simp [geo, single, hj0.symm] at e
  · intro h
    have hs := hsc (fromScalar_denotes hS _) h
    obtain ⟨d, ed, hdV, hdv⟩ := hsub
    have hq : Denotes (d.sdiv 2) (fun k => ((single 0 1 : Nat → ℝ) k - single j 1 k) / 2) :=
      (sdiv_denotes hdV (two_ne_zero)).congr fun k hk => by rw [hdv k hk]
    obtain ⟨q, eq, hqV, hqv⟩ := hq
    have hqv' : ∀ k < 2 ^ A.dim, q.val k = (1 / 2) * ((single 0 1 : Nat → ℝ) k - single j 1 k) := fun k hk => by rw [hqv k hk]; ring
    have hqv'' : ∀ k < 2 ^ A.dim, q.val k = ((single 0 1 : Nat → ℝ) k - single j 1 k) * (1 / 2) := fun k hk => by rw [hqv k hk]; ring
    have hqa : q.naiveMulImpl a ≈ᵣ MV.one := Agree.of_denotes (mul_denotes hA hqV ha) (one_denotes hS) fun k hk => by
      rw [geo_congr (fun _ _ => rfl) hqv' hav hk, geo_smul_left, (geo_one_add_blade hj hk).2, hs]
      simp only [single]
      split <;> norm_num
    have haq : ∀ k < 2 ^ A.dim, geo A.sigma A.dim a.val q.val k = single 0 1 k := fun k hk => by
      rw [geo_congr (fun _ _ => rfl) hav hqv'' hk, geo_smul_right, (geo_one_add_blade hj hk).1, hs]
      simp only [single]
      split <;> norm_num
    obtain ⟨s, es⟩ := C37_inv_weakly_dominant_partial (K := ℂ) hA hn hd ha hqV hqa (f := fun k => (single 0 1 : Nat → ℝ) k + single j 1 k)
      ((Denotes.of_valid ha).congr hav).coefs (by
        have e : ∀ x : ℝ, ‖(IntoComplex.into x : ℂ)‖ = |x| := fun x => by
          show ‖(x : ℂ)‖ = _
          rw [Complex.norm_real, Real.norm_eq_abs]
        simp only [e]
        rw [sum_eq_single j]
        · simp [single, hj0, hj0.symm]
        · intro k hk hkj
          simp [single, ne_of_mem_erase hk, hkj]
        · intro hc
          exact absurd (mem_erase.mpr ⟨hj0, mem_range.mpr hj⟩) hc)
    refine ⟨s, es, ?_⟩
    have hi := (C36_fft_inv (T := ℝ) (fun _ => norm_eq_zero) two_ne_zero hA hd hn ha es).1
    obtain ⟨r, e1, hr⟩ := fft_represents (K := ℂ) hA hd ha
    rw [e1] at es
    have es : r.inv (fun z : ℂ => ‖z‖) = some s := by simpa using es
    have hsI : s.arr.Is A.projDim A.half := by
      have := (inv_mm (fun _ => norm_eq_zero) (hn ▸ hr.1) es).1
      rwa [← hn] at this
    obtain ⟨y, ey, hy, -⟩ := ifft_denotes (T := ℝ) hA hd hsI
    rw [ey] at hi ⊢
    obtain ⟨u, v, hu, hv, huV, hvV, huv⟩ := hi
    obtain ⟨u', hu', -, hmu⟩ := mul_denotes hA hy ha
    obtain ⟨v', hv', -, hmv⟩ := one_denotes (A := A) (S := ArrayStorage ℝ) (T := ℝ) hS
    rw [ok_bind', hu'] at hu
    rw [hv] at hv'
    cases hu; cases hv'
    have hya : ∀ k < 2 ^ A.dim, geo A.sigma A.dim y.val a.val k = single 0 1 k := fun k hk => by
      rw [← hmu k hk, (beq_iff huV hvV).mp huv k hk, hmv k hk]
    rw [ed]
    show Except.ok y ≈ᵣ d.sdiv 2
    rw [eq]
    refine Agree.of_denotes (.of_valid hy) (.of_valid hqV) fun k hk => ?_
    have e := geo_assoc A.sigma A.dim y.val a.val q.val k
    rw [geo_congr (fun _ _ => rfl) hya (fun _ _ => rfl) hk, geo_one_left, geo_congr (fun _ _ => rfl) (fun _ _ => rfl) haq hk,
      geo_one_right _ _ _ hk] at e
    exact e.symm

end

namespace Ex

/-- `declare_algebra!(A, [+,+,+,+,-,-,+])`, tests/unit.rs:283 -/
def FI : ClAlg := (declareAlgebra [.plus, .plus, .plus, .plus, .minus, .minus, .plus] []).get rfl

theorem FI_wf : FI.WF := declareAlgebra_wf (sig := [.plus, .plus, .plus, .plus, .minus, .minus, .plus]) (names := []) rfl

end Ex

open Ex in
/-- **C87.** The assertions of `fft_inv_test` on fixed inputs, tests/unit.rs:304-308, with real and complex numbers instead of floats. -/
theorem C87_fft_inv :
    (do let e ← (MV.basisVec (T := ℝ) 0 : Res (MV FI (ArrayStorage ℝ))); let o ← (MV.one : Res (MV FI (ArrayStorage ℝ)))
        let a ← o.add e; let r ← (a.fft : Res (FFTRepr FI ℂ)); return r.inv (fun z : ℂ => ‖z‖)) = .ok none ∧
    ∃ s, (do let e ← (MV.basisVec (T := ℝ) 4 : Res (MV FI (ArrayStorage ℝ))); let o ← (MV.one : Res (MV FI (ArrayStorage ℝ)))
             let a ← o.add e; let r ← (a.fft : Res (FFTRepr FI ℂ)); return r.inv (fun z : ℂ => ‖z‖)) = .ok (some s) ∧
      s.ifft ≈ᵣ (do let e ← (MV.basisVec (T := ℝ) 4 : Res (MV FI (ArrayStorage ℝ))); let o ← (MV.one : Res (MV FI (ArrayStorage ℝ)))
                    let d ← o.sub e; d.sdiv 2) := by
  have hS : FI.dim ≤ 63 := by decide
  constructor
  · obtain ⟨e, ee, he, hv⟩ := basisVec_denotes (A := FI) (S := ArrayStorage ℝ) (T := ℝ) hS (n := 0) (by decide)
    rw [ee]
    refine (C37_one_plus_blade_partial FI_wf rfl (by decide) he (j := 2 ^ 0) (by decide) (by decide) ((Denotes.of_valid he).congr hv).coefs).1 ?_
    refine Agree.of_denotes (mul_denotes FI_wf he he) (one_denotes hS) fun k hk => ?_
    rw [geo_congr (fun _ _ => rfl) hv hv hk, geo_single_single _ (by decide), show bsgn FI.sigma FI.dim (2 ^ 0) (2 ^ 0) = 1 by decide +kernel]
    simp
  · obtain ⟨e, ee, he, hv⟩ := basisVec_denotes (A := FI) (S := ArrayStorage ℝ) (T := ℝ) hS (n := 4) (by decide)
    rw [ee]
    refine (C37_one_plus_blade_partial FI_wf rfl (by decide) he (j := 2 ^ 4) (by decide) (by decide) ((Denotes.of_valid he).congr hv).coefs).2 ?_
    refine Agree.of_denotes (mul_denotes FI_wf he he) (fromScalar_denotes hS _) fun k hk => ?_
    rw [geo_congr (fun _ _ => rfl) hv hv hk, geo_single_single _ (by decide), show bsgn FI.sigma FI.dim (2 ^ 4) (2 ^ 4) = -1 by decide +kernel]
    simp

/-! ### The hypotheses can be met -/

section examples
open Ex

/-- The bivector `z^x` of three-dimensional space, whose square is -1. -/
noncomputable def zx : MV E (ArrayStorage ℝ) := ⟨⟨3, ⟨8, single 5 1⟩⟩⟩

theorem zx_valid : zx.Valid := ⟨by decide, rfl, rfl⟩

theorem zx_val {k : Nat} (hk : k < 2 ^ E.dim) : zx.val k = single 5 1 k := if_pos (show k < 8 from hk)

theorem zx_sq : zx.naiveMulImpl zx ≈ᵣ fromScalar (-1 : ℝ) :=
  Agree.of_denotes (mul_denotes E_wf zx_valid zx_valid) (fromScalar_denotes (S := ArrayStorage ℝ) (show E.dim ≤ 63 by decide) _) fun k hk => by
    rw [geo_congr (fun _ _ => rfl) (fun _ h => zx_val h) (fun _ h => zx_val h) hk, geo_single_single _ (by decide),
      show bsgn E.sigma E.dim 5 5 = -1 by decide +kernel]
    simp

example : ∃ s, (do let o ← (MV.one : Res (MV E (ArrayStorage ℝ))); let a ← o.add zx; let r ← (a.fft : Res (FFTRepr E ℂ)); return r.inv (fun z : ℂ => ‖z‖)) =
      .ok (some s) ∧ s.ifft ≈ᵣ (do let o ← (MV.one : Res (MV E (ArrayStorage ℝ))); let d ← o.sub zx; d.sdiv 2) :=
  (C37_one_plus_blade_partial E_wf rfl (by decide) zx_valid (by decide) (by decide)
    ((Denotes.of_valid zx_valid).congr fun _ h => zx_val h).coefs).2 zx_sq

/-- `1 + z^x`, whose scalar part is exactly as large as the rest. -/
noncomputable def onezx : MV E (ArrayStorage ℝ) := ⟨⟨3, ⟨8, fun k => single 0 1 k + single 5 1 k⟩⟩⟩

/-- `(1 - z^x) / 2` -/
noncomputable def onezx' : MV E (ArrayStorage ℝ) := ⟨⟨3, ⟨8, fun k => 1 / 2 * (single 0 1 k - single 5 1 k)⟩⟩⟩

example : ∃ s, (do let r ← (onezx.fft : Res (FFTRepr E ℂ)); return r.inv (fun z : ℂ => ‖z‖)) = .ok (some s) := by
  have hv : onezx.Valid := ⟨by decide, rfl, rfl⟩
  have hv' : onezx'.Valid := ⟨by decide, rfl, rfl⟩
  have e1 : ∀ k < 2 ^ E.dim, onezx.val k = single 0 1 k + single 5 1 k := fun k hk => if_pos (show k < 8 from hk)
  have e2 : ∀ k < 2 ^ E.dim, onezx'.val k = 1 / 2 * (single 0 1 k - single 5 1 k) := fun k hk => if_pos (show k < 8 from hk)
  refine C37_inv_weakly_dominant_partial (K := ℂ) E_wf rfl (by decide) hv hv' ?_ ((Denotes.of_valid hv).congr e1).coefs ?_
  · refine Agree.of_denotes (mul_denotes E_wf hv' hv) (one_denotes (show E.dim ≤ 63 by decide)) fun k hk => ?_
    rw [geo_congr (fun _ _ => rfl) e2 e1 hk, geo_smul_left, (geo_one_add_blade (by decide) hk).2,
      show bsgn E.sigma E.dim 5 5 = -1 by decide +kernel]
    simp only [single]
    split <;> norm_num
  · have e : ∀ x : ℝ, ‖(IntoComplex.into x : ℂ)‖ = |x| := fun x => by
      show ‖(x : ℂ)‖ = _
      rw [Complex.norm_real, Real.norm_eq_abs]
    simp only [e]
    rw [sum_eq_single 5]
    · simp [single]
    · intro k hk hkj
      simp [single, ne_of_mem_erase hk, hkj]
    · intro hc
      exact absurd (mem_erase.mpr ⟨by decide, mem_range.mpr (by decide)⟩) hc

end examples

end TClifford
