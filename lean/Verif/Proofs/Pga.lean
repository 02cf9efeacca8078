import Verif.Model.Pga
import Verif.Proofs.GA
import Verif.Proofs.Construct
import Verif.Proofs.Declare
import Verif.Proofs.Exterior
import Verif.Proofs.Wedge
import Mathlib.Tactic.NoncommRing
import Mathlib.Tactic.LinearCombination
import Mathlib.Tactic.FieldSimp
/-
The algebra of points, hyperplanes and translations in projective geometric algebra.
-/

set_option linter.unusedSectionVars false

namespace TClifford

open Finset

namespace GA
variable {σ : Nat → ℤ} {n : Nat} {T : Type} [CommRing T]

theorem e_mul_e {i : Nat} (j : Nat) (hi : i < n) :
    (e i * e j : GA σ n T) = (bsgn σ n (2 ^ i) (2 ^ j) : T) • bl (2 ^ i ^^^ 2 ^ j) :=
  bl_mul_bl (Nat.pow_lt_pow_right (by norm_num) hi)

theorem e_sq {i : Nat} (hi : i < n) : (e i * e i : GA σ n T) = (σ i : T) • 1 := by
  rw [e_mul_e _ hi, Nat.xor_self, bsgn_two_pow_eq _ hi, bl_zero]

theorem e_anti {i j : Nat} (hi : i < n) (hj : j < n) (h : i ≠ j) : (e i * e j : GA σ n T) = -(e j * e i) := by
  rw [e_mul_e _ hi, e_mul_e _ hj, bsgn_two_pow_ne _ hi hj h, bsgn_two_pow_ne _ hj hi h.symm, Nat.xor_comm (2 ^ j)]
  rcases Nat.lt_or_gt_of_ne h with h | h
  · rw [if_pos h, if_neg (by omega)]; simp
  · rw [if_neg (by omega), if_pos h]; simp

/-- The product of the generators `d > k` is a basis blade. -/
theorem e_mul_e_of_lt {d k : Nat} (hd : d < n) (h : k < d) : (e d * e k : GA σ n T) = bl (2 ^ d ||| 2 ^ k) := by
  rw [e_mul_e _ hd, bsgn_two_pow_ne _ hd (by omega) (by omega), if_neg (by omega)]
  have : 2 ^ d ^^^ 2 ^ k = 2 ^ d ||| 2 ^ k := by
    apply Nat.eq_of_testBit_eq
    intro i
    rw [Nat.testBit_xor, Nat.testBit_or, Nat.testBit_two_pow, Nat.testBit_two_pow]
    by_cases h1 : d = i
    · have : k ≠ i := by omega
      simp [h1, this]
    · simp [h1]
  rw [this]; simp

/-- The sign relating the two products of a generator and its complement. -/
def csg (n : Nat) : ℤ := if n % 2 = 1 then 1 else -1

theorem csg_mul_self (n : Nat) : csg n * csg n = 1 := by unfold csg; split <;> rfl

theorem xor_cl (a b : Nat) : a ^^^ (a ^^^ b) = b := by rw [← Nat.xor_assoc, Nat.xor_self, Nat.zero_xor]

theorem cnt_full (n m : Nat) (h : n ≤ m) : cnt n (2 ^ m - 1) = n := by
  induction n with
  | zero => simp
  | succ n ih =>
    rw [cnt_succ, ih (by omega), Nat.testBit_two_pow_sub_one]
    simp; omega

theorem cnt_compl {n a : Nat} : cnt n (a ^^^ (2 ^ n - 1)) + cnt n a = n := by
  have : ∀ m ≤ n, cnt m (a ^^^ (2 ^ n - 1)) + cnt m a = m := by
    intro m
    induction m with
    | zero => simp
    | succ m ih =>
      intro hm
      have := ih (by omega)
      rw [cnt_succ, cnt_succ, Nat.testBit_xor, Nat.testBit_two_pow_sub_one]
      have h2 : decide (m < n) = true := by simp; omega
      rw [h2]
      cases a.testBit m <;> simp <;> omega
  exact this n le_rfl

theorem bsgn_compl_comm {n k : Nat} (hk : k < n) :
    bsgn σ n (2 ^ k) (2 ^ k ^^^ (2 ^ n - 1)) = csg n * bsgn σ n (2 ^ k ^^^ (2 ^ n - 1)) (2 ^ k) := by
  have h := bsgn_rev σ n (2 ^ k) (2 ^ k ^^^ (2 ^ n - 1))
  rw [xor_cl] at h
  have h2 := rsg_mul_self n (2 ^ n - 1)
  have h3 := congrArg (· * rsg n (2 ^ n - 1)) h
  simp only [mul_assoc] at h3
  rw [h2, mul_one] at h3
  rw [h3]
  have hc := cnt_compl (n := n) (a := 2 ^ k)
  rw [cnt_two_pow hk] at hc
  have h4 := rsg_grades n (2 ^ k) (2 ^ k ^^^ (2 ^ n - 1)) (2 ^ n - 1) 1 (n - 1) (cnt_two_pow hk) (by omega)
    (by rw [cnt_full n n le_rfl]; omega)
  have : csg n = rsg n (2 ^ k) * rsg n (2 ^ k ^^^ (2 ^ n - 1)) * rsg n (2 ^ n - 1) := by
    rw [h4]
    unfold csg
    by_cases hn : n % 2 = 1
    · rw [if_pos hn, if_neg (by omega)]
    · rw [if_neg hn, if_pos (by omega)]
  rw [this]; ring

/-- The pseudoscalar. -/
def ps : GA σ n T := bl (2 ^ n - 1)

/-- The dual of the generator `k`. -/
def D (k : Nat) : GA σ n T :=
  (bsgn (fun _ => 0) n (2 ^ k ^^^ (2 ^ n - 1)) (2 ^ k) : T) • bl (2 ^ k ^^^ (2 ^ n - 1))

theorem bsgn_compl_eq (τ : Nat → ℤ) {k : Nat} :
    bsgn σ n (2 ^ k ^^^ (2 ^ n - 1)) (2 ^ k) = bsgn τ n (2 ^ k ^^^ (2 ^ n - 1)) (2 ^ k) := by
  refine bsgn_disjoint _ _ fun i hi => ?_
  rw [Nat.testBit_xor, Nat.testBit_two_pow_sub_one]
  simp only [hi, decide_true]
  cases (2 ^ k).testBit i <;> rfl

theorem bsgn_compl_sq {k : Nat} :
    bsgn σ n (2 ^ k ^^^ (2 ^ n - 1)) (2 ^ k) * bsgn σ n (2 ^ k ^^^ (2 ^ n - 1)) (2 ^ k) = 1 := by
  rw [bsgn_compl_eq (fun _ => 1)]
  exact bsgn_plus_sq _ _ _

theorem two_pow_lt {k n : Nat} (h : k < n) : 2 ^ k < 2 ^ n := Nat.pow_lt_pow_right (by norm_num) h

theorem D_mul_e {k : Nat} (hk : k < n) : (D k * e k : GA σ n T) = ps := by
  unfold D e ps
  rw [smul_mul_assoc]
  show _ • (bl _ * bl _) = _
  rw [bl_mul_bl (xor_mask_lt (two_pow_lt hk)), smul_smul, bsgn_compl_eq σ, ← Int.cast_mul, bsgn_compl_sq, Int.cast_one, one_smul,
    Nat.xor_comm, xor_cl]

theorem e_mul_D {k : Nat} (hk : k < n) : (e k * D k : GA σ n T) = (csg n : T) • ps := by
  unfold D e ps
  rw [mul_smul_comm]
  show _ • (bl _ * bl _) = _
  rw [bl_mul_bl (two_pow_lt hk), smul_smul, bsgn_compl_eq σ, bsgn_compl_comm hk, ← Int.cast_mul, mul_left_comm, bsgn_compl_sq,
    mul_one, xor_cl]

/-- The dual as a linear map. -/
def dual : GA σ n T →ₗ[T] GA σ n T where
  toFun x := of (MV.dualF n x.fn)
  map_add' x y := by
    induction x using ind with | h f => ?_
    induction y using ind with | h g => ?_
    rw [← of_add, ← of_add]
    refine of_congr fun i hi => ?_
    unfold MV.dualF
    rw [fn_of _ (xor_mask_lt hi), fn_of _ (xor_mask_lt hi), fn_of _ (xor_mask_lt hi), smul_add]
  map_smul' t x := by
    induction x using ind with | h f => ?_
    rw [← of_smul, RingHom.id_apply, ← of_smul]
    refine of_congr fun i hi => ?_
    unfold MV.dualF
    rw [fn_of _ (xor_mask_lt hi), fn_of _ (xor_mask_lt hi), mul_smul_comm]

theorem dual_of (f : Nat → T) : dual (of f : GA σ n T) = of (MV.dualF n f) := by
  show (of (MV.dualF n (of f : GA σ n T).fn) : GA σ n T) = _
  refine of_congr fun i hi => ?_
  unfold MV.dualF
  rw [fn_of _ (xor_mask_lt hi)]

theorem dual_e (k : Nat) : dual (e k : GA σ n T) = D k := by
  unfold e D bl
  rw [dual_of, ← of_smul]
  refine of_congr fun i hi => ?_
  unfold MV.dualF single
  by_cases h : i = 2 ^ k ^^^ (2 ^ n - 1)
  · subst h
    rw [MV.xor_mask_xor_mask, if_pos rfl, if_pos rfl, zsmul_eq_mul]
  · rw [if_neg h, if_neg, smul_zero, mul_zero]
    intro h2
    apply h
    rw [← h2, MV.xor_mask_xor_mask]

/-- A vector. -/
def vec (x : Nat → T) : GA σ n T := ∑ k ∈ range n, x k • e k

theorem vec_add (x y : Nat → T) : (vec (fun k => x k + y k) : GA σ n T) = vec x + vec y := by
  unfold vec
  rw [← sum_add_distrib]
  exact sum_congr rfl fun _ _ => add_smul _ _ _

theorem vec_smul (c : T) (x : Nat → T) : (vec (fun k => c * x k) : GA σ n T) = c • vec x := by
  unfold vec
  rw [smul_sum]
  exact sum_congr rfl fun _ _ => mul_smul _ _ _

theorem vec_congr {x y : Nat → T} (h : ∀ k < n, x k = y k) : (vec x : GA σ n T) = vec y :=
  sum_congr rfl fun k hk => by rw [h k (mem_range.mp hk)]

theorem fn_sum (s : Finset Nat) (g : Nat → GA σ n T) (i : Nat) : (∑ j ∈ s, g j).fn i = ∑ j ∈ s, (g j).fn i := by
  unfold fn
  by_cases hi : i < 2 ^ n
  · simp only [dif_pos hi]
    exact Finset.sum_apply (M := fun _ : Fin (2 ^ n) => T) _ _ _
  · simp only [dif_neg hi, sum_const_zero]

theorem fn_smul (c : T) (x : GA σ n T) (i : Nat) : (c • x).fn i = c * x.fn i := by
  unfold fn
  by_cases hi : i < 2 ^ n
  · simp only [dif_pos hi]; rfl
  · simp only [dif_neg hi, mul_zero]

theorem fn_bl (a : Nat) {i : Nat} (hi : i < 2 ^ n) : (bl a : GA σ n T).fn i = if i = a then 1 else 0 := fn_of _ hi

theorem fn_vec (x : Nat → T) {k : Nat} (hk : k < n) : (vec x : GA σ n T).fn (2 ^ k) = x k := by
  unfold vec
  rw [fn_sum, sum_eq_single k]
  · rw [fn_smul]
    show x k * (bl (2 ^ k) : GA σ n T).fn (2 ^ k) = _
    rw [fn_bl _ (two_pow_lt hk), if_pos rfl, mul_one]
  · intro j _ hj
    rw [fn_smul]
    show x j * (bl (2 ^ j) : GA σ n T).fn (2 ^ k) = _
    rw [fn_bl _ (two_pow_lt hk), if_neg, mul_zero]
    intro h
    exact hj (Nat.pow_right_injective (le_refl 2) h).symm
  · intro h; exact absurd (mem_range.mpr hk) h

theorem of_vecF [DecidableEq T] (l : List T) (h : n < 64) : (of (MV.vecF l) : GA σ n T) = vec (fun k => l.getD k 0) := by
  rw [← of_fn (vec _)]
  refine of_congr fun i hi => ?_
  by_cases hc : countOnes i = 1
  · obtain ⟨k, hk, rfl⟩ := MV.eq_two_pow_of_countOnes hi hc
    rw [MV.vecF_two_pow _ (by omega), fn_vec _ hk]
  · unfold MV.vecF
    rw [if_neg hc]
    unfold vec
    rw [fn_sum, sum_eq_zero]
    intro k hk
    have hk := mem_range.mp hk
    rw [fn_smul]
    show _ * (bl (2 ^ k) : GA σ n T).fn i = _
    rw [fn_bl _ hi, if_neg, mul_zero]
    rintro rfl
    exact hc (MV.countOnes_two_pow (by omega))

theorem dual_vec (x : Nat → T) : dual (vec x : GA σ n T) = ∑ k ∈ range n, x k • D k := by
  unfold vec
  rw [map_sum]
  exact sum_congr rfl fun k hk => by rw [map_smul, dual_e]

theorem dual_D {k : Nat} (hk : k < n) : dual (D k : GA σ n T) = (csg n : T) • e k := by
  unfold D
  rw [map_smul]
  unfold bl
  rw [dual_of, ← of_smul]
  unfold e
  rw [← of_smul]
  refine of_congr fun i hi => ?_
  unfold MV.dualF single
  by_cases h : i = 2 ^ k
  · subst h
    rw [if_pos rfl, if_pos rfl, bsgn_compl_comm hk, zsmul_eq_mul, mul_one, mul_one, ← Int.cast_mul, mul_left_comm, bsgn_compl_sq,
      mul_one]
  · rw [if_neg h, if_neg, smul_zero, mul_zero, mul_zero]
    intro h2
    apply h
    have := congrArg (· ^^^ (2 ^ n - 1)) h2
    simpa only [MV.xor_mask_xor_mask] using this

theorem dual_dual_vec (x : Nat → T) : dual (dual (vec x : GA σ n T)) = (csg n : T) • vec x := by
  rw [dual_vec, map_sum]
  unfold vec
  rw [smul_sum]
  exact sum_congr rfl fun k hk => by rw [map_smul, dual_D (mem_range.mp hk), smul_comm]

/-! ### Projective algebras -/

section pga
variable {d : Nat} (h1 : ∀ i < d, σ i = 1) (h0 : σ d = 0)
include h1 h0

theorem e_null_sq : (e d * e d : GA σ (d + 1) T) = 0 := by
  rw [e_sq (by omega), h0, Int.cast_zero, zero_smul]

theorem e_unit_sq {k : Nat} (hk : k < d) : (e k * e k : GA σ (d + 1) T) = 1 := by
  rw [e_sq (by omega), h1 k hk, Int.cast_one, one_smul]

theorem ps_mul_e {k : Nat} (hk : k < d) : (ps * e k : GA σ (d + 1) T) = D k := by
  rw [← D_mul_e (k := k) (by omega), mul_assoc, e_unit_sq h1 h0 hk, mul_one]

theorem e_mul_ps {k : Nat} (hk : k < d) : (e k * ps : GA σ (d + 1) T) = (csg (d + 1) : T) • D k := by
  rw [← D_mul_e (k := k) (by omega), ← mul_assoc, e_mul_D (by omega), smul_mul_assoc, ps_mul_e h1 h0 hk]

theorem ps_mul_null : (ps * e d : GA σ (d + 1) T) = 0 := by
  rw [← D_mul_e (k := d) (by omega), mul_assoc, e_null_sq h1 h0, mul_zero]

theorem null_mul_ps : (e d * ps : GA σ (d + 1) T) = 0 := by
  rw [← D_mul_e (k := d) (by omega), ← mul_assoc, e_mul_D (by omega), smul_mul_assoc, ps_mul_null h1 h0, smul_zero]

/-- The bivector of a translation by `2 y`. -/
def tb (d : Nat) (y : Nat → T) : GA σ n T := ∑ k ∈ range d, y k • (e d * e k)

theorem tb_eq (y : Nat → T) : (tb d y : GA σ (d + 1) T) = e d * ∑ k ∈ range d, y k • e k := by
  unfold tb
  rw [mul_sum]
  exact sum_congr rfl fun k _ => (mul_smul_comm _ _ _).symm

theorem tb_eq' (y : Nat → T) : (tb d y : GA σ (d + 1) T) = -((∑ k ∈ range d, y k • e k) * e d) := by
  unfold tb
  rw [sum_mul, ← sum_neg_distrib]
  refine sum_congr rfl fun k hk => ?_
  have hk := mem_range.mp hk
  rw [e_anti (by omega) (by omega) (by omega), smul_neg, smul_mul_assoc]

theorem tb_mul_tb (y z : Nat → T) : (tb d y * tb d z : GA σ (d + 1) T) = 0 := by
  rw [tb_eq' h1 h0 y, tb_eq h1 h0 z, neg_mul, mul_assoc, ← mul_assoc (e d), e_null_sq h1 h0, zero_mul, mul_zero, neg_zero]

theorem tb_mul_ps (y : Nat → T) : (tb d y * ps : GA σ (d + 1) T) = 0 := by
  rw [tb_eq' h1 h0, neg_mul, mul_assoc, null_mul_ps h1 h0, mul_zero, neg_zero]

theorem ps_mul_tb (y : Nat → T) : (ps * tb d y : GA σ (d + 1) T) = 0 := by
  rw [tb_eq h1 h0, ← mul_assoc, ps_mul_null h1 h0, zero_mul]

theorem tb_mul_D (y : Nat → T) {k : Nat} (hk : k < d) : (tb d y * D k : GA σ (d + 1) T) = 0 := by
  rw [← ps_mul_e h1 h0 hk, ← mul_assoc, tb_mul_ps h1 h0, zero_mul]

theorem D_mul_tb (y : Nat → T) {k : Nat} (hk : k < d) : (D k * tb d y : GA σ (d + 1) T) = 0 := by
  have hs : ((csg (d + 1) : ℤ) : T) * ((csg (d + 1) : ℤ) : T) = 1 := by
    rw [← Int.cast_mul, csg_mul_self, Int.cast_one]
  have : (D k : GA σ (d + 1) T) = (csg (d + 1) : T) • (e k * ps) := by
    rw [e_mul_ps h1 h0 hk, smul_smul, hs, one_smul]
  rw [this, smul_mul_assoc, mul_assoc, ps_mul_tb h1 h0, mul_zero, smul_zero]

theorem Dd_mul_tb (y : Nat → T) : (D d * tb d y : GA σ (d + 1) T) = ∑ k ∈ range d, y k • D k := by
  unfold tb
  rw [mul_sum]
  refine sum_congr rfl fun k hk => ?_
  rw [mul_smul_comm, ← mul_assoc, D_mul_e (by omega), ps_mul_e h1 h0 (mem_range.mp hk)]

theorem tb_mul_Dd (y : Nat → T) : (tb d y * D d : GA σ (d + 1) T) = -∑ k ∈ range d, y k • D k := by
  have hs : ((csg (d + 1) : ℤ) : T) * ((csg (d + 1) : ℤ) : T) = 1 := by
    rw [← Int.cast_mul, csg_mul_self, Int.cast_one]
  rw [tb_eq' h1 h0, neg_mul, mul_assoc, e_mul_D (by omega), sum_mul]
  congr 1
  refine sum_congr rfl fun k hk => ?_
  rw [mul_smul_comm, smul_mul_assoc, e_mul_ps h1 h0 (mem_range.mp hk), smul_smul, smul_smul, mul_assoc, mul_left_comm, hs, mul_one]

/-- Translating the dual of a vector. -/
theorem tb_sandwich (y x : Nat → T) : ((1 - tb d y) * dual (vec x) * (1 + tb d y) : GA σ (d + 1) T) =
    dual (vec (fun k => if k < d then x k + 2 * x d * y k else x k)) := by
  have hP : (dual (vec x) : GA σ (d + 1) T) = (∑ k ∈ range d, x k • D k) + x d • D d := by
    rw [dual_vec, sum_range_succ]
  have hQ : (dual (vec (fun k => if k < d then x k + 2 * x d * y k else x k)) : GA σ (d + 1) T) =
      (∑ k ∈ range d, x k • D k) + (2 * x d) • (∑ k ∈ range d, y k • D k) + x d • D d := by
    rw [dual_vec, sum_range_succ, if_neg (by omega)]
    congr 1
    rw [smul_sum, ← sum_add_distrib]
    refine sum_congr rfl fun k hk => ?_
    rw [if_pos (mem_range.mp hk), add_smul, smul_smul]
  have hl : (tb d y * ∑ k ∈ range d, x k • D k : GA σ (d + 1) T) = 0 := by
    rw [mul_sum]
    exact sum_eq_zero fun k hk => by rw [mul_smul_comm, tb_mul_D h1 h0 y (mem_range.mp hk), smul_zero]
  have hr : ((∑ k ∈ range d, x k • D k) * tb d y : GA σ (d + 1) T) = 0 := by
    rw [sum_mul]
    exact sum_eq_zero fun k hk => by rw [smul_mul_assoc, D_mul_tb h1 h0 y (mem_range.mp hk), smul_zero]
  have hy : ((∑ k ∈ range d, y k • D k) * tb d y : GA σ (d + 1) T) = 0 := by
    rw [sum_mul]
    exact sum_eq_zero fun k hk => by rw [smul_mul_assoc, D_mul_tb h1 h0 y (mem_range.mp hk), smul_zero]
  rw [hQ, hP, sub_mul, one_mul, mul_add (tb d y), hl, zero_add, mul_smul_comm, tb_mul_Dd h1 h0, mul_add, mul_one, sub_mul,
    add_mul, hr, zero_add, smul_mul_assoc, Dd_mul_tb h1 h0, smul_mul_assoc, neg_mul, hy, neg_zero, smul_zero, sub_zero, smul_neg,
    sub_neg_eq_add, mul_smul, two_smul]
  abel

theorem tb_add (y z : Nat → T) : (tb d (fun k => y k + z k) : GA σ (d + 1) T) = tb d y + tb d z := by
  unfold tb
  rw [← sum_add_distrib]
  exact sum_congr rfl fun _ _ => add_smul _ _ _

theorem rev_e {n k : Nat} (hk : k < n) : rev (e k : GA σ n T) = e k := by
  unfold e
  rw [rev_of]
  refine of_congr fun i _ => ?_
  unfold single
  by_cases h : i = 2 ^ k
  · subst h
    rw [if_pos rfl, rsg_eq, cnt_two_pow hk]; simp
  · rw [if_neg h, smul_zero]

theorem rev_tb (y : Nat → T) : rev (tb d y : GA σ (d + 1) T) = -tb d y := by
  unfold tb
  rw [map_sum, ← sum_neg_distrib]
  refine sum_congr rfl fun k hk => ?_
  have hk := mem_range.mp hk
  rw [map_smul, rev_mul, rev_e h1 h0 (by omega), rev_e h1 h0 (by omega), e_anti (by omega) (by omega) (by omega), smul_neg]

end pga

section
variable {d : Nat} (hn : n = d + 1) (h1 : ∀ i < d, σ i = 1) (h0 : σ d = 0)
include hn h1 h0

theorem tb_sandwich' (y x : Nat → T) : ((1 - tb d y) * dual (vec x) * (1 + tb d y) : GA σ n T) =
    dual (vec (fun k => if k < d then x k + 2 * x d * y k else x k)) := by
  subst hn; exact tb_sandwich h1 h0 y x

theorem tb_mul_tb' (y z : Nat → T) : (tb d y * tb d z : GA σ n T) = 0 := by
  subst hn; exact tb_mul_tb h1 h0 y z

theorem rev_tb' (y : Nat → T) : rev (tb d y : GA σ n T) = -tb d y := by
  subst hn; exact rev_tb h1 h0 y

theorem tb_add' (y z : Nat → T) : (tb d (fun k => y k + z k) : GA σ n T) = tb d y + tb d z := by
  subst hn; exact tb_add h1 h0 y z

end

end GA

/-! ### Declared projective algebras -/

theorem pgaMatch_eq {sig : List Sym} (h : pgaMatch sig = true) :
    ∃ d, 0 < d ∧ sig = List.replicate d .plus ++ [.null] := by
  induction sig with
  | nil => simp [pgaMatch] at h
  | cons s ts ih =>
    unfold pgaMatch at h
    split at h
    · rename_i heq
      exact ⟨1, by omega, heq⟩
    · rename_i heq
      injection heq with h2 h3
      subst h2 h3
      obtain ⟨d, h1, h2⟩ := ih h
      exact ⟨d + 1, by omega, by rw [h2, List.replicate_succ]; rfl⟩
    · exact absurd h (by simp)

/-- What the bound `A: PGAlgebra<d>` says about the algebra. -/
structure IsPga (A : ClAlg) (d : Nat) : Prop where
  wf : A.WF
  dim : A.dim = d + 1
  unit : ∀ i < d, A.sigma i = 1
  null : A.sigma d = 0
  mask : A.projMask = 2 ^ d
  pos : 0 < d

theorem isPga {sig : List Sym} {names : List String} {A : ClAlg} {d : Nat} (hA : declareAlgebra sig names = some A)
    (hp : implPga sig = some d) : IsPga A d := by
  unfold implPga at hp
  split at hp
  · rename_i hm
    injection hp with hp
    obtain ⟨e, he, rfl⟩ := pgaMatch_eq hm
    have hl : (List.replicate e Sym.plus ++ [Sym.null]).length = e + 1 := by simp
    rw [hl] at hp
    have hd : e = d := by omega
    subst hd
    obtain ⟨-, h64, hdim, -, -, hpm, -⟩ := declareAlgebra_eq hA
    rw [hl] at hdim h64
    refine ⟨declareAlgebra_wf hA, hdim, ?_, ?_, ?_, he⟩
    · intro i hi
      rw [declareAlgebra_sigma hA (by rw [hl]; omega), List.getElem_append_left (by simpa using hi)]
      simp [Sym.square]
    · rw [declareAlgebra_sigma hA (by rw [hl]; omega), List.getElem_append_right (by simp)]
      simp [Sym.square]
    · rw [hpm]
      apply Nat.eq_of_testBit_eq
      intro i
      rw [produceMask_testBit _ _ _ _ (by rw [hl]; omega), Nat.testBit_two_pow, Nat.sub_zero]
      rw [List.getElem?_append, List.length_replicate]
      by_cases h1 : i < e
      · simp [h1]; omega
      · by_cases h2 : i = e
        · subst h2; simp
        · rw [if_neg h1, List.getElem?_eq_none (by simp; omega)]
          simp [Ne.symm h2]
  · exact absurd hp (by simp)

namespace MV
variable {A : ClAlg} {S : Type}

section
variable {T : Type} [CommRing T] [DecidableEq T] [CoeffStorage S T] [LawfulStorage S T]

theorem is_dual (hA : A.WF) {a : MV A S} (ha : a.Valid) : Is a.dual (GA.dual a.ga) := by
  rw [ga, GA.dual_of]; exact is_of_denotes (dual_denotes hA ha)

theorem is_fromVector (h : LawfulStorage.Supp (S := S) (T := T) A.dim) {l : List T} (hl : l.length = A.dim) :
    Is (fromVector (A := A) (S := S) l) (GA.vec (fun k => l.getD k 0)) := by
  rw [← GA.of_vecF _ (by have := LawfulStorage.supp_le h; omega)]
  exact is_of_denotes (fromVector_denotes h hl)

end

section
variable {T : Type} [Field T] [DecidableEq T] [CoeffStorage S T] [LawfulStorage S T]

theorem is_sdiv {a : MV A S} (ha : a.Valid) {t : T} (ht : t ≠ 0) : Is (a.sdiv t) (t⁻¹ • a.ga) := by
  rw [ga, ← GA.of_smul']
  have := sdiv_denotes ha ht
  simp only [div_eq_mul_inv] at this
  exact is_of_denotes this

/-- Dividing a non-zero multivector by zero is not finite. -/
theorem sdiv_zero {a : MV A S} (ha : a.Valid) (hne : ∃ i < 2 ^ A.dim, a.val i ≠ 0) : a.sdiv (0 : T) = .error .nonFinite := by
  obtain ⟨i, hi, hv⟩ := hne
  obtain ⟨u, hu, -⟩ := default_denotes (A := A) (S := S) (T := T) ha.supp
  have hmem := LawfulStorage.enum_complete ha hv
  unfold sdiv
  rw [hu]
  show (a.coeffEnumerate.foldlM (m := Res) (fun (ret : MV A S) p => do
    let v ← fdiv p.2 (0 : T)
    return ret.setByIdx p.1 v) u) = _
  have hne : a.coeffEnumerate ≠ [] := by
    intro h
    have hmem : (i, a.val i) ∈ a.coeffEnumerate := hmem
    rw [h] at hmem
    simp at hmem
  cases hc : a.coeffEnumerate with
  | nil => exact absurd hc hne
  | cons p l =>
    rw [List.foldlM_cons]
    have : fdiv p.2 (0 : T) = .error .nonFinite := if_pos rfl
    rw [this]
    rfl

end

section
variable [DecidableEq ℝ] [CoeffStorage S ℝ] [LawfulStorage S ℝ] {d : Nat}

theorem euclMag_eq_zero {l : List ℝ} : euclMag l = 0 ↔ ∀ c ∈ l, c = 0 := by
  have hs : ∀ l : List ℝ, 0 ≤ (l.map (fun c => c * c)).sum := by
    intro l
    exact List.sum_nonneg (by simp only [List.mem_map]; rintro _ ⟨c, -, rfl⟩; exact mul_self_nonneg c)
  unfold euclMag
  rw [Real.sqrt_eq_zero (hs l)]
  induction l with
  | nil => simp
  | cons c l ih =>
    rw [List.map_cons, List.sum_cons, add_eq_zero_iff_of_nonneg (mul_self_nonneg c) (hs l)]
    exact (and_congr mul_self_eq_zero ih).trans (by simp)

/-- Homogeneous coordinates. -/
def hom (x : List ℝ) : Nat → ℝ := fun k => (x ++ [1]).getD k 0

theorem hom_lt {x : List ℝ} {k : Nat} (h : k < x.length) : hom x k = x.getD k 0 := by
  unfold hom
  rw [List.getD_append _ _ _ _ h]

theorem hom_last {x : List ℝ} : hom x x.length = 1 := by
  unfold hom
  rw [List.getD_append_right _ _ _ _ le_rfl]
  simp

theorem is_pgaPoint (hP : IsPga A d) (hS : LawfulStorage.Supp (S := S) (T := ℝ) A.dim) {x : List ℝ} (hx : x.length = d)
    (h0 : ∃ c ∈ x, c ≠ 0) : Is (pgaPoint (A := A) (S := S) x) ((euclMag x)⁻¹ • GA.dual (GA.vec (hom x))) := by
  have hm : euclMag x ≠ 0 := fun h => by
    obtain ⟨c, hc, hne⟩ := h0
    exact hne (euclMag_eq_zero.mp h c hc)
  unfold pgaPoint
  refine (is_fromVector hS (by simp [hx, hP.dim])).bind fun v hv hvg => ?_
  refine (is_dual hP.wf hv).bind fun p hp hpg => ?_
  exact (is_sdiv hp hm).congr (by rw [hpg, hvg]; rfl)

theorem is_hyperplane (hP : IsPga A d) (hS : LawfulStorage.Supp (S := S) (T := ℝ) A.dim) {c : List ℝ} (hc : c.length = d + 1)
    (h0 : ∃ t ∈ c, t ≠ 0) :
    Is (pgaHyperplane (A := A) (S := S) c) ((euclMag c)⁻¹ • GA.vec (fun k => c.getD k 0)) := by
  have hm : euclMag c ≠ 0 := fun h => by
    obtain ⟨t, ht, hne⟩ := h0
    exact hne (euclMag_eq_zero.mp h t ht)
  unfold pgaHyperplane
  refine (is_fromVector hS (by simp [hc, hP.dim])).bind fun v hv hvg => ?_
  exact (is_sdiv hv hm).congr (by rw [hvg])

theorem or_two_pow_inj {d j k : Nat} (_hj : j ≤ d) (hk : k ≤ d) (h : 2 ^ d ||| 2 ^ j = 2 ^ d ||| 2 ^ k) : j = k := by
  by_contra hne
  have h1 := congrArg (fun x => x.testBit j) h
  have h2 := congrArg (fun x => x.testBit k) h
  simp only [Nat.testBit_or, Nat.testBit_two_pow] at h1 h2
  by_cases hj' : j = d
  · have : d ≠ k := by omega
    simp [hj', this] at h2
  · have : d ≠ j := by omega
    simp [this] at h1
    omega

theorem or_two_pow_lt {d k : Nat} (hk : k ≤ d) : 2 ^ d ||| 2 ^ k < 2 ^ (d + 1) :=
  Nat.or_lt_two_pow (GA.two_pow_lt (by omega)) (GA.two_pow_lt (by omega))

section
open GA
variable {σ : Nat → ℤ} {n : Nat} {T : Type} [CommRing T] {d : Nat} (hn : n = d + 1)
include hn

theorem _root_.TClifford.GA.fn_tb (y : Nat → T) {k : Nat} (hk : k < d) : (tb d y : GA σ n T).fn (2 ^ d ||| 2 ^ k) = y k := by
  unfold tb
  rw [fn_sum, sum_eq_single k]
  · rw [fn_smul, e_mul_e_of_lt (by omega) hk, fn_bl, if_pos rfl, mul_one]
    rw [hn]; exact or_two_pow_lt (by omega)
  · intro j hj hjk
    rw [fn_smul, e_mul_e_of_lt (by omega) (mem_range.mp hj), fn_bl, if_neg, mul_zero]
    · exact fun h => hjk (or_two_pow_inj (by omega) (le_of_lt (mem_range.mp hj)) h).symm
    · rw [hn]; exact or_two_pow_lt (by omega)
  · intro h; exact absurd (mem_range.mpr hk) h

theorem _root_.TClifford.GA.fn_tb_cases (y : Nat → T) {i : Nat} (hi : i < 2 ^ n) : (tb d y : GA σ n T).fn i = 0 ∨ ∃ k < d, (tb d y : GA σ n T).fn i = y k := by
  by_cases h : ∃ k < d, i = 2 ^ d ||| 2 ^ k
  · obtain ⟨k, hk, rfl⟩ := h
    exact Or.inr ⟨k, hk, fn_tb hn y hk⟩
  · left
    unfold tb
    rw [fn_sum]
    refine sum_eq_zero fun j hj => ?_
    rw [fn_smul, e_mul_e_of_lt (by omega) (mem_range.mp hj), fn_bl _ hi, if_neg, mul_zero]
    exact fun e => h ⟨j, mem_range.mp hj, e⟩

end

theorem trans_list (v : List ℝ) (d : Nat) (h : v.length ≤ 64) :
    v.zipIdx.map (fun p => (2 ^ d ||| ushl 1 p.2, p.1 / 2)) =
    (List.range v.length).map (fun k => (2 ^ d ||| 2 ^ k, v.getD k 0 / 2)) := by
  apply List.ext_getElem
  · simp
  · intro i h1 h2
    have hi : i < v.length := by simpa using h2
    simp only [List.getElem_map, List.getElem_zipIdx, List.getElem_range, Nat.zero_add]
    rw [ushl_one (by omega)]
    simp [hi]

theorem is_translation' (hP : IsPga A d) (hS : LawfulStorage.Supp (S := S) (T := ℝ) A.dim) {v : List ℝ} (hv : v.length ≤ d + 1) :
    Is (pgaTranslation (A := A) (S := S) v) (1 + ∑ k ∈ range (d + 1), (v.getD k 0 / 2) • GA.bl (2 ^ d ||| 2 ^ k)) := by
  have hd := LawfulStorage.supp_le hS
  rw [hP.dim] at hd
  unfold pgaTranslation
  rw [hP.mask]
  dsimp only
  rw [trans_list v d (by omega)]
  set g : GA A.sigma A.dim ℝ := ∑ k ∈ range (d + 1), (v.getD k 0 / 2) • GA.bl (2 ^ d ||| 2 ^ k) with hg
  have hgf : ∀ i < 2 ^ A.dim, g.fn i = ∑ k ∈ range (d + 1), v.getD k 0 / 2 * if i = 2 ^ d ||| 2 ^ k then 1 else 0 := by
    intro i hi
    rw [hg, GA.fn_sum]
    exact sum_congr rfl fun k _ => by rw [GA.fn_smul, GA.fn_bl _ hi]
  have hgk : ∀ k ≤ d, g.fn (2 ^ d ||| 2 ^ k) = v.getD k 0 / 2 := by
    intro k hk
    rw [hgf _ (by rw [hP.dim]; exact or_two_pow_lt hk), sum_eq_single k]
    · simp
    · intro j hj hne
      rw [if_neg, mul_zero]
      intro h
      exact hne (or_two_pow_inj (by have := mem_range.mp hj; omega) hk h.symm)
    · intro h; exact absurd (mem_range.mpr (by omega)) h
  have henum : Enumerates A.dim ((List.range v.length).map (fun k => (2 ^ d ||| 2 ^ k, v.getD k 0 / 2))) g.fn := by
    refine ⟨?_, ?_, ?_⟩
    · rw [List.map_map]
      refine List.Nodup.map_on ?_ List.nodup_range
      intro j hj k hk h
      rw [List.mem_range] at hj hk
      exact or_two_pow_inj (by omega) (by omega) h
    · intro p hp
      rw [List.mem_map] at hp
      obtain ⟨k, hk, rfl⟩ := hp
      rw [List.mem_range] at hk
      refine ⟨by rw [hP.dim]; exact or_two_pow_lt (by omega), (hgk k (by omega)).symm⟩
    · intro i hi hne
      rw [hgf i hi] at hne
      obtain ⟨k, hk, hkne⟩ := Finset.exists_ne_zero_of_sum_ne_zero hne
      have hk := mem_range.mp hk
      have hik : i = 2 ^ d ||| 2 ^ k := by
        by_contra h
        rw [if_neg h, mul_zero] at hkne
        exact hkne rfl
      have hkl : k < v.length := by
        by_contra h
        apply hkne
        rw [List.getD_eq_default _ _ (by omega)]; simp
      rw [List.mem_map]
      exact ⟨k, List.mem_range.mpr hkl, by rw [hik, hgk k (by omega)]⟩
  obtain ⟨u, hu, huv, huf⟩ := fromIndexedIter_enum hS henum
  rw [hu]
  refine Is.of_ga (huv.set 0 1) ?_
  have h0 : (0 : Nat) < 2 ^ A.dim := Nat.two_pow_pos _
  rw [ga, GA.one_def, ← GA.of_fn g, ← GA.of_add]
  refine GA.of_congr fun i hi => ?_
  rw [huv.set_val h0]
  by_cases hi0 : i = 0
  · subst hi0
    rw [if_pos rfl, hgf 0 h0, sum_eq_zero]
    · simp [single]
    · intro k _
      rw [if_neg, mul_zero]
      intro h
      have h := congrArg (fun x => x.testBit d) h
      simp at h
  · rw [if_neg hi0, huf i hi]
    simp [single, hi0]

theorem sum_bl_eq (hP : IsPga A d) (c : Nat → ℝ) :
    (∑ k ∈ range (d + 1), c k • GA.bl (2 ^ d ||| 2 ^ k) : GA A.sigma A.dim ℝ) = GA.tb d c + c d • GA.e d := by
  rw [sum_range_succ, Nat.or_self]
  unfold GA.tb
  congr 1
  refine sum_congr rfl fun k hk => ?_
  rw [GA.e_mul_e_of_lt (by rw [hP.dim]; omega) (mem_range.mp hk)]

theorem is_translation (hP : IsPga A d) (hS : LawfulStorage.Supp (S := S) (T := ℝ) A.dim) {v : List ℝ} (hv : v.length ≤ d) :
    Is (pgaTranslation (A := A) (S := S) v) (1 + GA.tb d (fun k => v.getD k 0 / 2)) := by
  refine (is_translation' hP hS (by omega)).congr ?_
  rw [sum_bl_eq hP, List.getD_eq_default _ _ hv]
  simp

/-- Extracting coordinates from a multiple of the dual of a vector. -/
theorem extract_ok (hP : IsPga A d) {a : MV A S} (ha : a.Valid) {c : ℝ} {y : Nat → ℝ} (hg : a.ga = c • GA.dual (GA.vec y)) (hc : c ≠ 0)
    (hy : y d ≠ 0) : a.pgaExtractPoint d = .ok ((List.range d).map fun k => y k / y d) := by
  have hd := LawfulStorage.supp_le ha.supp
  rw [hP.dim] at hd
  obtain ⟨s, hs, hsv, hsg⟩ := (is_dual hP.wf ha).ok
  have hval : ∀ k ≤ d, s.getByIdx (2 ^ k) = .ok (c * (GA.csg A.dim : ℝ) * y k) := by
    intro k hk
    have hlt : 2 ^ k < 2 ^ A.dim := GA.two_pow_lt (by rw [hP.dim]; omega)
    rw [hsv.get hlt, ← MV.ga_val hlt, hsg, hg, map_smul, GA.dual_dual_vec, GA.fn_smul, GA.fn_smul,
      GA.fn_vec _ (by rw [hP.dim]; omega), mul_assoc]
  have hcs : (GA.csg A.dim : ℝ) ≠ 0 := by
    intro h
    have := congrArg (Int.cast (R := ℝ)) (GA.csg_mul_self A.dim)
    rw [Int.cast_mul, h] at this
    simp at this
  unfold pgaExtractPoint
  rw [hs]
  show (s.getByIdx A.projMask >>= fun scale => _) = _
  rw [hP.mask, hval d le_rfl]
  show (List.range d).mapM (m := Res) _ = _
  have : ∀ l : List Nat, (∀ k ∈ l, k < d) → l.mapM (m := Res) (fun n => do
      fdiv (← s.getByIdx (ushl 1 n)) (c * (GA.csg A.dim : ℝ) * y d)) = .ok (l.map fun k => y k / y d) := by
    intro l
    induction l with
    | nil => intro _; rfl
    | cons k l ih =>
      intro h
      have hk := h k (by simp)
      rw [List.mapM_cons, ih (fun j hj => h j (by simp [hj])), ushl_one (by omega), hval k (by omega)]
      have : fdiv (c * (GA.csg A.dim : ℝ) * y k) (c * (GA.csg A.dim : ℝ) * y d) = .ok (y k / y d) := by
        unfold fdiv
        rw [if_neg (mul_ne_zero (mul_ne_zero hc hcs) hy), mul_div_mul_left _ _ (mul_ne_zero hc hcs)]
      show (fdiv _ _ >>= fun _ => _) = _
      rw [this]
      rfl
  exact this _ fun k hk => List.mem_range.mp hk

end

end MV

end TClifford

namespace TClifford

open Finset

/-! ### Vectors in the exterior algebra -/

namespace GA
variable {n : Nat} {T : Type} [CommRing T]

/-- The exterior algebra: coefficients multiplied with `wedge`. -/
abbrev Ext (n : Nat) (T : Type) := GA (fun _ => 0) n T

theorem vec_mul_fn {σ : Nat → ℤ} (x : Nat → T) (Y : GA σ n T) {m : Nat} (hm : m < 2 ^ n) :
    (vec x * Y).fn m = ∑ a ∈ range n, x a * ((bsgn σ n (2 ^ a) (2 ^ a ^^^ m) : T) * Y.fn (2 ^ a ^^^ m)) := by
  unfold vec
  rw [sum_mul, fn_sum]
  refine sum_congr rfl fun a ha => ?_
  have ha := mem_range.mp ha
  rw [smul_mul_assoc, fn_smul]
  congr 1
  induction Y using ind with | _ f =>
  unfold e
  rw [← of_mul, fn_of _ hm, geo_single_left _ (two_pow_lt ha), fn_of _ (Nat.xor_lt_two_pow (two_pow_lt ha) hm), one_mul,
    zsmul_eq_mul]

theorem bsgn_null_two_pow {a m : Nat} (ha : a < n) (h : m.testBit a = false) : bsgn (fun _ => 0) n (2 ^ a) (2 ^ a ^^^ m) = 0 := by
  refine bsgn_null ?_
  intro hc
  have := hc a ha
  rw [Nat.testBit_xor, h, Nat.testBit_two_pow_self] at this
  simp at this

theorem bsgn_null_unit {a m : Nat} (h : m.testBit a = true) :
    bsgn (fun _ => 0) n (2 ^ a) (2 ^ a ^^^ m) * bsgn (fun _ => 0) n (2 ^ a) (2 ^ a ^^^ m) = 1 := by
  rw [bsgn_disjoint (fun _ => 0) (fun _ => 1)]
  · exact bsgn_plus_sq _ _ _
  · intro i _
    rw [Nat.testBit_xor, Nat.testBit_two_pow]
    by_cases hi : a = i
    · subst hi; simp [h]
    · simp [hi]

theorem testBit_xor_two_pow {i j a : Nat} (h : i ≠ j) : (2 ^ i ^^^ 2 ^ j).testBit a = (decide (i = a) || decide (j = a)) := by
  rw [Nat.testBit_xor, Nat.testBit_two_pow, Nat.testBit_two_pow]
  by_cases h1 : i = a
  · have : j ≠ a := by omega
    simp [h1, this]
  · simp [h1]

/-- Coefficients of the wedge product of two vectors. -/
theorem vec_wedge_vec (u w : Nat → T) {i j : Nat} (hi : i < n) (hj : j < n) (h : i ≠ j) :
    (vec u * vec w : Ext n T).fn (2 ^ i ^^^ 2 ^ j) =
    (bsgn (fun _ => 0) n (2 ^ i) (2 ^ j) : T) * (u i * w j - u j * w i) := by
  have hm : 2 ^ i ^^^ 2 ^ j < 2 ^ n := Nat.xor_lt_two_pow (two_pow_lt hi) (two_pow_lt hj)
  rw [vec_mul_fn _ _ hm, sum_eq_add i j h]
  · rw [xor_cl, fn_vec _ hj, Nat.xor_comm (2 ^ i), xor_cl, fn_vec _ hi, bsgn_two_pow_ne _ hi hj h, bsgn_two_pow_ne _ hj hi h.symm]
    rcases Nat.lt_or_gt_of_ne h with h | h
    · rw [if_pos h, if_neg (by omega)]; push_cast; ring
    · rw [if_neg (by omega), if_pos h]; push_cast; ring
  · intro a ha hne
    rw [bsgn_null_two_pow (mem_range.mp ha)]
    · simp
    · rw [testBit_xor_two_pow h]; simp [hne.1.symm, hne.2.symm]
  · intro hc; exact absurd (mem_range.mpr hi) hc
  · intro hc; exact absurd (mem_range.mpr hj) hc

theorem vec_wedge_self (u : Nat → T) : (vec u * vec u : Ext n T) = 0 := by
  have h2 : ∀ k < n, (e k * e k : Ext n T) = 0 := fun k hk => by rw [e_sq hk]; simp
  have key : ∀ m ≤ n, ((∑ k ∈ range m, u k • e k) * (∑ k ∈ range m, u k • e k) : Ext n T) = 0 := by
    intro m
    induction m with
    | zero => simp
    | succ m ih =>
      intro hm
      have hc : ((∑ k ∈ range m, u k • e k) * (u m • e m) + (u m • e m) * (∑ k ∈ range m, u k • e k) : Ext n T) = 0 := by
        rw [sum_mul, mul_sum, ← sum_add_distrib]
        refine sum_eq_zero fun k hk => ?_
        have hk := mem_range.mp hk
        rw [smul_mul_smul_comm, smul_mul_smul_comm, e_anti (by omega) (by omega) (by omega), smul_neg, mul_comm (u m)]
        simp
      rw [sum_range_succ, add_mul, mul_add, mul_add, ih (by omega), zero_add, smul_mul_smul_comm (u m), h2 m (by omega), smul_zero, add_zero, hc]
  exact key n le_rfl

theorem vec_wedge_anti (u w : Nat → T) : (vec u * vec w : Ext n T) = -(vec w * vec u) := by
  have h := vec_wedge_self (n := n) (fun k => u k + w k)
  rw [vec_add, add_mul, mul_add, mul_add, vec_wedge_self, vec_wedge_self, zero_add, add_zero] at h
  exact eq_neg_of_add_eq_zero_left h

theorem vec_sub (x y : Nat → T) : (vec (fun k => x k - y k) : Ext n T) = vec x - vec y := by
  unfold vec
  rw [← sum_sub_distrib]
  exact sum_congr rfl fun _ _ => sub_smul _ _ _

end GA

namespace GA
variable {T : Type} [Field T] {n : Nat}

/-- Three points with last coordinate 1 are dependent exactly when they are collinear. -/
theorem collinear_iff {d : Nat} (hn : n = d + 1) {p q x : Nat → T} (hp : p d = 1) (hq : q d = 1) (hx : x d = 1) :
    (vec p * vec q * vec x : Ext n T) = 0 ↔
    (∀ k < d, p k = q k) ∨ ∃ t : T, ∀ k < d, x k = p k + t * (q k - p k) := by
  constructor
  · intro h
    by_cases he : ∀ k < d, p k = q k
    · exact Or.inl he
    right
    push Not at he
    obtain ⟨i, hi, hne⟩ := he
    have hu : q i - p i ≠ 0 := sub_ne_zero.mpr (Ne.symm hne)
    have h' : (vec p * (vec (fun k => q k - p k) * vec (fun k => x k - p k)) : Ext n T) = 0 := by
      have e : ∀ P Q X : Ext n T, P * ((Q - P) * (X - P)) = P * Q * X - P * (Q * P) - P * P * X + P * P * P := by
        intro P Q X; noncomm_ring
      rw [vec_sub, vec_sub, e, h, vec_wedge_anti q p, mul_neg, ← mul_assoc, vec_wedge_self]
      simp
    have hmin : ∀ j < d, j ≠ i → (q i - p i) * (x j - p j) - (q j - p j) * (x i - p i) = 0 := by
      intro j hj hji
      have hm : 2 ^ d ^^^ (2 ^ i ^^^ 2 ^ j) < 2 ^ n := by
        subst hn
        exact Nat.xor_lt_two_pow (two_pow_lt (by omega)) (Nat.xor_lt_two_pow (two_pow_lt (by omega)) (two_pow_lt (by omega)))
      have hd : ∀ a, (2 ^ d ^^^ (2 ^ i ^^^ 2 ^ j)).testBit a = (decide (d = a) || (decide (i = a) || decide (j = a))) := by
        intro a
        rw [Nat.testBit_xor, testBit_xor_two_pow (Ne.symm hji), Nat.testBit_two_pow]
        by_cases h1 : d = a
        · have h2 : i ≠ a := by omega
          have h3 : j ≠ a := by omega
          simp [h1, h2, h3]
        · simp [h1]
      have hc := congrArg (fun g => GA.fn g (2 ^ d ^^^ (2 ^ i ^^^ 2 ^ j))) h'
      beta_reduce at hc
      rw [vec_mul_fn _ _ hm, sum_eq_single d] at hc
      · rw [xor_cl, vec_wedge_vec _ _ (by omega) (by omega) (Ne.symm hji), hp, one_mul] at hc
        have hu1 := bsgn_null_unit (n := n) (a := d) (m := 2 ^ d ^^^ (2 ^ i ^^^ 2 ^ j)) (by rw [hd]; simp)
        have hu2 := bsgn_null_unit (n := n) (a := i) (m := 2 ^ i ^^^ 2 ^ j) (by rw [testBit_xor_two_pow (Ne.symm hji)]; simp)
        rw [xor_cl] at hu1 hu2
        have hz : (0 : Ext n T).fn (2 ^ d ^^^ (2 ^ i ^^^ 2 ^ j)) = 0 := by
          unfold fn; rw [dif_pos hm]; rfl
        rw [hz] at hc
        have hv1 : ((bsgn (fun _ => 0) n (2 ^ d) (2 ^ i ^^^ 2 ^ j) : ℤ) : T) ≠ 0 := by
          intro h0
          have := congrArg (Int.cast (R := T)) hu1
          rw [Int.cast_mul, h0] at this
          simp at this
        have hv2 : ((bsgn (fun _ => 0) n (2 ^ i) (2 ^ j) : ℤ) : T) ≠ 0 := by
          intro h0
          have := congrArg (Int.cast (R := T)) hu2
          rw [Int.cast_mul, h0] at this
          simp at this
        exact (mul_eq_zero.mp ((mul_eq_zero.mp hc).resolve_left hv1)).resolve_left hv2
      · intro a ha hne
        have ha := mem_range.mp ha
        have h2 : ∀ b < d, (vec (fun k => q k - p k) * vec (fun k => x k - p k) : Ext n T).fn (2 ^ d ^^^ 2 ^ b) = 0 := by
          intro b hb
          rw [vec_wedge_vec _ _ (by omega) (by omega) (by omega), hp, hq, hx]
          simp
        by_cases hai : a = i
        · subst hai
          have : 2 ^ a ^^^ (2 ^ d ^^^ (2 ^ a ^^^ 2 ^ j)) = 2 ^ d ^^^ 2 ^ j := by
            rw [← Nat.xor_assoc, Nat.xor_comm (2 ^ a), Nat.xor_assoc, xor_cl]
          rw [this, h2 j hj]; simp
        · by_cases haj : a = j
          · subst haj
            have : 2 ^ a ^^^ (2 ^ d ^^^ (2 ^ i ^^^ 2 ^ a)) = 2 ^ d ^^^ 2 ^ i := by
              rw [← Nat.xor_assoc, Nat.xor_comm (2 ^ a), Nat.xor_assoc, Nat.xor_comm (2 ^ i), xor_cl]
            rw [this, h2 i hi]; simp
          · rw [bsgn_null_two_pow ha]
            · simp
            · rw [hd]; simp [Ne.symm hne, Ne.symm hai, Ne.symm haj]
      · intro hc; exact absurd (mem_range.mpr (by omega)) hc
    refine ⟨(x i - p i) / (q i - p i), fun k hk => ?_⟩
    by_cases hki : k = i
    · subst hki
      rw [div_mul_cancel₀ _ hu]; ring
    · have := hmin k hk hki
      field_simp
      linear_combination this
  · rintro (h | ⟨t, h⟩)
    · have : (vec q : Ext n T) = vec p := vec_congr fun k hk => by
        by_cases hkd : k < d
        · exact (h k hkd).symm
        · have : k = d := by omega
          rw [this, hp, hq]
      rw [this, vec_wedge_self, zero_mul]
    · have : (vec x : Ext n T) = vec p + t • (vec q - vec p) := by
        rw [← vec_sub, ← vec_smul, ← vec_add]
        refine vec_congr fun k hk => ?_
        by_cases hkd : k < d
        · exact h k hkd
        · have : k = d := by omega
          rw [this, hp, hq, hx]; ring
      rw [this, mul_add, mul_smul_comm, mul_sub, mul_assoc _ (vec q) (vec q), vec_wedge_self, mul_zero, zero_sub, mul_assoc,
        vec_wedge_anti q p, mul_neg, ← mul_assoc, vec_wedge_self]
      simp

end GA

end TClifford
