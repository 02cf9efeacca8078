import Verif.Proofs.Sandwich
import Verif.Proofs.Blades
import Mathlib.LinearAlgebra.Matrix.SchurComplement
import Mathlib.LinearAlgebra.Matrix.Charpoly.Basic
import Mathlib.Tactic.LinearCombination
/-
Sandwich products as matrices: reflections and rotations in a plane.
-/

set_option linter.unusedSectionVars false

namespace TClifford

open Finset

namespace GA
variable {σ : Nat → ℤ} {n : Nat} {T : Type} [CommRing T] [DecidableEq T]

theorem dot_add_left (x y z : GA σ n T) : dot (x + y) z = dot x z + dot y z := by unfold dot; rw [add_mul, vfn_add]
theorem dot_smul_left (c : T) (x z : GA σ n T) : dot (c • x) z = c * dot x z := by unfold dot; rw [smul_mul_assoc, vfn_smul]

theorem dot_sum_left (s : Finset Nat) (f : Nat → GA σ n T) (z : GA σ n T) : dot (∑ i ∈ s, f i) z = ∑ i ∈ s, dot (f i) z := by
  induction s using Finset.cons_induction with
  | empty => simp [dot, fn_zero]
  | cons a s ha ih => rw [sum_cons, sum_cons, dot_add_left, ih]

/-- `x · z` in terms of the coefficients of `x`. -/
theorem dot_eq_sum {x : GA σ n T} (hx : IsVec x) (z : GA σ n T) : dot x z = ∑ i : Fin n, x.fn (2 ^ (i : Nat)) * dot (e i) z := by
  conv_lhs => rw [vec_eq_sum hx]
  rw [dot_sum_left, ← Fin.sum_univ_eq_sum_range (fun i => dot (x.fn (2 ^ i) • e i) z)]
  exact sum_congr rfl fun i _ => dot_smul_left _ _ _

theorem fn_e {k j : Nat} (hj : j < n) : (e k : GA σ n T).fn (2 ^ j) = if j = k then 1 else 0 := by
  unfold e
  rw [fn_of _ (Nat.pow_lt_pow_right (by norm_num) hj)]
  unfold single
  by_cases h : j = k
  · rw [if_pos (by rw [h]), if_pos h]
  · rw [if_neg (fun h' => h (Nat.pow_right_injective (le_refl 2) h')), if_neg h]

theorem isVec_e {k : Nat} (hk : k < n) : IsVec (e k : GA σ n T) := by
  intro i hi hc
  unfold e
  rw [fn_of _ hi]
  unfold single
  rw [if_neg]
  rintro rfl
  exact hc (cnt_two_pow hk)

/-- The matrix of a map on vectors: the column `i` has the coefficients of the image of `e_i`. -/
def matOf (f : GA σ n T → GA σ n T) : Matrix (Fin n) (Fin n) T := Matrix.of fun j i => (f (e i)).fn (2 ^ (j : Nat))

theorem matOf_id : matOf (fun x : GA σ n T => x) = 1 := by
  funext j i
  show (e (i : Nat) : GA σ n T).fn (2 ^ (j : Nat)) = _
  rw [fn_e j.2, Matrix.one_apply]
  by_cases h : j = i
  · rw [if_pos (by rw [h]), if_pos h]
  · rw [if_neg (fun h' => h (Fin.ext h')), if_neg h]

theorem matOf_comp (f g : GA σ n T →ₗ[T] GA σ n T) (hg : ∀ x, IsVec x → IsVec (g x)) : matOf (fun x => f (g x)) = matOf f * matOf g := by
  funext j i
  show (f (g (e i))).fn (2 ^ (j : Nat)) = ∑ k : Fin n, (f (e k)).fn (2 ^ (j : Nat)) * (g (e i)).fn (2 ^ (k : Nat))
  conv_lhs => rw [vec_eq_sum (hg _ (isVec_e i.2))]
  rw [map_sum, ← Fin.sum_univ_eq_sum_range (fun k => f ((g (e i)).fn (2 ^ k) • e k))]
  have : ∀ s : Finset (Fin n), (∑ k ∈ s, f ((g (e i)).fn (2 ^ (k : Nat)) • e k)).fn (2 ^ (j : Nat)) =
      ∑ k ∈ s, (f (e k)).fn (2 ^ (j : Nat)) * (g (e i)).fn (2 ^ (k : Nat)) := by
    intro s
    induction s using Finset.cons_induction with
    | empty => simp [fn_zero]
    | cons a s ha ih => rw [sum_cons, sum_cons, vfn_add, ih, map_smul, vfn_smul, mul_comm]
  exact this _

/-- The sandwich as a linear map. -/
def swchL (V : GA σ n T) : GA σ n T →ₗ[T] GA σ n T where
  toFun x := V * x * rev V
  map_add' x y := by rw [mul_add, add_mul]
  map_smul' c x := by rw [mul_smul_comm, smul_mul_assoc]; rfl

/-- The determinant of a reflection. -/
theorem det_reflect (hn : 0 < n) {v : GA σ n T} (hv : IsVec v) : (matOf (swchL v)).det = (-1) ^ (n + 1) * dot v v ^ n := by
  have h : matOf (swchL v) = -(Matrix.scalar (Fin n) (dot v v) - Matrix.vecMulVec (fun j : Fin n => v.fn (2 ^ (j : Nat))) (fun i : Fin n => 2 * dot v (e i))) := by
    funext j i
    show (v * e i * rev v).fn (2 ^ (j : Nat)) = -((Matrix.scalar (Fin n) (dot v v)) j i - v.fn (2 ^ (j : Nat)) * (2 * dot v (e i)))
    rw [hv.rev_eq, hv.reflect (isVec_e i.2), sub_eq_add_neg, vfn_add, ← neg_smul, vfn_smul, vfn_smul, fn_e j.2, Matrix.scalar_apply,
      Matrix.diagonal_apply]
    by_cases h : j = i
    · rw [if_pos (by rw [h]), if_pos h]; ring
    · rw [if_neg (fun h' => h (Fin.ext h')), if_neg h]; ring
  have hdot : (fun j : Fin n => v.fn (2 ^ (j : Nat))) ⬝ᵥ (fun i : Fin n => 2 * dot v (e i)) = 2 * dot v v := by
    rw [dot_eq_sum hv v]
    unfold dotProduct
    rw [mul_sum]
    refine sum_congr rfl fun i _ => ?_
    show v.fn (2 ^ (i : Nat)) * (2 * dot v (e i)) = _
    rw [dot_comm hv (isVec_e i.2)]
    ring
  rw [h, Matrix.det_neg, Fintype.card_fin, ← Matrix.eval_charpoly, Matrix.charpoly_vecMulVec, hdot, Fintype.card_fin]
  obtain ⟨m, rfl⟩ : ∃ m, n = m + 1 := ⟨n - 1, by omega⟩
  simp only [Polynomial.eval_sub, Polynomial.eval_smul, Polynomial.eval_pow, Polynomial.eval_X, smul_eq_mul, Nat.add_sub_cancel]
  rw [pow_succ (-1 : T) (m + 1), pow_succ (dot v v) m]
  ring

/-- The determinant of the sandwich with a product of vectors. -/
theorem det_versor (hn : 0 < n) (l : List (GA σ n T)) (hl : ∀ v ∈ l, IsVec v) :
    (matOf (swchL l.prod)).det = (-1) ^ ((n + 1) * l.length) * normOf l ^ n := by
  induction l with
  | nil =>
    have : (swchL (σ := σ) (n := n) (T := T) [].prod : GA σ n T → GA σ n T) = fun x => x := by
      funext x
      show [].prod * x * rev [].prod = x
      rw [List.prod_nil, rev_one, one_mul, mul_one]
    rw [this, matOf_id]
    simp [normOf]
  | cons v l ih =>
    have hv := hl v (by simp)
    have hl' : ∀ w ∈ l, IsVec w := fun w hw => hl w (by simp [hw])
    have h : (swchL (v :: l).prod : GA σ n T → GA σ n T) = fun x => swchL v (swchL l.prod x) := by
      funext x
      show (v :: l).prod * x * rev (v :: l).prod = v * (l.prod * x * rev l.prod) * rev v
      rw [List.prod_cons, rev_mul]
      simp only [mul_assoc]
    rw [h, matOf_comp _ _ (fun x hx => versor_sandwich l hl' hx), Matrix.det_mul, det_reflect hn hv, ih hl']
    unfold normOf
    rw [List.map_cons, List.prod_cons, List.length_cons, mul_pow, mul_add, pow_add]
    ring

end GA

/-! ### Rotations in a plane -/

namespace GA
variable {σ : Nat → ℤ} {n : Nat} {T : Type} [Field T] [DecidableEq T] {a b : GA σ n T}

/-- The bivector `a b - a · b`. -/
def biv (a b : GA σ n T) : GA σ n T := a * b - dot a b • (1 : GA σ n T)

theorem mul_swap {v w : GA σ n T} (hv : IsVec v) (hw : IsVec w) : v * w = (2 * dot v w) • (1 : GA σ n T) - w * v := by
  rw [← hv.mul_add hw]; abel

theorem wdg_eq_biv (h2 : (2 : T) ≠ 0) (ha : IsVec a) (hb : IsVec b) : wdg a b = biv a b := by
  have h := ha.wdg_eq b
  rw [hb.flip_eq, neg_mul, ← sub_eq_add_neg] at h
  have h3 : (2 : T) • biv a b = a * b - b * a := by
    unfold biv
    rw [mul_swap hb ha, dot_comm hb ha, smul_sub, smul_smul, two_smul]
    abel
  rw [← h3] at h
  have h4 := congrArg (fun z => (2 : T)⁻¹ • z) h
  simpa [smul_smul, inv_mul_cancel₀ h2] using h4

theorem rev_biv (ha : IsVec a) (hb : IsVec b) : rev (biv a b) = -biv a b := by
  unfold biv
  rw [map_sub, rev_mul, map_smul, rev_one, ha.rev_eq, hb.rev_eq, mul_swap hb ha, dot_comm hb ha, mul_comm 2, mul_smul]
  rw [show (2 : T) • (1 : GA σ n T) = 1 + 1 from by rw [two_smul], smul_add]
  abel

theorem comm_biv (ha : IsVec a) (hb : IsVec b) {v : GA σ n T} (hv : IsVec v) :
    biv a b * v = v * biv a b - ((2 * dot v a) • b - (2 * dot v b) • a) := by
  unfold biv
  have h1 : a * b * v = (2 * dot v b) • a - a * v * b := by
    rw [mul_assoc, mul_swap hb hv, dot_comm hb hv, mul_sub, mul_smul_comm, mul_one, mul_assoc]
  have h2 : v * (a * b) = (2 * dot v a) • b - a * v * b := by
    rw [← mul_assoc, mul_swap hv ha, sub_mul, smul_mul_assoc, one_mul]
  rw [sub_mul, mul_sub, h1, h2, smul_mul_assoc, mul_smul_comm, one_mul, mul_one]
  abel

theorem mul_biv_left (ha : IsVec a) : a * biv a b = dot a a • b - dot a b • a := by
  unfold biv
  rw [mul_sub, ← mul_assoc, ha.sq, smul_mul_assoc, one_mul, mul_smul_comm, mul_one]

theorem mul_biv_right (ha : IsVec a) (hb : IsVec b) : b * biv a b = dot a b • b - dot b b • a := by
  unfold biv
  rw [mul_sub, ← mul_assoc, mul_swap hb ha, dot_comm hb ha, sub_mul, mul_assoc, hb.sq, smul_mul_assoc, one_mul, mul_smul_comm,
    mul_smul_comm, mul_one, mul_one, two_mul, add_smul]
  abel

theorem biv_sq (ha : IsVec a) (hb : IsVec b) : biv a b * biv a b = (dot a b ^ 2 - dot a a * dot b b) • (1 : GA σ n T) := by
  conv_lhs => rw [show biv a b * biv a b = (a * b - dot a b • (1 : GA σ n T)) * biv a b from rfl]
  rw [sub_mul, mul_assoc, mul_biv_right ha hb, mul_sub, mul_smul_comm, mul_smul_comm, smul_mul_assoc, one_mul, ha.sq]
  unfold biv
  rw [smul_sub, smul_smul, smul_smul, sub_smul, pow_two, mul_comm (dot b b)]
  abel

/-- The sandwich of a vector with `c + s B`. -/
theorem rotor_sandwich (ha : IsVec a) (hb : IsVec b) (c s : T) {v : GA σ n T} (hv : IsVec v) :
    (c • (1 : GA σ n T) - s • biv a b) * v * (c • (1 : GA σ n T) + s • biv a b) =
      (c ^ 2 + s ^ 2 * (dot a a * dot b b - dot a b ^ 2)) • v +
      (2 * c * s * dot v a + 2 * s ^ 2 * (dot v a * dot a b - dot v b * dot a a)) • b -
      (2 * c * s * dot v b + 2 * s ^ 2 * (dot v a * dot b b - dot v b * dot a b)) • a := by
  have h1 : (c • (1 : GA σ n T) - s • biv a b) * v * (c • (1 : GA σ n T) + s • biv a b) =
      (c ^ 2) • v + (c * s) • (v * biv a b - biv a b * v) - (s ^ 2) • (biv a b * v * biv a b) := by
    simp only [sub_mul, mul_add, smul_mul_assoc, mul_smul_comm, one_mul, mul_one, smul_sub, smul_smul, pow_two, mul_comm s c]
    abel
  have h2 : v * biv a b - biv a b * v = (2 * dot v a) • b - (2 * dot v b) • a := by rw [comm_biv ha hb hv]; abel
  have h3 : biv a b * v * biv a b = (dot a b ^ 2 - dot a a * dot b b) • v -
      ((2 * dot v a) • (dot a b • b - dot b b • a) - (2 * dot v b) • (dot a a • b - dot a b • a)) := by
    rw [comm_biv ha hb hv, sub_mul, mul_assoc, biv_sq ha hb, sub_mul, smul_mul_assoc, smul_mul_assoc, mul_biv_left ha,
      mul_biv_right ha hb, mul_smul_comm, mul_one]
  rw [h1, h2, h3]
  module

theorem rotor_vec (ha : IsVec a) (hb : IsVec b) (c s : T) {v : GA σ n T} (hv : IsVec v) :
    IsVec ((c • (1 : GA σ n T) - s • biv a b) * v * (c • (1 : GA σ n T) + s • biv a b)) := by
  rw [rotor_sandwich ha hb c s hv]
  exact ((hv.smul _).add (hb.smul _)).sub (ha.smul _)

/-- The determinant of a rotation. -/
theorem det_rotor (ha : IsVec a) (hb : IsVec b) {c s : T} (hk : c ^ 2 + s ^ 2 * (dot a a * dot b b - dot a b ^ 2) ≠ 0) :
    (matOf fun v => (c • (1 : GA σ n T) - s • biv a b) * v * (c • (1 : GA σ n T) + s • biv a b)).det =
      (c ^ 2 + s ^ 2 * (dot a a * dot b b - dot a b ^ 2)) ^ n := by
  set κ := c ^ 2 + s ^ 2 * (dot a a * dot b b - dot a b ^ 2) with hκ
  let U : Matrix (Fin n) (Fin 2) T := Matrix.of fun j => ![b.fn (2 ^ (j : Nat)), -a.fn (2 ^ (j : Nat))]
  let Y : Matrix (Fin 2) (Fin n) T := Matrix.of
    ![fun i => 2 * c * s * dot (e i) a + 2 * s ^ 2 * (dot (e i) a * dot a b - dot (e i) b * dot a a),
      fun i => 2 * c * s * dot (e i) b + 2 * s ^ 2 * (dot (e i) a * dot b b - dot (e i) b * dot a b)]
  have hM : (matOf fun v => (c • (1 : GA σ n T) - s • biv a b) * v * (c • (1 : GA σ n T) + s • biv a b)) =
      κ • ((1 : Matrix (Fin n) (Fin n) T) + U * (κ⁻¹ • Y)) := by
    rw [Matrix.mul_smul, smul_add, smul_smul, mul_inv_cancel₀ hk, one_smul]
    funext j i
    show ((c • (1 : GA σ n T) - s • biv a b) * e i * (c • (1 : GA σ n T) + s • biv a b)).fn (2 ^ (j : Nat)) =
      κ * (1 : Matrix (Fin n) (Fin n) T) j i + ∑ k : Fin 2, U j k * Y k i
    rw [rotor_sandwich ha hb c s (isVec_e i.2), ← hκ, sub_eq_add_neg, ← neg_smul, vfn_add, vfn_add, vfn_smul, vfn_smul, vfn_smul, fn_e j.2,
      Fin.sum_univ_two, Matrix.one_apply]
    have : (if (j : Nat) = (i : Nat) then (1 : T) else 0) = if j = i then 1 else 0 := by
      by_cases h : j = i
      · rw [if_pos (by rw [h]), if_pos h]
      · rw [if_neg (fun h' => h (Fin.ext h')), if_neg h]
    rw [this]
    simp [U, Y]
    ring
  have hYU : Y * U = !![2 * c * s * dot a b + 2 * s ^ 2 * (dot a b ^ 2 - dot a a * dot b b), -(2 * c * s * dot a a);
      2 * c * s * dot b b, -(2 * c * s * dot a b + 2 * s ^ 2 * (dot a a * dot b b - dot a b ^ 2))] := by
    have s1 : ∑ i : Fin n, b.fn (2 ^ (i : Nat)) * dot (e i) a = dot a b := by rw [← dot_eq_sum hb, dot_comm hb ha]
    have s2 : ∑ i : Fin n, a.fn (2 ^ (i : Nat)) * dot (e i) a = dot a a := by rw [← dot_eq_sum ha]
    have s3 : ∑ i : Fin n, b.fn (2 ^ (i : Nat)) * dot (e i) b = dot b b := by rw [← dot_eq_sum hb]
    have s4 : ∑ i : Fin n, a.fn (2 ^ (i : Nat)) * dot (e i) b = dot a b := by rw [← dot_eq_sum ha]
    have key : ∀ (x : Fin n → T) (p q : T), ∑ i : Fin n, (p * dot (e i) a + q * dot (e i) b) * x i =
        p * (∑ i : Fin n, x i * dot (e i) a) + q * ∑ i : Fin n, x i * dot (e i) b := by
      intro x p q
      rw [mul_sum, mul_sum, ← sum_add_distrib]
      exact sum_congr rfl fun i _ => by ring
    have f0 : ∀ i : Fin n, Y 0 i = (2 * c * s + 2 * s ^ 2 * dot a b) * dot (e i) a + (-(2 * s ^ 2 * dot a a)) * dot (e i) b := by
      intro i; simp [Y]; ring
    have f1 : ∀ i : Fin n, Y 1 i = (2 * s ^ 2 * dot b b) * dot (e i) a + (2 * c * s - 2 * s ^ 2 * dot a b) * dot (e i) b := by
      intro i; simp [Y]; ring
    have u0 : ∀ i : Fin n, U i 0 = b.fn (2 ^ (i : Nat)) := fun i => rfl
    have u1 : ∀ i : Fin n, U i 1 = -a.fn (2 ^ (i : Nat)) := fun i => rfl
    funext p q
    fin_cases p <;> fin_cases q
    · show ∑ i, Y 0 i * U i 0 = 2 * c * s * dot a b + 2 * s ^ 2 * (dot a b ^ 2 - dot a a * dot b b)
      simp only [f0, u0, key, s1, s3]; ring
    · show ∑ i, Y 0 i * U i 1 = -(2 * c * s * dot a a)
      simp only [f0, u1, mul_neg, sum_neg_distrib, key, s2, s4]; ring
    · show ∑ i, Y 1 i * U i 0 = 2 * c * s * dot b b
      simp only [f1, u0, key, s1, s3]; ring
    · show ∑ i, Y 1 i * U i 1 = -(2 * c * s * dot a b + 2 * s ^ 2 * (dot a a * dot b b - dot a b ^ 2))
      simp only [f1, u1, mul_neg, sum_neg_distrib, key, s2, s4]; ring
  rw [hM, Matrix.det_smul, Fintype.card_fin, Matrix.det_one_add_mul_comm, Matrix.smul_mul, hYU, Matrix.det_fin_two]
  have hdet : ((1 : Matrix (Fin 2) (Fin 2) T) + κ⁻¹ • !![2 * c * s * dot a b + 2 * s ^ 2 * (dot a b ^ 2 - dot a a * dot b b), -(2 * c * s * dot a a);
      2 * c * s * dot b b, -(2 * c * s * dot a b + 2 * s ^ 2 * (dot a a * dot b b - dot a b ^ 2))]).det = 1 := by
    rw [Matrix.det_fin_two]
    simp only [Matrix.add_apply, Matrix.smul_apply, Matrix.one_apply, Matrix.of_apply, Matrix.cons_val', Matrix.cons_val_zero,
      Matrix.cons_val_one, smul_eq_mul, if_true, Fin.isValue, zero_ne_one, one_ne_zero, if_false, zero_add, Matrix.cons_val_fin_one]
    field_simp
    rw [hκ]
    ring
  rw [← Matrix.det_fin_two, hdet, mul_one]

theorem rotor_mul_rev (ha : IsVec a) (hb : IsVec b) (c s : T) :
    (c • (1 : GA σ n T) + s • biv a b) * (c • (1 : GA σ n T) - s • biv a b) =
      (c ^ 2 + s ^ 2 * (dot a a * dot b b - dot a b ^ 2)) • (1 : GA σ n T) := by
  have h : (c • (1 : GA σ n T) + s • biv a b) * (c • (1 : GA σ n T) - s • biv a b) = (c ^ 2) • (1 : GA σ n T) - (s ^ 2) • (biv a b * biv a b) := by
    simp only [mul_sub, add_mul, smul_mul_assoc, mul_smul_comm, one_mul, mul_one, smul_add, smul_smul, pow_two, mul_comm s c]
    abel
  rw [h, biv_sq ha hb]
  module

theorem rev_mul_rotor (ha : IsVec a) (hb : IsVec b) (c s : T) :
    (c • (1 : GA σ n T) - s • biv a b) * (c • (1 : GA σ n T) + s • biv a b) =
      (c ^ 2 + s ^ 2 * (dot a a * dot b b - dot a b ^ 2)) • (1 : GA σ n T) := by
  have h := rotor_mul_rev ha hb c (-s)
  rw [neg_smul, sub_neg_eq_add, ← sub_eq_add_neg, neg_sq] at h
  exact h

theorem rev_rotor (ha : IsVec a) (hb : IsVec b) (c s : T) :
    rev (c • (1 : GA σ n T) + s • biv a b) = c • (1 : GA σ n T) - s • biv a b := by
  rw [map_add, map_smul, map_smul, rev_one, rev_biv ha hb, smul_neg, sub_eq_add_neg]

theorem rotor_dot (h2 : (2 : T) ≠ 0) (ha : IsVec a) (hb : IsVec b) (c s : T) {v w : GA σ n T} (hv : IsVec v) (hw : IsVec w) :
    dot ((c • (1 : GA σ n T) - s • biv a b) * v * (c • (1 : GA σ n T) + s • biv a b))
      ((c • (1 : GA σ n T) - s • biv a b) * w * (c • (1 : GA σ n T) + s • biv a b)) =
      (c ^ 2 + s ^ 2 * (dot a a * dot b b - dot a b ^ 2)) ^ 2 * dot v w := by
  have hR := rotor_mul_rev ha hb c s
  have hR' := rev_mul_rotor ha hb c s
  have h1 := (rotor_vec ha hb c s hv).mul_add (rotor_vec ha hb c s hw)
  set κ := c ^ 2 + s ^ 2 * (dot a a * dot b b - dot a b ^ 2) with hκ
  set R := c • (1 : GA σ n T) + s • biv a b
  set Q := c • (1 : GA σ n T) - s • biv a b
  have key : ∀ x y : GA σ n T, Q * x * R * (Q * y * R) = κ • (Q * (x * y) * R) := by
    intro x y
    rw [show Q * x * R * (Q * y * R) = Q * x * (R * Q) * y * R from by simp only [mul_assoc], hR]
    simp only [mul_smul_comm, smul_mul_assoc, mul_one, mul_assoc]
  have h3 := hv.mul_add hw
  rw [key, key, ← smul_add, ← add_mul, ← mul_add, h3, mul_smul_comm, mul_one, smul_mul_assoc, hR', smul_smul, smul_smul] at h1
  have h4 := congrArg (fun z => GA.fn z 0) h1
  simp only [fn_zero_smul_one] at h4
  have h5 : (2 : T) * (dot (Q * v * R) (Q * w * R)) = 2 * (κ ^ 2 * dot v w) := by rw [← h4]; ring
  exact mul_left_cancel₀ h2 h5

theorem dot_e (i j : Fin n) : dot (e i : GA σ n T) (e j) = if i = j then (σ i : T) else 0 := by
  have h2 : ∀ k : Fin n, 2 ^ (k : Nat) < 2 ^ n := fun k => Nat.pow_lt_pow_right (by norm_num) k.2
  unfold dot
  rw [show (e i : GA σ n T) = bl (2 ^ (i : Nat)) from rfl, show (e j : GA σ n T) = bl (2 ^ (j : Nat)) from rfl, bl_mul_bl (h2 i), vfn_smul]
  unfold bl
  rw [fn_of _ (Nat.two_pow_pos n)]
  unfold single
  by_cases h : i = j
  · subst h
    rw [if_pos rfl, if_pos (Nat.xor_self _).symm, mul_one, bsgn_two_pow_eq _ i.2]
  · rw [if_neg h, if_neg, mul_zero]
    intro h'
    exact h (Fin.ext (Nat.pow_right_injective (le_refl 2) (Nat.xor_eq_zero_iff.mp h'.symm)))

/-- A map that multiplies the dot products of vectors by a factor, as a matrix. -/
theorem matOf_orth (f : GA σ n T → GA σ n T) {c : T} (hf : ∀ i : Fin n, IsVec (f (e i)))
    (h : ∀ i j : Fin n, dot (f (e i)) (f (e j)) = c * dot (e i : GA σ n T) (e j)) :
    (matOf f).transpose * Matrix.diagonal (fun i : Fin n => (σ i : T)) * matOf f = c • Matrix.diagonal (fun i : Fin n => (σ i : T)) := by
  funext i j
  have h1 : dot (f (e i)) (f (e j)) = ∑ k : Fin n, (f (e i)).fn (2 ^ (k : Nat)) * ((σ k : T) * (f (e j)).fn (2 ^ (k : Nat))) := by
    rw [dot_eq_sum (hf i)]
    refine sum_congr rfl fun k _ => ?_
    congr 1
    rw [dot_comm (isVec_e k.2) (hf j), dot_eq_sum (hf j), sum_eq_single k]
    · rw [dot_e, if_pos rfl, mul_comm]
    · intro l _ hl
      rw [dot_e, if_neg hl, mul_zero]
    · intro hk; exact absurd (mem_univ k) hk
  have h2 := h i j
  rw [h1, dot_e] at h2
  rw [Matrix.mul_assoc, Matrix.mul_apply, Matrix.smul_apply, Matrix.diagonal_apply, smul_eq_mul, ← h2]
  refine sum_congr rfl fun k _ => ?_
  rw [Matrix.diagonal_mul]
  rfl

end GA

end TClifford
