import Verif.Props.Inverse
import Mathlib.Analysis.Quaternion
/-
C36 for `matrix_inv` itself (src/fftrepr/matrix.rs), with entries in any division ring: the crate's tests use it with quaternions.
-/

set_option linter.unusedSectionVars false

namespace TClifford

open Finset

section
variable {T N : Type} [DivisionRing T] [DecidableEq T] [LinearOrder N] [Zero N]

/-- `Array2::eye(n)` -/
def eye (T : Type) [Zero T] [One T] (n : Nat) : Arr2 T := ⟨n, n, fun i j => if i = j then 1 else 0⟩

theorem foldl_mul_sum (n : Nat) (f : Nat → T) : ((List.range n).map f).foldl (· + ·) 0 = ∑ k ∈ range n, f k := by
  induction n with
  | zero => simp
  | succ n ih => rw [List.range_succ, List.map_append, List.foldl_append, ih, Finset.sum_range_succ]; rfl

theorem same2_dot {x y : Arr2 T} {n : Nat} (hx : x.rows = n) (hx' : x.cols = n) (hy : y.rows = n) (hy' : y.cols = n)
    (h : ∀ i < n, ∀ j < n, ∑ k ∈ range n, x.get i k * y.get k j = if i = j then 1 else 0) :
    Same2 (x.dot y) (.ok (eye T n)) := by
  refine ⟨_, _, if_pos (hx'.trans hy.symm), rfl, hx, hy', fun i hi j hj => ?_⟩
  rw [hx] at hi
  rw [hy'] at hj
  dsimp only
  rw [hx', foldl_mul_sum, h i hi j hj]
  rfl

/-- **C36.** If `matrix_inv(mat)` is `Some(y)` then `mat` is square and `y` is its inverse on both sides, for entries in any division
ring; in particular for matrices of quaternions. -/
theorem C36_matrix_inv {norm : T → N} (hN : ∀ x, norm x = 0 ↔ x = 0) {mat y : Arr2 T} (h : matrixInv norm mat = some y) :
    mat.rows = mat.cols ∧ Same2 (y.dot mat) (.ok (eye T mat.rows)) ∧ Same2 (mat.dot y) (.ok (eye T mat.rows)) := by
  obtain ⟨h1, h2, h3, h4⟩ := matrixInv_left hN h
  refine ⟨h1.symm, same2_dot h2 h3 rfl h1 h4, same2_dot rfl h1 h2 h3 ?_⟩
  let n := mat.rows
  let Y : Matrix (Fin n) (Fin n) T := fun i j => y.get i j
  let M : Matrix (Fin n) (Fin n) T := fun i j => mat.get i j
  have hYM : Y * M = 1 := by
    ext i j
    rw [Matrix.mul_apply, Matrix.one_apply, Fin.sum_univ_eq_sum_range (fun k => y.get i k * mat.get k j)]
    rw [h4 i i.2 j j.2]
    simp only [Fin.ext_iff]
  have hMY : M * Y = 1 := mul_eq_one_symm hYM
  intro i hi j hj
  have := congrFun (congrFun hMY ⟨i, hi⟩) ⟨j, hj⟩
  rw [Matrix.mul_apply, Matrix.one_apply, Fin.sum_univ_eq_sum_range (fun k => mat.get i k * y.get k j)] at this
  simpa using this

/-- **C36.** The inverse that `matrix_inv` returns is the only one: every left inverse is equal to it. -/
theorem C36_matrix_inv_unique {norm : T → N} (hN : ∀ x, norm x = 0 ↔ x = 0) {mat y z : Arr2 T} (h : matrixInv norm mat = some y)
    (hz : z.rows = mat.rows ∧ z.cols = mat.rows) (h1 : Same2 (z.dot mat) (.ok (eye T mat.rows))) : Same2 (.ok z) (.ok y) := by
  obtain ⟨hsq, -, hr⟩ := C36_matrix_inv hN h
  obtain ⟨h1', h2, h3, -⟩ := matrixInv_left hN h
  obtain ⟨a, b, ha, hb, ha1, ha2, hab⟩ := h1
  obtain ⟨c, d, hc, hd, hc1, hc2, hcd⟩ := hr
  cases hb
  cases hd
  unfold Arr2.dot at ha hc
  rw [if_pos (by omega)] at ha hc
  cases ha
  cases hc
  refine ⟨z, y, rfl, rfl, by omega, by omega, fun i hi j hj => ?_⟩
  dsimp only at hab hcd
  have e1 : ∀ i < mat.rows, ∀ j < mat.rows, ∑ k ∈ range mat.rows, z.get i k * mat.get k j = if i = j then 1 else 0 := by
    intro i hi j hj
    have := hab i (by omega) j (by omega)
    rw [foldl_mul_sum, hz.2] at this
    exact this
  have e2 : ∀ i < mat.rows, ∀ j < mat.rows, ∑ k ∈ range mat.rows, mat.get i k * y.get k j = if i = j then 1 else 0 := by
    intro i hi j hj
    have := hcd i (by omega) j (by omega)
    rw [foldl_mul_sum, ← hsq] at this
    exact this
  rw [hz.1] at hi
  rw [hz.2] at hj
  have key : ∑ l ∈ range mat.rows, (∑ k ∈ range mat.rows, z.get i k * mat.get k l) * y.get l j =
      ∑ k ∈ range mat.rows, z.get i k * ∑ l ∈ range mat.rows, mat.get k l * y.get l j := by
    simp only [Finset.sum_mul, Finset.mul_sum]
    rw [Finset.sum_comm]
    simp only [mul_assoc]
  have k1 : ∑ l ∈ range mat.rows, (∑ k ∈ range mat.rows, z.get i k * mat.get k l) * y.get l j = y.get i j := by
    rw [Finset.sum_congr rfl (g := fun l => (if i = l then 1 else 0) * y.get l j)
      (fun l hl => by rw [e1 i hi l (Finset.mem_range.mp hl)])]
    simp [hi]
  have k2 : ∑ k ∈ range mat.rows, z.get i k * ∑ l ∈ range mat.rows, mat.get k l * y.get l j = z.get i j := by
    rw [Finset.sum_congr rfl (g := fun k => z.get i k * if k = j then 1 else 0)
      (fun k hk => by rw [e2 k (Finset.mem_range.mp hk) j hj])]
    simp [hj]
  rw [← k1, key, k2]

end

namespace Ex

open Quaternion

/-- The first matrix of quaternions of `minv_test`, src/fftrepr/matrix.rs:146-150: `i j j; k k j; 1 i j`. -/
def qmat : Arr2 ℍ[ℚ] := ⟨3, 3, fun i j =>
  ([⟨0, 1, 0, 0⟩, ⟨0, 0, 1, 0⟩, ⟨0, 0, 1, 0⟩, ⟨0, 0, 0, 1⟩, ⟨0, 0, 0, 1⟩, ⟨0, 0, 1, 0⟩, ⟨1, 0, 0, 0⟩, ⟨0, 1, 0, 0⟩, ⟨0, 0, 1, 0⟩] :
    List ℍ[ℚ]).getD (3 * i + j) 0⟩

instance : DecidableEq ℍ[ℚ] := fun a b =>
  if h : a.re = b.re ∧ a.imI = b.imI ∧ a.imJ = b.imJ ∧ a.imK = b.imK then isTrue (QuaternionAlgebra.ext h.1 h.2.1 h.2.2.1 h.2.2.2)
  else isFalse fun e => h (by rw [e]; exact ⟨rfl, rfl, rfl, rfl⟩)

/-- The squared norm. -/
def qn (q : ℍ[ℚ]) : ℚ := q.re * q.re + q.imI * q.imI + q.imJ * q.imJ + q.imK * q.imK

theorem qn_zero (q : ℍ[ℚ]) : qn q = 0 ↔ q = 0 := by
  constructor
  · intro h
    unfold qn at h
    have h1 := mul_self_nonneg q.re
    have h2 := mul_self_nonneg q.imI
    have h3 := mul_self_nonneg q.imJ
    have h4 := mul_self_nonneg q.imK
    exact QuaternionAlgebra.ext (mul_self_eq_zero.mp (by linarith)) (mul_self_eq_zero.mp (by linarith))
      (mul_self_eq_zero.mp (by linarith)) (mul_self_eq_zero.mp (by linarith))
  · rintro rfl
    decide +kernel

theorem qmat_inv : (matrixInv qn qmat).isSome = true := by decide +kernel

/-- The matrix has an inverse, which `matrix_inv` finds, although its entries do not commute. -/
example : ∃ y, matrixInv qn qmat = some y ∧ Same2 (y.dot qmat) (.ok (eye ℍ[ℚ] 3)) ∧ Same2 (qmat.dot y) (.ok (eye ℍ[ℚ] 3)) := by
  obtain ⟨y, hy⟩ := Option.isSome_iff_exists.mp qmat_inv
  exact ⟨y, hy, (C36_matrix_inv qn_zero hy).2⟩

/-- Any other left inverse is the one found. -/
example (z : Arr2 ℍ[ℚ]) (hz : z.rows = 3 ∧ z.cols = 3) (h : Same2 (z.dot qmat) (.ok (eye ℍ[ℚ] 3))) :
    ∃ y, matrixInv qn qmat = some y ∧ Same2 (.ok z) (.ok y) := by
  obtain ⟨y, hy⟩ := Option.isSome_iff_exists.mp qmat_inv
  exact ⟨y, hy, C36_matrix_inv_unique qn_zero hy hz h⟩

end Ex

end TClifford
