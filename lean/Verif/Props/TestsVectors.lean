import Verif.Props.ComplexNormF
import Verif.Props.MakeArray
import Verif.Props.TestsDual
import Verif.Props.TestsRandom
/-
The assertions of `dual_test` on random vectors, tests/unit.rs:487-514, with rounding (C87), in all dimensions up to 30. The
`dot` of ndarray may add up the products in any order.
-/

set_option linter.unusedSectionVars false

namespace TClifford

open MV Finset FloatModel

/-! ### `dot` of ndarray -/

section
variable {F : Type} [Zero F] [One F] [Add F] [Sub F] [Neg F] [Mul F] [Div F]

/-- `v` is a sum of the numbers `t i` for `i` in the list, in the given order and with arbitrary parentheses and zeros. -/
inductive SumIn (t : Nat → F) : List Nat → F → Prop
  | nil : SumIn t [] 0
  | one (i : Nat) : SumIn t [i] (t i)
  | add {l m : List Nat} {v w : F} : SumIn t l v → SumIn t m w → SumIn t (l ++ m) (v + w)

/-- `v` is a result of `Array1::dot` for the arrays `xs` and `ys`: the sum of the products in some order, some of them possibly
in separate partial sums that start with zero (ndarray uses eight of them). -/
def DotOf (xs ys : List F) (v : F) : Prop :=
  ∃ l : List Nat, l.Perm (List.range xs.length) ∧ SumIn (fun i => xs.getD i 0 * ys.getD i 0) l v

/-- `m` is a result of `Array2::dot` for the matrix with the diagonal `d` and the array `xs`. -/
def DiagDot (d xs m : List F) : Prop :=
  m.length = d.length ∧ ∀ i < d.length, DotOf ((List.range d.length).map fun j => if i = j then d.getD i 0 else 0) xs (m.getD i 0)

variable [FloatModel F] [DecidableEq F]

theorem SumIn.acc {x y : Nat → F} {l : List Nat} {v : F} (h : SumIn (fun i => x i * y i) l v) (hx : ∀ i ∈ l, fin (x i)) (hy : ∀ i ∈ l, fin (y i)) :
    Acc v (l.map fun i => tau 1 (x i) (y i)).sum := by
  induction h with
  | nil => exact Acc.zero
  | one i =>
    have h := (sumInv_acc (F := F)).plus Acc.zero (hx i (by simp)) (hy i (by simp))
    rw [FloatModel.zero_add, _root_.zero_add] at h
    simpa using h
  | add _ _ h1 h2 =>
    rw [List.map_append, List.sum_append]
    exact (h1 (fun i hi => hx i (by simp [hi])) fun i hi => hy i (by simp [hi])).add
      (h2 (fun i hi => hx i (by simp [hi])) fun i hi => hy i (by simp [hi]))

theorem DotOf.near {xs ys : List F} {v : F} (h : DotOf xs ys v) (hx : ∀ i < xs.length, fin (xs.getD i 0)) (hy : ∀ i < xs.length, fin (ys.getD i 0))
    (hb : absSum (range xs.length) (fun i => xs.getD i 0) (fun i => ys.getD i 0) +
      errB F (absSum (range xs.length) (fun i => xs.getD i 0) (fun i => ys.getD i 0))
        (nTerms (range xs.length) (fun i => xs.getD i 0) (fun i => ys.getD i 0)) ≤ Ω F) :
    fin v ∧ |re v - ∑ i ∈ range xs.length, re (xs.getD i 0) * re (ys.getD i 0)| ≤
      errB F (absSum (range xs.length) (fun i => xs.getD i 0) (fun i => ys.getD i 0))
        (nTerms (range xs.length) (fun i => xs.getD i 0) (fun i => ys.getD i 0)) := by
  obtain ⟨l, hl, hs⟩ := h
  have hlt : ∀ i ∈ l, i < xs.length := fun i hi => List.mem_range.mp (hl.mem_iff.mp hi)
  have h := hs.acc (fun i hi => hx i (hlt i hi)) (fun i hi => hy i (hlt i hi))
  rw [(hl.map fun i => tau 1 (xs.getD i 0) (ys.getD i 0)).sum_eq] at h
  have e : ((List.range xs.length).map fun i => tau 1 (xs.getD i 0) (ys.getD i 0)).sum =
      ∑ i ∈ range xs.length, tau 1 (xs.getD i 0) (ys.getD i 0) := rfl
  rw [e] at h
  have := Acc.of_sum (c := fun _ => 1) (subset_refl _) h (fun _ _ => by simp) (fun i h1 h2 => absurd h1 h2) hb
  simpa only [one_smul] using this

end

/-! ### Vectors -/

section
variable {A : ClAlg}

/-- A sum over the blades is a sum over the generators if only they contribute. -/
theorem sum_generators {M : Type} [AddCommMonoid M] {n : Nat} (f : Nat → M) (h : ∀ i < 2 ^ n, (∀ k < n, i ≠ 2 ^ k) → f i = 0) :
    ∑ i ∈ range (2 ^ n), f i = ∑ k ∈ range n, f (2 ^ k) := by
  symm
  rw [← sum_image (s := range n) (g := fun k => 2 ^ k) (f := f) (fun i _ j _ h => Nat.pow_right_injective le_rfl h)]
  refine sum_subset (fun i hi => ?_) fun i hi hn => h i (mem_range.mp hi) fun k hk e => hn (mem_image.mpr ⟨k, mem_range.mpr hk, e.symm⟩)
  obtain ⟨k, hk, rfl⟩ := mem_image.mp hi
  exact mem_range.mpr (Nat.pow_lt_pow_right (by norm_num) (mem_range.mp hk))

theorem vecF_off (l : List F64) {n i : Nat} (hi : i < 2 ^ n) (h : ∀ k < n, i ≠ 2 ^ k) : vecF l i = 0 :=
  if_neg fun hc => by
    obtain ⟨k, hk, e⟩ := eq_two_pow_of_countOnes hi hc
    exact h k hk e

theorem nTerms_vec {n : Nat} {x y : Nat → F64} (h : ∀ i < 2 ^ n, (∀ k < n, i ≠ 2 ^ k) → x i = 0) {s : Finset Nat} (hs : s ⊆ range (2 ^ n)) :
    nTerms s x y ≤ n := by
  unfold nTerms
  refine (card_le_card (t := (range n).image fun k => 2 ^ k) fun i hi => ?_).trans (card_image_le.trans (card_range n).le)
  obtain ⟨h1, h2, -⟩ := mem_filter.mp hi
  by_contra hn
  exact h2 (h i (mem_range.mp (hs h1)) fun k hk e => hn (mem_image.mpr ⟨k, mem_range.mpr hk, e.symm⟩))

theorem absSum_vec {n : Nat} {x y : Nat → F64} (h : ∀ i < 2 ^ n, (∀ k < n, i ≠ 2 ^ k) → x i = 0) {c : ℝ} (hx : ∀ i < 2 ^ n, |re (x i)| ≤ 1)
    (hy : ∀ i < 2 ^ n, |re (y i)| ≤ c) {s : Finset Nat} (hs : s ⊆ range (2 ^ n)) : absSum s x y ≤ n * c := by
  unfold absSum
  have hc : 0 ≤ c := (abs_nonneg _).trans (hy 0 (Nat.two_pow_pos n))
  refine (sum_le_sum_of_subset_of_nonneg hs fun i _ _ => mul_nonneg (abs_nonneg _) (abs_nonneg _)).trans ?_
  rw [sum_generators (fun i => |re (x i)| * |re (y i)|) fun i hi hn => by rw [h i hi hn, re_zero, abs_zero, MulZeroClass.zero_mul]]
  calc ∑ k ∈ range n, |re (x (2 ^ k))| * |re (y (2 ^ k))| ≤ ∑ k ∈ range n, c := sum_le_sum fun k hk => by
        have h2 : 2 ^ k < 2 ^ n := Nat.pow_lt_pow_right (by norm_num) (mem_range.mp hk)
        calc |re (x (2 ^ k))| * |re (y (2 ^ k))| ≤ 1 * c := mul_le_mul (hx _ h2) (hy _ h2) (abs_nonneg _) (by norm_num)
          _ = c := one_mul c
    _ = n * c := by rw [sum_const, card_range, nsmul_eq_mul]

/-- The error of sums of at most 30 products of numbers that are hardly greater than 1. -/
theorem errB_30 {a : ℝ} {N : Nat} (h0 : 0 ≤ a) (h : a ≤ 31) (hN : N ≤ 30) :
    errB F64 a N ≤ 2 / 10 ^ 13 ∧ a + errB F64 a N ≤ Ω F64 := by
  have e : errB F64 a N ≤ 2 / 10 ^ 13 := by
    refine (errB_mono (F := F64) h0 h hN).trans ?_
    obtain ⟨cu, cη, -⟩ := C69_f64
    unfold errB
    have q6 : η F64 ≤ 1 / 2 ^ 100 := by
      rw [cη]
      exact one_div_le_one_div_of_le (by positivity) (pow_le_pow_right₀ (by norm_num) (by norm_num))
    rw [cu]
    refine (add_le_add le_rfl (mul_le_mul_of_nonneg_right (mul_le_mul_of_nonneg_right q6 (by norm_num)) (by positivity))).trans ?_
    norm_num
  refine ⟨e, le_trans ?_ big_f64⟩
  exact le_trans (add_le_add h e) (le_trans (by norm_num : (31 : ℝ) + 2 / 10 ^ 13 ≤ 2 ^ 6) (pow_le_pow_right₀ (by norm_num) (by norm_num)))

/-- The error of a product with 1. -/
theorem errB_1 {a : ℝ} {N : Nat} (h0 : 0 ≤ a) (h : a ≤ 1) (hN : N ≤ 1) : errB F64 a N ≤ 3 / 2 ^ 53 ∧ a + errB F64 a N ≤ Ω F64 := by
  refine ⟨(errB_mono (F := F64) h0 h hN).trans ?_, (errB_30 h0 (h.trans (by norm_num)) (hN.trans (by norm_num))).2⟩
  obtain ⟨cu, cη, -⟩ := C69_f64
  unfold errB
  have q6 : η F64 ≤ 1 / 2 ^ 100 := by
    rw [cη]
    exact one_div_le_one_div_of_le (by positivity) (pow_le_pow_right₀ (by norm_num) (by norm_num))
  rw [cu]
  refine (add_le_add le_rfl (mul_le_mul_of_nonneg_right (mul_le_mul_of_nonneg_right q6 (by norm_num)) (by positivity))).trans ?_
  norm_num

/-- Two results near the same number are within `1e-12`. -/
theorem small12 {x y : F64} (hx : fin x) (hy : fin y) {e : ℝ} (h1 : |re x - e| ≤ 3 / 10 ^ 13) (h2 : |re y - e| ≤ 3 / 10 ^ 13) :
    (x - y).abs < (Flt.ofRat (1 / 10 ^ 12) : F64) := by
  have hdiff : |re x - re y| ≤ 6 / 10 ^ 13 := by
    have := abs_sub_le (re x) e (re y)
    rw [abs_sub_comm e] at this
    norm_num at h1 h2 ⊢
    linarith
  obtain ⟨k1, k2⟩ := sub_close hx hy hdiff (by norm_num)
  obtain ⟨j1, j2⟩ := fin_abs k1
  exact flt_lt j1 eps12.1 (by rw [j2]; have := eps12.2; norm_num at k2 this ⊢; linarith)

/-- `extract_vector` reads the coefficients of the generators. -/
theorem extractVector_val {T S : Type} [Zero T] [One T] [Add T] [Sub T] [Neg T] [Mul T] [DecidableEq T] [CoeffStorage S T] [LawfulStorage S T]
    {a : MV A S} (ha : a.Valid) : a.extractVector = .ok ((List.range A.dim).map fun k => a.val (2 ^ k)) := by
  have hd := LawfulStorage.supp_le ha.supp
  unfold extractVector
  have : ∀ ks : List Nat, (∀ k ∈ ks, k < A.dim) →
      ks.mapM (m := Res) (fun i => a.getByIdx (ushl 1 i)) = .ok (ks.map (fun k => a.val (2 ^ k))) := by
    intro ks hks
    induction ks with
    | nil => rfl
    | cons k ks ih =>
      have hk := hks k (by simp)
      rw [List.mapM_cons, ushl_one (by omega), ha.get (Nat.pow_lt_pow_right (by norm_num) hk), ih (fun j hj => hks j (by simp [hj]))]
      rfl
  exact this _ fun k hk => List.mem_range.mp hk

/-- What the proofs need to know about a random vector. -/
theorem random_vec (hd : A.dim ≤ 30) {l : List F64} (hl : l.length = A.dim) (ul : ∀ c ∈ l, fin c ∧ |re c| ≤ 1) :
    ∃ (a : MV A (ArrayStorage F64)) (a' : MV A (ArrayStorage ℝ)), fromVector l = .ok a ∧ a.extractVector = .ok l ∧ SameValues a a' (vecF l) ∧
      (∀ i, |re (vecF l i)| ≤ 1) ∧ (∀ i < l.length, fin (l.getD i 0) ∧ |re (l.getD i 0)| ≤ 1) := by
  have hS : LawfulStorage.Supp (S := ArrayStorage F64) (T := F64) A.dim := show A.dim ≤ 63 by omega
  obtain ⟨a, ea, ha, va⟩ := fromVector_denotes hS hl
  have ex : a.extractVector = .ok l := by
    rw [extractVector_val ha]
    congr 1
    apply List.ext_getElem
    · simp [hl]
    · intro i h1 h2
      have h2' : i < A.dim := by omega
      simp only [List.getElem_map, List.getElem_range]
      rw [va _ (Nat.pow_lt_pow_right (by norm_num) h2'), vecF_two_pow _ (by omega), List.getD_eq_getElem _ _ h2]
  have u1 : ∀ i < l.length, fin (l.getD i 0) ∧ |re (l.getD i 0)| ≤ 1 := fun i hi => by
    rw [List.getD_eq_getElem _ _ hi]
    exact ul _ (List.getElem_mem hi)
  have z : fin (0 : F64) ∧ |re (0 : F64)| ≤ 1 := ⟨fin_zero, by rw [re_zero, abs_zero]; norm_num⟩
  have v1 : ∀ i, fin (vecF l i) ∧ |re (vecF l i)| ≤ 1 := by
    intro i
    unfold vecF
    split
    · by_cases h : Nat.log2 i < l.length
      · exact u1 _ h
      · rw [List.getD_eq_default _ _ (by omega)]
        exact z
    · exact z
  have hv : (⟨⟨A.dim, ⟨2 ^ A.dim, fun i => re (vecF l i)⟩⟩⟩ : MV A (ArrayStorage ℝ)).Valid := ⟨show A.dim ≤ 63 by omega, rfl, rfl⟩
  exact ⟨a, ⟨⟨A.dim, ⟨2 ^ A.dim, fun i => re (vecF l i)⟩⟩⟩, ea, ex, ⟨ha, hv, Denotes.coefs ⟨a, rfl, ha, va⟩,
    Denotes.coefs ⟨_, rfl, hv, fun i hi => if_pos hi⟩, fun i _ => (v1 i).1⟩, fun i => (v1 i).2, u1⟩

/-- **C87, `dual_test`**, tests/unit.rs:487-495, on random vectors, in every algebra of odd dimension up to 30: the coefficient of the
pseudoscalar in `a.wedge(&b.dual())` is within `1e-12` of `a.vsdot(&b)` and of `a.extract_vector().dot(&b.extract_vector())`. -/
theorem C87_random_hodge_dot (hA : A.WF) (hn : A.dim % 2 = 1) (hd : A.dim ≤ 30) {l l' : List F64} (hl : l.length = A.dim) (hl' : l'.length = A.dim)
    (ul : ∀ c ∈ l, fin c ∧ |re c| ≤ 1) (ul' : ∀ c ∈ l', fin c ∧ |re c| ≤ 1) :
    ∃ (a b : MV A (ArrayStorage F64)) (x s : F64) (xs ys : List F64), fromVector l = .ok a ∧ fromVector l' = .ok b ∧
      (do let d ← b.dual; let w ← a.wedge d; w.getByIdx (2 ^ A.dim - 1)) = .ok x ∧ a.vsdot b = .ok s ∧
      a.extractVector = .ok xs ∧ b.extractVector = .ok ys ∧
      (x - s).abs < (Flt.ofRat (1 / 10 ^ 12) : F64) ∧ ∀ v, DotOf xs ys v → (x - v).abs < (Flt.ofRat (1 / 10 ^ 12) : F64) := by
  obtain ⟨a, a', ea, xa, sa, na, ua⟩ := random_vec hd hl ul
  obtain ⟨b, b', eb, xb, sb, nb, ub⟩ := random_vec hd hl' ul'
  have hm : (2 ^ A.dim - 1 : Nat) < 2 ^ A.dim := by have := Nat.two_pow_pos A.dim; omega
  have hd' : (A.dim : ℝ) ≤ 30 := by exact_mod_cast hd
  obtain ⟨d, d1, d2, d3⟩ := dual_fl hA sb.valid
  obtain ⟨e, e1, e2, e3⟩ := dual_denotes hA sb.valid'
  beta_reduce at d3 e3
  have key : ∀ i < 2 ^ A.dim, fin (d.val i) ∧ re (d.val i) = e.val i ∧ |re (d.val i)| ≤ 1 := by
    intro i hi
    have hi' := xor_mask_lt hi
    rw [d3 i hi, e3 i hi, sb.val hi', sb.val' hi']
    have hf := sb.finite _ hi'
    have hr := re_sgnC (dualSign_unit (n := A.dim) (i := i)) hf
    refine ⟨fin_sgnC _ hf, by rw [hr, zsmul_eq_mul], ?_⟩
    rw [hr, abs_mul]
    have : |((bsgn (fun _ => 0) A.dim i (i ^^^ (2 ^ A.dim - 1)) : ℤ) : ℝ)| ≤ 1 := by exact_mod_cast bsgn_wedge_abs
    calc _ ≤ 1 * 1 := mul_le_mul this (nb _) (abs_nonneg _) (by norm_num)
      _ = (1 : ℝ) := one_mul 1
  have sd : SameValues d e d.val := ⟨d2, e2, Denotes.coefs ⟨d, rfl, d2, fun _ _ => rfl⟩,
    (Denotes.coefs ⟨e, rfl, e2, fun _ _ => rfl⟩).congr fun i hi => (key i hi).2.1.symm, fun i hi => (key i hi).1⟩
  have va : ∀ i < 2 ^ A.dim, (∀ k < A.dim, i ≠ 2 ^ k) → vecF l i = 0 := fun i hi h => vecF_off l hi h
  obtain ⟨w, w', z, f, w1, w2, w3, w4, w5, w6, w7⟩ := C70_wedge sa sd
  have hs : ({i ∈ range (2 ^ A.dim) | i &&& (2 ^ A.dim - 1) = i} : Finset Nat) ⊆ range (2 ^ A.dim) := filter_subset _ _
  obtain ⟨t1, t2⟩ := errB_30 (absSum_nonneg {i ∈ range (2 ^ A.dim) | i &&& (2 ^ A.dim - 1) = i} (vecF l) fun i => d.val (i ^^^ (2 ^ A.dim - 1)))
    ((absSum_vec va (fun i _ => na i) (fun i hi => (key _ (xor_mask_lt hi)).2.2) hs).trans (by linarith)) ((nTerms_vec va hs).trans hd)
  obtain ⟨g1, g2⟩ := w7 _ hm t2
  beta_reduce at g2
  obtain ⟨s, c, s1, s2, s3⟩ := C70_vsdot sa sb
  obtain ⟨t3, t4⟩ := errB_30 (absSum_nonneg (range (2 ^ A.dim)) (vecF l) (vecF l'))
    ((absSum_vec va (fun i _ => na i) (fun i _ => nb i) (subset_refl _)).trans (by linarith)) ((nTerms_vec va (subset_refl _)).trans hd)
  obtain ⟨g3, g4⟩ := s3 t4
  have hex := (C87_hodge_odd hA hn sa.valid' sb.valid').2
  have hfc : f (2 ^ A.dim - 1) = c := by
    rw [s2, e1] at hex
    change (do let w ← a'.wedge e; w.getByIdx (2 ^ A.dim - 1)) = _ at hex
    rw [w2] at hex
    change w'.getByIdx _ = _ at hex
    rw [w4.get hm] at hex
    injection hex with hex
    rw [← hex, ← w6.val w4 hm]
  rw [hfc] at g2
  have hc : c = ∑ i ∈ range l.length, re (l.getD i 0) * re (l'.getD i 0) := by
    rw [vsdot_ok sa.valid' sb.valid'] at s2
    injection s2 with s2
    rw [← s2, hl, sum_congr rfl fun i hi => by rw [sa.val' (mem_range.mp hi), sb.val' (mem_range.mp hi)],
      sum_generators (fun i => re (vecF l i) * re (vecF l' i)) fun i hi h => by rw [va i hi h, re_zero, MulZeroClass.zero_mul]]
    refine sum_congr rfl fun k hk => ?_
    have := mem_range.mp hk
    rw [vecF_two_pow _ (by omega), vecF_two_pow _ (by omega)]
  refine ⟨a, b, z (2 ^ A.dim - 1), s, l, l', ea, eb, ?_, s1, xa, xb, small12 g1 g3 (g2.trans (by linarith)) (g4.trans (by linarith)), fun v hv => ?_⟩
  · rw [d1]
    show (do let w ← a.wedge d; w.getByIdx (2 ^ A.dim - 1)) = _
    rw [w1]
    show w.getByIdx _ = _
    rw [w3.get hm, w5.val w3 hm]
  · have hM : absSum (range l.length) (fun i => l.getD i 0) (fun i => l'.getD i 0) ≤ 31 := by
      unfold absSum
      calc _ ≤ ∑ i ∈ range l.length, (1 : ℝ) := sum_le_sum fun i hi => by
            have hi := mem_range.mp hi
            calc _ ≤ (1 : ℝ) * 1 := mul_le_mul (ua i hi).2 (ub i (by omega)).2 (abs_nonneg _) (by norm_num)
              _ = 1 := one_mul 1
        _ = A.dim := by rw [sum_const, card_range, nsmul_eq_mul, mul_one, hl]
        _ ≤ 31 := by linarith
    obtain ⟨t5, t6⟩ := errB_30 (N := nTerms (range l.length) (fun i => l.getD i 0) (fun i => l'.getD i 0)) (absSum_nonneg _ _ _) hM
      ((card_filter_le _ _).trans (by rw [card_range, hl]; exact hd))
    obtain ⟨g5, g6⟩ := hv.near (fun i hi => (ua i hi).1) (fun i hi => (ub i (by omega)).1) t6
    rw [← hc] at g6
    exact small12 g1 g5 (g2.trans (by linarith)) (g6.trans (by linarith))

/-- The entries of `signaturef()`, src/algebra.rs:96-106, in the arithmetic of doubles. -/
theorem signaturef_f64 (hA : A.WF) (hd : A.dim ≤ 63) : ∃ sg : List F64, A.signaturef (R := F64) = .ok sg ∧ sg.length = A.dim ∧
    ∀ i < A.dim, fin (sg.getD i 0) ∧ re (sg.getD i 0) = A.sigma i := by
  refine ⟨(List.range A.dim).map fun n => if ushl 1 n &&& A.realMask ≠ 0 then 1 else if ushl 1 n &&& A.imagMask ≠ 0 then -1 else 0, ?_, by simp,
    fun i hi => ?_⟩
  · unfold ClAlg.signaturef
    rw [C96_eq, mapM_ok (g := fun n => if ushl 1 n &&& A.realMask ≠ 0 then (1 : F64)
      else if ushl 1 n &&& A.imagMask ≠ 0 then -1 else 0) _ fun i _ => rfl]
    rfl
  · rw [List.getD_eq_getElem _ _ (by simpa using hi)]
    simp only [List.getElem_map, List.getElem_range]
    have bit : ∀ m : Nat, (ushl 1 i &&& m ≠ 0) ↔ m.testBit i = true := by
      intro m
      rw [ushl_one (by omega), Nat.and_comm]
      cases h : m.testBit i
      · simp [Nat.and_two_pow, h]
      · simp [Nat.and_two_pow, h]
    simp only [bit]
    unfold ClAlg.sigma
    have h1 := hA.testBit_nonnull i
    have h2 := hA.testBit_disjoint i
    have h3 := hA.testBit_proj i
    have hneg := neg_ok (F := F64) fin_one
    cases hr : A.realMask.testBit i <;> cases hm : A.imagMask.testBit i <;> cases hp : A.projMask.testBit i <;>
      (simp_all [fin_zero, fin_one, re_zero, re_one]; try omega)

/-- **C87, `dual_test`**, tests/unit.rs:498-514, on random vectors, in every algebra of dimension up to 30: `a.vdot(&b)` is within `1e-12` of the
scalar part of `a.wedge(&(&b * &ps)).dual()` (`ps` is the pseudoscalar) and of `metric.dot(&a.extract_vector()).t().dot(&b.extract_vector())`,
and so is the scalar part of `&a * &b`. -/
theorem C87_random_metric_dot (hA : A.WF) (hd : A.dim ≤ 30) {l l' : List F64} (hl : l.length = A.dim) (hl' : l'.length = A.dim)
    (ul : ∀ c ∈ l, fin c ∧ |re c| ≤ 1) (ul' : ∀ c ∈ l', fin c ∧ |re c| ≤ 1) :
    ∃ (a b : MV A (ArrayStorage F64)) (v2 v3 v4 : F64) (xs ys sg : List F64), fromVector l = .ok a ∧ fromVector l' = .ok b ∧
      a.vdot b = .ok v2 ∧
      (do
        let z : MV A (ArrayStorage F64) ← MV.default
        let ps := z.setByIdx (2 ^ A.dim - 1) 1
        let p ← b.naiveMulImpl ps
        let w ← a.wedge p
        let d ← w.dual
        d.scalarPart) = .ok v3 ∧
      (do let p ← a.naiveMulImpl b; p.scalarPart) = .ok v4 ∧
      a.extractVector = .ok xs ∧ b.extractVector = .ok ys ∧ A.signaturef (R := F64) = .ok sg ∧
      (v2 - v3).abs < (Flt.ofRat (1 / 10 ^ 12) : F64) ∧
      ∀ m v1, DiagDot sg xs m → DotOf m ys v1 →
        (v1 - v2).abs < (Flt.ofRat (1 / 10 ^ 12) : F64) ∧ (v1 - v4).abs < (Flt.ofRat (1 / 10 ^ 12) : F64) := by
  obtain ⟨a, a', ea, xa, sa, na, ua⟩ := random_vec hd hl ul
  obtain ⟨b, b', eb, xb, sb, nb, ub⟩ := random_vec hd hl' ul'
  have hm : (2 ^ A.dim - 1 : Nat) < 2 ^ A.dim := by have := Nat.two_pow_pos A.dim; omega
  have hd' : (A.dim : ℝ) ≤ 30 := by exact_mod_cast hd
  have h0 := Nat.two_pow_pos A.dim
  have va : ∀ i < 2 ^ A.dim, (∀ k < A.dim, i ≠ 2 ^ k) → vecF l i = 0 := fun i hi h => vecF_off l hi h
  -- vdot
  obtain ⟨v2, c, s1, s2, s3⟩ := C70_vdot hA sa sb
  obtain ⟨t3, t4⟩ := errB_30 (absSum_nonneg (range (2 ^ A.dim)) (vecF l) (vecF l'))
    ((absSum_vec va (fun i _ => na i) (fun i _ => nb i) (subset_refl _)).trans (by linarith)) ((nTerms_vec va (subset_refl _)).trans hd)
  obtain ⟨g3, g4⟩ := s3 t4
  have hc : c = ∑ i ∈ range A.dim, A.sigma i * re (l.getD i 0) * re (l'.getD i 0) := by
    rw [vdot_ok hA sa.valid' sb.valid'] at s2
    injection s2 with s2
    rw [← s2]
    unfold geo
    rw [sum_congr rfl fun i hi => by rw [Nat.xor_zero, sa.val' (mem_range.mp hi), sb.val' (mem_range.mp hi)],
      sum_generators (fun i => bsgn A.sigma A.dim i i • (re (vecF l i) * re (vecF l' i))) fun i hi h => by
        rw [va i hi h, re_zero, MulZeroClass.zero_mul, smul_zero]]
    refine sum_congr rfl fun k hk => ?_
    have := mem_range.mp hk
    rw [vecF_two_pow _ (by omega), vecF_two_pow _ (by omega), bsgn_two_pow_eq _ this, zsmul_eq_mul, mul_assoc]
  -- the scalar part of the product
  obtain ⟨p4, c4, g41, g42, g43⟩ := C15_rounded hA sa.valid sb.valid fun i hi => FloatModel.mul_zero (sa.good i hi)
  rw [s1] at g43
  injection g43 with g43
  -- the product with the pseudoscalar
  obtain ⟨z, z1, z2, z3⟩ := default_denotes (A := A) (S := ArrayStorage F64) (T := F64) (show A.dim ≤ 63 by omega)
  obtain ⟨ps', I1, I2, I3⟩ := blade_denotes (A := A) (S := ArrayStorage ℝ) (T := ℝ) (show A.dim ≤ 63 by omega) hm
  have sI : SameValues (z.setByIdx (2 ^ A.dim - 1) 1) ps' (fun j => if j = 2 ^ A.dim - 1 then (1 : F64) else 0) := by
    refine ⟨z2.set _ _, I2, Denotes.coefs ⟨_, rfl, z2.set _ _, fun j hj => ?_⟩, (Denotes.coefs ⟨ps', rfl, I2, I3⟩).congr fun j _ => ?_, fun j _ => ?_⟩
    · rw [z2.set_val hm, z3 j hj]
    · beta_reduce
      unfold single
      split
      · exact re_one.symm
      · exact re_zero.symm
    · beta_reduce
      split
      · exact fin_one
      · exact fin_zero
  have one_term : ∀ k < 2 ^ A.dim, ∀ i < 2 ^ A.dim, i ≠ k ^^^ (2 ^ A.dim - 1) → (if i ^^^ k = 2 ^ A.dim - 1 then (1 : F64) else 0) = 0 :=
    fun k _ i _ hne => if_neg fun h => hne (by rw [← h, Nat.xor_comm i, ← Nat.xor_assoc, Nat.xor_self, Nat.zero_xor])
  obtain ⟨p, p', zp, ep, p1, p2, p3, p4, p5, p6, p7⟩ := C70_mul hA sb sI
  have kp : ∀ k < 2 ^ A.dim, fin (zp k) ∧ |re (zp k) - ep k| ≤ 3 / 2 ^ 53 ∧ |ep k| ≤ 1 := by
    intro k hk
    have hk' := xor_mask_lt hk
    have hM : absSum (range (2 ^ A.dim)) (vecF l') (fun i => if i ^^^ k = 2 ^ A.dim - 1 then (1 : F64) else 0) ≤ 1 := by
      unfold absSum
      rw [sum_eq_single (k ^^^ (2 ^ A.dim - 1)) (fun i hi hne => by
        beta_reduce
        rw [one_term k hk i (mem_range.mp hi) hne, re_zero, abs_zero, MulZeroClass.mul_zero]) (fun h => absurd (mem_range.mpr hk') h)]
      have : |re (if (k ^^^ (2 ^ A.dim - 1)) ^^^ k = 2 ^ A.dim - 1 then (1 : F64) else 0)| ≤ 1 := by
        split
        · rw [re_one, abs_one]
        · rw [re_zero, abs_zero]; norm_num
      calc _ ≤ (1 : ℝ) * 1 := mul_le_mul (nb _) this (abs_nonneg _) (by norm_num)
        _ = 1 := one_mul 1
    have hN : nTerms (range (2 ^ A.dim)) (vecF l') (fun i => if i ^^^ k = 2 ^ A.dim - 1 then (1 : F64) else 0) ≤ 1 := by
      unfold nTerms
      refine (card_le_card (t := {k ^^^ (2 ^ A.dim - 1)}) fun i hi => ?_).trans (card_singleton _).le
      obtain ⟨h1, -, h2⟩ := mem_filter.mp hi
      by_contra hne
      exact h2 (one_term k hk i (mem_range.mp h1) fun h => hne (mem_singleton.mpr h))
    obtain ⟨t1, t2⟩ := errB_1 (absSum_nonneg _ _ _) hM hN
    obtain ⟨h1, h2⟩ := p7 k hk t2
    refine ⟨h1, h2.trans t1, ?_⟩
    obtain ⟨q, q1, q2, q3⟩ := mul_denotes hA sb.valid' I2
    rw [p2] at q1
    injection q1 with q1
    rw [← p6.val p4 hk, q1, q3 k hk, geo_congr (fun _ _ => rfl) (fun _ _ => rfl) I3 hk, geo_single_right _ hm _ _ hk, mul_one, zsmul_eq_mul, abs_mul,
      sb.val' (Nat.xor_lt_two_pow hm hk)]
    have hb : |((bsgn A.sigma A.dim ((2 ^ A.dim - 1) ^^^ k) (2 ^ A.dim - 1) : ℤ) : ℝ)| ≤ 1 := by
      exact_mod_cast bsgn_sigma_abs hA (Nat.xor_lt_two_pow hm hk) hm
    calc _ ≤ (1 : ℝ) * 1 := mul_le_mul hb (nb _) (abs_nonneg _) (by norm_num)
      _ = 1 := one_mul 1
  have kz : ∀ k < 2 ^ A.dim, |re (zp k)| ≤ 1 + 3 / 2 ^ 53 := fun k hk => by
    obtain ⟨-, h1, h2⟩ := kp k hk
    have := abs_add_le (re (zp k) - ep k) (ep k)
    rw [sub_add_cancel] at this
    linarith
  have hv2 : (⟨⟨A.dim, ⟨2 ^ A.dim, fun i => re (zp i)⟩⟩⟩ : MV A (ArrayStorage ℝ)).Valid := ⟨show A.dim ≤ 63 by omega, rfl, rfl⟩
  have sp : SameValues p (⟨⟨A.dim, ⟨2 ^ A.dim, fun i => re (zp i)⟩⟩⟩ : MV A (ArrayStorage ℝ)) zp :=
    ⟨p3, hv2, p5, Denotes.coefs ⟨_, rfl, hv2, fun i hi => if_pos hi⟩, fun i hi => (kp i hi).1⟩
  -- the wedge product
  obtain ⟨w, w', zw, f, w1, w2, w3, w4, w5, w6, w7⟩ := C70_wedge sa sp
  have hs : ({i ∈ range (2 ^ A.dim) | i &&& (2 ^ A.dim - 1) = i} : Finset Nat) ⊆ range (2 ^ A.dim) := filter_subset _ _
  obtain ⟨t1, t2⟩ := errB_30 (absSum_nonneg {i ∈ range (2 ^ A.dim) | i &&& (2 ^ A.dim - 1) = i} (vecF l) fun i => zp (i ^^^ (2 ^ A.dim - 1)))
    ((absSum_vec va (fun i _ => na i) (fun i hi => kz _ (xor_mask_lt hi)) hs).trans (by
      have : (A.dim : ℝ) * (1 + 3 / 2 ^ 53) ≤ 30 * (1 + 3 / 2 ^ 53) := mul_le_mul_of_nonneg_right hd' (by norm_num)
      exact this.trans (by norm_num))) ((nTerms_vec va hs).trans hd)
  obtain ⟨g1, g2⟩ := w7 _ hm t2
  beta_reduce at g2
  obtain ⟨x, x1, x2, x3⟩ := LawfulWedge.wedge sa.valid' p4
  have hfx : |f (2 ^ A.dim - 1) - x.val (2 ^ A.dim - 1)| ≤ 30 * (3 / 2 ^ 53) := by
    obtain ⟨y, y1, y2, y3⟩ := LawfulWedge.wedge sa.valid' hv2
    rw [w2] at y1
    injection y1 with y1
    rw [← w6.val w4 hm, y1, y3 _ hm, x3 _ hm]
    unfold geo
    rw [← sum_sub_distrib]
    have e : ∀ i ∈ range (2 ^ A.dim), |bsgn (fun _ => 0) A.dim i (i ^^^ (2 ^ A.dim - 1)) • (a'.val i * (if i ^^^ (2 ^ A.dim - 1) < 2 ^ A.dim then re (zp (i ^^^ (2 ^ A.dim - 1))) else 0)) -
        bsgn (fun _ => 0) A.dim i (i ^^^ (2 ^ A.dim - 1)) • (a'.val i * p'.val (i ^^^ (2 ^ A.dim - 1)))| ≤ |re (vecF l i)| * (3 / 2 ^ 53) := by
      intro i hi
      have hi := mem_range.mp hi
      have hi' := xor_mask_lt hi
      rw [if_pos hi', sa.val' hi, p6.val p4 hi', ← smul_sub, ← mul_sub, zsmul_eq_mul, abs_mul, abs_mul]
      have hb : |((bsgn (fun _ => 0) A.dim i (i ^^^ (2 ^ A.dim - 1)) : ℤ) : ℝ)| ≤ 1 := by exact_mod_cast bsgn_wedge_abs
      refine (mul_le_of_le_one_left (mul_nonneg (abs_nonneg _) (abs_nonneg _)) hb).trans ?_
      exact mul_le_mul_of_nonneg_left (kp _ hi').2.1 (abs_nonneg _)
    refine (abs_sum_le_sum_abs _ _).trans ((sum_le_sum e).trans ?_)
    rw [sum_generators (fun i => |re (vecF l i)| * (3 / 2 ^ 53)) fun i hi h => by rw [va i hi h, re_zero, abs_zero, MulZeroClass.zero_mul]]
    calc _ ≤ ∑ k ∈ range A.dim, (3 / 2 ^ 53 : ℝ) := sum_le_sum fun k _ => mul_le_of_le_one_left (by norm_num) (na _)
      _ = A.dim * (3 / 2 ^ 53) := by rw [sum_const, card_range, nsmul_eq_mul]
      _ ≤ 30 * (3 / 2 ^ 53) := mul_le_mul_of_nonneg_right hd' (by norm_num)
  have hxc : x.val (2 ^ A.dim - 1) = c := by
    have h := C87_metric_dual hA sa.valid' sb.valid'
    obtain ⟨d, d1, d2, d3⟩ := dual_denotes hA x2
    rw [I1, s2] at h
    change (do let p ← b'.naiveMulImpl ps'; let w ← a'.wedge p; let d ← w.dual; d.scalarPart) = _ at h
    rw [p2] at h
    change (do let w ← a'.wedge p'; let d ← w.dual; d.scalarPart) = _ at h
    rw [x1] at h
    change (do let d ← x.dual; d.scalarPart) = _ at h
    rw [d1] at h
    change d.scalarPart = _ at h
    rw [scalarPart, d2.get h0, d3 0 h0] at h
    injection h with h
    simpa only [Nat.zero_xor, bsgn_zero_left, one_smul] using h
  rw [hxc] at hfx
  obtain ⟨d, d1, d2, d3⟩ := dual_fl hA w3
  have hd0 : d.val 0 = zw (2 ^ A.dim - 1) := by
    rw [d3 0 h0]
    simp only [Nat.zero_xor, bsgn_zero_left]
    rw [← w5.val w3 hm]
    rfl
  have g2' : |re (zw (2 ^ A.dim - 1)) - c| ≤ 3 / 10 ^ 13 := by
    have := abs_sub_le (re (zw (2 ^ A.dim - 1))) (f (2 ^ A.dim - 1)) c
    have h3 := g2.trans t1
    norm_num at hfx h3 ⊢
    linarith
  obtain ⟨sg, sg1, sg2, sg3⟩ := signaturef_f64 hA (show A.dim ≤ 63 by omega)
  refine ⟨a, b, v2, zw (2 ^ A.dim - 1), c4, l, l', sg, ea, eb, s1, ?_, ?_, xa, xb, sg1, small12 g3 g1 (g4.trans (by linarith)) g2', fun m v1 hm1 hv1 => ?_⟩
  · rw [z1]
    show (do let p ← b.naiveMulImpl (z.setByIdx (2 ^ A.dim - 1) 1); let w ← a.wedge p; let d ← w.dual; d.scalarPart) = _
    rw [p1]
    show (do let w ← a.wedge p; let d ← w.dual; d.scalarPart) = _
    rw [w1]
    show (do let d ← w.dual; d.scalarPart) = _
    rw [d1]
    show d.getByIdx 0 = _
    rw [d2.get h0, hd0]
  · rw [g41]
    exact g42
  · obtain ⟨hlm, hm1⟩ := hm1
    rw [sg2] at hlm hm1
    have km : ∀ i < A.dim, fin (m.getD i 0) ∧ |re (m.getD i 0) - A.sigma i * re (l.getD i 0)| ≤ 3 / 2 ^ 53 ∧ |(A.sigma i : ℝ) * re (l.getD i 0)| ≤ 1 := by
      intro i hi
      have hσ : |(A.sigma i : ℝ)| ≤ 1 := by
        unfold ClAlg.sigma
        split
        · norm_num
        · split <;> norm_num
      have hrow : ∀ j < A.dim, ((List.range A.dim).map fun j => if i = j then sg.getD i 0 else 0).getD j 0 = if i = j then sg.getD i 0 else 0 := by
        intro j hj
        rw [List.getD_eq_getElem _ _ (by simpa using hj)]
        simp only [List.getElem_map, List.getElem_range]
      have hlen : ((List.range A.dim).map fun j => if i = j then sg.getD i 0 else 0).length = A.dim := by simp
      have hd1 := hm1 i hi
      generalize ((List.range A.dim).map fun j => if i = j then sg.getD i 0 else 0) = row at hrow hlen hd1
      have hM : absSum (range row.length) (fun j => row.getD j 0) (fun j => l.getD j 0) ≤ 1 := by
        unfold absSum
        rw [hlen, sum_eq_single i (fun j hj hne => by
          beta_reduce
          rw [hrow j (mem_range.mp hj), if_neg (Ne.symm hne), re_zero, abs_zero, MulZeroClass.zero_mul]) (fun h => absurd (mem_range.mpr hi) h)]
        beta_reduce
        rw [hrow i hi, if_pos rfl, (sg3 i hi).2]
        calc _ ≤ (1 : ℝ) * 1 := mul_le_mul hσ (ua i (by omega)).2 (abs_nonneg _) (by norm_num)
          _ = 1 := one_mul 1
      have hN : nTerms (range row.length) (fun j => row.getD j 0) (fun j => l.getD j 0) ≤ 1 := by
        unfold nTerms
        refine (card_le_card (t := {i}) fun j hj => ?_).trans (card_singleton _).le
        obtain ⟨h1, h2, -⟩ := mem_filter.mp hj
        rw [hlen] at h1
        by_contra hne
        exact h2 (by beta_reduce; rw [hrow j (mem_range.mp h1), if_neg fun h => hne (mem_singleton.mpr h.symm)])
      obtain ⟨t1, t2⟩ := errB_1 (absSum_nonneg _ _ _) hM hN
      obtain ⟨h1, h2⟩ := hd1.near (fun j hj => by
        rw [hrow j (by omega)]
        split
        · exact (sg3 i hi).1
        · exact fin_zero) (fun j hj => (ua j (by omega)).1) t2
      refine ⟨h1, ?_, ?_⟩
      · replace h2 := h2.trans t1
        rw [hlen, sum_eq_single i (fun j hj hne => by
          beta_reduce
          rw [hrow j (mem_range.mp hj), if_neg (Ne.symm hne), re_zero, MulZeroClass.zero_mul]) (fun h => absurd (mem_range.mpr hi) h),
          hrow i hi, if_pos rfl, (sg3 i hi).2] at h2
        exact h2
      · rw [abs_mul]
        calc _ ≤ (1 : ℝ) * 1 := mul_le_mul hσ (ua i (by omega)).2 (abs_nonneg _) (by norm_num)
          _ = 1 := one_mul 1
    have hM : absSum (range m.length) (fun i => m.getD i 0) (fun i => l'.getD i 0) ≤ 31 := by
      unfold absSum
      rw [hlm]
      calc _ ≤ ∑ i ∈ range A.dim, (1 + 3 / 2 ^ 53 : ℝ) := sum_le_sum fun i hi => by
            have hi := mem_range.mp hi
            obtain ⟨-, h1, h2⟩ := km i hi
            have := abs_add_le (re (m.getD i 0) - A.sigma i * re (l.getD i 0)) (A.sigma i * re (l.getD i 0))
            rw [sub_add_cancel] at this
            calc _ ≤ (1 + 3 / 2 ^ 53 : ℝ) * 1 := mul_le_mul (by linarith) (ub i (by omega)).2 (abs_nonneg _) (by norm_num)
              _ = 1 + 3 / 2 ^ 53 := mul_one _
        _ = A.dim * (1 + 3 / 2 ^ 53) := by rw [sum_const, card_range, nsmul_eq_mul]
        _ ≤ 30 * (1 + 3 / 2 ^ 53) := mul_le_mul_of_nonneg_right hd' (by norm_num)
        _ ≤ 31 := by norm_num
    obtain ⟨t5, t6⟩ := errB_30 (N := nTerms (range m.length) (fun i => m.getD i 0) (fun i => l'.getD i 0)) (absSum_nonneg _ _ _) hM
      ((card_filter_le _ _).trans (by rw [card_range, hlm]; exact hd))
    obtain ⟨g5, g6⟩ := hv1.near (fun i hi => (km i (by omega)).1) (fun i hi => (ub i (by omega)).1) t6
    have hsum : |∑ i ∈ range m.length, re (m.getD i 0) * re (l'.getD i 0) - c| ≤ 30 * (3 / 2 ^ 53) := by
      rw [hc, hlm, ← sum_sub_distrib]
      refine (abs_sum_le_sum_abs _ _).trans ?_
      calc _ ≤ ∑ i ∈ range A.dim, (3 / 2 ^ 53 : ℝ) := sum_le_sum fun i hi => by
            have hi := mem_range.mp hi
            rw [← sub_mul, abs_mul]
            calc _ ≤ (3 / 2 ^ 53 : ℝ) * 1 := mul_le_mul (km i hi).2.1 (ub i (by omega)).2 (abs_nonneg _) (by norm_num)
              _ = 3 / 2 ^ 53 := mul_one _
        _ = A.dim * (3 / 2 ^ 53) := by rw [sum_const, card_range, nsmul_eq_mul]
        _ ≤ 30 * (3 / 2 ^ 53) := mul_le_mul_of_nonneg_right hd' (by norm_num)
    have g6' : |re v1 - c| ≤ 3 / 10 ^ 13 := by
      have := abs_sub_le (re v1) (∑ i ∈ range m.length, re (m.getD i 0) * re (l'.getD i 0)) c
      have h3 := g6.trans t5
      have h4 : (30 * (3 / 2 ^ 53) : ℝ) ≤ 1 / 10 ^ 13 := by norm_num
      have h5 : (2 / 10 ^ 13 : ℝ) + 1 / 10 ^ 13 = 3 / 10 ^ 13 := by norm_num
      rw [← h5]
      exact this.trans (add_le_add h3 (hsum.trans h4))
    have k2 := small12 g5 g3 g6' (g4.trans (by linarith))
    exact ⟨k2, g43 ▸ k2⟩

/-- **C87, `magnitude_test`**, tests/unit.rs:569-575, on random inputs, in every algebra of dimension up to 30 and for every grade: the
imaginary part of `cmag2` is below `1e-12`; it is even exactly zero. -/
theorem C87_random_cmag2 (hA : A.WF) (hd : A.dim ≤ 30) {k : Nat} (hk : k < 2 ^ 32) {a : MV A (ArrayStorage (Cx F64))} (ha : a.Valid) (ua : a.UnitC) :
    ∃ (g : MV A (ArrayStorage (Cx F64))) (w : F64), a.gradeExtract k = .ok g ∧ g.cmag2 Cx.conjF = .ok ⟨w, 0⟩ ∧ fin w ∧
      (0 : F64).abs < (Flt.ofRat (1 / 10 ^ 12) : F64) := by
  obtain ⟨g, g1, g2, g3⟩ := gradeExtractAs_denotes (S' := ArrayStorage (Cx F64)) ha ha.supp hk
  beta_reduce at g3
  have ug : g.UnitC := fun i hi => by
    obtain ⟨c, c1, c2⟩ := ua i hi
    rw [ha.get hi] at c1
    injection c1 with c1
    rw [g2.get hi, g3 i hi]
    split
    · exact ⟨_, rfl, c1 ▸ c2⟩
    · have z : fin (0 : F64) ∧ |re (0 : F64)| ≤ 1 := ⟨fin_zero, by rw [re_zero, abs_zero]; norm_num⟩
      exact ⟨_, rfl, z, z⟩
  obtain ⟨g', sg, ng⟩ := unit_sameC g2 (by omega) ug
  obtain ⟨v, e, v1, -, v3⟩ := C99_cmag2 hA sg rfl
  have h30 : (2 : ℝ) ^ A.dim ≤ 2 ^ 30 := pow_le_pow_right₀ (by norm_num) hd
  have h30' : 2 ^ A.dim ≤ 2 ^ 30 := Nat.pow_le_pow_right (by norm_num) hd
  obtain ⟨f1, f2, -⟩ := v3 (Ex.ok64 (by omega) (le_big (by
    have hn := ng.trans (mul_le_mul_of_nonneg_left h30 (by norm_num))
    have n0 : 0 ≤ normC A.dim g.val := sum_nonneg fun _ _ => add_nonneg (abs_nonneg _) (abs_nonneg _)
    have h1 := (absSumC_le A.dim g.val g.val).trans (mul_le_mul hn hn n0 (by norm_num))
    have h2 : (4 * η F64 / u F64 : ℝ) ≤ 1 := by
      have : (4 * η F64 / u F64 : ℝ) = 1 / 2 ^ 1020 := uflow64
      rw [this, div_le_one (by positivity)]
      exact one_le_pow₀ (by norm_num)
    have h3 : (2 : ℝ) ^ A.dim * (4 * η F64 / u F64) ≤ 2 ^ 30 * 1 := mul_le_mul h30 h2 (by
      have : (4 * η F64 / u F64 : ℝ) = 1 / 2 ^ 1020 := uflow64
      rw [this]; positivity) (by norm_num)
    exact (add_le_add h1 h3).trans (by norm_num))))
  have him : v.im = 0 := (C56_float_real g2 v1).resolve_right f2
  refine ⟨g, v.re, g1, ?_, f1, by decide +kernel⟩
  rw [v1]
  congr 1
  exact Cx.ext' rfl him

end

namespace Ex

/-- Two vectors with coordinates that are not representable exactly. -/
def dvA : List F64 := [Flt.ofRat (1 / 3), Flt.ofRat (2 / 7), Flt.ofRat (-9 / 10)]
def dvB : List F64 := [Flt.ofRat (1 / 10), Flt.ofRat (4 / 5), Flt.ofRat (1 / 9)]

theorem dv_unit : (∀ c ∈ dvA, fin c ∧ |re c| ≤ 1) ∧ ∀ c ∈ dvB, fin c ∧ |re c| ≤ 1 := by
  have key : ∀ c : F64, c ≠ .nonFinite → |c.toRat| ≤ 1 → fin c ∧ |re c| ≤ 1 := fun c h1 h2 => ⟨h1, by
    show |((c.toRat : ℚ) : ℝ)| ≤ 1
    exact_mod_cast h2⟩
  have h : ∀ c ∈ dvA ++ dvB, c ≠ .nonFinite ∧ |c.toRat| ≤ 1 := by decide +kernel
  exact ⟨fun c hc => key c (h c (by simp [hc])).1 (h c (by simp [hc])).2, fun c hc => key c (h c (by simp [hc])).1 (h c (by simp [hc])).2⟩

example := C87_random_hodge_dot E_wf (by decide) (by decide) (l := dvA) (l' := dvB) rfl rfl dv_unit.1 dv_unit.2
example := C87_random_metric_dot E_wf (by decide) (l := dvA) (l' := dvB) rfl rfl dv_unit.1 dv_unit.2

example := C87_random_cmag2 E_wf (by decide) (k := 1) (by norm_num) (mUC_unit (A := E) (by decide) 0).1 (mUC_unit (by decide) 0).2

/-- `DotOf` allows for all orders of summation. -/
example : DotOf dvA dvB (((dvA.getD 0 0 * dvB.getD 0 0) + (dvA.getD 1 0 * dvB.getD 1 0)) + dvA.getD 2 0 * dvB.getD 2 0) ∧
    DotOf dvA dvB ((dvA.getD 0 0 * dvB.getD 0 0) + ((dvA.getD 1 0 * dvB.getD 1 0) + dvA.getD 2 0 * dvB.getD 2 0)) :=
  ⟨⟨[0, 1, 2], List.Perm.refl _, .add (l := [0, 1]) (.add (l := [0]) (.one 0) (.one 1)) (.one 2)⟩,
    ⟨[0, 1, 2], List.Perm.refl _, .add (l := [0]) (.one 0) (.add (l := [1]) (.one 1) (.one 2))⟩⟩

end Ex

end TClifford
