import Verif.Proofs.FFTRepr
import Mathlib.Algebra.BigOperators.Intervals
/-
Half-spin representations: the rows and columns of the matrix are sorted by the parity of the number of set bits of
their numbers.
-/

set_option linter.unusedSectionVars false

namespace TClifford

open Finset

/-- The `c`-th number with an even (`q = 0`) or odd (`q = 1`) number of set bits. -/
def nth (q c : Nat) : Nat := 2 * c + (countOnes c + q) % 2

theorem countOnes_bit (c b : Nat) (hb : b < 2) : countOnes (2 * c + b) = countOnes c + b := by
  have h1 : 2 * c + b < 2 ^ (2 * c + b + 1) := lt_of_lt_of_le Nat.lt_two_pow_self (Nat.pow_le_pow_right (by norm_num) (Nat.le_succ _))
  have h2 : c < 2 ^ (2 * c + b) := lt_of_lt_of_le Nat.lt_two_pow_self (Nat.pow_le_pow_right (by norm_num) (by omega))
  rw [countOnes_eq_cnt h1, cnt_succ', countOnes_eq_cnt h2, show (2 * c + b) / 2 = c by omega, show (2 * c + b) % 2 = b by omega]
  omega

theorem countOnes_nth {q : Nat} (hq : q < 2) (c : Nat) : countOnes (nth q c) % 2 = q := by
  unfold nth
  rw [countOnes_bit _ _ (Nat.mod_lt _ (by norm_num))]
  omega

theorem nth_div {q j : Nat} (h : countOnes j % 2 = q) : nth q (j / 2) = j := by
  unfold nth
  have := countOnes_bit (j / 2) (j % 2) (Nat.mod_lt _ (by norm_num))
  rw [Nat.div_add_mod] at this
  omega

theorem nth_lt_two_mul {q c n : Nat} : nth q c < 2 * n ↔ c < n := by
  unfold nth; omega

theorem nth_injective {q c d : Nat} (h : nth q c = nth q d) : c = d := by
  unfold nth at h; omega

/-- One step of the loops: the number `n` has parity `q`. -/
theorem nth_step {q n t : Nat} (hn : countOnes n % 2 = q) (ht : ∀ c, c < t ↔ nth q c < n) :
    t = n / 2 ∧ ∀ c, c < t + 1 ↔ nth q c < n + 1 := by
  have h1 := nth_div hn
  have ht' : t = n / 2 := by
    have a1 := ht (n / 2)
    rw [h1] at a1
    have a2 := ht (n / 2 - 1)
    unfold nth at a2
    omega
  refine ⟨ht', fun c => ?_⟩
  have a1 := ht c
  constructor
  · intro hc
    by_cases h : c < t
    · have := a1.mp h; omega
    · have : c = n / 2 := by omega
      rw [this, h1]; omega
  · intro hc
    by_cases h : nth q c < n
    · have := a1.mpr h; omega
    · have : nth q c = nth q (n / 2) := by omega
      have := nth_injective this
      omega

theorem nth_skip {q n t : Nat} (hq : q < 2) (hn : countOnes n % 2 ≠ q) (ht : ∀ c, c < t ↔ nth q c < n) :
    ∀ c, c < t ↔ nth q c < n + 1 := by
  intro c
  rw [ht c]
  have : nth q c ≠ n := fun h => hn (by rw [← h]; exact countOnes_nth hq c)
  omega

section
variable {A : ClAlg} {K : Type} [Field K] [DecidableEq K] [ImagUnit K]

theorem halfSpinRow_spec {q : Nat} (hq : q < 2) (M : Nat) (row : Nat → K) : ∃ v, FFTRepr.halfSpinRow row (2 * M) q = .ok v ∧
    v.len = M ∧ ∀ c < M, v.get c = row (nth q c) := by
  obtain ⟨y, h1, h2, h3, h4⟩ := range_foldlM
    (P := fun n (tc : Arr1 K × Nat) => tc.1.len = M ∧ (∀ c, c < tc.2 ↔ nth q c < n) ∧ ∀ c < tc.2, tc.1.get c = row (nth q c))
    (f := fun (tc : Arr1 K × Nat) j =>
      if countOnes j % 2 = q then
        if tc.2 < tc.1.len then .ok (tc.1.set tc.2 (row j), tc.2 + 1) else .error .panic
      else .ok tc)
    (2 * M) ((Arr1.zeros (2 * M / 2) : Arr1 K), 0) ⟨by show 2 * M / 2 = M; omega, fun c => by simp, fun c hc => absurd hc (by simp)⟩ (by
      rintro i hi ⟨tmp, cur⟩ ⟨hl, hc, hv⟩
      by_cases h : countOnes i % 2 = q
      · obtain ⟨e1, e2⟩ := nth_step h hc
        dsimp only at e1
        refine ⟨(tmp.set cur (row i), cur + 1), ?_, hl, e2, ?_⟩
        · show (if _ then _ else _) = _
          rw [if_pos h, if_pos]
          show cur < tmp.len
          rw [hl]; omega
        · intro c hc'
          show (if c = cur then row i else tmp.get c) = _
          by_cases hcc : c = cur
          · rw [if_pos hcc, hcc, e1, nth_div h]
          · rw [if_neg hcc]; exact hv c (by dsimp only at hc' ⊢; omega)
      · exact ⟨_, if_neg h, hl, nth_skip hq h hc, hv⟩)
  refine ⟨y.1, ?_, h2, fun c hc => h4 c ((h3 c).mpr (nth_lt_two_mul.mpr hc))⟩
  unfold FFTRepr.halfSpinRow
  rw [h1]; rfl

/-- The blocks of rows and columns of one parity. -/
theorem intoHalfSpinRepr_spec {r : FFTRepr A K} {m : Nat} (hr : r.arr.d1 = 2 ^ (m + 1)) (hc : r.arr.d2 = 2 ^ (m + 1)) :
    ∃ e o, r.intoHalfSpinRepr = .ok (e, o) ∧ e.rows = 2 ^ m ∧ e.cols = 2 ^ m ∧ o.rows = 2 ^ m ∧ o.cols = 2 ^ m ∧
      ∀ i < 2 ^ m, ∀ j < 2 ^ m, e.get i j = r.arr.get 0 (nth 0 i) (nth 0 j) ∧ o.get i j = r.arr.get 0 (nth 1 i) (nth 1 j) := by
  have h2 : 2 ^ (m + 1) = 2 * 2 ^ m := by rw [pow_succ]; omega
  rw [h2] at hr hc
  have hR : r.intoArray2.rows = 2 * 2 ^ m := hr
  have hC : r.intoArray2.cols = 2 * 2 ^ m := hc
  obtain ⟨y, g1, g2, g3, g4, g5, g6, g7⟩ := range_foldlM
    (P := fun n (eo : Arr2 K × Arr2 K) => eo.1.cols = 2 ^ m ∧ eo.2.cols = 2 ^ m ∧
      (∀ c, c < eo.1.rows ↔ nth 0 c < n) ∧ (∀ c, c < eo.2.rows ↔ nth 1 c < n) ∧
      (∀ c < eo.1.rows, ∀ j < 2 ^ m, eo.1.get c j = r.arr.get 0 (nth 0 c) (nth 0 j)) ∧
      (∀ c < eo.2.rows, ∀ j < 2 ^ m, eo.2.get c j = r.arr.get 0 (nth 1 c) (nth 1 j)))
    (f := fun (eo : Arr2 K × Arr2 K) i => do
      if countOnes i % 2 = 0 then
        let tmp ← FFTRepr.halfSpinRow (r.intoArray2.get i) r.intoArray2.cols 0
        return (FFTRepr.appendRow eo.1 tmp, eo.2)
      else
        let tmp ← FFTRepr.halfSpinRow (r.intoArray2.get i) r.intoArray2.cols 1
        return (eo.1, FFTRepr.appendRow eo.2 tmp))
    r.intoArray2.rows (Arr2.zeros 0 (r.intoArray2.cols / 2), Arr2.zeros 0 (r.intoArray2.cols / 2))
    ⟨by show r.intoArray2.cols / 2 = _; omega, by show r.intoArray2.cols / 2 = _; omega,
      fun c => by simp [Arr2.zeros], fun c => by simp [Arr2.zeros], fun c hc => absurd hc (by simp [Arr2.zeros]),
      fun c hc => absurd hc (by simp [Arr2.zeros])⟩ (by
      rintro i hi ⟨e, o⟩ ⟨a1, a2, a3, a4, a5, a6⟩
      by_cases h : countOnes i % 2 = 0
      · obtain ⟨v, v1, v2, v3⟩ := halfSpinRow_spec (q := 0) (by norm_num) (2 ^ m) (r.intoArray2.get i)
        obtain ⟨b1, b2⟩ := nth_step h a3
        refine ⟨(FFTRepr.appendRow e v, o), ?_, a1, a2, b2, nth_skip (by norm_num) (by omega) a4, ?_, a6⟩
        · rw [if_pos h, hC, v1]; rfl
        · intro c hc j hj
          show (if c = e.rows then v.get j else e.get c j) = _
          by_cases hcc : c = e.rows
          · rw [if_pos hcc, v3 j hj, hcc, b1, nth_div h]; rfl
          · rw [if_neg hcc]
            exact a5 c (by have : c < e.rows + 1 := hc; show c < e.rows; omega) j hj
      · obtain ⟨v, v1, v2, v3⟩ := halfSpinRow_spec (q := 1) (by norm_num) (2 ^ m) (r.intoArray2.get i)
        have h' : countOnes i % 2 = 1 := by omega
        obtain ⟨b1, b2⟩ := nth_step h' a4
        refine ⟨(e, FFTRepr.appendRow o v), ?_, a1, a2, nth_skip (by norm_num) h a3, b2, a5, ?_⟩
        · rw [if_neg h, hC, v1]; rfl
        · intro c hc j hj
          show (if c = o.rows then v.get j else o.get c j) = _
          by_cases hcc : c = o.rows
          · rw [if_pos hcc, v3 j hj, hcc, b1, nth_div h']; rfl
          · rw [if_neg hcc]
            exact a6 c (by have : c < o.rows + 1 := hc; show c < o.rows; omega) j hj)
  rw [hR] at g4 g5
  have hrows : ∀ {q t : Nat}, (∀ c, c < t ↔ nth q c < 2 * 2 ^ m) → t = 2 ^ m := by
    intro q t ht
    have a := ht t
    have b := ht (2 ^ m)
    rw [nth_lt_two_mul] at a b
    omega
  have e1 := hrows g4
  have e2 := hrows g5
  refine ⟨y.1, y.2, g1, e1, g2, e2, g3, fun i hi j hj => ⟨g6 i (by omega) j hj, g7 i (by omega) j hj⟩⟩

/-! ### Matrices of even multivectors -/

/-- Sums over both numbers of each pair `2c`, `2c+1`. -/
theorem sum_pairs {q : Nat} (M : Nat) (F : Nat → K) (h0 : ∀ j < 2 * M, countOnes j % 2 ≠ q → F j = 0) :
    ∑ j ∈ range (2 * M), F j = ∑ c ∈ range M, F (nth q c) := by
  induction M with
  | zero => simp
  | succ M ih =>
    rw [show 2 * (M + 1) = 2 * M + 1 + 1 by ring, sum_range_succ, sum_range_succ, ih (fun j hj => h0 j (by omega)), sum_range_succ]
    have c0 := countOnes_bit M 0 (by norm_num)
    have c1 := countOnes_bit M 1 (by norm_num)
    rw [Nat.add_zero] at c0
    unfold nth
    rcases Nat.mod_two_eq_zero_or_one (countOnes M + q) with h | h
    · rw [h, h0 (2 * M + 1) (by omega) (by omega)]; simp
    · rw [h, h0 (2 * M) (by omega) (by omega)]; simp

/-- The transform of an even element does not mix numbers of different parity. -/
theorem ctr_even (h2 : (2 : K) ≠ 0) {m n : Nat} (hn : n ≤ 2 * m) {x : Nat → K} (hx : ∀ k < 2 ^ n, countOnes k % 2 = 1 → x k = 0)
    {i j : Nat} (hi : i < 2 ^ m) (hj : j < 2 ^ m) (hij : countOnes i % 2 ≠ countOnes j % 2) : ctr m n x i j = 0 := by
  have h := ctr_flp hn x i hi j hj
  have hc : ctr m n (flp n x) = ctr m n x := by
    refine ctr_congr fun k hk => ?_
    show sg (par n k) • x k = x k
    rw [par_eq, ← countOnes_eq_cnt hk]
    rcases Nat.mod_two_eq_zero_or_one (countOnes k) with h | h
    · simp [h]
    · rw [hx k hk h]; simp
  rw [hc] at h
  unfold al at h
  rw [par_eq, par_eq, ← countOnes_eq_cnt hi, ← countOnes_eq_cnt hj] at h
  have hs : (decide (countOnes i % 2 = 1) ^^ decide (countOnes j % 2 = 1)) = true := by
    rcases Nat.mod_two_eq_zero_or_one (countOnes i) with h | h <;> rcases Nat.mod_two_eq_zero_or_one (countOnes j) with h' | h' <;>
      simp_all
  rw [hs] at h
  simp only [sg_true, neg_smul, one_smul] at h
  have : (2 : K) * ctr m n x i j = 0 := by rw [two_mul]; nth_rw 1 [h]; ring
  exact (mul_eq_zero.mp this).resolve_left h2

/-- The transform of an odd element vanishes in the blocks of equal parity. -/
theorem ctr_odd (h2 : (2 : K) ≠ 0) {m n : Nat} (hn : n ≤ 2 * m) {x : Nat → K} (hx : ∀ k < 2 ^ n, countOnes k % 2 = 0 → x k = 0)
    {i j : Nat} (hi : i < 2 ^ m) (hj : j < 2 ^ m) (hij : countOnes i % 2 = countOnes j % 2) : ctr m n x i j = 0 := by
  have h := ctr_flp hn x i hi j hj
  have hc : ctr m n (flp n x) = ctr m n (-x) := by
    refine ctr_congr fun k hk => ?_
    show sg (par n k) • x k = -x k
    rw [par_eq, ← countOnes_eq_cnt hk]
    rcases Nat.mod_two_eq_zero_or_one (countOnes k) with h | h
    · rw [hx k hk h]; simp
    · simp [h]
  rw [hc, ctr_neg] at h
  unfold al at h
  rw [par_eq, par_eq, ← countOnes_eq_cnt hi, ← countOnes_eq_cnt hj] at h
  rw [hij] at h
  simp only [Bool.xor_self, sg_false, one_smul, Pi.neg_apply] at h
  have : (2 : K) * ctr m n x i j = 0 := by rw [two_mul]; nth_rw 1 [← h]; ring
  exact (mul_eq_zero.mp this).resolve_left h2

end

end TClifford
