import Verif.Props.Tests
import Verif.Props.ClifftFloat
/-
C87, fifth part: the tests of src/clifft/tests.rs on large arrays, with `f64` coefficients.  These arrays are too large
to be evaluated; the assertions follow from the theorems of Props/ClifftFloat.lean.
-/

set_option maxRecDepth 100000

namespace TClifford
namespace Tests
open Finset FloatModel

/-- The array of length `2^n` with the entries `p k + q k * i`. -/
def cArr (n : Nat) (p q : Nat → ℤ) : Arr1 (Cx F64) := ⟨2 ^ n, fun k => ⟨f (p k), f (q k)⟩⟩

/-- Conversion of an integer of at most 53 bits. -/
theorem f_int {m : ℤ} (h : |m| ≤ 2 ^ 53) : FloatModel.fin (f m) ∧ FloatModel.re (f m) = m := by
  obtain ⟨h1, h2⟩ := Flt.ofRat_int (f := Fmt.f64) h
  exact ⟨h1, by show ((Flt.toRat _ : ℚ) : ℝ) = m; rw [show (f m).toRat = m from h2]; norm_num⟩

theorem cArr_int {n c : Nat} {p q : Nat → ℤ} (h : ∀ k < 2 ^ n, |p k| + |q k| ≤ c) (hc : c ≤ 2 ^ 53) :
    IntArr (F := F64) n (cArr n p q) (2 ^ n * c) := by
  have hv : ∀ k < 2 ^ n, ((cArr n p q).get k).Fin ∧ ((cArr n p q).get k).val = ⟨p k, q k⟩ := fun k hk => by
    have := h k hk
    have := abs_nonneg (p k)
    have := abs_nonneg (q k)
    have hc' : (c : ℤ) ≤ 2 ^ 53 := by exact_mod_cast hc
    obtain ⟨a1, a2⟩ := f_int (m := p k) (by linarith)
    obtain ⟨b1, b2⟩ := f_int (m := q k) (by linarith)
    exact ⟨⟨a1, b1⟩, Complex.ext a2 b2⟩
  refine ⟨rfl, fun k hk => ⟨(hv k hk).1, ?_⟩, ?_⟩
  · show Cx.GInt ((cArr n p q).get k).val
    rw [(hv k hk).2]
    exact ⟨⟨p k, rfl⟩, q k, rfl⟩
  · calc ∑ k ∈ range (2 ^ n), Cx.n1 ((cArr n p q).get k).val ≤ ∑ k ∈ range (2 ^ n), (c : ℝ) := by
          refine sum_le_sum fun k hk => ?_
          rw [(hv k (mem_range.mp hk)).2]
          have := h k (mem_range.mp hk)
          show |(p k : ℝ)| + |(q k : ℝ)| ≤ c
          exact_mod_cast this
      _ = 2 ^ n * c := by simp

theorem cM : FloatModel.M F64 = 2 ^ 53 := C69_f64.2.2.1

theorem h4 : (4 : ℝ) ≤ FloatModel.M F64 := Ex.four_le

/-! ### clifft_ndarray_test -/

/-- The array of the test: `1.0, 2.0, ..., 2^20`. -/
def ndarrayIn : Arr1 F64 := ⟨2 ^ 20, fun k => f ((k + 1 : ℕ) : ℚ)⟩

/-- **C87.** `clifft_ndarray_test`. -/
theorem C87_clifft_ndarray : Same1 (do let m ← clifft (K := Cx F64) ndarrayIn; iclifft m)
    (.ok ⟨2 ^ 20, fun k => ⟨f ((k + 1 : ℕ) : ℚ), 0⟩⟩) := by
  have e0 : (f ((0 : ℤ) : ℚ)) = 0 := by decide +kernel
  have e1 : ∀ k, (IntoComplex.into (ndarrayIn.get k) : Cx F64) = (cArr 20 (fun k => (k + 1 : ℕ)) (fun _ => 0)).get k := fun k => by
    show (⟨f _, 0⟩ : Cx F64) = ⟨f _, f _⟩
    rw [e0]
    norm_num
  obtain ⟨h1, h2, h3⟩ := cArr_int (n := 20) (c := 2 ^ 20) (p := fun k => (k + 1 : ℕ)) (q := fun _ => 0)
    (fun k hk => by rw [abs_zero, _root_.add_zero, Nat.abs_cast]; exact_mod_cast hk) (by norm_num)
  have hx : IntArr (F := F64) 20 ndarrayIn (2 ^ 20 * (2 ^ 20 : ℕ)) :=
    ⟨rfl, fun k hk => by rw [e1]; exact h2 k hk, by
      refine le_trans (le_of_eq (sum_congr rfl fun k _ => ?_)) h3
      rw [e1]; rfl⟩
  obtain ⟨r, w, r1, r2, r3, r4⟩ := C78_clifft_round_trip (F := F64) h4 (by norm_num) hx (by rw [cM]; norm_num)
  obtain rfl := Except.ok.inj r2
  refine ⟨r, _, r1, rfl, r3, fun k hk => ?_⟩
  rw [r4 k hk]
  have hk' : k < 2 ^ 20 := by rw [r3] at hk; exact hk
  show (if k < 2 ^ 20 then _ else _) = _
  rw [if_pos hk']
  rfl

/-! ### alpha_test, imaginary_flip_test -/

/-- **C87.** `alpha_test`: the coefficients are `1, 2, ..., 2^12`. -/
theorem C87_alpha : Same1 (do let m ← clifft (K := Cx F64) (cArr 12 (fun k => k + 1) fun _ => 0); iclifft (parityFlip m))
    (.ok ⟨2 ^ 12, fun k => if countOnes k &&& 1 = 1 then -(cArr 12 (fun k => k + 1) fun _ => 0).get k
      else (cArr 12 (fun k => k + 1) fun _ => 0).get k⟩) := by
  have := C78_parity_flip (F := F64) h4 (by norm_num) (by norm_num) (cArr_int (n := 12) (c := 2 ^ 12) (p := fun k => k + 1) (q := fun _ => 0)
    (fun k hk => by rw [abs_zero, _root_.add_zero, abs_of_nonneg (by positivity)]; exact_mod_cast hk) (by norm_num)) (by rw [cM]; norm_num)
  simp only [Nat.and_one_is_mod]
  exact this

/-- **C87.** `imaginary_flip_test`: the coefficients are `1, 2, ..., 2^10`. -/
theorem C87_imaginary_flip :
    Same1 (do let m ← clifft (K := Cx F64) (cArr 10 (fun k => k + 1) fun _ => 0); let m' ← imaginaryFlip m; iclifft m')
      (.ok ⟨2 ^ 10, fun k => if countOnes (k &&& 0xAAAAAAAAAAAAAAAA) % 2 = 0 then (cArr 10 (fun k => k + 1) fun _ => 0).get k
        else -(cArr 10 (fun k => k + 1) fun _ => 0).get k⟩) := by
  obtain ⟨r, w, r1, r2, r3, r4⟩ := C78_imaginary_flip (F := F64) h4 (by norm_num) (by norm_num) (cArr_int (n := 10) (c := 2 ^ 10)
    (p := fun k => k + 1) (q := fun _ => 0)
    (fun k hk => by rw [abs_zero, _root_.add_zero, abs_of_nonneg (by positivity)]; exact_mod_cast hk) (by norm_num)) (by rw [cM]; norm_num)
  obtain rfl := Except.ok.inj r2
  refine ⟨r, _, r1, rfl, r3, fun k hk => (r4 k hk).trans ?_⟩
  simp only [negOdd]
  rcases Nat.mod_two_eq_zero_or_one (countOnes (k &&& 0xAAAAAAAAAAAAAAAA)) with h | h
  · rw [if_neg (show ¬ countOnes (k &&& oddMask) % 2 = 1 by rw [show oddMask = 0xAAAAAAAAAAAAAAAA from rfl]; omega), if_pos h]
  · rw [if_pos (show countOnes (k &&& oddMask) % 2 = 1 from h), if_neg (by omega)]

/-! ### transposition_test -/

theorem one_val : (1 : Cx F64).Fin ∧ (1 : Cx F64).val = 1 :=
  ⟨⟨FloatModel.fin_one, FloatModel.fin_zero⟩, Complex.ext FloatModel.re_one FloatModel.re_zero⟩

theorem unit_val (n k : Nat) (i : Nat) : ((unitArr (2 ^ n) k).get i).Fin ∧ ((unitArr (2 ^ n) k).get i).val = single k 1 i := by
  unfold unitArr single
  dsimp only
  split
  · exact one_val
  · exact Cx.zero_Fin

theorem unit_int {n k : Nat} (hk : k < 2 ^ n) : IntArr (F := F64) n (unitArr (2 ^ n) k) 1 := by
  refine ⟨rfl, fun i _ => ⟨(unit_val n k i).1, ?_⟩, ?_⟩
  · show Cx.GInt ((unitArr (2 ^ n) k).get i).val
    rw [(unit_val n k i).2, single]
    split
    · exact ⟨⟨1, by simp⟩, 0, by simp⟩
    · exact ⟨⟨0, by simp⟩, 0, by simp⟩
  · rw [sum_eq_single k]
    · show Cx.n1 ((unitArr (2 ^ n) k).get k).val ≤ 1
      rw [(unit_val n k k).2, single, if_pos rfl]
      simp [Cx.n1]
    · intro i _ hi
      show Cx.n1 ((unitArr (2 ^ n) k).get i).val = 0
      rw [(unit_val n k i).2, single, if_neg hi, Cx.n1_zero]
    · intro h; exact absurd (mem_range.mpr hk) h

/-- `iclifft(m.map(|c| c.conj()).t())` for `m = clifft(coeffs)`, `coeffs` being zero except for a 1 at `idx`. -/
def conjT (dim idx : Nat) : Res (Arr1 (Cx F64)) := do
  let m ← clifft (K := Cx F64) (unitArr (2 ^ dim) idx)
  iclifft (⟨m.cols, m.rows, fun i j => Cx.conj (m.get j i)⟩ : Arr2 (Cx F64))

theorem conjT_eq {dim idx : Nat} (hd : dim < 50) (he : dim % 2 = 0) (h : idx < 2 ^ dim) :
    Same1 (conjT dim idx) (.ok (negOdd (fun k => countOnes k * (countOnes k - 1) / 2) (unitArr (2 ^ dim) idx))) :=
  C78_conj_transpose (F := F64) h4 (by omega) he (unit_int h)
    (fun k _ => by
      rw [(unit_val dim idx k).2, single]; split <;> rfl) (by rw [cM]; norm_num)

/-- **C87.** The loops of `transposition_test` over the 2-vectors, 3-vectors and 4-vectors of dimension 8 (`grade_iter`
runs through the indices with the given number of ones, `C22_grade_iter`). -/
theorem C87_transposition : ∀ idx < 2 ^ 8,
    (countOnes idx = 2 ∨ countOnes idx = 3 → Same1 (conjT 8 idx) (.ok ⟨2 ^ 8, fun k => -(unitArr (2 ^ 8) idx).get k⟩)) ∧
    (countOnes idx = 4 → Same1 (conjT 8 idx) (.ok (unitArr (2 ^ 8) idx))) := by
  intro idx hi
  obtain ⟨r, w, r1, r2, r3, r4⟩ := conjT_eq (dim := 8) (by norm_num) (by norm_num) hi
  obtain rfl := Except.ok.inj r2
  have e0 : -(0 : Cx F64) = 0 := by decide +kernel
  constructor
  · intro hc
    refine ⟨r, _, r1, rfl, r3, fun k hk => (r4 k hk).trans ?_⟩
    by_cases hk : k = idx
    · subst hk
      rcases hc with hc | hc <;> simp [negOdd, hc]
    · simp [negOdd, unitArr, hk, e0]
  · intro hc
    refine ⟨r, _, r1, rfl, r3, fun k hk => (r4 k hk).trans ?_⟩
    by_cases hk : k = idx
    · subst hk
      simp [negOdd, hc]
    · simp [negOdd, unitArr, hk, e0]

/-- **C87.** The last loop of `transposition_test`: the coefficients are `(x + 1) + (x - 1) i`. -/
theorem C87_reversal : Same1 (do let m ← clifft (K := Cx F64) (cArr 12 (fun x => x + 1) fun x => x - 1); let m' ← reversal m; iclifft m')
    (.ok ⟨2 ^ 12, fun k => if countOnes k % 4 = 0 ∨ countOnes k % 4 = 1 then (cArr 12 (fun x => x + 1) fun x => x - 1).get k
      else -(cArr 12 (fun x => x + 1) fun x => x - 1).get k⟩) := by
  obtain ⟨r, w, r1, r2, r3, r4⟩ := C78_reversal (F := F64) h4 (by norm_num) (by norm_num) (cArr_int (n := 12) (c := 2 ^ 14)
    (p := fun x => x + 1) (q := fun x => x - 1)
    (fun k hk => by
      have h1 : |(k : ℤ) + 1| ≤ 2 ^ 12 := by rw [abs_of_nonneg (by positivity)]; exact_mod_cast hk
      have h2 : |(k : ℤ) - 1| ≤ 2 ^ 12 := by rw [abs_le]; constructor <;> omega
      push_cast; linarith) (by norm_num)) (by rw [cM]; norm_num)
  obtain rfl := Except.ok.inj r2
  refine ⟨r, _, r1, rfl, r3, fun k hk => (r4 k hk).trans ?_⟩
  simp only [negOdd]
  have key : ∀ c : Nat, (c * (c - 1) / 2 % 2 = 1) ↔ ¬ (c % 4 = 0 ∨ c % 4 = 1) := fun c => by
    obtain ⟨d, hd⟩ : ∃ d, c = 4 * d ∨ c = 4 * d + 1 ∨ c = 4 * d + 2 ∨ c = 4 * d + 3 := ⟨c / 4, by omega⟩
    rcases hd with rfl | rfl | rfl | rfl
    · rw [show 4 * d * (4 * d - 1) = 2 * (2 * (d * (4 * d - 1))) by ring]; omega
    · rw [show (4 * d + 1) * (4 * d + 1 - 1) = 2 * (2 * (d * (4 * d + 1))) by rw [Nat.add_sub_cancel]; ring]; omega
    · rw [show (4 * d + 2) * (4 * d + 2 - 1) = 2 * (2 * (4 * d * d + 3 * d) + 1) by rw [show 4 * d + 2 - 1 = 4 * d + 1 by omega]; ring]; omega
    · rw [show (4 * d + 3) * (4 * d + 3 - 1) = 2 * (2 * (4 * d * d + 5 * d + 1) + 1) by rw [show 4 * d + 3 - 1 = 4 * d + 2 by omega]; ring]; omega
  by_cases h : countOnes k % 4 = 0 ∨ countOnes k % 4 = 1
  · rw [if_neg (fun h' => (key _).mp h' h), if_pos h]
  · rw [if_pos ((key _).mpr h), if_neg h]

/-! ### clifft_mul_test -/

/-- The product of the transforms of `e_a` and `e_b`. -/
def dotT (a b : Nat) : Res (Arr2 (Cx F64)) := do
  let p ← clifft (K := Cx F64) (unitArr (2 ^ 12) a)
  let q ← clifft (K := Cx F64) (unitArr (2 ^ 12) b)
  p.dot q

/-- **C87.** `clifft_mul_test`, the assertions about one vector. -/
theorem C87_clifft_square : ∀ i < 12,
    Same2 (dotT (1 <<< i) (1 <<< i)) (.ok ⟨64, 64, fun r c => if r = c then 1 else 0⟩) ∧
    Same1 (do iclifft (← dotT (1 <<< i) (1 <<< i))) (.ok (unitArr (2 ^ 12) 0)) := by
  intro i hi
  have hu : 1 <<< i < 2 ^ 12 := by rw [Nat.one_shiftLeft]; exact Nat.pow_lt_pow_right (by norm_num) hi
  have hs : ∀ i < 12, bsgn (fun _ => 1) 12 (1 <<< i) (1 <<< i) = 1 := by decide +kernel
  have hv : ∀ a, arrVal (F := F64) (unitArr (2 ^ 12) a) = single a 1 := fun a => funext fun k => (unit_val 12 a k).2
  have hg : geo (fun _ => 1) 12 (arrVal (F := F64) (unitArr (2 ^ 12) (1 <<< i))) (arrVal (F := F64) (unitArr (2 ^ 12) (1 <<< i))) = single 0 1 := by
    funext k
    rw [hv, geo_single_single _ hu, hs i hi, Nat.xor_self, one_smul, one_mul]
  constructor
  · obtain ⟨N, N', h1, h2, h3, h5, h6⟩ := C78_clifft_dot (F := F64) h4 (by norm_num) (unit_int hu) (unit_int hu)
      (by rw [cM]; norm_num) (by rw [cM]; norm_num) (by rw [cM]; norm_num)
    rw [hg] at h2
    obtain ⟨L, l1, l2, l3, l4⟩ := clifft_spec (K := ℂ) (n := 12) (by norm_num) (⟨(unitArr (2 ^ 12) (1 <<< i)).len, single 0 1⟩ : Arr1 ℂ) rfl
    obtain rfl : N' = L := Except.ok.inj (h2.symm.trans l1)
    refine ⟨N, _, h1, rfl, h3.trans l2, h5.trans l3, fun r hr c hc => ?_⟩
    obtain ⟨g1, g2⟩ := h6 r hr c hc
    rw [h3, l2] at hr
    rw [h5, l3] at hc
    rw [l4 r hr c hc] at g2
    have g3 : ((N.get r c).val : ℂ) = if r = c then 1 else 0 := g2.trans (ctr_one 6 12 r hr c hc)
    show N.get r c = if r = c then 1 else 0
    split
    · rename_i h
      rw [if_pos h] at g3
      exact cx_inj g1 one_val.1 (g3.trans one_val.2.symm)
    · rename_i h
      rw [if_neg h] at g3
      exact cx_inj g1 Cx.zero_Fin.1 (g3.trans Cx.zero_Fin.2.symm)
  · obtain ⟨r, h1, h2, h3⟩ := C78_clifft_mul (F := F64) h4 (by norm_num) (unit_int hu) (unit_int hu)
      (by rw [cM]; norm_num) (by rw [cM]; norm_num) (by rw [cM]; norm_num)
    rw [hg] at h3
    refine ⟨r, _, ?_, rfl, h2, fun k hk => ?_⟩
    · rw [← h1]; unfold dotT; simp only [bind_assoc]
    · obtain ⟨g1, g2⟩ := h3 k hk
      rw [if_pos (by rw [h2] at hk; exact hk)] at g2
      exact cx_inj g1 (unit_val 12 0 k).1 (g2.trans (unit_val 12 0 k).2.symm)

/-- **C87.** `clifft_mul_test`, the assertions about two different vectors. -/
theorem C87_clifft_mul : ∀ i j, i < j → j < 12 → ∃ xy yx,
    (do iclifft (← dotT (1 <<< i) (1 <<< j))) = .ok xy ∧ (do iclifft (← dotT (1 <<< j) (1 <<< i))) = .ok yx ∧
    xy.len = 2 ^ 12 ∧ yx.len = 2 ^ 12 ∧
    xy.get (1 <<< i ||| 1 <<< j) = -yx.get (1 <<< i ||| 1 <<< j) ∧ xy.get (1 <<< i ||| 1 <<< j) = -1 ∧
    ∀ k < 2 ^ 12, k ≠ 1 <<< i ||| 1 <<< j → xy.get k = 0 := by
  intro i j hij hj
  have hi : i < 12 := by omega
  have hu : ∀ i < 12, 1 <<< i < 2 ^ 12 := fun i hi => by rw [Nat.one_shiftLeft]; exact Nat.pow_lt_pow_right (by norm_num) hi
  have hs : ∀ i < 12, ∀ j < 12, i < j → bsgn (fun _ => 1) 12 (1 <<< i) (1 <<< j) = -1 ∧ bsgn (fun _ => 1) 12 (1 <<< j) (1 <<< i) = 1 ∧
      1 <<< i ^^^ 1 <<< j = 1 <<< i ||| 1 <<< j ∧ 1 <<< j ^^^ 1 <<< i = 1 <<< i ||| 1 <<< j ∧ 1 <<< i ||| 1 <<< j < 2 ^ 12 := by decide +kernel
  obtain ⟨s1, s2, s3, s4, s5⟩ := hs i hi j hj hij
  have hv : ∀ a, arrVal (F := F64) (unitArr (2 ^ 12) a) = single a 1 := fun a => funext fun k => (unit_val 12 a k).2
  obtain ⟨xy, x1, x2, x3⟩ := C78_clifft_mul (F := F64) h4 (by norm_num) (unit_int (hu i hi)) (unit_int (hu j hj))
      (by rw [cM]; norm_num) (by rw [cM]; norm_num) (by rw [cM]; norm_num)
  obtain ⟨yx, y1, y2, y3⟩ := C78_clifft_mul (F := F64) h4 (by norm_num) (unit_int (hu j hj)) (unit_int (hu i hi))
      (by rw [cM]; norm_num) (by rw [cM]; norm_num) (by rw [cM]; norm_num)
  have x2 : xy.len = 2 ^ 12 := x2
  have y2 : yx.len = 2 ^ 12 := y2
  rw [x2] at x3
  rw [y2] at y3
  have hx : ∀ k < 2 ^ 12, (xy.get k).Fin ∧ (xy.get k).val = if k = 1 <<< i ||| 1 <<< j then -1 else 0 := fun k hk => by
    refine ⟨(x3 k hk).1, (x3 k hk).2.trans ?_⟩
    rw [if_pos hk, hv, hv, geo_single_single _ (hu i hi), s1, s3, single]
    simp
  have hy : ∀ k < 2 ^ 12, (yx.get k).Fin ∧ (yx.get k).val = if k = 1 <<< i ||| 1 <<< j then 1 else 0 := fun k hk => by
    refine ⟨(y3 k hk).1, (y3 k hk).2.trans ?_⟩
    rw [if_pos hk, hv, hv, geo_single_single _ (hu j hj), s2, s4, single]
    simp
  have e1 : xy.get (1 <<< i ||| 1 <<< j) = -1 := by
    refine cx_inj (hx _ s5).1 (Cx.neg_Fin one_val.1).1 ?_
    rw [(hx _ s5).2, if_pos rfl, (Cx.neg_Fin one_val.1).2, one_val.2]
  have e2 : yx.get (1 <<< i ||| 1 <<< j) = 1 := by
    refine cx_inj (hy _ s5).1 one_val.1 ?_
    rw [(hy _ s5).2, if_pos rfl, one_val.2]
  refine ⟨xy, yx, ?_, ?_, x2, y2, by rw [e1, e2], e1, fun k hk hne => ?_⟩
  · rw [← x1]; unfold dotT; simp only [bind_assoc]
  · rw [← y1]; unfold dotT; simp only [bind_assoc]
  · refine cx_inj (hx k hk).1 Cx.zero_Fin.1 ?_
    rw [(hx k hk).2, if_neg hne, Cx.zero_Fin.2]

end Tests
end TClifford
