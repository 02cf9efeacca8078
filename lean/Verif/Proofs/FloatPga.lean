import Verif.Model.FloatPga
import Verif.Props.FloatExp
/-
Rounding errors of the operations of src/pga.rs, far from overflow and underflow.
-/

set_option linter.unusedSectionVars false

namespace TClifford

open Finset FloatModel MV

/-- The square root has the relative error of one rounding. -/
theorem Flt.sqrt_err {f : Fmt} {x : Flt f} (hx : fin x) (h0 : 0 ≤ re x) :
    fin x.sqrt ∧ |re x.sqrt - Real.sqrt (re x)| ≤ f.unitRoundoff * Real.sqrt (re x) + f.halfMin := by
  have h0' : 0 ≤ x.toRat := by
    change (0 : ℝ) ≤ ((x.toRat : ℚ) : ℝ) at h0
    exact_mod_cast h0
  obtain ⟨s1, s2⟩ := Flt.sqrt_ok hx h0'
  refine ⟨s1, ?_⟩
  have hu : (0 : ℝ) ≤ (f.unitRoundoff : ℝ) := by
    have : (0 : ℚ) ≤ f.unitRoundoff := by unfold Fmt.unitRoundoff; positivity
    exact_mod_cast this
  refine le_of_forall_pos_le_add fun ε hε => ?_
  have hd : (0 : ℝ) < ε / (f.unitRoundoff + 1) := by positivity
  obtain ⟨q, hq1, hq2⟩ := exists_rat_btwn (show Real.sqrt (re x) < Real.sqrt (re x) + ε / (f.unitRoundoff + 1) by linarith)
  have hs := Real.sqrt_nonneg (re x)
  have h1 : |re x.sqrt - Real.sqrt (re x)| ≤ |((f.rnd q : ℚ) : ℝ) - Real.sqrt (re x)| := by
    have := Flt.rnd_sqrtRat_nearest (f := f) h0' (f.rnd_rnd q)
    rw [← s2] at this
    exact this
  have h2 : |((f.rnd q : ℚ) : ℝ) - q| ≤ f.unitRoundoff * |(q : ℝ)| + f.halfMin := by
    exact_mod_cast f.rnd_err q
  have h3 : |(q : ℝ)| = q := abs_of_nonneg (by linarith)
  rw [h3] at h2
  have h4 : |((f.rnd q : ℚ) : ℝ) - Real.sqrt (re x)| ≤ |((f.rnd q : ℚ) : ℝ) - q| + |(q : ℝ) - Real.sqrt (re x)| := abs_sub_le _ _ _
  have h5 : |(q : ℝ) - Real.sqrt (re x)| = q - Real.sqrt (re x) := abs_of_nonneg (by linarith)
  have h6 : ((f.unitRoundoff : ℝ) + 1) * (ε / (f.unitRoundoff + 1)) = ε := by field_simp
  nlinarith [mul_lt_mul_of_pos_left hq2 (show (0 : ℝ) < f.unitRoundoff + 1 by linarith)]

/-- Relative error of one operation far from underflow. -/
noncomputable def ρ : ℝ := (1 + 1 / 2 ^ 20) / 2 ^ 53

theorem ρ_pos : 0 < ρ := by unfold ρ; positivity
theorem u_le_ρ : u F64 ≤ ρ := by rw [C69_f64.1]; unfold ρ; norm_num
theorem ρ_small : ρ ≤ 1 / 2 ^ 52 := by unfold ρ; norm_num

theorem F64.under {t : ℝ} (h : 1 / 2 ^ 1000 ≤ t) : u F64 * t + η F64 ≤ ρ * t := by
  have h2 : η F64 ≤ (1 / 2 ^ 73) * (1 / 2 ^ 1000) := by
    rw [C69_f64.2.1, div_mul_div_comm, one_mul, ← pow_add]
    exact one_div_le_one_div_of_le (by positivity) (pow_le_pow_right₀ (by norm_num) (by norm_num))
  have h3 : η F64 ≤ (1 / 2 ^ 73) * t := h2.trans (mul_le_mul_of_nonneg_left h (by positivity))
  rw [C69_f64.1]; unfold ρ
  generalize η F64 = e at *
  have : (1 : ℝ) / 2 ^ 53 + 1 / 2 ^ 73 = (1 + 1 / 2 ^ 20) / 2 ^ 53 := by norm_num
  rw [← this]; linarith

theorem F64.big {t : ℝ} (h : t ≤ 2 ^ 1000) : t ≤ Ω F64 := by
  refine h.trans ?_
  rw [C69_f64.2.2.2.1]
  have : (2 : ℝ) ^ 1000 = 2 ^ 29 * 2 ^ 971 := by rw [← pow_add]
  rw [this]
  exact mul_le_mul_of_nonneg_right (by norm_num) (by positivity)

theorem F64.eq_zero {x : F64} (hx : fin x) (h : re x = 0) : x = 0 := re_inj hx fin_zero (by rw [h, re_zero])

theorem F64.mul_rel {x y : F64} (hx : fin x) (hy : fin y) (hl : re x * re y = 0 ∨ 1 / 2 ^ 1000 ≤ |re x * re y|)
    (hu : |re x * re y| ≤ 2 ^ 1000) : fin (x * y) ∧ |re (x * y) - re x * re y| ≤ ρ * |re x * re y| := by
  obtain ⟨h1, h2⟩ := mul_ok hx hy (F64.big hu)
  refine ⟨h1, ?_⟩
  rcases hl with hl | hl
  · have : x * y = 0 := by
      rcases mul_eq_zero.mp hl with h | h
      · rw [F64.eq_zero hx h]; exact FloatModel.zero_mul hy
      · rw [F64.eq_zero hy h]; exact FloatModel.mul_zero hx
    rw [this, re_zero, hl]; simp
  · exact h2.trans (F64.under hl)

theorem F64.div_rel {x y : F64} (hx : fin x) (hy : fin y) (h0 : re y ≠ 0) (hl : re x = 0 ∨ 1 / 2 ^ 1000 ≤ |re x / re y|)
    (hu : |re x / re y| ≤ 2 ^ 1000) : fin (x / y) ∧ |re (x / y) - re x / re y| ≤ ρ * |re x / re y| := by
  obtain ⟨h1, h2⟩ := div_ok hx hy h0 (F64.big hu)
  refine ⟨h1, ?_⟩
  rcases hl with hl | hl
  · rw [F64.eq_zero hx hl, FloatModel.zero_div hy (fun h => h0 (by rw [h, re_zero])), re_zero]; simp
  · exact h2.trans (F64.under hl)

theorem F64.add_rel {x y : F64} (hx : fin x) (hy : fin y) (hu : |re x + re y| ≤ 2 ^ 1000) :
    fin (x + y) ∧ |re (x + y) - (re x + re y)| ≤ ρ * |re x + re y| := by
  obtain ⟨h1, h2⟩ := add_ok hx hy (F64.big hu)
  exact ⟨h1, h2.trans (mul_le_mul_of_nonneg_right u_le_ρ (abs_nonneg _))⟩

theorem F64.sqrt_rel {x : F64} (hx : fin x) (h0 : 1 / 2 ^ 2000 ≤ re x) :
    fin x.sqrt ∧ |re x.sqrt - Real.sqrt (re x)| ≤ ρ * Real.sqrt (re x) := by
  have h : (0 : ℝ) ≤ re x := le_trans (by positivity) h0
  obtain ⟨h1, h2⟩ := Flt.sqrt_err hx h
  refine ⟨h1, h2.trans (F64.under ?_)⟩
  apply Real.le_sqrt_of_sq_le
  refine le_trans (le_of_eq ?_) h0
  rw [div_pow, one_pow, ← pow_mul]

/-- Zero or of moderate size. -/
def Moderate (x : F64) : Prop := fin x ∧ (re x = 0 ∨ 1 / 2 ^ 480 ≤ |re x| ∧ |re x| ≤ 2 ^ 480)

theorem Moderate.le {x : F64} (h : Moderate x) : |re x| ≤ 2 ^ 480 := by
  rcases h.2 with h | h
  · rw [h, abs_zero]; positivity
  · exact h.2

theorem Moderate.sq {x : F64} (h : Moderate x) : fin (x * x) ∧ (1 - ρ) * re x ^ 2 ≤ re (x * x) ∧ re (x * x) ≤ (1 + ρ) * re x ^ 2 := by
  have h1 : re x * re x = 0 ∨ 1 / 2 ^ 1000 ≤ |re x * re x| := by
    rcases h.2 with h | h
    · left; rw [h, MulZeroClass.mul_zero]
    · right
      rw [abs_mul]
      refine le_trans ?_ (mul_le_mul h.1 h.1 (by positivity) (abs_nonneg _))
      rw [div_mul_div_comm, one_mul, ← pow_add]
      exact one_div_le_one_div_of_le (by positivity) (pow_le_pow_right₀ (by norm_num) (by norm_num))
  have h2 : |re x * re x| ≤ 2 ^ 1000 := by
    rw [abs_mul]
    refine (mul_le_mul h.le h.le (abs_nonneg _) (by positivity)).trans ?_
    rw [← pow_add]
    exact pow_le_pow_right₀ (by norm_num) (by norm_num)
  obtain ⟨g1, g2⟩ := F64.mul_rel h.1 h.1 h1 h2
  refine ⟨g1, ?_⟩
  rw [abs_of_nonneg (mul_self_nonneg (re x)), ← pow_two] at g2
  have := abs_le.mp g2
  constructor <;> linarith

theorem sumSq_fold (l : List F64) (hl : ∀ c ∈ l, Moderate c) (s : F64) (hs : fin s) (h0 : 0 ≤ re s)
    (hb : (1 + ρ) ^ l.length * (re s + (1 + ρ) * (l.map (fun c => re c ^ 2)).sum) ≤ 2 ^ 1000) :
    fin ((l.map (fun c => c * c)).foldl (· + ·) s) ∧
    (1 - ρ) ^ l.length * (re s + (1 - ρ) * (l.map (fun c => re c ^ 2)).sum) ≤ re ((l.map (fun c => c * c)).foldl (· + ·) s) ∧
    re ((l.map (fun c => c * c)).foldl (· + ·) s) ≤ (1 + ρ) ^ l.length * (re s + (1 + ρ) * (l.map (fun c => re c ^ 2)).sum) := by
  have hρ := ρ_pos
  have hρ1 : 0 ≤ 1 - ρ := by have := ρ_small; norm_num at this; linarith
  induction l generalizing s with
  | nil => simpa using hs
  | cons c l ih =>
    simp only [List.map_cons, List.foldl_cons, List.sum_cons, List.length_cons] at hb ⊢
    obtain ⟨q1, q2, q3⟩ := (hl c (by simp)).sq
    set Q := (l.map (fun c => re c ^ 2)).sum with hQ
    have hQ0 : 0 ≤ Q := List.sum_nonneg fun t ht => by
      obtain ⟨c, -, rfl⟩ := List.mem_map.mp ht
      positivity
    have hq0 : 0 ≤ re (c * c) := le_trans (mul_nonneg hρ1 (sq_nonneg _)) q2
    have hpow : (1 : ℝ) ≤ (1 + ρ) ^ (l.length + 1) := one_le_pow₀ (by linarith)
    have hA : re s + re (c * c) ≤ 2 ^ 1000 := by
      refine le_trans ?_ hb
      have h3 : re s + re (c * c) ≤ re s + (1 + ρ) * (re c ^ 2 + Q) := by nlinarith
      refine h3.trans (le_mul_of_one_le_left ?_ hpow)
      linarith
    obtain ⟨a1, a2⟩ := F64.add_rel hs q1 (by rw [abs_of_nonneg (by linarith)]; exact hA)
    rw [abs_of_nonneg (show 0 ≤ re s + re (c * c) by linarith)] at a2
    obtain ⟨a3, a4⟩ := abs_le.mp a2
    have b1 : (1 - ρ) * (re s + (1 - ρ) * re c ^ 2) ≤ re (s + c * c) := by
      have := mul_le_mul_of_nonneg_left q2 hρ1
      linarith
    have b2 : re (s + c * c) ≤ (1 + ρ) * (re s + (1 + ρ) * re c ^ 2) := by
      have := mul_le_mul_of_nonneg_left q3 (show 0 ≤ 1 + ρ by linarith)
      linarith
    have b0 : 0 ≤ re (s + c * c) := le_trans (mul_nonneg hρ1 (add_nonneg h0 (mul_nonneg hρ1 (sq_nonneg _)))) b1
    have c2 : (1 + ρ) ^ l.length * (re (s + c * c) + (1 + ρ) * Q) ≤ (1 + ρ) ^ (l.length + 1) * (re s + (1 + ρ) * (re c ^ 2 + Q)) := by
      rw [pow_succ, mul_assoc]
      refine mul_le_mul_of_nonneg_left ?_ (by positivity)
      nlinarith [mul_nonneg hρ.le (mul_nonneg (show 0 ≤ 1 + ρ by linarith) hQ0)]
    have c1 : (1 - ρ) ^ (l.length + 1) * (re s + (1 - ρ) * (re c ^ 2 + Q)) ≤ (1 - ρ) ^ l.length * (re (s + c * c) + (1 - ρ) * Q) := by
      rw [pow_succ, mul_assoc]
      refine mul_le_mul_of_nonneg_left ?_ (pow_nonneg hρ1 _)
      nlinarith [mul_nonneg hρ.le (mul_nonneg hρ1 hQ0)]
    obtain ⟨i1, i2, i3⟩ := ih (fun c hc => hl c (by simp [hc])) (s + c * c) a1 b0 (c2.trans hb)
    exact ⟨i1, c1.trans i2, i3.trans c2⟩

theorem pow_ρ {k : Nat} (hk : k ≤ 66) : (1 + ρ) ^ k ≤ 2 ∧ 1 / 2 ≤ (1 - ρ) ^ k := by
  have hρ := ρ_pos
  have hs := ρ_small
  constructor
  · calc (1 + ρ) ^ k ≤ (1 + ρ) ^ 66 := pow_le_pow_right₀ (by linarith) hk
      _ ≤ (1 + 1 / 2 ^ 52) ^ 66 := pow_le_pow_left₀ (by linarith) (by linarith) _
      _ ≤ 2 := by norm_num
  · have h1 : (-2 : ℝ) ≤ -ρ := by norm_num at hs; linarith
    have h2 := one_add_mul_le_pow h1 k
    have h3 : (k : ℝ) ≤ 66 := by exact_mod_cast hk
    have h4 : (k : ℝ) * ρ ≤ 66 * (1 / 2 ^ 52) := mul_le_mul h3 hs hρ.le (by norm_num)
    norm_num at h4
    rw [← sub_eq_add_neg] at h2
    linarith

theorem sqrt_pow_le {t E : ℝ} {k : Nat} (ht : 1 ≤ t) (hE : 0 ≤ E) : Real.sqrt (t ^ k * E) ≤ t ^ k * Real.sqrt E := by
  rw [Real.sqrt_mul (by positivity)]
  refine mul_le_mul_of_nonneg_right ?_ (Real.sqrt_nonneg _)
  rw [Real.sqrt_le_left (by positivity), pow_two]
  exact le_mul_of_one_le_left (by positivity) (one_le_pow₀ ht)

theorem le_sqrt_pow {t E : ℝ} {k : Nat} (h0 : 0 ≤ t) (ht : t ≤ 1) : t ^ k * Real.sqrt E ≤ Real.sqrt (t ^ k * E) := by
  rw [Real.sqrt_mul (by positivity)]
  refine mul_le_mul_of_nonneg_right ?_ (Real.sqrt_nonneg _)
  apply Real.le_sqrt_of_sq_le
  rw [pow_two]
  exact mul_le_of_le_one_left (by positivity) (pow_le_one₀ h0 ht)

/-- The length of a vector as `pga_point` computes it. -/
theorem mag_ok {l : List F64} (hl : ∀ c ∈ l, Moderate c) (hn : l.length ≤ 64) (hne : ∃ c ∈ l, re c ≠ 0) :
    fin (euclMagG Flt.sqrt l) ∧
    (1 - ρ) ^ (l.length + 2) * Real.sqrt (l.map (fun c => re c ^ 2)).sum ≤ re (euclMagG Flt.sqrt l) ∧
    re (euclMagG Flt.sqrt l) ≤ (1 + ρ) ^ (l.length + 2) * Real.sqrt (l.map (fun c => re c ^ 2)).sum ∧
    1 / 2 ^ 480 ≤ Real.sqrt (l.map (fun c => re c ^ 2)).sum ∧ Real.sqrt (l.map (fun c => re c ^ 2)).sum ≤ 2 ^ 483 := by
  have hρ := ρ_pos
  have hρ1 : 0 ≤ 1 - ρ := by have := ρ_small; norm_num at this; linarith
  set Q := (l.map (fun c => re c ^ 2)).sum with hQ
  have hQ2 : Q ≤ 2 ^ 966 := by
    have h1 : Q ≤ (l.map (fun c => re c ^ 2)).length • (2 : ℝ) ^ 960 := List.sum_le_card_nsmul _ _ fun t ht => by
      obtain ⟨c, hc, rfl⟩ := List.mem_map.mp ht
      rw [← sq_abs]
      exact (pow_le_pow_left₀ (abs_nonneg _) (hl c hc).le 2).trans (le_of_eq (by rw [← pow_mul]))
    rw [List.length_map, nsmul_eq_mul] at h1
    refine h1.trans ?_
    have h2 : (2 : ℝ) ^ 966 = 64 * 2 ^ 960 := by rw [show (64 : ℝ) = 2 ^ 6 by norm_num, ← pow_add]
    rw [h2]
    exact mul_le_mul_of_nonneg_right (by exact_mod_cast hn) (by positivity)
  have hQ1 : 1 / 2 ^ 960 ≤ Q := by
    obtain ⟨c, hc, hc0⟩ := hne
    have h1 : re c ^ 2 ≤ Q := List.single_le_sum (fun t ht => by
      obtain ⟨c, -, rfl⟩ := List.mem_map.mp ht
      positivity) _ (List.mem_map.mpr ⟨c, hc, rfl⟩)
    refine le_trans ?_ h1
    have h2 := ((hl c hc).2.resolve_left hc0).1
    rw [← sq_abs]
    refine le_trans (le_of_eq ?_) (pow_le_pow_left₀ (by positivity) h2 2)
    rw [div_pow, one_pow, ← pow_mul]
  have hQ0 : 0 ≤ Q := le_trans (by positivity) hQ1
  have hE2 : Real.sqrt Q ≤ 2 ^ 483 := by
    rw [Real.sqrt_le_left (by positivity), ← pow_mul]; exact hQ2
  have hE1 : 1 / 2 ^ 480 ≤ Real.sqrt Q := by
    apply Real.le_sqrt_of_sq_le
    refine le_trans (le_of_eq ?_) hQ1
    rw [div_pow, one_pow, ← pow_mul]
  obtain ⟨f1, f2, f3⟩ := sumSq_fold l hl 0 fin_zero (le_of_eq re_zero.symm) (by
    rw [re_zero, _root_.zero_add, ← mul_assoc, ← pow_succ]
    calc (1 + ρ) ^ (l.length + 1) * Q ≤ 2 * 2 ^ 966 := mul_le_mul (pow_ρ (by omega)).1 hQ2 hQ0 (by norm_num)
      _ = 2 ^ 967 := by rw [← pow_succ']
      _ ≤ 2 ^ 1000 := pow_le_pow_right₀ (by norm_num) (by norm_num))
  rw [re_zero, _root_.zero_add, ← mul_assoc, ← pow_succ] at f2 f3
  change fin (List.foldl _ _ _) at f1
  set s := (l.map (fun c => c * c)).foldl (· + ·) (0 : F64) with hs
  have hs0 : 1 / 2 ^ 2000 ≤ re s := by
    refine le_trans ?_ f2
    calc (1 : ℝ) / 2 ^ 2000 ≤ 1 / 2 ^ 961 :=
          one_div_le_one_div_of_le (by positivity) (pow_le_pow_right₀ (by norm_num) (by norm_num))
      _ = 1 / 2 * (1 / 2 ^ 960) := by rw [div_mul_div_comm, one_mul, ← pow_succ']
      _ ≤ _ := mul_le_mul (pow_ρ (by omega)).2 hQ1 (by positivity) (pow_nonneg hρ1 _)
  obtain ⟨r1, r2⟩ := F64.sqrt_rel f1 hs0
  have hm : euclMagG Flt.sqrt l = s.sqrt := rfl
  rw [hm]
  obtain ⟨r3, r4⟩ := abs_le.mp r2
  refine ⟨r1, ?_, ?_, hE1, hE2⟩
  · have h1 : (1 - ρ) ^ (l.length + 1) * Real.sqrt Q ≤ Real.sqrt (re s) :=
      (le_sqrt_pow hρ1 (by linarith)).trans (Real.sqrt_le_sqrt f2)
    calc (1 - ρ) ^ (l.length + 2) * Real.sqrt Q = (1 - ρ) * ((1 - ρ) ^ (l.length + 1) * Real.sqrt Q) := by ring
      _ ≤ (1 - ρ) * Real.sqrt (re s) := mul_le_mul_of_nonneg_left h1 hρ1
      _ ≤ _ := by linarith
  · have h1 : Real.sqrt (re s) ≤ (1 + ρ) ^ (l.length + 1) * Real.sqrt Q :=
      (Real.sqrt_le_sqrt f3).trans (sqrt_pow_le (by linarith) hQ0)
    calc re s.sqrt ≤ (1 + ρ) * Real.sqrt (re s) := by linarith
      _ ≤ (1 + ρ) * ((1 + ρ) ^ (l.length + 1) * Real.sqrt Q) := mul_le_mul_of_nonneg_left h1 (by linarith)
      _ = _ := by ring

/-! ### The operations -/

section
variable {A : ClAlg} {S : Type} [CoeffStorage S F64] [LawfulStorage S F64]

theorem sdivG_eq {a : MV A S} {t : F64} (h0 : t ≠ 0) : a.sdivG t = a.sdiv t := by
  unfold sdivG sdiv
  congr 1
  funext u
  rw [foldlM_set _ _ (fun p => (p.1, p.2 / t))]
  · rw [List.foldl_map]; rfl
  · intro u p _
    unfold fdiv
    rw [if_neg h0]; rfl

end

end TClifford
