import Verif.Model.FloatDiv
import Verif.Props.FloatPga
import Verif.Props.Quaternion
import Verif.Props.Trace
import Verif.Props.FloatInv
/-
C98: division of multivectors with doubles.
-/

set_option linter.unusedSectionVars false

namespace TClifford

open Finset FloatModel MV

/-! ### Sums of up to four products -/

theorem errB_four {a : ℝ} {n : Nat} (hn : n ≤ 4) (h0 : a = 0 → n = 0) (ha : a = 0 ∨ 1 / 2 ^ 1000 ≤ a) :
    errB F64 a n ≤ 6 * ρ * a := by
  rcases ha with ha | ha
  · rw [h0 ha, ha]; simp [errB]
  · have ha0 : 0 ≤ a := le_trans (by positivity) ha
    have h1 := errB_mono (F := F64) ha0 (le_refl a) hn
    refine h1.trans ?_
    have h2 := F64.under ha
    unfold errB
    have hu := C69_f64.1
    have hu0 : (0 : ℝ) ≤ u F64 := u_nonneg
    have hη0 : (0 : ℝ) ≤ η F64 := η_nonneg
    have e1 : (1 + u F64) ^ (4 + 1) - 1 ≤ 5 * u F64 + u F64 / 4 := by rw [hu]; norm_num
    have e2 : (1 + u F64) ^ 4 ≤ 5 / 4 := by rw [hu]; norm_num
    have e3 : η F64 * (4 : ℕ) * (1 + u F64) ^ 4 ≤ 5 * η F64 := by
      push_cast
      nlinarith
    have e4 : a * ((1 + u F64) ^ (4 + 1) - 1) ≤ (5 * u F64 + u F64 / 4) * a := by
      rw [mul_comm]; exact mul_le_mul_of_nonneg_right e1 ha0
    have h5 : 0 ≤ u F64 * a := mul_nonneg hu0 ha0
    refine (add_le_add e4 e3).trans ?_
    clear e1 e2 e3 e4 hu h1
    nlinarith only [h5, h2, hη0]

theorem dot_fl {v : F64} {s : Finset ℕ} {c : ℕ → ℤ} {x y : ℕ → F64} (h : Acc v (∑ i ∈ s, tau (c i) (x i) (y i))) (hs : #s ≤ 4)
    (hx : ∀ i ∈ s, fin (x i)) (hy : ∀ i ∈ s, fin (y i))
    (hl : ∀ i ∈ s, (c i : ℝ) * (re (x i) * re (y i)) = 0 ∨ 1 / 2 ^ 1000 ≤ |(c i : ℝ) * (re (x i) * re (y i))|)
    (hu : ∑ i ∈ s, |(c i : ℝ) * (re (x i) * re (y i))| ≤ 2 ^ 999) :
    fin v ∧ |re v - ∑ i ∈ s, (c i : ℝ) * (re (x i) * re (y i))| ≤ 6 * ρ * ∑ i ∈ s, |(c i : ℝ) * (re (x i) * re (y i))| := by
  obtain ⟨-, -, -, h3⟩ := h
  have e1 : (∑ i ∈ s, tau (c i) (x i) (y i)).1 = ∑ i ∈ s, (c i : ℝ) * (re (x i) * re (y i)) := by rw [Prod.fst_sum]; rfl
  have e2 : (∑ i ∈ s, tau (c i) (x i) (y i)).2.1 = ∑ i ∈ s, |(c i : ℝ) * (re (x i) * re (y i))| := by
    rw [Prod.snd_sum, Prod.fst_sum]; rfl
  have e3 : (∑ i ∈ s, tau (c i) (x i) (y i)).2.2 = ∑ i ∈ s, if c i = 0 ∨ x i = 0 ∨ y i = 0 then 0 else 1 := by
    rw [Prod.snd_sum, Prod.snd_sum]; rfl
  have hn : (∑ i ∈ s, tau (c i) (x i) (y i)).2.2 ≤ 4 := by
    rw [e3]
    refine (sum_le_card_nsmul _ _ 1 fun k _ => ?_).trans (by simpa using hs)
    split <;> omega
  rw [e1, e2] at h3
  have hb := errB_four hn (a := ∑ i ∈ s, |(c i : ℝ) * (re (x i) * re (y i))|) (by
    intro h0
    rw [sum_eq_zero_iff_of_nonneg (fun _ _ => abs_nonneg _)] at h0
    rw [e3]
    refine sum_eq_zero fun i hi => if_pos ?_
    have h := h0 i hi
    rw [abs_eq_zero, mul_eq_zero, mul_eq_zero] at h
    rcases h with h | h | h
    · left; exact_mod_cast h
    · right; left; exact F64.eq_zero (hx i hi) h
    · right; right; exact F64.eq_zero (hy i hi) h) (by
    by_cases hz : ∀ i ∈ s, (c i : ℝ) * (re (x i) * re (y i)) = 0
    · left; exact sum_eq_zero fun i hi => by rw [hz i hi, abs_zero]
    · right
      push Not at hz
      obtain ⟨i, hi, hne⟩ := hz
      exact ((hl i hi).resolve_left hne).trans (single_le_sum (f := fun i => |(c i : ℝ) * (re (x i) * re (y i))|) (fun _ _ => abs_nonneg _) hi))
  have hρ := ρ_small
  have hρ0 := ρ_pos
  have a0 : 0 ≤ ∑ i ∈ s, |(c i : ℝ) * (re (x i) * re (y i))| := sum_nonneg fun _ _ => abs_nonneg _
  generalize (∑ i ∈ s, |(c i : ℝ) * (re (x i) * re (y i))|) = a at *
  obtain ⟨g1, g2⟩ := h3 (by
    refine F64.big (le_trans (add_le_add_right hb a) ?_)
    have : 6 * ρ * a ≤ a := mul_le_of_le_one_left a0 (by norm_num at hρ; linarith)
    have e : (2 : ℝ) ^ 1000 = 2 ^ 999 + 2 ^ 999 := by rw [pow_succ]; ring
    rw [e]; linarith)
  exact ⟨g1, g2.trans hb⟩

/-- Zero or between `2⁻²⁰⁰` and `2²⁰⁰`. -/
def MidR (x : F64) : Prop := fin x ∧ (re x = 0 ∨ 1 / 2 ^ 200 ≤ |re x| ∧ |re x| ≤ 2 ^ 200)

theorem MidR.le {x : F64} (h : MidR x) : |re x| ≤ 2 ^ 200 := by
  rcases h.2 with h | h
  · rw [h, abs_zero]; positivity
  · exact h.2

theorem inv_near {c v N C : ℝ} (hN : 0 < N) (hv : |v - N| ≤ 6 * ρ * N) (hC : |C - c / v| ≤ ρ * |c / v|) :
    |C - c / N| ≤ 8 * ρ * |c / N| := by
  have hρ0 := ρ_pos
  have hρ : ρ ≤ 1 / 1000 := ρ_small.trans (by norm_num)
  have hv' := abs_le.mp hv
  have hρN : 6 * ρ * N ≤ 6 / 1000 * N := mul_le_mul_of_nonneg_right (by linarith) hN.le
  have hv0 : 0 < v := by linarith
  have e : c / v - c / N = c / v * ((N - v) / N) := by field_simp
  have e2 : |c / v| ≤ |c / N| * (1 + 1 / 100) := by
    rw [abs_div, abs_div, abs_of_pos hv0, abs_of_pos hN, div_mul_eq_mul_div, div_le_div_iff₀ hv0 hN]
    have : N ≤ (1 + 1 / 100) * v := by linarith
    calc |c| * N ≤ |c| * ((1 + 1 / 100) * v) := mul_le_mul_of_nonneg_left this (abs_nonneg _)
      _ = _ := by ring
  have e3 : |(N - v) / N| ≤ 6 * ρ := by
    rw [abs_div, abs_of_pos hN, div_le_iff₀ hN, abs_sub_comm]; exact hv
  have h1 : |C - c / N| ≤ ρ * |c / v| + |c / v| * (6 * ρ) := by
    refine (abs_sub_le C (c / v) (c / N)).trans (add_le_add hC ?_)
    rw [e, abs_mul]
    exact mul_le_mul_of_nonneg_left e3 (abs_nonneg _)
  have h2 : 7 * ρ * |c / v| ≤ 7 * ρ * (|c / N| * (1 + 1 / 100)) := mul_le_mul_of_nonneg_left e2 (by positivity)
  have h3 : 0 ≤ ρ * |c / N| := by positivity
  nlinarith only [h1, h2, h3]

theorem quot_num {c v : F64} {N : ℝ} (hc : MidR c) (hv : fin v) (h1 : 1 / 2 ^ 400 ≤ N) (h2 : N ≤ 2 ^ 402)
    (h : |re v - N| ≤ 6 * ρ * N) :
    fin (c / v) ∧ |re (c / v) - re c / N| ≤ 8 * ρ * |re c / N| ∧ (re c ≠ 0 → 1 / 2 ^ 604 ≤ |re (c / v)|) ∧
      |re (c / v)| ≤ 2 ^ 602 := by
  have hρ0 := ρ_pos
  have hρ : ρ ≤ 1 / 1000 := ρ_small.trans (by norm_num)
  have hN : 0 < N := lt_of_lt_of_le (by positivity) h1
  have hv' := abs_le.mp h
  have hρN : 6 * ρ * N ≤ 6 / 1000 * N := mul_le_mul_of_nonneg_right (by linarith) hN.le
  have v1 : 1 / 2 ^ 401 ≤ re v := by
    have e : (1 : ℝ) / 2 ^ 401 = 1 / 2 ^ 400 / 2 := by rw [pow_succ]; field_simp
    rw [e]
    generalize (1 : ℝ) / 2 ^ 400 = t at *
    linarith
  have v2 : re v ≤ 2 ^ 403 := by
    have e : (2 : ℝ) ^ 403 = 2 ^ 402 * 2 := pow_succ _ _
    rw [e]
    clear e
    generalize (2 : ℝ) ^ 402 = t at *
    linarith
  have v0 : 0 < re v := lt_of_lt_of_le (by positivity) v1
  have u1 : |re c / re v| ≤ 2 ^ 601 := by
    rw [abs_div, abs_of_pos v0, div_le_iff₀ v0]
    calc |re c| ≤ 2 ^ 200 := hc.le
      _ = 2 ^ 601 * (1 / 2 ^ 401) := by rw [mul_one_div, eq_div_iff (by positivity), ← pow_add]
      _ ≤ _ := mul_le_mul_of_nonneg_left v1 (by positivity)
  have l1 : re c ≠ 0 → 1 / 2 ^ 603 ≤ |re c / re v| := by
    intro hne
    rw [abs_div, abs_of_pos v0, le_div_iff₀ v0]
    calc 1 / 2 ^ 603 * re v ≤ 1 / 2 ^ 603 * 2 ^ 403 := mul_le_mul_of_nonneg_left v2 (by positivity)
      _ = 1 / 2 ^ 200 := by rw [div_mul_eq_mul_div, one_mul, div_eq_div_iff (by positivity) (by positivity), one_mul, ← pow_add]
      _ ≤ _ := (hc.2.resolve_left hne).1
  obtain ⟨g1, g2⟩ := F64.div_rel (x := c) hc.1 hv v0.ne' (by
    by_cases hne : re c = 0
    · exact .inl hne
    · exact .inr (le_trans (one_div_le_one_div_of_le (by positivity) (pow_le_pow_right₀ (by norm_num) (by norm_num))) (l1 hne)))
    (u1.trans (pow_le_pow_right₀ (by norm_num) (by norm_num)))
  have g3 := abs_le.mp (g2.trans (mul_le_mul_of_nonneg_right hρ (abs_nonneg _)))
  have t1 := abs_sub_abs_le_abs_sub (re c / re v) (re (c / v))
  have t2 := abs_sub_abs_le_abs_sub (re (c / v)) (re c / re v)
  rw [abs_sub_comm] at t1
  have g2' := g2.trans (mul_le_mul_of_nonneg_right hρ (abs_nonneg _))
  refine ⟨g1, inv_near hN h g2, fun hne => ?_, ?_⟩
  · have e : (1 : ℝ) / 2 ^ 604 = 1 / 2 ^ 603 / 2 := by rw [pow_succ]; field_simp
    have l := l1 hne
    rw [e]
    generalize (1 : ℝ) / 2 ^ 603 = t at *
    linarith
  · have e : (2 : ℝ) ^ 602 = 2 ^ 601 * 2 := pow_succ _ _
    rw [e]
    clear e
    have : (0 : ℝ) ≤ 2 ^ 601 := by positivity
    generalize (2 : ℝ) ^ 601 = t at *
    linarith

theorem mul_zero_or {c : ℤ} (hc : |c| ≤ 1) {x y l m : ℝ} (hx : x = 0 ∨ l ≤ |x|) (hy : y = 0 ∨ m ≤ |y|) (hm : 0 ≤ m) :
    (c : ℝ) * (x * y) = 0 ∨ l * m ≤ |(c : ℝ) * (x * y)| := by
  have : c = 0 ∨ c = 1 ∨ c = -1 := by rw [abs_le] at hc; omega
  rcases hx with hx | hx
  · left; rw [hx]; ring
  rcases hy with hy | hy
  · left; rw [hy]; ring
  rcases this with h | h
  · left; rw [h]; simp
  · right
    have hc1 : |(c : ℝ)| = 1 := by rcases h with h | h <;> rw [h] <;> simp
    rw [abs_mul, hc1, one_mul, abs_mul]
    exact mul_le_mul hx hy hm (abs_nonneg _)

theorem mul_le_of_unit {c : ℤ} (hc : |c| ≤ 1) {x y : ℝ} : |(c : ℝ) * (x * y)| ≤ |x| * |y| := by
  have : |(c : ℝ)| ≤ 1 := by exact_mod_cast hc
  rw [abs_mul, abs_mul]
  exact mul_le_of_le_one_left (by positivity) this

section
variable {sig : List Sym} {names : List String} {A : ClAlg} {S : Type} [CoeffStorage S F64] [LawfulStorage S F64]
variable {S' : Type} [CoeffStorage S' ℝ] [LawfulStorage S' ℝ]
variable {a b : MV A S} {a' b' : MV A S'} {x y : Nat → F64}

/-- The sign of the conjugate. -/
def cs (n i : Nat) : ℤ := sg (par n i) * rsg n i

theorem cs_unit (n i : Nat) : cs n i = 1 ∨ cs n i = -1 := by
  unfold cs
  rcases rsg_unit n i with h | h <;> rw [h] <;> cases par n i <;> simp [sg]

theorem cs_abs (n i : Nat) : |(cs n i : ℝ)| = 1 := by rcases cs_unit n i with h | h <;> rw [h] <;> simp

theorem cj_eq (n : Nat) (f : Nat → ℝ) (i : Nat) : cj n f i = cs n i * f i := by
  show sg (par n i) • (rsg n i • f i) = _
  unfold cs
  rw [zsmul_eq_mul, zsmul_eq_mul]
  push_cast
  ring

theorem sgnC_sgnC (s t : ℤ) (hs : s = 1 ∨ s = -1) (ht : t = 1 ∨ t = -1) {x : F64} (hx : fin x) : re (sgnC s (sgnC t x)) = (s * t : ℤ) * re x := by
  rw [re_sgnC hs (fin_sgnC t hx), re_sgnC ht hx]
  push_cast
  ring

/-- **C98.** In the algebras `[-]` and `[-,-]` with doubles whose coefficients are zero or between `2⁻²⁰⁰` and `2²⁰⁰`, every
coefficient of `a / b` for non-zero `b` is finite, and differs from the coefficient of the exact quotient by at most `15 · 2⁻⁵³`
times the sum of the absolute values of its terms. -/
theorem C98_div (hA : declareAlgebra sig names = some A) (hd : implDivision sig = true) (ha : SameValues a a' x)
    (hb : SameValues b b' y) (hx : ∀ i < 2 ^ A.dim, MidR (x i)) (hy : ∀ i < 2 ^ A.dim, MidR (y i))
    (h0 : ∃ i < 2 ^ A.dim, re (y i) ≠ 0) :
    NearR (a.divG b) (a'.div b') (fun _ _ => True) (fun k _ => 15 / 2 ^ 53 *
      ((∑ i ∈ range (2 ^ A.dim), |re (x i)| * |re (y (i ^^^ k))|) / ∑ i ∈ range (2 ^ A.dim), re (y i) ^ 2)) := by
  obtain ⟨hw, hdim, hσ⟩ := division_cases hA hd
  have hcard : #(range (2 ^ A.dim)) ≤ 4 := by rw [card_range]; rcases hdim with h | h <;> rw [h] <;> decide
  set N := ∑ i ∈ range (2 ^ A.dim), re (y i) ^ 2 with hN
  have hρ0 := ρ_pos
  have hρ : ρ ≤ 1 / 1000 := ρ_small.trans (by norm_num)
  -- the norm
  have N1 : 1 / 2 ^ 400 ≤ N := by
    obtain ⟨i, hi, hne⟩ := h0
    have h1 := ((hy i hi).2.resolve_left hne).1
    have h2 : re (y i) ^ 2 ≤ N := single_le_sum (f := fun i => re (y i) ^ 2) (fun _ _ => sq_nonneg _) (mem_range.mpr hi)
    refine le_trans ?_ h2
    rw [← sq_abs, sq]
    calc (1 : ℝ) / 2 ^ 400 = 1 / 2 ^ 200 * (1 / 2 ^ 200) := by rw [div_mul_div_comm, one_mul, ← pow_add]
      _ ≤ _ := mul_le_mul h1 h1 (by positivity) (abs_nonneg _)
  have hsum : ∀ {f : Nat → ℝ} {B : ℝ}, 0 ≤ B → (∀ i < 2 ^ A.dim, f i ≤ B) → ∑ i ∈ range (2 ^ A.dim), f i ≤ B * 2 ^ 2 := by
    intro f B hB hf
    refine (sum_le_card_nsmul _ _ B fun i hi => hf i (mem_range.mp hi)).trans ?_
    rw [nsmul_eq_mul, mul_comm]
    have : ((#(range (2 ^ A.dim)) : ℕ) : ℝ) ≤ 4 := by exact_mod_cast hcard
    exact mul_le_mul_of_nonneg_left (this.trans (by norm_num)) hB
  have sq_le : ∀ i < 2 ^ A.dim, re (y i) ^ 2 ≤ 2 ^ 400 := by
    intro i hi
    rw [← sq_abs, sq]
    calc |re (y i)| * |re (y i)| ≤ 2 ^ 200 * 2 ^ 200 := mul_le_mul (hy i hi).le (hy i hi).le (abs_nonneg _) (by positivity)
      _ = 2 ^ 400 := by rw [← pow_add]
  have N2 : N ≤ 2 ^ 402 := (hsum (by positivity) sq_le).trans (by rw [← pow_add])
  have N0 : 0 < N := lt_of_lt_of_le (by positivity) N1
  have hgeo : geo A.sigma A.dim b'.val (cj A.dim b'.val) 0 = N := by
    rw [(geo_cj hdim hσ b'.val (Nat.two_pow_pos _)).1, single, if_pos rfl]
    exact sum_congr rfl fun i hi => by rw [hb.val' (mem_range.mp hi), sq]
  have hex := div_denotes hw ha.valid' hb.valid' (by rw [hgeo]; exact N0.ne')
  -- the conjugate
  obtain ⟨r, hr, hrv, hrf⟩ := rev_fl hb.valid
  obtain ⟨c, hc, hcv, hcf⟩ := flip_fl hrv
  beta_reduce at hrf hcf
  have cre : ∀ i < 2 ^ A.dim, fin (c.val i) ∧ re (c.val i) = cs A.dim i * re (y i) := by
    intro i hi
    rw [hcf i hi, hrf i hi, hb.val hi]
    refine ⟨fin_sgnC _ (fin_sgnC _ (hb.finite i hi)), ?_⟩
    exact sgnC_sgnC _ _ (by cases par A.dim i <;> simp [sg]) (rsg_unit _ _) (hb.finite i hi)
  have cabs : ∀ i < 2 ^ A.dim, |re (c.val i)| = |re (y i)| := by
    intro i hi
    rw [(cre i hi).2, abs_mul, cs_abs, one_mul]
  have cmid : ∀ i < 2 ^ A.dim, MidR (c.val i) := by
    intro i hi
    refine ⟨(cre i hi).1, ?_⟩
    rw [cabs i hi, ← abs_eq_zero, cabs i hi, abs_eq_zero]
    exact (hy i hi).2
  have small : ∀ {z : F64}, MidR z → re z = 0 ∨ 1 / 2 ^ 200 ≤ |re z| := fun h => h.2.imp_right And.left
  -- the norm in floats
  obtain ⟨p, hp, hpv, hpf⟩ := mul_inv sumInv_acc hw hb.valid hcv hb.good (fun i hi => (cre i hi).1)
  have hxor : ∀ {i k : Nat}, i < 2 ^ A.dim → k < 2 ^ A.dim → i ^^^ k < 2 ^ A.dim := fun hi hk => Nat.xor_lt_two_pow hi hk
  have hP := hpf 0 (Nat.two_pow_pos _)
  have hbs : ∀ k < 2 ^ A.dim, ∀ i ∈ range (2 ^ A.dim), |bsgn A.sigma A.dim i (i ^^^ k)| ≤ 1 := fun k hk i hi =>
    bsgn_sigma_abs hw (mem_range.mp hi) (hxor (mem_range.mp hi) hk)
  have z0 : 0 < 2 ^ A.dim := Nat.two_pow_pos _
  have hbmid : ∀ i < 2 ^ A.dim, MidR (b.val i) := fun i hi => by rw [hb.val hi]; exact hy i hi
  have hle : ∀ i ∈ range (2 ^ A.dim), |(bsgn A.sigma A.dim i (i ^^^ 0) : ℝ) * (re (b.val i) * re (c.val (i ^^^ 0)))| ≤ re (y i) ^ 2 := by
    intro i hi
    have hi' := mem_range.mp hi
    refine (mul_le_of_unit (hbs 0 z0 i hi)).trans ?_
    rw [Nat.xor_zero, cabs i hi', hb.val hi', ← sq, sq_abs]
  have hAle := sum_le_sum hle
  rw [← hN] at hAle
  obtain ⟨vf, vn⟩ := dot_fl hP hcard (fun i hi => hb.good i (mem_range.mp hi))
    (fun i hi => (cre _ (hxor (mem_range.mp hi) z0)).1)
    (fun i hi => (mul_zero_or (hbs 0 z0 i hi) (small (hbmid i (mem_range.mp hi))) (small (cmid _ (hxor (mem_range.mp hi) z0)))
      (by positivity)).imp_right (le_trans (by
        rw [div_mul_div_comm, one_mul, ← pow_add]
        exact one_div_le_one_div_of_le (by positivity) (pow_le_pow_right₀ (by norm_num) (by norm_num)))))
    (hAle.trans (N2.trans (pow_le_pow_right₀ (by norm_num) (by norm_num))))
  have hNsum : ∑ i ∈ range (2 ^ A.dim), (bsgn A.sigma A.dim i (i ^^^ 0) : ℝ) * (re (b.val i) * re (c.val (i ^^^ 0))) = N := by
    rw [← hgeo]
    unfold geo
    refine sum_congr rfl fun i hi => ?_
    have hi' := mem_range.mp hi
    rw [zsmul_eq_mul, hb.val hi', hb.val' hi', (cre _ (hxor hi' z0)).2, cj_eq, hb.val' (hxor hi' z0)]
  rw [hNsum] at vn
  replace vn := vn.trans (mul_le_mul_of_nonneg_left hAle (by positivity))
  -- the quotients
  set v := p.val 0 with hv
  have q := fun i hi => quot_num (cmid i hi) vf N1 N2 vn
  have hv0 : v ≠ 0 := by
    intro h
    rw [h, re_zero, zero_sub, abs_neg, abs_of_pos N0] at vn
    have : 6 * ρ * N ≤ 6 / 1000 * N := mul_le_mul_of_nonneg_right (by linarith) N0.le
    linarith
  obtain ⟨s, hs, hsv, hsf⟩ := LawfulStorage.mapMut_ok (T := F64) (f := fun c => .ok (c / v)) (g := fun c => c / v) hcv
    (fun _ => rfl) (FloatModel.zero_div vf hv0) (by
      intro i hne h
      by_cases hi : i < 2 ^ A.dim
      · have h1 := (q i hi).2.2.1 (fun h => hne (F64.eq_zero (cre i hi).1 h))
        have h2 : re (c.val i / v) = 0 := by
          have : c.val i / v = 0 := h
          rw [this, re_zero]
        rw [h2, abs_zero] at h1
        have : (0 : ℝ) < 1 / 2 ^ 604 := by positivity
        exact absurd h1 (not_le.mpr this)
      · exact hne (LawfulStorage.val_oob hcv (by omega)))
  have hsv' : MV.Valid (⟨s⟩ : MV A S) := hsv
  have hsf' : ∀ i, MV.val (⟨s⟩ : MV A S) i = c.val i / v := hsf
  obtain ⟨t, ht, htv, htf⟩ := mul_inv sumInv_acc hw ha.valid hsv' ha.good (fun i hi => by rw [hsf' i]; exact (q i hi).1)
  have hden : Denotes (a.divG b) t.val := by
    refine ⟨t, ?_, htv, fun _ _ => rfl⟩
    unfold MV.divG
    have e0 : p.getByIdx 0 = .ok v := hpv.get z0
    simp only [hr, hc, hp, e0, hs, ht, bind, Except.bind]
  refine NearR.of_denotes hden hex ?_
  intro k hk _
  have hxm : ∀ i < 2 ^ A.dim, MidR (a.val i) := fun i hi => by rw [ha.val hi]; exact hx i hi
  have ssm : ∀ i < 2 ^ A.dim, re (MV.val (⟨s⟩ : MV A S) i) = 0 ∨ 1 / 2 ^ 604 ≤ |re (MV.val (⟨s⟩ : MV A S) i)| := by
    intro i hi
    rw [hsf' i]
    by_cases h : re (c.val i) = 0
    · left
      rw [F64.eq_zero (cre i hi).1 h, FloatModel.zero_div vf hv0, re_zero]
    · exact .inr ((q i hi).2.2.1 h)
  obtain ⟨tf, tn⟩ := dot_fl (htf k hk) hcard (fun i hi => ha.good i (mem_range.mp hi))
    (fun i hi => by rw [hsf']; exact (q _ (hxor (mem_range.mp hi) hk)).1)
    (fun i hi => (mul_zero_or (hbs k hk i hi) (small (hxm i (mem_range.mp hi))) (ssm _ (hxor (mem_range.mp hi) hk))
      (by positivity)).imp_right (le_trans (by
        rw [div_mul_div_comm, one_mul, ← pow_add]
        exact one_div_le_one_div_of_le (by positivity) (pow_le_pow_right₀ (by norm_num) (by norm_num)))))
    ((hsum (B := 2 ^ 802) (by positivity) (fun i hi => by
      refine (mul_le_of_unit (hbs k hk i (mem_range.mpr hi))).trans ?_
      rw [hsf']
      calc |re (a.val i)| * |re (c.val (i ^^^ k) / v)| ≤ 2 ^ 200 * 2 ^ 602 :=
            mul_le_mul (hxm i hi).le (q _ (hxor hi hk)).2.2.2 (abs_nonneg _) (by positivity)
        _ = 2 ^ 802 := by rw [← pow_add])).trans (by rw [← pow_add]; exact pow_le_pow_right₀ (by norm_num) (by norm_num)))
  refine ⟨tf, ?_⟩
  -- compare with the exact quotient
  obtain ⟨d1, d2⟩ := dot_near (n := 2 ^ A.dim) (α := 0) (β := 8 * ρ) (le_refl 0)
    (h := fun i => (bsgn A.sigma A.dim i (i ^^^ k) : ℝ) * re (a.val i)) (h' := fun i => (bsgn A.sigma A.dim i (i ^^^ k) : ℝ) * re (a.val i))
    (p := fun i => re (c.val (i ^^^ k) / v)) (p' := fun i => re (c.val (i ^^^ k)) / N)
    (fun i _ => by simp) (fun i hi => (q _ (hxor hi hk)).2.1)
  simp only [_root_.zero_add, MulZeroClass.zero_mul, add_zero, mul_assoc ((_ : ℤ) : ℝ)] at d1 d2
  simp only [hsf'] at tn
  have eex : geo A.sigma A.dim a'.val (fun i => cj A.dim b'.val i / geo A.sigma A.dim b'.val (cj A.dim b'.val) 0) k =
      ∑ i ∈ range (2 ^ A.dim), (bsgn A.sigma A.dim i (i ^^^ k) : ℝ) * (re (a.val i) * (re (c.val (i ^^^ k)) / N)) := by
    rw [hgeo]
    unfold geo
    refine sum_congr rfl fun i hi => ?_
    have hi' := mem_range.mp hi
    beta_reduce
    rw [zsmul_eq_mul, ha.val hi', ha.val' hi', (cre _ (hxor hi' hk)).2, cj_eq, hb.val' (hxor hi' hk)]
  rw [eex]
  have hB : ∑ i ∈ range (2 ^ A.dim), |(bsgn A.sigma A.dim i (i ^^^ k) : ℝ) * (re (a.val i) * (re (c.val (i ^^^ k)) / N))| ≤
      (∑ i ∈ range (2 ^ A.dim), |re (x i)| * |re (y (i ^^^ k))|) / N := by
    rw [sum_div]
    refine sum_le_sum fun i hi => ?_
    have hi' := mem_range.mp hi
    refine (mul_le_of_unit (hbs k hk i hi)).trans ?_
    rw [abs_div, abs_of_pos N0, cabs _ (hxor hi' hk), ha.val hi', mul_div_assoc]
  have hB0 : 0 ≤ ∑ i ∈ range (2 ^ A.dim), |(bsgn A.sigma A.dim i (i ^^^ k) : ℝ) * (re (a.val i) * (re (c.val (i ^^^ k)) / N))| :=
    sum_nonneg fun _ _ => abs_nonneg _
  have hfin := (abs_sub_le _ _ _).trans (add_le_add (tn.trans (mul_le_mul_of_nonneg_left d2 (by positivity))) d1)
  refine hfin.trans ?_
  generalize (∑ i ∈ range (2 ^ A.dim), |(bsgn A.sigma A.dim i (i ^^^ k) : ℝ) * (re (a.val i) * (re (c.val (i ^^^ k)) / N))|) = B at *
  refine le_trans ?_ (mul_le_mul_of_nonneg_left hB (by positivity))
  have e15 : 6 * ρ * (1 + 8 * ρ) + 8 * ρ ≤ 15 / 2 ^ 53 := by unfold ρ; norm_num
  calc _ = (6 * ρ * (1 + 8 * ρ) + 8 * ρ) * B := by ring
    _ ≤ _ := mul_le_mul_of_nonneg_right e15 hB0

/-- **C98.** The error is at most `15 · 2⁻⁵³` times the norm of the exact quotient. -/
theorem C98_div_norm (hA : declareAlgebra sig names = some A) (hd : implDivision sig = true) (ha : SameValues a a' x)
    (hb : SameValues b b' y) (hx : ∀ i < 2 ^ A.dim, MidR (x i)) (hy : ∀ i < 2 ^ A.dim, MidR (y i))
    (h0 : ∃ i < 2 ^ A.dim, re (y i) ≠ 0) :
    NearR (a.divG b) (a'.div b') (fun _ _ => True) (fun _ _ => 15 / 2 ^ 53 *
      (√(∑ i ∈ range (2 ^ A.dim), re (x i) ^ 2) / √(∑ i ∈ range (2 ^ A.dim), re (y i) ^ 2))) := by
  obtain ⟨p, q, z, e, h1, h2, h3, h4, h5, h6, h7⟩ := C98_div hA hd ha hb hx hy h0
  refine ⟨p, q, z, e, h1, h2, h3, h4, h5, h6, fun k hk hP => ⟨(h7 k hk hP).1, (h7 k hk hP).2.trans ?_⟩⟩
  refine mul_le_mul_of_nonneg_left ?_ (by positivity)
  have hN : 0 < ∑ i ∈ range (2 ^ A.dim), re (y i) ^ 2 := by
    obtain ⟨i, hi, hne⟩ := h0
    exact lt_of_lt_of_le (by positivity) (single_le_sum (f := fun i => re (y i) ^ 2) (fun _ _ => sq_nonneg _) (mem_range.mpr hi))
  have hcs := Real.sum_mul_le_sqrt_mul_sqrt (range (2 ^ A.dim)) (fun i => |re (x i)|) (fun i => |re (y (i ^^^ k))|)
  simp only [sq_abs] at hcs
  rw [sum_xor hk (fun i => re (y i) ^ 2)] at hcs
  set N := ∑ i ∈ range (2 ^ A.dim), re (y i) ^ 2
  have hs : 0 < √N := Real.sqrt_pos.mpr hN
  rw [div_le_div_iff₀ hN hs]
  calc _ ≤ (√(∑ i ∈ range (2 ^ A.dim), re (x i) ^ 2) * √N) * √N := mul_le_mul_of_nonneg_right hcs hs.le
    _ = _ := by rw [mul_assoc, Real.mul_self_sqrt hN.le]

/-- **C98.** Every coefficient of `b / b` is within `15 · 2⁻⁵³` of that of one. -/
theorem C98_self (hA : declareAlgebra sig names = some A) (hd : implDivision sig = true)
    (hb : SameValues b b' y) (hy : ∀ i < 2 ^ A.dim, MidR (y i)) (h0 : ∃ i < 2 ^ A.dim, re (y i) ≠ 0) :
    NearR (b.divG b) (one (A := A) (S := S') (T := ℝ)) (fun _ _ => True) (fun _ _ => 15 / 2 ^ 53) := by
  obtain ⟨p, q, z, e, h1, h2, h3, h4, h5, h6, h7⟩ := C98_div_norm hA hd hb hb hy hy h0
  obtain ⟨hw, hdim, hσ⟩ := division_cases hA hd
  have hN : 0 < ∑ i ∈ range (2 ^ A.dim), re (y i) ^ 2 := by
    obtain ⟨i, hi, hne⟩ := h0
    exact lt_of_lt_of_le (by positivity) (single_le_sum (f := fun i => re (y i) ^ 2) (fun _ _ => sq_nonneg _) (mem_range.mpr hi))
  have hg : geo A.sigma A.dim b'.val (cj A.dim b'.val) 0 = ∑ i ∈ range (2 ^ A.dim), re (y i) ^ 2 := by
    rw [(geo_cj hdim hσ b'.val (Nat.two_pow_pos _)).1, single, if_pos rfl]
    exact sum_congr rfl fun i hi => by rw [hb.val' (mem_range.mp hi), sq]
  have hden := div_denotes hw hb.valid' hb.valid' (by rw [hg]; exact hN.ne')
  rw [h2] at hden
  have he := h6.unique hden.coefs
  obtain ⟨o, ho, hov, hof⟩ := one_denotes (A := A) (S := S') (T := ℝ) hb.valid'.supp
  refine ⟨p, o, z, e, h1, ho, h3, hov, h5, ?_, fun k hk hP => ⟨(h7 k hk hP).1, (h7 k hk hP).2.trans ?_⟩⟩
  · rw [← ho]
    refine (one_denotes hb.valid'.supp).coefs.congr fun k hk => ?_
    rw [he k hk]
    have e1 : (fun i => cj A.dim b'.val i / geo A.sigma A.dim b'.val (cj A.dim b'.val) 0) =
        fun i => cj A.dim b'.val i * (geo A.sigma A.dim b'.val (cj A.dim b'.val) 0)⁻¹ := by funext i; rw [div_eq_mul_inv]
    rw [e1, geo_smul_right, (geo_cj hdim hσ b'.val hk).1, hg]
    have e2 : ∑ i ∈ range (2 ^ A.dim), b'.val i * b'.val i = ∑ i ∈ range (2 ^ A.dim), re (y i) ^ 2 :=
      sum_congr rfl fun i hi => by rw [hb.val' (mem_range.mp hi), sq]
    rw [e2]
    unfold single
    split
    · exact (mul_inv_cancel₀ hN.ne').symm
    · exact (MulZeroClass.zero_mul _).symm
  · rw [div_self (Real.sqrt_pos.mpr hN).ne', mul_one]

/-! ### Inverses up to the magnitude -/

theorem pow_small {t : ℝ} (ht : 0 ≤ t) (k : Nat) (h : k * t ≤ 1) : (1 + t) ^ k ≤ 1 + k * t + (k * t) ^ 2 := by
  induction k with
  | zero => simp
  | succ k ih =>
    push_cast at h ⊢
    have hk0 : (0 : ℝ) ≤ k := Nat.cast_nonneg _
    have hk : k * t ≤ 1 := by linarith
    have ih := ih hk
    rw [pow_succ]
    refine (mul_le_mul_of_nonneg_right ih (by linarith)).trans ?_
    have h2 : (k * t) * (k * t * t) ≤ 1 * (k * t * t) := mul_le_mul_of_nonneg_right hk (by positivity)
    have h3 : 0 ≤ t * t := mul_nonneg ht ht
    nlinarith only [h2, h3, mul_nonneg hk0 h3]

theorem errB_many {a : ℝ} {n N : Nat} (hN : N ≤ 2 ^ n) (hn : n ≤ 20) (ha : 1 / 2 ^ 1000 ≤ a) : errB F64 a N ≤ (2 ^ n + 2) / 2 ^ 53 * a := by
  have ha0 : 0 ≤ a := le_trans (by positivity) ha
  have h1 := errB_mono (F := F64) ha0 (le_refl a) hN
  refine h1.trans ?_
  have hη : η F64 ≤ (1 / 2 ^ 75) * a := by
    have h2 : η F64 ≤ (1 / 2 ^ 75) * (1 / 2 ^ 1000) := by
      rw [C69_f64.2.1, div_mul_div_comm, one_mul, ← pow_add]
    exact h2.trans (mul_le_mul_of_nonneg_left ha (by positivity))
  have hη0 : 0 ≤ η F64 := η_nonneg
  unfold errB
  have hL : ((2 ^ n : ℕ) : ℝ) ≤ 2 ^ 20 := by
    push_cast
    exact pow_le_pow_right₀ (by norm_num) hn
  have hL0 : (0 : ℝ) ≤ ((2 ^ n : ℕ) : ℝ) := Nat.cast_nonneg _
  have hu : u F64 = 1 / 2 ^ 53 := C69_f64.1
  have p1 := pow_small (t := u F64) u_nonneg (2 ^ n + 1) (by rw [hu]; push_cast at hL ⊢; norm_num at hL ⊢; linarith)
  have p2 := pow_small (t := u F64) u_nonneg (2 ^ n) (by rw [hu]; norm_num at hL ⊢; linarith)
  have e : (2 ^ n + 2 : ℝ) = ((2 ^ n : ℕ) : ℝ) + 2 := by push_cast; ring
  rw [e]
  push_cast at p1
  rw [Nat.cast_pow, Nat.cast_ofNat] at *
  generalize (2 : ℝ) ^ n = L at *
  rw [hu] at *
  have q1 : (1 + 1 / 2 ^ 53 : ℝ) ^ (2 ^ n + 1) - 1 ≤ (L + 3 / 2) / 2 ^ 53 := by
    norm_num at hL p1 ⊢
    nlinarith
  have q2 : (1 + 1 / 2 ^ 53 : ℝ) ^ (2 ^ n) ≤ 2 := by
    norm_num at hL p2 ⊢
    nlinarith
  have r1 := mul_le_mul_of_nonneg_left q1 ha0
  have r2 : η F64 * L * (1 + 1 / 2 ^ 53 : ℝ) ^ (2 ^ n) ≤ (1 / 2 ^ 75 * a) * 2 ^ 20 * 2 :=
    mul_le_mul (mul_le_mul hη hL hL0 (by positivity)) q2 (by positivity) (by positivity)
  refine (add_le_add r1 r2).trans ?_
  have : a * ((L + 3 / 2) / 2 ^ 53) + 1 / 2 ^ 75 * a * 2 ^ 20 * 2 = ((L + 3 / 2) / 2 ^ 53 + 1 / 2 ^ 54) * a := by ring
  rw [this]
  exact mul_le_mul_of_nonneg_right (by linarith) ha0

theorem revm_num {c v Q δ C : ℝ} (hQ : Q ≠ 0) (hδ : δ ≤ 1 / 8) (hv : |v - Q| ≤ δ * |Q|) (hC : |C - c / v| ≤ ρ * |c / v|) :
    |C - c / Q| ≤ 8 / 7 * (δ + ρ) * |c / Q| := by
  have hρ0 := ρ_pos
  have hQ' : 0 < |Q| := abs_pos.mpr hQ
  have h1 : 7 / 8 * |Q| ≤ |v| := by
    have := abs_sub_abs_le_abs_sub Q v
    rw [abs_sub_comm] at this
    have : δ * |Q| ≤ 1 / 8 * |Q| := mul_le_mul_of_nonneg_right hδ hQ'.le
    linarith
  have hv0' : 0 < |v| := by linarith
  have hv0 : v ≠ 0 := abs_pos.mp hv0'
  have e : c / v - c / Q = c / v * ((Q - v) / Q) := by field_simp
  have e2 : |c / v| ≤ |c / Q| * (8 / 7) := by
    rw [abs_div, abs_div, div_mul_eq_mul_div, div_le_div_iff₀ hv0' hQ']
    calc |c| * |Q| ≤ |c| * (8 / 7 * |v|) := mul_le_mul_of_nonneg_left (by linarith) (abs_nonneg _)
      _ = _ := by ring
  have e3 : |(Q - v) / Q| ≤ δ := by rw [abs_div, div_le_iff₀ hQ', abs_sub_comm]; exact hv
  have h3 : |C - c / Q| ≤ ρ * |c / v| + |c / v| * δ := by
    refine (abs_sub_le C (c / v) (c / Q)).trans (add_le_add hC ?_)
    rw [e, abs_mul]
    exact mul_le_mul_of_nonneg_left e3 (abs_nonneg _)
  have hδ0 : 0 ≤ δ := (abs_nonneg _).trans e3
  calc _ ≤ (δ + ρ) * |c / v| := by linarith
    _ ≤ (δ + ρ) * (|c / Q| * (8 / 7)) := mul_le_mul_of_nonneg_left e2 (by linarith)
    _ = _ := by ring

theorem mag2_near (hA : A.WF) (hn : A.dim ≤ 20) (ha : SameValues a a' x) (hx : ∀ i < 2 ^ A.dim, MidR (x i)) {Q κ : ℝ}
    (hQ : a'.mag2 = .ok Q) (h0 : Q ≠ 0) (hκ : ∑ i ∈ range (2 ^ A.dim), re (x i) ^ 2 ≤ κ * |Q|) (hs : κ * (2 ^ A.dim + 2) ≤ 2 ^ 50) :
    ∃ v, a.mag2 = .ok v ∧ fin v ∧ |re v - Q| ≤ κ * (2 ^ A.dim + 2) / 2 ^ 53 * |Q| ∧ 1 / 2 ^ 450 ≤ |Q| ∧ |Q| ≤ 2 ^ 420 := by
  set Mg := ∑ i ∈ range (2 ^ A.dim), re (x i) ^ 2 with hM
  have hρ0 := ρ_pos
  have hQ' : 0 < |Q| := abs_pos.mpr h0
  have hMa : absSum (range (2 ^ A.dim)) x x = Mg := sum_congr rfl fun i _ => by rw [abs_mul_abs_self, sq]
  -- `|Q| ≤ Mg`
  have hQM : |Q| ≤ Mg := by
    rw [mag2_sum hA ha.valid'] at hQ
    injection hQ with hQ
    rw [← hQ]
    refine (abs_sum_le_sum_abs _ _).trans (sum_le_sum fun i hi => ?_)
    rw [ha.val' (mem_range.mp hi), abs_mul, abs_of_nonneg (sq_nonneg (re (x i)))]
    refine mul_le_of_le_one_left (sq_nonneg _) ?_
    have h1 := bsgn_sigma_abs hA (mem_range.mp hi) (mem_range.mp hi)
    rw [bsgn_self, abs_mul] at h1
    have h2 : |rsg A.dim i| = 1 := by rcases rsg_unit A.dim i with h | h <;> rw [h] <;> simp
    rw [h2, one_mul] at h1
    exact_mod_cast h1
  have hM0 : 0 < Mg := lt_of_lt_of_le hQ' hQM
  have M1 : 1 / 2 ^ 400 ≤ Mg := by
    have : ∃ i ∈ range (2 ^ A.dim), re (x i) ≠ 0 := by
      by_contra h
      push Not at h
      have : Mg = 0 := sum_eq_zero fun i hi => by rw [h i hi]; norm_num
      exact hM0.ne' this
    obtain ⟨i, hi, hne⟩ := this
    have h1 := ((hx i (mem_range.mp hi)).2.resolve_left hne).1
    have h2 : re (x i) ^ 2 ≤ Mg := single_le_sum (f := fun i => re (x i) ^ 2) (fun _ _ => sq_nonneg _) hi
    refine le_trans ?_ h2
    rw [← sq_abs, sq]
    calc (1 : ℝ) / 2 ^ 400 = 1 / 2 ^ 200 * (1 / 2 ^ 200) := by rw [div_mul_div_comm, one_mul, ← pow_add]
      _ ≤ _ := mul_le_mul h1 h1 (by positivity) (abs_nonneg _)
  have hL : (2 : ℝ) ^ A.dim ≤ 2 ^ 20 := pow_le_pow_right₀ (by norm_num) hn
  have M2 : Mg ≤ 2 ^ 420 := by
    have : Mg ≤ ∑ i ∈ range (2 ^ A.dim), (2 : ℝ) ^ 400 := sum_le_sum fun i hi => by
      rw [← sq_abs, sq]
      calc |re (x i)| * |re (x i)| ≤ 2 ^ 200 * 2 ^ 200 :=
            mul_le_mul (hx i (mem_range.mp hi)).le (hx i (mem_range.mp hi)).le (abs_nonneg _) (by positivity)
        _ = 2 ^ 400 := by rw [← pow_add]
    refine this.trans ?_
    rw [sum_const, card_range, nsmul_eq_mul]
    push_cast
    calc (2 : ℝ) ^ A.dim * 2 ^ 400 ≤ 2 ^ 20 * 2 ^ 400 := mul_le_mul_of_nonneg_right hL (by positivity)
      _ = 2 ^ 420 := by rw [← pow_add]
  -- `mag2`
  obtain ⟨v, Q', hv, hQ2, hvn⟩ := C70_mag2 hA ha
  rw [hQ] at hQ2
  injection hQ2 with hQ2
  subst hQ2
  rw [hMa] at hvn
  have hE : errB F64 Mg (nTerms (range (2 ^ A.dim)) x x) ≤ (2 ^ A.dim + 2) / 2 ^ 53 * Mg := errB_many (by
    unfold nTerms
    exact (card_filter_le _ _).trans (by rw [card_range])) hn
    (le_trans (one_div_le_one_div_of_le (by positivity) (pow_le_pow_right₀ (by norm_num) (by norm_num))) M1)
  have hsm : ((2 : ℝ) ^ A.dim + 2) / 2 ^ 53 ≤ 1 := by
    rw [div_le_one (by positivity)]
    exact (add_le_add_left hL 2).trans (by norm_num)
  obtain ⟨vf, vn⟩ := hvn (F64.big (by
    have : ((2 : ℝ) ^ A.dim + 2) / 2 ^ 53 * Mg ≤ 1 * Mg := mul_le_mul_of_nonneg_right hsm hM0.le
    have h2 : (2 : ℝ) ^ 1000 = 2 ^ 579 * (2 * 2 ^ 420) := by rw [← pow_succ', ← pow_add]
    rw [h2]
    have h3 : (2 : ℝ) * 2 ^ 420 ≤ 2 ^ 579 * (2 * 2 ^ 420) := le_mul_of_one_le_left (by positivity) (one_le_pow₀ (by norm_num))
    refine le_trans ?_ h3
    linarith))
  set δ := κ * (2 ^ A.dim + 2) / 2 ^ 53 with hδ
  have hδ8 : δ ≤ 1 / 8 := by
    rw [hδ, div_le_iff₀ (by positivity)]
    exact hs.trans (by norm_num)
  have vn' : |re v - Q| ≤ δ * |Q| := by
    refine vn.trans (hE.trans ?_)
    calc ((2 : ℝ) ^ A.dim + 2) / 2 ^ 53 * Mg ≤ (2 ^ A.dim + 2) / 2 ^ 53 * (κ * |Q|) := mul_le_mul_of_nonneg_left hκ (by positivity)
      _ = _ := by rw [hδ]; ring
  -- the range of the quotients
  have hκ50 : κ ≤ 2 ^ 50 := by
    have h2 : 0 < κ * |Q| := lt_of_lt_of_le hM0 hκ
    have hκ0 : 0 < κ := (mul_pos_iff_of_pos_right hQ').mp h2
    refine le_trans ?_ hs
    exact le_mul_of_one_le_right hκ0.le (by have : (0 : ℝ) < 2 ^ A.dim := by positivity
                                            linarith)
  have Q1 : 1 / 2 ^ 450 ≤ |Q| := by
    have h1 : 1 / 2 ^ 400 ≤ 2 ^ 50 * |Q| := M1.trans (hκ.trans (mul_le_mul_of_nonneg_right hκ50 hQ'.le))
    have h2 : (1 : ℝ) / 2 ^ 450 = 1 / 2 ^ 400 / 2 ^ 50 := by rw [div_div, ← pow_add]
    rw [h2, div_le_iff₀ (by positivity), mul_comm]
    exact h1
  exact ⟨v, hv, vf, vn', Q1, hQM.trans M2⟩

/-- **C98, `revm`.** Over doubles whose coefficients are zero or between `2⁻²⁰⁰` and `2²⁰⁰`, in up to 20 dimensions, the
coefficients of `a.revm()` are finite and have a relative error of at most `(κ (2ⁿ + 2) + 1) · 2⁻⁵²`, where `κ` is the ratio of
the sum of the squares of the coefficients and the absolute value of the exact `mag2`, if this is at most `2⁵⁰ / (2ⁿ + 2)`. -/
theorem C98_revm (hA : A.WF) (hn : A.dim ≤ 20) (ha : SameValues a a' x) (hx : ∀ i < 2 ^ A.dim, MidR (x i)) {Q κ : ℝ}
    (hQ : a'.mag2 = .ok Q) (h0 : Q ≠ 0) (hκ : ∑ i ∈ range (2 ^ A.dim), re (x i) ^ 2 ≤ κ * |Q|) (hs : κ * (2 ^ A.dim + 2) ≤ 2 ^ 50) :
    NearR a.revmG a'.revm (fun _ _ => True) (fun _ e => (κ * (2 ^ A.dim + 2) + 1) / 2 ^ 52 * |e|) := by
  have hex := revm_denotes ha.valid' hQ h0
  have hρ0 := ρ_pos
  have hQ' : 0 < |Q| := abs_pos.mpr h0
  obtain ⟨v, hv, vf, vn', Q1, Q2⟩ := mag2_near hA hn ha hx hQ h0 hκ hs
  set δ := κ * (2 ^ A.dim + 2) / 2 ^ 53 with hδ
  have hδ8 : δ ≤ 1 / 8 := by
    rw [hδ, div_le_iff₀ (by positivity)]
    exact hs.trans (by norm_num)
  have a1 : 7 / 8 * |Q| ≤ |re v| := by
    have h1 := abs_sub_abs_le_abs_sub Q (re v)
    rw [abs_sub_comm] at h1
    have h2 : δ * |Q| ≤ 1 / 8 * |Q| := mul_le_mul_of_nonneg_right hδ8 hQ'.le
    linarith
  have a2 : |re v| ≤ 9 / 8 * |Q| := by
    have h1 := abs_sub_abs_le_abs_sub (re v) Q
    have h2 : δ * |Q| ≤ 1 / 8 * |Q| := mul_le_mul_of_nonneg_right hδ8 hQ'.le
    linarith
  have v1 : 1 / 2 ^ 451 ≤ |re v| := by
    have e : (1 : ℝ) / 2 ^ 451 = 1 / 2 ^ 450 / 2 := by rw [pow_succ]; field_simp
    rw [e]
    clear e
    generalize (1 : ℝ) / 2 ^ 450 = t at *
    linarith
  have v2 : |re v| ≤ 2 ^ 421 := by
    have e : (2 : ℝ) ^ 421 = 2 ^ 420 * 2 := pow_succ _ _
    rw [e]
    clear e
    generalize (2 : ℝ) ^ 420 = t at *
    linarith
  have v0 : 0 < |re v| := by linarith
  have vne : re v ≠ 0 := abs_pos.mp v0
  -- the quotients
  obtain ⟨r, hr, hrv, hrf⟩ := rev_fl ha.valid
  beta_reduce at hrf
  have hden : Denotes a.revmG (fun i => sgnC (rsg A.dim i) (x i) / v) := by
    obtain ⟨t, ht, htv, htf⟩ := sdivG_fl hrv vf vne
    refine ⟨t, ?_, htv, fun i hi => ?_⟩
    · unfold MV.revmG
      simp only [hr, hv, ht, bind, Except.bind]
    · rw [htf i hi]
      beta_reduce
      rw [hrf i hi, ha.val hi]
  refine NearR.of_denotes hden hex ?_
  intro k hk _
  have hck := re_sgnC (rsg_unit A.dim k) (ha.finite k hk)
  have hcf := fin_sgnC (rsg A.dim k) (ha.finite k hk)
  have hcabs : |re (sgnC (rsg A.dim k) (x k))| = |re (x k)| := by
    rw [hck, abs_mul]
    rcases rsg_unit A.dim k with h | h <;> rw [h] <;> simp
  have hc0 : re (sgnC (rsg A.dim k) (x k)) = 0 ↔ re (x k) = 0 := by rw [← abs_eq_zero, hcabs, abs_eq_zero]
  have hexk : rsg A.dim k • a'.val k / Q = re (sgnC (rsg A.dim k) (x k)) / Q := by
    rw [hck, ha.val' hk, zsmul_eq_mul]
  rw [hexk]
  generalize sgnC (rsg A.dim k) (x k) = c at *
  have hmid := hx k hk
  obtain ⟨g1, g2⟩ := F64.div_rel hcf vf vne (by
    by_cases hne : re c = 0
    · exact .inl hne
    · right
      rw [abs_div, hcabs, le_div_iff₀ v0]
      calc 1 / 2 ^ 1000 * |re v| ≤ 1 / 2 ^ 1000 * 2 ^ 421 := mul_le_mul_of_nonneg_left v2 (by positivity)
        _ ≤ 1 / 2 ^ 200 := by
          rw [div_mul_eq_mul_div, one_mul, div_le_div_iff₀ (by positivity) (by positivity), one_mul, ← pow_add]
          exact pow_le_pow_right₀ (by norm_num) (by norm_num)
        _ ≤ _ := (hmid.2.resolve_left (fun h => hne (hc0.mpr h))).1) (by
    rw [abs_div, hcabs, div_le_iff₀ v0]
    calc |re (x k)| ≤ 2 ^ 200 := hmid.le
      _ ≤ 2 ^ 1000 * (1 / 2 ^ 451) := by
        rw [mul_one_div, le_div_iff₀ (by positivity), ← pow_add]
        exact pow_le_pow_right₀ (by norm_num) (by norm_num)
      _ ≤ _ := mul_le_mul_of_nonneg_left v1 (by positivity))
  refine ⟨g1, (revm_num h0 hδ8 vn' g2).trans (mul_le_mul_of_nonneg_right ?_ (abs_nonneg _))⟩
  have hδ0 : 0 ≤ δ := by
    have := (abs_nonneg _).trans vn'
    exact nonneg_of_mul_nonneg_left this hQ'
  have hρ2 : ρ ≤ 3 / 2 * (1 / 2 ^ 53) := by unfold ρ; norm_num
  have e : (κ * (2 ^ A.dim + 2) + 1) / 2 ^ 52 = 2 * δ + 2 * (1 / 2 ^ 53) := by rw [hδ]; ring
  rw [e]
  have : (0 : ℝ) ≤ 1 / 2 ^ 53 := by positivity
  generalize (1 : ℝ) / 2 ^ 53 = t at *
  linarith

/-- **C98, `revm`** in Euclidean algebras: the relative error of every coefficient is at most `(2ⁿ + 3) · 2⁻⁵²`. -/
theorem C98_revm_euclidean (hA : A.WF) (hn : A.dim ≤ 20) (hi : A.imagMask = 0) (hp : A.projMask = 0) (ha : SameValues a a' x)
    (hx : ∀ i < 2 ^ A.dim, MidR (x i)) (h0 : ∃ i < 2 ^ A.dim, re (x i) ≠ 0) :
    NearR a.revmG a'.revm (fun _ _ => True) (fun _ e => (2 ^ A.dim + 3) / 2 ^ 52 * |e|) := by
  have hQ : a'.mag2 = .ok (∑ i ∈ range (2 ^ A.dim), re (x i) ^ 2) := by
    rw [mag2_sum hA ha.valid']
    congr 1
    refine sum_congr rfl fun i hi' => ?_
    rw [bprod_ones fun i _ => sigma_plus hi hp i, ha.val' (mem_range.mp hi')]
    simp
  have hN : 0 < ∑ i ∈ range (2 ^ A.dim), re (x i) ^ 2 := by
    obtain ⟨i, hi, hne⟩ := h0
    exact lt_of_lt_of_le (by positivity) (single_le_sum (f := fun i => re (x i) ^ 2) (fun _ _ => sq_nonneg _) (mem_range.mpr hi))
  have hL : (2 : ℝ) ^ A.dim ≤ 2 ^ 20 := pow_le_pow_right₀ (by norm_num) hn
  have := C98_revm hA hn ha hx (κ := 1) hQ hN.ne' (by rw [one_mul, abs_of_pos hN]) (by rw [one_mul]; exact (add_le_add_left hL 2).trans (by norm_num))
  rw [one_mul] at this
  have e : (2 : ℝ) ^ A.dim + 2 + 1 = 2 ^ A.dim + 3 := by ring
  rw [e] at this
  exact this

/-! ### Normalization -/

theorem sqrt_near {v Q δ : ℝ} (hQ : 0 < Q) (hv : |v - Q| ≤ δ * Q) : |√v - √Q| ≤ δ * √Q := by
  have hs : 0 < √Q := Real.sqrt_pos.mpr hQ
  have hv2 := abs_le.mp hv
  by_cases h : 0 ≤ v
  · have e : (√v - √Q) * (√v + √Q) = v - Q := by
      have h1 := Real.mul_self_sqrt h
      have h2 := Real.mul_self_sqrt hQ.le
      linear_combination h1 - h2
    have hp : 0 < √v + √Q := by have := Real.sqrt_nonneg v; linarith
    have h3 : |√v - √Q| * √Q ≤ δ * √Q * √Q := by
      calc |√v - √Q| * √Q ≤ |√v - √Q| * (√v + √Q) :=
            mul_le_mul_of_nonneg_left (by have := Real.sqrt_nonneg v; linarith) (abs_nonneg _)
        _ = |v - Q| := by rw [← e, abs_mul, abs_of_pos hp]
        _ ≤ δ * Q := hv
        _ = _ := by rw [mul_assoc, Real.mul_self_sqrt hQ.le]
    exact le_of_mul_le_mul_right h3 hs
  · have h1 : √v = 0 := Real.sqrt_eq_zero_of_nonpos (by linarith)
    rw [h1, zero_sub, abs_neg, abs_of_pos hs]
    have hδ : 1 ≤ δ := by
      by_contra hc
      have : δ * Q < 1 * Q := mul_lt_mul_of_pos_right (not_le.mp hc) hQ
      linarith
    exact le_mul_of_one_le_left hs.le hδ

/-- **C98, normalization** (README.md:68, `&blade / blade.mag2().sqrt()`). Over doubles whose coefficients are zero or between
`2⁻²⁰⁰` and `2²⁰⁰`, in up to 20 dimensions, the coefficients of `a / a.mag2().sqrt()` have a relative error of at most
`(κ (2ⁿ + 2) + 2) · 2⁻⁵²`, with `κ` as for `revm`, if the exact `mag2` is positive. -/
theorem C98_normalize (hA : A.WF) (hn : A.dim ≤ 20) (ha : SameValues a a' x) (hx : ∀ i < 2 ^ A.dim, MidR (x i)) {Q κ : ℝ}
    (hQ : a'.mag2 = .ok Q) (h0 : 0 < Q) (hκ : ∑ i ∈ range (2 ^ A.dim), re (x i) ^ 2 ≤ κ * Q) (hs : κ * (2 ^ A.dim + 2) ≤ 2 ^ 49) :
    NearR (do a.sdivG (← a.mag2).sqrt) (a'.sdiv √Q) (fun _ _ => True) (fun _ e => (κ * (2 ^ A.dim + 2) + 2) / 2 ^ 52 * |e|) := by
  have hsQ : 0 < √Q := Real.sqrt_pos.mpr h0
  have hex := sdiv_denotes ha.valid' hsQ.ne'
  have hρ0 := ρ_pos
  have hρ : ρ ≤ 1 / 1000 := ρ_small.trans (by norm_num)
  obtain ⟨v, hv, vf, vn, Q1, Q2⟩ := mag2_near hA hn ha hx hQ h0.ne' (by rw [abs_of_pos h0]; exact hκ)
    (hs.trans (pow_le_pow_right₀ (by norm_num) (by norm_num)))
  rw [abs_of_pos h0] at vn Q1 Q2
  set δ := κ * (2 ^ A.dim + 2) / 2 ^ 53 with hδ
  have hδ16 : δ ≤ 1 / 16 := by
    rw [hδ, div_le_iff₀ (by positivity)]
    exact hs.trans (by norm_num)
  have hδ0 : 0 ≤ δ := nonneg_of_mul_nonneg_left ((abs_nonneg _).trans vn) h0
  have hvl : 15 / 16 * Q ≤ re v := by
    have h2 := (abs_le.mp vn).1
    have h3 : δ * Q ≤ 1 / 16 * Q := mul_le_mul_of_nonneg_right hδ16 h0.le
    linarith
  have v1 : 1 / 2 ^ 2000 ≤ re v := by
    have e : (1 : ℝ) / 2 ^ 2000 ≤ 1 / 2 ^ 451 := one_div_le_one_div_of_le (by positivity) (pow_le_pow_right₀ (by norm_num) (by norm_num))
    have e2 : (1 : ℝ) / 2 ^ 451 = 1 / 2 ^ 450 / 2 := by rw [pow_succ]; field_simp
    rw [e2] at e
    refine e.trans ?_
    clear e e2
    generalize (1 : ℝ) / 2 ^ 450 = t at *
    linarith
  obtain ⟨sf, sn⟩ := F64.sqrt_rel vf v1
  have h1 := sqrt_near h0 vn
  have hsv : √(re v) ≤ 17 / 16 * √Q := by
    have h2 := (abs_le.mp h1).2
    have h3 : δ * √Q ≤ 1 / 16 * √Q := mul_le_mul_of_nonneg_right hδ16 hsQ.le
    linarith
  have tn : |re v.sqrt - √Q| ≤ (δ + 17 / 16 * ρ) * |√Q| := by
    rw [abs_of_pos hsQ]
    refine (abs_sub_le _ (√(re v)) _).trans ?_
    have := sn.trans (mul_le_mul_of_nonneg_left hsv hρ0.le)
    linarith
  have hδ8 : δ + 17 / 16 * ρ ≤ 1 / 8 := by linarith
  obtain ⟨w, hw⟩ : ∃ w, w = v.sqrt := ⟨_, rfl⟩
  rw [← hw] at sf tn
  -- the range of the quotients
  have sQ1 : 1 / 2 ^ 225 ≤ √Q := by
    refine Real.le_sqrt_of_sq_le ?_
    rw [div_pow, one_pow, ← pow_mul]
    exact Q1
  have sQ2 : √Q ≤ 2 ^ 210 := by
    rw [Real.sqrt_le_left (by positivity), ← pow_mul]
    exact Q2
  have wn : |re w - √Q| ≤ 1 / 8 * √Q := by
    rw [abs_of_pos hsQ] at tn
    exact tn.trans (mul_le_mul_of_nonneg_right hδ8 hsQ.le)
  have wn2 := abs_le.mp wn
  have w1 : 1 / 2 ^ 226 ≤ re w := by
    have e : (1 : ℝ) / 2 ^ 226 = 1 / 2 ^ 225 / 2 := by rw [pow_succ]; field_simp
    rw [e]
    clear e
    generalize (1 : ℝ) / 2 ^ 225 = t at *
    linarith
  have w2 : re w ≤ 2 ^ 211 := by
    have e : (2 : ℝ) ^ 211 = 2 ^ 210 * 2 := pow_succ _ _
    rw [e]
    clear e
    generalize (2 : ℝ) ^ 210 = t at *
    linarith
  have w0 : 0 < re w := lt_of_lt_of_le (by positivity) w1
  have hden : Denotes (do a.sdivG (← a.mag2).sqrt) (fun i => x i / w) := by
    obtain ⟨t, ht, htv, htf⟩ := sdivG_fl ha.valid sf w0.ne'
    refine ⟨t, ?_, htv, fun i hi => ?_⟩
    · rw [hv, ← ht, hw]; rfl
    · rw [htf i hi]
      beta_reduce
      rw [ha.val hi]
  refine NearR.of_denotes hden hex ?_
  intro k hk _
  rw [ha.val' hk]
  have hmid := hx k hk
  obtain ⟨g1, g2⟩ := F64.div_rel hmid.1 sf w0.ne' (by
    by_cases hne : re (x k) = 0
    · exact .inl hne
    · right
      rw [abs_div, abs_of_pos w0, le_div_iff₀ w0]
      calc 1 / 2 ^ 1000 * re w ≤ 1 / 2 ^ 1000 * 2 ^ 211 := mul_le_mul_of_nonneg_left w2 (by positivity)
        _ ≤ 1 / 2 ^ 200 := by
          rw [div_mul_eq_mul_div, one_mul, div_le_div_iff₀ (by positivity) (by positivity), one_mul, ← pow_add]
          exact pow_le_pow_right₀ (by norm_num) (by norm_num)
        _ ≤ _ := (hmid.2.resolve_left hne).1) (by
    rw [abs_div, abs_of_pos w0, div_le_iff₀ w0]
    calc |re (x k)| ≤ 2 ^ 200 := hmid.le
      _ ≤ 2 ^ 1000 * (1 / 2 ^ 226) := by
        rw [mul_one_div, le_div_iff₀ (by positivity), ← pow_add]
        exact pow_le_pow_right₀ (by norm_num) (by norm_num)
      _ ≤ _ := mul_le_mul_of_nonneg_left w1 (by positivity))
  refine ⟨g1, (revm_num hsQ.ne' hδ8 tn g2).trans (mul_le_mul_of_nonneg_right ?_ (abs_nonneg _))⟩
  have hρ2 : ρ ≤ 3 / 2 * (1 / 2 ^ 53) := by unfold ρ; norm_num
  have e : (κ * (2 ^ A.dim + 2) + 2) / 2 ^ 52 = 2 * δ + 4 * (1 / 2 ^ 53) := by rw [hδ]; ring
  rw [e]
  have : (0 : ℝ) ≤ 1 / 2 ^ 53 := by positivity
  generalize (1 : ℝ) / 2 ^ 53 = t at *
  linarith

/-- **C98, normalization with negative `mag2`.** Then every coefficient that is not zero becomes `NaN`, with the same condition on
`κ`. -/
theorem C98_normalize_negative (hA : A.WF) (hn : A.dim ≤ 20) (ha : SameValues a a' x) (hx : ∀ i < 2 ^ A.dim, MidR (x i)) {Q κ : ℝ}
    (hQ : a'.mag2 = .ok Q) (h0 : Q < 0) (hκ : ∑ i ∈ range (2 ^ A.dim), re (x i) ^ 2 ≤ κ * |Q|) (hs : κ * (2 ^ A.dim + 2) ≤ 2 ^ 49) :
    ∃ (r : MV A S) (y : Nat → F64), (do a.sdivG (← a.mag2).sqrt) = .ok r ∧ r.Valid ∧ Coefs (.ok r) y ∧
      ∀ i < 2 ^ A.dim, (re (x i) ≠ 0 → ¬ fin (y i)) ∧ (y i = 0 ∨ ¬ fin (y i)) := by
  obtain ⟨v, hv, vf, vn, -, -⟩ := mag2_near hA hn ha hx hQ h0.ne hκ (hs.trans (pow_le_pow_right₀ (by norm_num) (by norm_num)))
  have hQ' : 0 < |Q| := abs_pos.mpr h0.ne
  have hvn : re v < 0 := by
    have h1 : κ * (2 ^ A.dim + 2) / 2 ^ 53 ≤ 1 / 16 := by
      rw [div_le_iff₀ (by positivity)]
      exact hs.trans (by norm_num)
    have h2 := (abs_le.mp vn).2
    have h3 := mul_le_mul_of_nonneg_right h1 hQ'.le
    rw [abs_of_neg h0] at h2 h3
    linarith
  have hsq : v.sqrt = .nonFinite := by
    cases v with
    | nonFinite => rfl
    | num q =>
      have : ((q.1 : ℚ) : ℝ) < 0 := hvn
      have hq : q.1 < 0 := by exact_mod_cast this
      show (if q.1 < 0 then _ else _) = _
      rw [if_pos hq]
  have hbad : ∀ c : F64, c / (.nonFinite : F64) = .nonFinite := fun c => by cases c <;> rfl
  rw [hv]
  show ∃ (r : MV A S) (y : Nat → F64), a.sdivG v.sqrt = .ok r ∧ _
  rw [hsq]
  classical
  have henum := ha.valid.enum
  let f : Nat → F64 := fun i => if ∃ p ∈ a.coeffEnumerate, p.1 = i then .nonFinite else 0
  have key : Denotes (a.sdivG .nonFinite) f := by
    unfold sdivG
    refine (default_denotes ha.valid.supp).bind ?_
    intro u hu hz
    have e : a.coeffEnumerate.foldl (fun (r : MV A S) p => r.setByIdx p.1 (p.2 / .nonFinite)) u =
        (a.coeffEnumerate.map (fun p => (p.1, (.nonFinite : F64)))).foldl (fun (r : MV A S) p => r.setByIdx p.1 p.2) u := by
      rw [List.foldl_map]
      simp only [hbad]
    show Denotes (.ok (a.coeffEnumerate.foldl (fun (r : MV A S) p => r.setByIdx p.1 (p.2 / .nonFinite)) u)) f
    rw [e]
    refine foldl_set_enum ⟨?_, ?_, ?_⟩ u hu hz
    · rw [List.map_map]
      exact henum.nodup
    · intro p hp
      obtain ⟨q, hq, rfl⟩ := List.mem_map.mp hp
      refine ⟨(henum.mem q hq).1, ?_⟩
      show _ = if _ then _ else _
      rw [if_pos ⟨q, hq, rfl⟩]
    · intro i hi h
      have h' : ∃ p ∈ a.coeffEnumerate, p.1 = i := by
        by_contra hc
        exact h (if_neg hc)
      obtain ⟨q, hq, rfl⟩ := h'
      rw [show f q.1 = .nonFinite from if_pos ⟨q, hq, rfl⟩]
      exact List.mem_map.mpr ⟨q, hq, rfl⟩
  obtain ⟨r, hr, hrv, hrf⟩ := key
  have hnf : ¬ fin (.nonFinite : F64) := fun h => h rfl
  refine ⟨r, f, hr, hrv, Denotes.coefs ⟨r, rfl, hrv, hrf⟩, fun i hi => ⟨fun h => ?_, ?_⟩⟩
  · have hne : a.val i ≠ 0 := fun e => h (by rw [← ha.val hi, e, re_zero])
    rw [show f i = .nonFinite from if_pos ⟨_, henum.complete i hi hne, rfl⟩]
    exact hnf
  · by_cases hc : ∃ p ∈ a.coeffEnumerate, p.1 = i
    · exact .inr (by rw [show f i = .nonFinite from if_pos hc]; exact hnf)
    · exact .inl (if_neg hc)

/-- **C98, the same code.** With real numbers instead of doubles, the functions here are those of C44 and C55, as long as nothing
is divided by zero. -/
theorem C98_exact_model {a b : MV A S'} {N : ℝ} (hN : (do let r ← b.rev; let c ← r.flip; let p ← b.naiveMulImpl c; p.getByIdx 0) = .ok N)
    (h0 : N ≠ 0) {m : ℝ} (hm : a.mag2 = .ok m) (hm0 : m ≠ 0) : a.divG b = a.div b ∧ a.revmG = a.revm := by
  constructor
  · unfold MV.divG MV.div
    rcases hr : b.rev with _ | r
    · rfl
    rcases hc : r.flip with _ | c
    · simp only [bind, Except.bind, hc]
    rcases hp : b.naiveMulImpl c with _ | p
    · simp only [bind, Except.bind, hc, hp]
    simp only [hr, hc, hp, bind, Except.bind] at hN ⊢
    rw [hN]
    simp only [fdiv, if_neg h0]
  · unfold MV.revmG MV.revm
    rw [hm]
    rcases hr : a.rev with _ | r
    · rfl
    · exact sdivG_real hm0

end

/-! ### Where doubles differ -/

namespace Ex

/-- `(x + y i) / (z + w i)` with doubles -/
def cdiv (x y z w : D64) : Res (List D64) := do
  let a : MV Cx (ArrayStorage D64) ← fromIndexedIter [(0, x), (1, y)]
  let b ← fromIndexedIter [(0, z), (1, w)]
  let q ← a.divG b
  return [← q.getByIdx 0, ← q.getByIdx 1]

/-- The coefficients of `revm` of `x e₀ + y e₁` in the algebra `[+,-]` -/
def vrevm (x y : D64) : Res (List D64) := do
  let a : MV G11 (ArrayStorage D64) ← fromIndexedIter [(1, x), (2, y)]
  let r ← a.revmG
  return [← r.getByIdx 1, ← r.getByIdx 2]

end Ex

open Ex in
/-- **C98, false without rounding errors.** `(1 + 3i) / (1 + 3i)` is not one. -/
theorem C98_exact_false : (cdiv (d64 1) (d64 3) (d64 1) (d64 3)).toOption = some [d64 (1 - 1 / 2 ^ 53), d64 (1 / 2 ^ 54)] ∧
    d64 (1 - 1 / 2 ^ 53) ≠ d64 1 ∧ d64 (1 / 2 ^ 54) ≠ d64 0 := by decide +kernel

open Ex in
/-- **C98, false for all numbers.** The norm is computed from squares, which overflow or are rounded to zero: `x / x` is zero for
`x = 2^600`, and infinite for `x = 2^-600`, although `x` and the exact quotient are far from the limits of doubles. -/
theorem C98_range_false : (cdiv (d64 (2 ^ 600)) (d64 0) (d64 (2 ^ 600)) (d64 0)).toOption = some [d64 0, d64 0] ∧
    (cdiv (d64 (2 ^ 600)) (d64 (2 ^ 600)) (d64 (2 ^ 600)) (d64 (2 ^ 600))).toOption = some [d64 0, d64 0] ∧
    (cdiv (d64 (1 / 2 ^ 600)) (d64 0) (d64 (1 / 2 ^ 600)) (d64 0)).toOption = some [.inf false, d64 0] ∧
    (cdiv (d64 (1 / 2 ^ 600)) (d64 (1 / 2 ^ 600)) (d64 (1 / 2 ^ 600)) (d64 (1 / 2 ^ 600))).toOption = some [.inf false, .nan] := by
  decide +kernel

open Ex in
/-- **C98, division by zero** is not an error: `(1 + 2i) / 0` is zero for dense multivectors (only the non-zero coefficients of the
divisor are divided by its norm), and all `NaN` for `Quaternion`s. -/
theorem C98_zero : (cdiv (d64 1) (d64 2) (d64 0) (d64 0)).toOption = some [d64 0, d64 0] ∧
    (MV.divG (⟨⟨d64 1, d64 2, d64 3, d64 4⟩⟩ : Quat D64) ⟨⟨d64 0, d64 0, d64 0, d64 0⟩⟩).toOption.map (·.coeffs) =
      some ⟨.nan, .nan, .nan, .nan⟩ := by decide +kernel

open Ex in
/-- **C98, `revm` without the condition on `κ`.** With a signature of both signs `mag2` can cancel: for these `x`, `y` with
`y - x = 2^-52`, the coefficients of `(x e₀ + y e₁).revm()` are `y / (x² - y²)` with an error of more than 29 percent. -/
theorem C98_revm_false :
    let x : ℚ := 6369051672525775 / 2 ^ 52
    let y : ℚ := 6369051672525776 / 2 ^ 52
    (vrevm (d64 x) (d64 y)).toOption = some [d64 (-2 ^ 50 * x), d64 (-2 ^ 50 * y)] ∧
      |-2 ^ 50 * y - y / (x ^ 2 - y ^ 2)| > 29 / 100 * |y / (x ^ 2 - y ^ 2)| := by
  refine ⟨by decide +kernel, ?_⟩
  norm_num [abs_of_neg, abs_of_pos]

open Ex in
/-- **C98, normalization with negative `mag2`**, in IEEE arithmetic: in the algebra `[+,-]` normalizing `e₀ + 2 e₁` gives `NaN`s
and leaves the zero coefficients alone. -/
theorem C98_normalize_nan :
    (do let a : MV G11 (ArrayStorage D64) ← fromIndexedIter [(1, d64 1), (2, d64 2)]
        let r ← a.sdivG (← a.mag2).sqrt
        return [← r.getByIdx 0, ← r.getByIdx 1, ← r.getByIdx 2, ← r.getByIdx 3] : Res (List D64)).toOption =
      some [d64 0, .nan, .nan, d64 0] := by decide +kernel

namespace Ex

/-- Coefficients 1, 3, 3, 4 -/
def xD (i : Nat) : F64 := if i = 0 then n64 1 else if i = 3 then n64 4 else n64 3

theorem n64_one : re (n64 1) = 1 := by
  show ((Flt.toRat (n64 1) : ℚ) : ℝ) = 1
  rw [show Flt.toRat (n64 1) = 1 by decide +kernel]; norm_num

theorem mid_range {x : ℝ} (h1 : 1 ≤ x) (h2 : x ≤ 2 ^ 8) : 1 / 2 ^ 200 ≤ |x| ∧ |x| ≤ 2 ^ 200 := by
  rw [abs_of_pos (by linarith)]
  refine ⟨le_trans ?_ h1, h2.trans (pow_le_pow_right₀ (by norm_num) (by norm_num))⟩
  rw [div_le_one (by positivity)]
  exact one_le_pow₀ (by norm_num)

theorem xD_mid (i : Nat) : MidR (xD i) := by
  unfold xD
  split
  · exact ⟨by show n64 1 ≠ .nonFinite; decide +kernel, .inr (by rw [n64_one]; exact mid_range (by norm_num) (by norm_num))⟩
  split
  · exact ⟨four_moderate.1, .inr (by rw [n64_four]; exact mid_range (by norm_num) (by norm_num))⟩
  · exact ⟨three_moderate.1, .inr (by rw [n64_three]; exact mid_range (by norm_num) (by norm_num))⟩

theorem xD_ne : re (xD 0) ≠ 0 := by
  rw [show xD 0 = n64 1 from rfl, n64_one]; norm_num

/-- The quaternion `1 + 3i + 3j + 4k` as a dense multivector of floating point numbers, and of real numbers -/
def qD : MV QuaternionAlgebra (ArrayStorage F64) := ⟨⟨2, ⟨4, xD⟩⟩⟩
noncomputable def qR : MV QuaternionAlgebra (ArrayStorage ℝ) := ⟨⟨2, ⟨4, fun i => re (xD i)⟩⟩⟩

theorem same_qD : SameValues qD qR xD := by
  have h1 : qD.Valid := ⟨by decide, rfl, rfl⟩
  have h2 : qR.Valid := ⟨by decide, rfl, rfl⟩
  refine ⟨h1, h2, ⟨_, rfl, fun i hi => ?_⟩, ⟨_, rfl, fun i hi => ?_⟩, fun i _ => (xD_mid i).1⟩
  · rw [h1.get hi, arr_val' h1 hi]; rfl
  · rw [h2.get hi]
    congr 1
    show (if i < 4 then _ else _) = _
    rw [if_pos (show i < 4 from hi)]
    rfl

example := C98_div C45_algebra rfl same_qD same_qD (fun i _ => xD_mid i) (fun i _ => xD_mid i) ⟨0, by decide, xD_ne⟩
example := C98_div_norm C45_algebra rfl same_qD same_qD (fun i _ => xD_mid i) (fun i _ => xD_mid i) ⟨0, by decide, xD_ne⟩
example := C98_self C45_algebra rfl same_qD (fun i _ => xD_mid i) ⟨0, by decide, xD_ne⟩

theorem qR_norm : geo QuaternionAlgebra.sigma QuaternionAlgebra.dim qR.val (cj QuaternionAlgebra.dim qR.val) 0 ≠ 0 := by
  obtain ⟨-, hdim, hσ⟩ := division_cases C45_algebra rfl
  rw [(geo_cj hdim hσ qR.val (Nat.two_pow_pos _)).1, single, if_pos rfl]
  refine (lt_of_lt_of_le ?_ (single_le_sum (f := fun i => qR.val i * qR.val i) (fun _ _ => mul_self_nonneg _)
    (show 0 ∈ range (2 ^ QuaternionAlgebra.dim) by decide))).ne'
  rw [same_qD.val' (by decide)]
  exact mul_self_pos.mpr xD_ne

/-- The same coefficients in the Euclidean algebra `E` of dimension 3 -/
theorem same_xD : SameValues (dense64 xD) (denseR xD) xD := same64 fun i _ => (xD_mid i).1

example := C98_revm_euclidean E_wf (by decide) rfl rfl same_xD (fun i _ => xD_mid i) ⟨0, by decide, xD_ne⟩

theorem qR_mag : qR.mag2 = .ok (re (xD 0) ^ 2 - re (xD 1) ^ 2 - re (xD 2) ^ 2 + re (xD 3) ^ 2) := by
  rw [mag2_sum (division_cases C45_algebra rfl).1 same_qD.valid']
  congr 1
  rw [show 2 ^ QuaternionAlgebra.dim = 4 from rfl]
  simp only [sum_range_succ, sum_range_zero]
  rw [same_qD.val' (by decide), same_qD.val' (by decide), same_qD.val' (by decide), same_qD.val' (by decide)]
  rw [show bprod QuaternionAlgebra.sigma QuaternionAlgebra.dim 0 = 1 by decide,
    show bprod QuaternionAlgebra.sigma QuaternionAlgebra.dim 1 = -1 by decide,
    show bprod QuaternionAlgebra.sigma QuaternionAlgebra.dim 2 = -1 by decide,
    show bprod QuaternionAlgebra.sigma QuaternionAlgebra.dim 3 = 1 by decide]
  push_cast
  ring

example := C98_exact_model (normProg_ok (division_cases C45_algebra rfl).1 same_qD.valid') qR_norm qR_mag (by
  rw [show xD 0 = n64 1 from rfl, show xD 1 = n64 3 from rfl, show xD 2 = n64 3 from rfl, show xD 3 = n64 4 from rfl,
    n64_one, n64_three, n64_four]
  norm_num)

example := C98_normalize_negative (division_cases C45_algebra rfl).1 (by decide) same_qD (fun i _ => xD_mid i) qR_mag (κ := 35) (by
    rw [show xD 0 = n64 1 from rfl, show xD 1 = n64 3 from rfl, show xD 2 = n64 3 from rfl, show xD 3 = n64 4 from rfl,
      n64_one, n64_three, n64_four]
    norm_num) (by
    rw [show 2 ^ QuaternionAlgebra.dim = 4 from rfl]
    simp only [sum_range_succ, sum_range_zero]
    rw [show xD 0 = n64 1 from rfl, show xD 1 = n64 3 from rfl, show xD 2 = n64 3 from rfl, show xD 3 = n64 4 from rfl,
      n64_one, n64_three, n64_four]
    norm_num) (by rw [show QuaternionAlgebra.dim = 2 from rfl]; norm_num)

theorem xD_mag : (denseR xD).mag2 = .ok (∑ i ∈ range (2 ^ E.dim), re (xD i) ^ 2) := by
  rw [mag2_sum E_wf same_xD.valid']
  congr 1
  refine sum_congr rfl fun i hi => ?_
  rw [bprod_ones fun i _ => sigma_plus rfl rfl i, same_xD.val' (mem_range.mp hi)]
  simp

theorem xD_pos : 0 < ∑ i ∈ range (2 ^ E.dim), re (xD i) ^ 2 :=
  lt_of_lt_of_le (by have := xD_ne; positivity)
    (single_le_sum (f := fun i => re (xD i) ^ 2) (fun _ _ => sq_nonneg _) (show 0 ∈ range (2 ^ E.dim) by decide))

example := C98_revm E_wf (by decide) same_xD (fun i _ => xD_mid i) xD_mag xD_pos.ne' (κ := 1)
  (by rw [one_mul, abs_of_pos xD_pos]) (by rw [show E.dim = 3 from rfl]; norm_num)
example := C98_normalize E_wf (by decide) same_xD (fun i _ => xD_mid i) xD_mag xD_pos (κ := 1)
  (by rw [one_mul]) (by rw [show E.dim = 3 from rfl]; norm_num)

end Ex

end TClifford
