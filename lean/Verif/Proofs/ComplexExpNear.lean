import Verif.Proofs.ComplexExp
import Verif.Props.ComplexScalar
import Verif.Props.Traits
/-
`exp` of multivectors with `Complex64` coefficients: the rounding errors of its steps.
-/

set_option linter.unusedSectionVars false

namespace TClifford

open MV Finset FloatModel

variable {A : ClAlg} {S : Type} [CoeffStorage S (Cx F64)] [LawfulStorage S (Cx F64)]

/-- `r` represents `y` with `l` roundings and size `b`. -/
def NearG (l : Nat) (r : MV A S) (y : GA A.sigma A.dim ℂ) (b : ℝ) : Prop :=
  ∃ r' : MV A (ArrayStorage ℂ), RelC nearQ l r r' b ∧ r'.ga = y

/-- The absolute error of a product. -/
noncomputable def uflowG (A : ClAlg) : ℝ := 4 ^ A.dim * Cx.uflow F64

theorem uflowG_nonneg : 0 ≤ uflowG A := by
  have := Cx.uflow_nonneg (F := F64)
  unfold uflowG
  positivity

theorem uflowG_ge : 2 ^ A.dim * Cx.uflow F64 ≤ uflowG A :=
  mul_le_mul_of_nonneg_right (pow_le_pow_left₀ (by norm_num) (by norm_num) _) (Cx.uflow_nonneg (F := F64))

/-- Roundings of a product. -/
def mulG (A : ClAlg) : Nat := 2 ^ A.dim + 2

namespace NearG
variable {l l' : Nat} {r s : MV A S} {y z : GA A.sigma A.dim ℂ} {b c : ℝ}

theorem valid (h : NearG l r y b) : r.Valid := h.choose_spec.1.1

theorem mono {b' : ℝ} (h : NearG l r y b) (hl : l ≤ l') (hb : b ≤ b') : NearG l' r y b' := by
  obtain ⟨r', h1, h2⟩ := h
  exact ⟨r', h1.mono hl hb, h2⟩

/-- Every coefficient. -/
theorem entry (h : NearG l r y b) {k : Nat} (hk : k < 2 ^ A.dim) : Cx.Near l (r.val k) (y.fn k) b := by
  obtain ⟨r', ⟨-, -, β, h3, h4⟩, rfl⟩ := h
  rw [ga_val hk]
  have h5 : ∀ k < 2 ^ A.dim, Cx.Near l (r.val k) (r'.val k) (β k) := h4
  exact (h5 k hk).mono le_rfl ((single_le_sum (f := β) (fun k hk => (h5 k (mem_range.mp hk)).nonneg) (mem_range.mpr hk)).trans h3)

theorem mul (hA : A.WF) (hr : NearG l r y b) (hs : NearG l' s z c) (hok : nearQ.ok (l + l' + mulG A) (b * c + uflowG A)) :
    ∃ t, r.naiveMulImpl s = .ok t ∧ NearG (l + l' + mulG A) t (y * z) (b * c + uflowG A) := by
  obtain ⟨r', p3, rfl⟩ := hr
  obtain ⟨s', q3, rfl⟩ := hs
  have hQ := Cx.near_sums four_le_M64 u64_pos
  have good : ∀ {l : Nat} {a : MV A S} {a' : MV A (ArrayStorage ℂ)} {b : ℝ}, RelC nearQ l a a' b → ∀ i < 2 ^ A.dim, Cx.Good nearQ (a.val i) :=
    fun h i hi => hQ.good (h.2.2.choose_spec.2 i hi)
  have h0 := Nat.two_pow_pos A.dim
  obtain ⟨t, g1, g2, g3⟩ := mul_inv (Cx.sumInv nearQ) hA p3.1 q3.1 (good p3) (good q3)
  have e : l + l' + mulG A = l + l' + (2 ^ A.dim + 1) + 1 := by unfold mulG; omega
  rw [e] at hok ⊢
  obtain ⟨u, u', k1, k2, k3⟩ := p3.product hQ q3 (p := r.naiveMulImpl s) (q := r'.naiveMulImpl s') (fun i k => bsgn A.sigma A.dim i (i ^^^ k)) h0 h0
    (fun i hi k hk => bsgn_sigma_abs hA hi (Nat.xor_lt_two_pow hi hk)) ⟨t, g1, g2, fun k hk => by
      simp only [Nat.xor_zero]; exact g3 k hk⟩ ((mul_denotes hA p3.2.1 q3.2.1).congr fun k _ => by
      simp only [Nat.xor_zero]; rfl) rfl hok
  refine ⟨u, k1, u', k3, ?_⟩
  obtain ⟨w, w1, -, w2⟩ := (is_mul hA p3.2.1 q3.2.1).ok
  rw [k2] at w1
  injection w1 with w1
  rw [w1, w2]

theorem add (hr : NearG l r y b) (hs : NearG l s z c) (hok : nearQ.ok (l + 1) (b + c)) :
    ∃ t, r.add s = .ok t ∧ NearG (l + 1) t (y + z) (b + c) := by
  obtain ⟨r', p3, rfl⟩ := hr
  obtain ⟨s', q3, rfl⟩ := hs
  obtain ⟨u, u', k1, k2, k3⟩ := p3.linear q3 (p := r.add s) (q := r'.add s') nearQ.add (add_denotes p3.1 q3.1) (add_denotes p3.2.1 q3.2.1) hok
  refine ⟨u, k1, u', k3, ?_⟩
  obtain ⟨w, w1, -, w2⟩ := (is_add p3.2.1 q3.2.1).ok
  rw [k2] at w1
  injection w1 with w1
  rw [w1, w2]

theorem mul_ofReal {v : Cx F64} (hv : v.Fin) {t : F64} : v * Cx.ofReal t = v.mulReal t := by
  apply Cx.ext'
  · show v.re * t - v.im * 0 = v.re * t
    rw [FloatModel.mul_zero hv.2, CoeffLaws.sub_zero]
  · show v.re * 0 + v.im * t = v.im * t
    rw [FloatModel.mul_zero hv.1, SumLaws.zero_add]

/-- Multiplication by a real number. -/
theorem smulReal {τ : ℝ} {t : F64} (hτ : 0 ≤ τ) (hr : NearG l r y b) (ht : fin t) (htτ : |re t - τ| ≤ ((1 + u F64) ^ 2 - 1) * τ)
    (hok : nearQ.ok (l + 2) (τ * b)) : ∃ w, r.smul (Cx.ofReal t) = .ok w ∧ NearG (l + 3) w ((τ : ℂ) • y) (τ * b + uflowG A) := by
  obtain ⟨r', ⟨h1, h2, β, h3, h4⟩, rfl⟩ := hr
  have h4 : ∀ k < 2 ^ A.dim, Cx.Near l (r.val k) (r'.val k) (β k) := h4
  obtain ⟨w, w1, w2, w3⟩ := mapFold_denotes h1 h1.supp (fun _ (c : Cx F64) => c * Cx.ofReal t) (fun _ => Cx.zero_mul' ⟨ht, fin_zero⟩)
  obtain ⟨w', v1, v2, v3⟩ := (is_smul h2 (τ : ℂ)).ok
  refine ⟨w, w1, w', ⟨w2, v2, fun k => τ * β k + Cx.uflow F64, ?_, fun k hk => ?_⟩, v3⟩
  · rw [sum_add_distrib, ← mul_sum, sum_const, card_range, nsmul_eq_mul]
    push_cast
    exact add_le_add (mul_le_mul_of_nonneg_left h3 hτ) uflowG_ge
  · have e2 : w'.val k = r'.val k * (τ : ℂ) := by
      rw [← ga_val hk w', v3, GA.fn_smul_apply, ga_val hk, mul_comm]
    have e1 : w.val k = (r.val k).mulReal t := by rw [w3 k hk]; exact mul_ofReal (h4 k hk).1
    rw [e1, e2]
    refine (h4 k hk).mulReal u64_pos hτ ht htτ (nearQ.ok_mono hok le_rfl (mul_le_mul_of_nonneg_left ?_ hτ))
    exact (single_le_sum (f := β) (fun k hk => (h4 k (mem_range.mp hk)).nonneg) (mem_range.mpr hk)).trans h3

theorem one (hd : A.dim ≤ 62) (hs : LawfulStorage.Supp (S := S) (T := Cx F64) A.dim) :
    ∃ t, (MV.one : Res (MV A S)) = .ok t ∧ NearG 0 t (1 : GA A.sigma A.dim ℂ) 1 := by
  obtain ⟨t, t1, t2, t3⟩ := one_denotes (A := A) (S := S) (T := Cx F64) hs
  obtain ⟨t', s1, s2, s3⟩ := (Is.one (A := A) (S := ArrayStorage ℂ) (T := ℂ) (show A.dim ≤ 63 by omega)).ok
  refine ⟨t, t1, t', ⟨t2, s2, fun k => if k = 0 then 1 else 0, ?_, fun k hk => ?_⟩, s3⟩
  · rw [sum_ite_eq' (range _) 0]; split <;> simp
  · have e : t'.val k = (1 : GA A.sigma A.dim ℂ).fn k := by rw [← s3, ga_val hk]
    rw [t3 k hk, e, GA.one_def, GA.fn_of _ hk]
    show Cx.Near 0 (if k = 0 then 1 else 0) (if k = 0 then 1 else 0) (if k = 0 then 1 else 0)
    split
    · have hv : (1 : Cx F64).val = 1 := Complex.ext re_one re_zero
      exact ⟨⟨fin_one, fin_zero⟩, by rw [Cx.n1_one], by rw [hv, sub_self, Cx.n1_zero]; simp⟩
    · exact nearQ.zero

theorem pow (hA : A.WF) (hb : 1 ≤ b) (hr : NearG l r y b) {n : Nat} (hn : 0 < n) (hl : n * l + (n - 1) * mulG A ≤ 2 ^ 51) (hB : (b + uflowG A) ^ n ≤ 2 ^ 1000) :
    ∃ t, r.pow n = .ok t ∧ NearG (n * l + (n - 1) * mulG A) t (y ^ n) ((b + uflowG A) ^ n - uflowG A) := by
  have hE := uflowG_nonneg (A := A)
  set E := uflowG A
  have h1 : 1 ≤ b + E := by linarith
  obtain ⟨W, hW⟩ : ∃ W : ℝ, W = 2 ^ 1000 := ⟨_, rfl⟩
  have okW : ∀ {l : Nat} {b : ℝ}, l ≤ 2 ^ 51 → b ≤ W → nearQ.ok l b := fun h1 h2 => okF h1 (by rw [← hW]; exact h2)
  rw [← hW] at hB
  clear hW
  induction n using Nat.strong_induction_on with
  | _ n ih =>
    unfold MV.pow
    rw [if_neg (by omega : ¬ n = 0)]
    by_cases hn1 : n = 1
    · subst hn1
      exact ⟨r, by rw [if_pos rfl], by simpa using hr⟩
    · rw [if_neg hn1, Nat.shiftRight_one]
      obtain ⟨m, hm⟩ : ∃ m, n / 2 = m + 1 := ⟨n / 2 - 1, by omega⟩
      have hle : (m + 1) * l + (m + 1 - 1) * mulG A ≤ n * l + (n - 1) * mulG A :=
        Nat.add_le_add (Nat.mul_le_mul_right _ (by omega)) (Nat.mul_le_mul_right _ (by omega))
      have hpm : (b + E) ^ (m + 1) ≤ W := (pow_le_pow_right₀ h1 (by omega)).trans hB
      obtain ⟨x, e1, hx⟩ := ih (m + 1) (by omega) (by omega) (hle.trans hl) hpm
      rw [hm, e1]
      show ∃ t, (if n &&& 1 = 0 then x.naiveMulImpl x else do let y ← x.naiveMulImpl x; y.naiveMulImpl r) = .ok t ∧ _
      have hk1 : b + E ≤ (b + E) ^ (m + 1) := le_self_pow₀ h1 (by omega)
      -- the square
      have hsq : ((b + E) ^ (m + 1) - E) * ((b + E) ^ (m + 1) - E) + E ≤ (b + E) ^ (2 * (m + 1)) - E := by
        rw [two_mul, pow_add (b + E) (m + 1) (m + 1)]
        exact uflow_step hE (by linarith) (by linarith)
      have hl2 : (m + 1) * l + (m + 1 - 1) * mulG A + ((m + 1) * l + (m + 1 - 1) * mulG A) + mulG A =
          (2 * (m + 1)) * l + (2 * (m + 1) - 1) * mulG A := by
        rw [show 2 * (m + 1) - 1 = 2 * m + 1 by omega, Nat.add_sub_cancel]; ring
      have hle2 : (2 * (m + 1)) * l + (2 * (m + 1) - 1) * mulG A ≤ n * l + (n - 1) * mulG A :=
        Nat.add_le_add (Nat.mul_le_mul_right _ (by omega)) (Nat.mul_le_mul_right _ (by omega))
      have hp2 : (b + E) ^ (2 * (m + 1)) ≤ W := (pow_le_pow_right₀ h1 (by omega)).trans hB
      obtain ⟨z, e2, hz⟩ := hx.mul hA hx (okW (by rw [hl2]; exact hle2.trans hl) (by linarith))
      rw [hl2, ← pow_add, ← two_mul] at hz
      have hz := hz.mono le_rfl hsq
      rw [and_one_mod]
      by_cases hp : n % 2 = 0
      · have hn2 : n = 2 * (m + 1) := by omega
        rw [if_pos hp, hn2]
        exact ⟨z, e2, hz⟩
      · have hn2 : n = 2 * (m + 1) + 1 := by omega
        have hl3 : (2 * (m + 1)) * l + (2 * (m + 1) - 1) * mulG A + l + mulG A =
            (2 * (m + 1) + 1) * l + (2 * (m + 1) + 1 - 1) * mulG A := by
          rw [show 2 * (m + 1) - 1 = 2 * m + 1 by omega, Nat.add_sub_cancel]; ring
        have hk2 : b + E ≤ (b + E) ^ (2 * (m + 1)) := le_self_pow₀ h1 (by omega)
        have hcu : ((b + E) ^ (2 * (m + 1)) - E) * b + E ≤ (b + E) ^ (2 * (m + 1) + 1) - E := by
          rw [pow_succ]
          have := uflow_step hE (p := (b + E) ^ (2 * (m + 1))) (q := b + E) (by linarith) (by linarith)
          rwa [add_sub_cancel_right] at this
        rw [hn2] at hl hB
        obtain ⟨w, e3, hw⟩ := hz.mul hA hr (okW (by rw [hl3]; exact hl) (by linarith))
        rw [hl3, ← pow_succ] at hw
        rw [if_neg hp, hn2, e2]
        exact ⟨w, e3, hw.mono le_rfl hcu⟩

end NearG

/-- The loop, from iteration `k` on. -/
theorem taylorFC_near (hA : A.WF) {n : MV A S} {x : GA A.sigma A.dim ℂ} {σ : ℝ} {l0 : Nat} (hσ : 1 + uflowG A ≤ σ)
    (hn : NearG l0 n x (σ - uflowG A)) (hl : 19 * (l0 + mulG A) + 30 ≤ 2 ^ 51) (hB : σ ^ 19 ≤ 2 ^ 999) (hB' : Real.exp σ ≤ 2 ^ 999)
    (hE1 : uflowG A ≤ 1) (d : Nat) : ∀ {k : Nat}, k + d = 18 → ∀ {res p : MV A S},
    NearG (k * (l0 + mulG A + 1) + 3) res (∑ j ∈ range (k + 1), (((j.factorial : ℝ)⁻¹ : ℝ) : ℂ) • x ^ j)
      (∑ j ∈ range (k + 1), σ ^ j / j.factorial + k * uflowG A) →
    NearG ((k + 1) * l0 + k * mulG A) p (x ^ (k + 1)) (σ ^ (k + 1) - uflowG A) → ∀ fuel ≥ d,
    ∃ r, taylorFC n fuel (expCoefF k) (k + 1) res p = some (.ok r) ∧
      NearG (18 * (l0 + mulG A + 1) + 3) r (∑ j ∈ range 19, (((j.factorial : ℝ)⁻¹ : ℝ) : ℂ) • x ^ j) (Real.exp σ + 18 * uflowG A) := by
  have hE := uflowG_nonneg (A := A)
  set E := uflowG A
  have hσ1 : 1 ≤ σ := by linarith
  have hsum : ∀ k, ∑ j ∈ range k, σ ^ j / j.factorial ≤ Real.exp σ := fun k => Real.sum_le_exp_of_nonneg (by linarith) k
  obtain ⟨W, hW⟩ : ∃ W : ℝ, W = 2 ^ 999 := ⟨_, rfl⟩
  have okW : ∀ {l : Nat} {b : ℝ}, l ≤ 2 ^ 51 → b ≤ W + W → nearQ.ok l b := fun {l b} h1 h2 => okF h1 (by
    refine h2.trans (le_of_eq ?_)
    rw [hW, ← two_mul]
    exact (pow_succ' (2 : ℝ) 999).symm)
  have hbig1 : (100 : ℝ) ≤ W := by
    rw [hW]
    exact le_trans (by norm_num) (pow_le_pow_right₀ (by norm_num) (show 7 ≤ 999 by norm_num))
  rw [← hW] at hB hB'
  clear hW
  induction d with
  | zero =>
    intro k hk res p hres hp fuel _
    have hk : k = 18 := by omega
    subst hk
    exact ⟨res, taylorFC_18 n fuel _ res p, hres.mono le_rfl (add_le_add (hsum _) (by norm_num))⟩
  | succ d ih =>
    intro k hk res p hres hp fuel hf
    obtain ⟨fuel, rfl⟩ := Nat.exists_eq_succ_of_ne_zero (show fuel ≠ 0 by omega)
    rw [Nat.succ_eq_add_one, taylorFC_succ n (by omega)]
    have hfk2 : (1 : ℝ) ≤ (k + 1).factorial := by exact_mod_cast Nat.factorial_pos _
    have hfk : (0 : ℝ) < (k + 1).factorial := by linarith
    have hc0 : (0 : ℝ) ≤ 1 / (k + 1).factorial := by positivity
    have hc1 : (1 : ℝ) / (k + 1).factorial ≤ 1 := by rw [div_le_one hfk]; exact hfk2
    obtain ⟨c1, c2⟩ := C88_coefficients.1 (k + 1) (by omega)
    have hpk : σ ^ (k + 1) ≤ W := (pow_le_pow_right₀ hσ1 (by omega)).trans hB
    have hpk2 : σ ^ (k + 1 + 1) ≤ W := (pow_le_pow_right₀ hσ1 (by omega)).trans hB
    have hps : σ ≤ σ ^ (k + 1) := le_self_pow₀ hσ1 (by omega)
    -- levels
    have hm1 : k * (l0 + mulG A + 1) ≤ 17 * (l0 + mulG A + 1) := Nat.mul_le_mul_right _ (by omega)
    have hm2 : (k + 1) * l0 ≤ 18 * l0 := Nat.mul_le_mul_right _ (by omega)
    have hm3 : k * mulG A ≤ 17 * mulG A := Nat.mul_le_mul_right _ (by omega)
    have hm4 : (k + 1) * l0 + k * mulG A ≤ k * (l0 + mulG A + 1) + l0 := by
      rw [show k * (l0 + mulG A + 1) = k * l0 + k * mulG A + k by ring, show (k + 1) * l0 = k * l0 + l0 by ring]; omega
    -- the term
    obtain ⟨tm, t1, t2⟩ := NearG.smulReal (t := expCoefF (k + 1)) hc0 hp c1 (by
      refine c2.trans (mul_le_mul_of_nonneg_right ?_ hc0)
      rw [C69_f64.1]; norm_num) (okW (by omega) (by
        have : 1 / ((k + 1).factorial : ℝ) * (σ ^ (k + 1) - E) ≤ 1 * (σ ^ (k + 1) - E) :=
          mul_le_mul_of_nonneg_right hc1 (by linarith)
        linarith))
    -- the sum
    have hle : (1 : ℝ) / (k + 1).factorial * (σ ^ (k + 1) - E) + E ≤ σ ^ (k + 1) / (k + 1).factorial + E := by
      rw [mul_sub, one_div_mul_eq_div]
      have := mul_nonneg hc0 hE
      linarith
    have hB2 : ∑ j ∈ range (k + 1), σ ^ j / j.factorial + k * E + (σ ^ (k + 1) / (k + 1).factorial + E) =
        ∑ j ∈ range (k + 1 + 1), σ ^ j / j.factorial + (k + 1 : ℕ) * E := by
      rw [sum_range_succ _ (k + 1)]; push_cast; ring
    obtain ⟨r, r1, r2⟩ := NearG.add (l := k * (l0 + mulG A + 1) + l0 + 3) (hres.mono (by omega) le_rfl) (t2.mono (by omega) hle) (okW (by omega) (by
      rw [hB2]
      have h1 := hsum (k + 1 + 1)
      have h2 : ((k + 1 : ℕ) : ℝ) * E ≤ 18 * 1 := mul_le_mul (by exact_mod_cast (by omega : k + 1 ≤ 18)) hE1 hE (by norm_num)
      linarith))
    rw [hB2, one_div, ← sum_range_succ (fun j : ℕ => (((j.factorial : ℝ)⁻¹ : ℝ) : ℂ) • x ^ j) (k + 1)] at r2
    have r3 := r2.mono (l' := (k + 1) * (l0 + mulG A + 1) + 3) (by
      rw [show (k + 1) * (l0 + mulG A + 1) = k * (l0 + mulG A + 1) + l0 + mulG A + 1 by ring]; omega) le_rfl
    -- the power
    have hpw : (σ ^ (k + 1) - E) * (σ - E) + E ≤ σ ^ (k + 1 + 1) - E := by
      rw [pow_succ σ (k + 1)]
      exact uflow_step hE (by linarith) hσ
    obtain ⟨q, q1, q2⟩ := NearG.mul hA hp hn (okW (by omega) (by linarith))
    rw [← pow_succ] at q2
    have q3 := q2.mono (l' := (k + 1 + 1) * l0 + (k + 1) * mulG A) (le_of_eq (by ring)) hpw
    have hdo : (do
        let t ← p.smul (Cx.ofReal (expCoefF (k + 1)))
        let res ← res.add t
        let p ← p.naiveMulImpl n
        return (res, p) : Res (MV A S × MV A S)) = .ok (r, q) := by
      rw [t1]
      show (do
        let res ← res.add tm
        let p ← p.naiveMulImpl n
        return (res, p) : Res (MV A S × MV A S)) = _
      rw [r1]
      show (do
        let p ← p.naiveMulImpl n
        return (r, p) : Res (MV A S × MV A S)) = _
      rw [q1]
      rfl
    rw [hdo]
    exact ih (by omega) r3 q3 fuel (by omega)

end TClifford
