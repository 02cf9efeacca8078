import Verif.Props.FFTExpF
import Verif.Props.ComplexTrace
/-
`exp` in the transformed domain with complex coefficients (`Complex64`): the rounding errors of its steps.
-/

set_option linter.unusedSectionVars false

namespace TClifford

open MV Finset FloatModel

variable {A : ClAlg}

/-- `r` represents the element `y` with complex coefficients with `l` roundings and size `b`. -/
def RepC (l : Nat) (r : FFTRepr A (Cx F64)) (y : GA A.sigma A.dim ℂ) (b : ℝ) : Prop := nearQ.Rep A l r (cx A y.fn) b

theorem RepC.mono {l l' : Nat} {r : FFTRepr A (Cx F64)} {y : GA A.sigma A.dim ℂ} {b b' : ℝ} (h : RepC l r y b) (hl : l ≤ l') (hb : b ≤ b') :
    RepC l' r y b' := CxRel.Rep.mono h hl hb

theorem RepC.nonneg {l : Nat} {r : FFTRepr A (Cx F64)} {y : GA A.sigma A.dim ℂ} {b : ℝ} (h : RepC l r y b) : 0 ≤ b := CxRel.Rep.nonneg h

theorem RepC.mul (hA : A.WF) {l l' : Nat} {r s : FFTRepr A (Cx F64)} {y z : GA A.sigma A.dim ℂ} {b c : ℝ}
    (hr : RepC l r y b) (hs : RepC l' s z c) (hok : nearQ.ok (l + l' + mulC A) (b * c + uflowE A)) :
    ∃ t, r.mul s = .ok t ∧ RepC (l + l' + mulC A) t (y * z) (b * c + uflowE A) := by
  have e : l + l' + mulC A = l + l' + 2 + 2 ^ A.half + A.projDim := by unfold mulC; omega
  rw [e] at hok ⊢
  obtain ⟨t, h1, h2⟩ := CxRel.Rep.mul hA Cx.neg_neg' hr hs hok
  refine ⟨t, h1, CxRel.Rep.congr hA h2 fun k hk => ?_⟩
  rw [← cx_geo hA _ _ hk]
  exact cx_congr (GA.fn_mul y z hk)

theorem RepC.add (hA : A.WF) {l : Nat} {r s : FFTRepr A (Cx F64)} {y z : GA A.sigma A.dim ℂ} {b c : ℝ}
    (hr : RepC l r y b) (hs : RepC l s z c) (hok : nearQ.ok (l + 1) (b + c)) :
    ∃ t, r.add s = .ok t ∧ RepC (l + 1) t (y + z) (b + c) := by
  obtain ⟨t, h1, h2⟩ := CxRel.Rep.add hr hs hok
  refine ⟨t, h1, CxRel.Rep.congr hA h2 fun k hk => ?_⟩
  have := congrFun (cx_add (K := ℂ) A y.fn z.fn) k
  rw [← this]
  exact cx_congr (GA.fn_add_apply y z k)

theorem RepC.smulG (hA : A.WF) {l l' : Nat} {r : FFTRepr A (Cx F64)} {y : GA A.sigma A.dim ℂ} {b τ : ℝ} {g : Cx F64 → Cx F64} (hτ : 0 ≤ τ)
    (hr : RepC l r y b) (h' : ∀ v z, ∀ c ≤ b, Cx.Near l v z c → Cx.Near l' (g v) (z * τ) (τ * c + Cx.uflow F64)) :
    RepC l' ⟨r.arr.map g⟩ ((τ : ℂ) • y) (τ * b + uflowE A) := by
  have h := CxRel.Rep.scale (Q := nearQ) (l' := l') (d := Cx.uflow F64) (g := g) hτ hr h'
  refine CxRel.Rep.congr hA (CxRel.Rep.mono h le_rfl (add_le_add le_rfl uflowE_ge)) fun k hk => ?_
  have := congrFun (cx_mul (K := ℂ) A y.fn (τ : ℂ)) k
  refine Eq.trans ?_ this
  exact cx_congr (by rw [GA.fn_smul_apply, mul_comm])

theorem RepC.mulReal (hA : A.WF) {l : Nat} {r : FFTRepr A (Cx F64)} {y : GA A.sigma A.dim ℂ} {b τ : ℝ} {t : F64} (hτ : 0 ≤ τ)
    (hr : RepC l r y b) (ht : fin t) (htτ : |re t - τ| ≤ ((1 + u F64) ^ 2 - 1) * τ) (hok : nearQ.ok (l + 2) (τ * b)) :
    RepC (l + 3) (r.mulReal t) ((τ : ℂ) • y) (τ * b + uflowE A) :=
  hr.smulG hA hτ fun _ _ _ hc h => h.mulReal u64_pos hτ ht htτ (nearQ.ok_mono hok le_rfl (mul_le_mul_of_nonneg_left hc hτ))

theorem RepC.divReal (hA : A.WF) {l m : Nat} {r : FFTRepr A (Cx F64)} {y : GA A.sigma A.dim ℂ} {b : ℝ} {t : F64} (hm : 0 < m)
    (hr : RepC l r y b) (ht : fin t) (htm : re t = m) (hok : nearQ.ok l ((m : ℝ)⁻¹ * b)) :
    RepC (l + 1) (r.divReal t) ((((m : ℝ)⁻¹ : ℝ) : ℂ) • y) ((m : ℝ)⁻¹ * b + uflowE A) :=
  hr.smulG hA (by positivity) fun _ _ _ hc h => h.divReal u64_pos hm ht htm
    (nearQ.ok_mono hok le_rfl (mul_le_mul_of_nonneg_left hc (by positivity)))

theorem RepC.one (hA : A.WF) (hd : A.dim < 63) : RepC 0 (FFTRepr.one : FFTRepr A (Cx F64)) (1 : GA A.sigma A.dim ℂ) 1 := by
  have h := one_represents (K := ℂ) hA hd
  refine CxRel.Rep.congr hA (f := single 0 1) ⟨⟨wcount_eq hA hd, matrixSide_eq hA hd, matrixSide_eq hA hd⟩, fun w => if w = 0 then 1 else 0, ?_, ?_⟩ ?_
  · rw [sum_ite_eq' (range _) 0]; split <;> simp
  · intro w hw
    refine ⟨fun i j => if w = 0 ∧ i = j then 1 else 0, fun i hi j hj => ?_, fun i hi => ?_, fun j hj => ?_⟩
    · rw [← h.2 w hw i hi j hj]
      show Cx.Near 0 (if w = 0 ∧ i = j then 1 else 0) (if w = 0 ∧ i = j then 1 else 0) (if w = 0 ∧ i = j then 1 else 0)
      split
      · have hv : (1 : Cx F64).val = 1 := Complex.ext re_one re_zero
        exact ⟨⟨fin_one, fin_zero⟩, by rw [Cx.n1_one], by rw [hv, sub_self, Cx.n1_zero]; simp⟩
      · exact nearQ.zero
    · by_cases h0 : w = 0
      · simp [h0, hi]
      · simp [h0]
    · by_cases h0 : w = 0
      · simp [h0, hj]
      · simp [h0]
  · intro k hk
    rw [← cx_single (T := ℂ) A]
    refine cx_congr ?_
    rw [GA.one_def]
    exact GA.fn_of _ hk

/-- Powers. -/
theorem RepC.pow (hA : A.WF) {l : Nat} {r : FFTRepr A (Cx F64)} {y : GA A.sigma A.dim ℂ} {b : ℝ} (hb : 1 ≤ b)
    (hr : RepC l r y b) {n : Nat} (hn : 0 < n) (hl : n * l + (n - 1) * mulC A ≤ 2 ^ 51) (hB : (b + uflowE A) ^ n ≤ 2 ^ 1000) :
    ∃ t, r.pow n = .ok t ∧ RepC (n * l + (n - 1) * mulC A) t (y ^ n) ((b + uflowE A) ^ n - uflowE A) := by
  have hE := uflowE_nonneg (A := A)
  set E := uflowE A
  have h1 : 1 ≤ b + E := by linarith
  obtain ⟨W, hW⟩ : ∃ W : ℝ, W = 2 ^ 1000 := ⟨_, rfl⟩
  have okW : ∀ {l : Nat} {b : ℝ}, l ≤ 2 ^ 51 → b ≤ W → nearQ.ok l b := fun h1 h2 => okF h1 (by rw [← hW]; exact h2)
  rw [← hW] at hB
  clear hW
  induction n using Nat.strong_induction_on with
  | _ n ih =>
    unfold FFTRepr.pow
    rw [if_neg (by omega : ¬ n = 0)]
    by_cases hn1 : n = 1
    · subst hn1
      exact ⟨r, by rw [if_pos rfl], by simpa using hr⟩
    · rw [if_neg hn1, Nat.shiftRight_one]
      obtain ⟨m, hm⟩ : ∃ m, n / 2 = m + 1 := ⟨n / 2 - 1, by omega⟩
      have hle : (m + 1) * l + (m + 1 - 1) * mulC A ≤ n * l + (n - 1) * mulC A :=
        Nat.add_le_add (Nat.mul_le_mul_right _ (by omega)) (Nat.mul_le_mul_right _ (by omega))
      have hpm : (b + E) ^ (m + 1) ≤ W := (pow_le_pow_right₀ h1 (by omega)).trans hB
      obtain ⟨x, e1, hx⟩ := ih (m + 1) (by omega) (by omega) (hle.trans hl) hpm
      rw [hm, e1]
      show ∃ t, (if n &&& 1 = 0 then x.mul x else do let y ← x.mul x; y.mul r) = .ok t ∧ _
      have hk1 : b + E ≤ (b + E) ^ (m + 1) := le_self_pow₀ h1 (by omega)
      -- the square
      have hsq : ((b + E) ^ (m + 1) - E) * ((b + E) ^ (m + 1) - E) + E ≤ (b + E) ^ (2 * (m + 1)) - E := by
        rw [two_mul, pow_add (b + E) (m + 1) (m + 1)]
        exact uflow_step hE (by linarith) (by linarith)
      have hl2 : (m + 1) * l + (m + 1 - 1) * mulC A + ((m + 1) * l + (m + 1 - 1) * mulC A) + mulC A =
          (2 * (m + 1)) * l + (2 * (m + 1) - 1) * mulC A := by
        rw [show 2 * (m + 1) - 1 = 2 * m + 1 by omega, Nat.add_sub_cancel]; ring
      have hle2 : (2 * (m + 1)) * l + (2 * (m + 1) - 1) * mulC A ≤ n * l + (n - 1) * mulC A :=
        Nat.add_le_add (Nat.mul_le_mul_right _ (by omega)) (Nat.mul_le_mul_right _ (by omega))
      have hp2 : (b + E) ^ (2 * (m + 1)) ≤ W := (pow_le_pow_right₀ h1 (by omega)).trans hB
      obtain ⟨z, e2, hz⟩ := hx.mul hA hx (okW (by rw [hl2]; exact hle2.trans hl) (by linarith))
      rw [hl2, ← pow_add, ← two_mul] at hz
      have hz := hz.mono le_rfl hsq
      rw [and_one_mod]
      by_cases hp : n % 2 = 0
      · have hn2 : n = 2 * (m + 1) := by omega
        rw [if_pos hp, hn2]
        exact ⟨z, e2, hz⟩
      · have hn2 : n = 2 * (m + 1) + 1 := by omega
        have hl3 : (2 * (m + 1)) * l + (2 * (m + 1) - 1) * mulC A + l + mulC A =
            (2 * (m + 1) + 1) * l + (2 * (m + 1) + 1 - 1) * mulC A := by
          rw [show 2 * (m + 1) - 1 = 2 * m + 1 by omega, Nat.add_sub_cancel]; ring
        have hk2 : b + E ≤ (b + E) ^ (2 * (m + 1)) := le_self_pow₀ h1 (by omega)
        have hcu : ((b + E) ^ (2 * (m + 1)) - E) * b + E ≤ (b + E) ^ (2 * (m + 1) + 1) - E := by
          rw [pow_succ]
          have := uflow_step hE (p := (b + E) ^ (2 * (m + 1))) (q := b + E) (by linarith) (by linarith)
          rwa [add_sub_cancel_right] at this
        rw [hn2] at hl hB
        obtain ⟨w, e3, hw⟩ := hz.mul hA hr (okW (by rw [hl3]; exact hl) (by linarith))
        rw [hl3, ← pow_succ] at hw
        rw [if_neg hp, hn2, e2]
        exact ⟨w, e3, hw.mono le_rfl hcu⟩

namespace FFTRepr

/-- The loop, from iteration `k` on. -/
theorem taylorF_nearC (hA : A.WF) {n : FFTRepr A (Cx F64)} {x : GA A.sigma A.dim ℂ} {σ : ℝ} {l0 : Nat} (hσ : 1 + uflowE A ≤ σ)
    (hn : RepC l0 n x (σ - uflowE A)) (hl : 19 * (l0 + mulC A) + 30 ≤ 2 ^ 51) (hB : σ ^ 19 ≤ 2 ^ 999) (hB' : Real.exp σ ≤ 2 ^ 999)
    (hE1 : uflowE A ≤ 1) (d : Nat) : ∀ {k : Nat}, k + d = 18 → ∀ {res p : FFTRepr A (Cx F64)},
    RepC (k * (l0 + mulC A + 1) + 3) res (∑ j ∈ range (k + 1), ((((j.factorial : ℝ)⁻¹ : ℝ)) : ℂ) • x ^ j)
      (∑ j ∈ range (k + 1), σ ^ j / j.factorial + k * uflowE A) →
    RepC ((k + 1) * l0 + k * mulC A) p (x ^ (k + 1)) (σ ^ (k + 1) - uflowE A) → ∀ fuel ≥ d,
    ∃ r, taylorF n fuel (expCoefF k) (k + 1) res p = some (.ok r) ∧
      RepC (18 * (l0 + mulC A + 1) + 3) r (∑ j ∈ range 19, ((((j.factorial : ℝ)⁻¹ : ℝ)) : ℂ) • x ^ j) (Real.exp σ + 18 * uflowE A) := by
  have hE := uflowE_nonneg (A := A)
  set E := uflowE A
  have hσ1 : 1 ≤ σ := by linarith
  have hsum : ∀ k, ∑ j ∈ range k, σ ^ j / j.factorial ≤ Real.exp σ := fun k => Real.sum_le_exp_of_nonneg (by linarith) k
  obtain ⟨W, hW⟩ : ∃ W : ℝ, W = 2 ^ 999 := ⟨_, rfl⟩
  have okW : ∀ {l : Nat} {b : ℝ}, l ≤ 2 ^ 51 → b ≤ W + W → nearQ.ok l b := fun {l b} h1 h2 => okF h1 (by
    refine h2.trans (le_of_eq ?_)
    rw [hW, ← two_mul]
    exact (pow_succ' (2 : ℝ) 999).symm)
  have hbig1 : (100 : ℝ) ≤ W := by
    rw [hW]
    exact le_trans (by norm_num) (pow_le_pow_right₀ (by norm_num) (show 7 ≤ 999 by norm_num))
  rw [← hW] at hB hB'
  clear hW
  induction d with
  | zero =>
    intro k hk res p hres hp fuel _
    have hk : k = 18 := by omega
    subst hk
    exact ⟨res, taylorF_18 n fuel _ res p, hres.mono le_rfl (add_le_add (hsum _) (by norm_num))⟩
  | succ d ih =>
    intro k hk res p hres hp fuel hf
    obtain ⟨fuel, rfl⟩ := Nat.exists_eq_succ_of_ne_zero (show fuel ≠ 0 by omega)
    rw [Nat.succ_eq_add_one, taylorF_succ n (by omega)]
    have hfk2 : (1 : ℝ) ≤ (k + 1).factorial := by exact_mod_cast Nat.factorial_pos _
    have hfk : (0 : ℝ) < (k + 1).factorial := by linarith
    have hc0 : (0 : ℝ) ≤ 1 / (k + 1).factorial := by positivity
    have hc1 : (1 : ℝ) / (k + 1).factorial ≤ 1 := by rw [div_le_one hfk]; exact hfk2
    obtain ⟨c1, c2⟩ := C88_coefficients.1 (k + 1) (by omega)
    have hpk : σ ^ (k + 1) ≤ W := (pow_le_pow_right₀ hσ1 (by omega)).trans hB
    have hpk2 : σ ^ (k + 1 + 1) ≤ W := (pow_le_pow_right₀ hσ1 (by omega)).trans hB
    have hps : σ ≤ σ ^ (k + 1) := le_self_pow₀ hσ1 (by omega)
    -- levels
    have hm1 : k * (l0 + mulC A + 1) ≤ 17 * (l0 + mulC A + 1) := Nat.mul_le_mul_right _ (by omega)
    have hm2 : (k + 1) * l0 ≤ 18 * l0 := Nat.mul_le_mul_right _ (by omega)
    have hm3 : k * mulC A ≤ 17 * mulC A := Nat.mul_le_mul_right _ (by omega)
    have hm4 : (k + 1) * l0 + k * mulC A ≤ k * (l0 + mulC A + 1) + l0 := by
      rw [show k * (l0 + mulC A + 1) = k * l0 + k * mulC A + k by ring, show (k + 1) * l0 = k * l0 + l0 by ring]; omega
    -- the term
    have t2 := hp.mulReal hA (t := expCoefF (k + 1)) hc0 c1 (by
      refine c2.trans (mul_le_mul_of_nonneg_right ?_ hc0)
      rw [C69_f64.1]; norm_num) (okW (by omega) (by
        have : 1 / ((k + 1).factorial : ℝ) * (σ ^ (k + 1) - E) ≤ 1 * (σ ^ (k + 1) - E) :=
          mul_le_mul_of_nonneg_right hc1 (by linarith)
        linarith))
    -- the sum
    have hle : (1 : ℝ) / (k + 1).factorial * (σ ^ (k + 1) - E) + E ≤ σ ^ (k + 1) / (k + 1).factorial + E := by
      rw [mul_sub, one_div_mul_eq_div]
      have := mul_nonneg hc0 hE
      linarith
    have hB2 : ∑ j ∈ range (k + 1), σ ^ j / j.factorial + k * E + (σ ^ (k + 1) / (k + 1).factorial + E) =
        ∑ j ∈ range (k + 1 + 1), σ ^ j / j.factorial + (k + 1 : ℕ) * E := by
      rw [sum_range_succ _ (k + 1)]; push_cast; ring
    obtain ⟨r, r1, r2⟩ := RepC.add hA (l := k * (l0 + mulC A + 1) + l0 + 3) (hres.mono (by omega) le_rfl) (t2.mono (by omega) hle) (okW (by omega) (by
      rw [hB2]
      have h1 := hsum (k + 1 + 1)
      have h2 : ((k + 1 : ℕ) : ℝ) * E ≤ 18 * 1 := mul_le_mul (by exact_mod_cast (by omega : k + 1 ≤ 18)) hE1 hE (by norm_num)
      linarith))
    rw [hB2, one_div, ← sum_range_succ (fun j : ℕ => ((((j.factorial : ℝ)⁻¹ : ℝ)) : ℂ) • x ^ j) (k + 1)] at r2
    have r3 := r2.mono (l' := (k + 1) * (l0 + mulC A + 1) + 3) (by
      rw [show (k + 1) * (l0 + mulC A + 1) = k * (l0 + mulC A + 1) + l0 + mulC A + 1 by ring]; omega) le_rfl
    -- the power
    have hpw : (σ ^ (k + 1) - E) * (σ - E) + E ≤ σ ^ (k + 1 + 1) - E := by
      rw [pow_succ σ (k + 1)]
      exact uflow_step hE (by linarith) hσ
    obtain ⟨q, q1, q2⟩ := hp.mul hA hn (okW (by omega) (by linarith))
    rw [← pow_succ] at q2
    have q3 := q2.mono (l' := (k + 1 + 1) * l0 + (k + 1) * mulC A) (le_of_eq (by ring)) hpw
    have hdo : (do
        let res ← res.add (p.mulReal (expCoefF (k + 1)))
        let p ← p.mul n
        return (res, p) : Res (FFTRepr A (Cx F64) × FFTRepr A (Cx F64))) = .ok (r, q) := by
      rw [r1]
      show (do
        let p ← p.mul n
        return (r, p) : Res (FFTRepr A (Cx F64) × FFTRepr A (Cx F64))) = _
      rw [q1]
      rfl
    rw [hdo]
    exact ih (by omega) r3 q3 fuel (by omega)

end FFTRepr

end TClifford
