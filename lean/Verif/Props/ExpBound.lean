import Verif.Props.ExpFFT
import Verif.Proofs.ExpBound
import Verif.Proofs.Dominant
import Mathlib.Analysis.Complex.ExponentialBounds
import Mathlib.LinearAlgebra.Complex.FiniteDimensional
/-
How far `exp` is from the exponential: C67.
-/

set_option linter.unusedSectionVars false

namespace TClifford

open MV Finset

section
variable {A : ClAlg} {S T : Type} [Ring T] [DecidableEq T] [CoeffStorage S T]

theorem MV.Is.coefs [LawfulStorage S T] {x : Res (MV A S)} {g : GA A.sigma A.dim T} (h : Is x g) : Coefs x g.fn := by
  obtain ⟨u, rfl, hu, rfl⟩ := h.ok
  exact ⟨u, rfl, fun i hi => by rw [hu.get hi, ga_val hi]⟩

end

section
variable {A : ClAlg} {S 𝕜 : Type} [RCLike 𝕜] [DecidableEq 𝕜] [CoeffStorage S 𝕜]

/-- `E i` are the coefficients of the exponential of `a`, the sum of the series `Σ_k a^k / k!`. -/
def MV.IsExp (a : MV A S) (E : Nat → 𝕜) : Prop :=
  ∃ c : Nat → Nat → 𝕜, (∀ k, Coefs (a.pow k) (c k)) ∧
    ∀ i < 2 ^ A.dim, HasSum (fun k => c k i / (k.factorial : 𝕜)) (E i)

variable [LawfulStorage S 𝕜]

theorem GA.hasSum_exp (x : GA A.sigma A.dim 𝕜) (i : Nat) :
    HasSum (fun k => (x ^ k).fn i / (k.factorial : 𝕜)) ((NormedSpace.exp x).fn i) := by
  have h := (NormedSpace.exp_series_hasSum_exp' (𝕂 := 𝕜) x).map (GA.coef i)
    (LinearMap.continuous_of_finiteDimensional (GA.coef (σ := A.sigma) (n := A.dim) (𝕜 := 𝕜) i))
  simp only [Function.comp_def, map_smul, smul_eq_mul, inv_mul_eq_div] at h
  exact h

theorem isExp_iff (hA : A.WF) {a : MV A S} (ha : a.Valid) {E : Nat → 𝕜} :
    a.IsExp E ↔ ∀ i < 2 ^ A.dim, E i = (NormedSpace.exp a.ga).fn i := by
  constructor
  · rintro ⟨c, hc, hE⟩ i hi
    refine (hE i hi).unique ?_
    have h := GA.hasSum_exp a.ga i
    have e : (fun k => c k i / (k.factorial : 𝕜)) = fun k => (a.ga ^ k).fn i / (k.factorial : 𝕜) := by
      funext k
      rw [(hc k).unique (is_pow hA ha k).coefs i hi]
    rwa [e]
  · intro h
    refine ⟨fun k => (a.ga ^ k).fn, fun k => (is_pow hA ha k).coefs, fun i hi => ?_⟩
    rw [h i hi]
    exact GA.hasSum_exp a.ga i

/-- **C67, the exponential.** The series `Σ_k a^k / k!` converges in every coefficient, to a single multivector. -/
theorem C67_exponential (hA : A.WF) {a : MV A S} (ha : a.Valid) :
    ∃ E, a.IsExp E ∧ ∀ E', a.IsExp E' → ∀ i < 2 ^ A.dim, E' i = E i :=
  ⟨_, (isExp_iff hA ha).mpr fun _ _ => rfl, fun _ h => (isExp_iff hA ha).mp h⟩

theorem taylor_eq {G : Type} [Ring G] [Algebra 𝕜 G] (n m : Nat) (x : G) :
    taylor (algebraMap ℝ 𝕜) n (algebraMap ℝ 𝕜 (1 / (m : ℝ)) • x) =
      ∑ j ∈ range n, ((j.factorial : 𝕜)⁻¹) • ((m : 𝕜)⁻¹ • x) ^ j := by
  unfold taylor
  refine Finset.sum_congr rfl fun j _ => ?_
  rw [one_div, one_div, map_inv₀, map_inv₀, map_natCast, map_natCast]

theorem exp_error (hA : A.WF) {a : MV A S} (ha : a.Valid) {E : Nat → 𝕜} (hE : a.IsExp E) {m : Nat} (hm1 : 1 ≤ m)
    (hmN : (m : ℝ) ≤ (∑ i ∈ range (2 ^ A.dim), ‖a.val i‖) + 1) :
    ∑ i ∈ range (2 ^ A.dim), ‖(taylor (algebraMap ℝ 𝕜) 19 (algebraMap ℝ 𝕜 (1 / (m : ℝ)) • a.ga) ^ usizeCast m).fn i - E i‖ ≤
      m * (((∑ i ∈ range (2 ^ A.dim), ‖a.val i‖) / m) ^ 19 / Nat.factorial 19) *
        Real.exp (∑ i ∈ range (2 ^ A.dim), ‖a.val i‖) := by
  have hn : ‖a.ga‖ = ∑ i ∈ range (2 ^ A.dim), ‖a.val i‖ := GA.norm_of _
  have h := exp_sub_taylor_cast_le (𝕜 := 𝕜) a.ga hm1 (by rw [hn]; exact hmN)
  rw [← taylor_eq] at h
  rw [hn] at h
  refine le_trans (le_of_eq ?_) h
  rw [norm_sub_rev, GA.norm_def]
  refine Finset.sum_congr rfl fun i hi => ?_
  rw [(isExp_iff hA ha).mp hE i (mem_range.mp hi)]
  exact congrArg norm (map_sub (GA.coef i) _ _).symm

/-- The square root of the norm of `mag2` is at most the sum of the norms of the coefficients. -/
theorem sqrt_mag2_le {σ : Nat → ℤ} [UnitSig σ] (n : Nat) (f : Nat → 𝕜) :
    Real.sqrt ‖geo σ n (fun i => rsg n i • f i) f 0‖ ≤ ∑ i ∈ range (2 ^ n), ‖f i‖ := by
  have h0 : 0 ≤ ∑ i ∈ range (2 ^ n), ‖f i‖ := Finset.sum_nonneg fun _ _ => norm_nonneg _
  rw [Real.sqrt_le_left h0, pow_two]
  have hr : ‖(GA.of (fun i => rsg n i • f i) : GA σ n 𝕜)‖ = ∑ i ∈ range (2 ^ n), ‖f i‖ := by
    rw [GA.norm_of]
    refine Finset.sum_congr rfl fun i _ => ?_
    rw [rsg_eq]
    split <;> simp
  have h := (GA.norm_fn_le (GA.of (fun i => rsg n i • f i) * GA.of f : GA σ n 𝕜) (Nat.two_pow_pos n)).trans (norm_mul_le _ _)
  rw [hr, GA.norm_of, ← GA.of_mul, GA.fn_of _ (Nat.two_pow_pos n)] at h
  exact h

theorem le_sum_add_one {m : Nat} {N : ℝ} (hN : 0 ≤ N) (h : ∀ x : Nat, 1 ≤ x → N ≤ x → m ≤ x) : (m : ℝ) ≤ N + 1 := by
  have h1 := h (max 1 ⌈N⌉₊) (le_max_left _ _) ((Nat.le_ceil N).trans (by exact_mod_cast le_max_right _ _))
  have h2 : ((max 1 ⌈N⌉₊ : Nat) : ℝ) ≤ N + 1 := by
    rw [Nat.cast_max]
    exact max_le (by push_cast; linarith) (Nat.ceil_lt_add_one hN).le
  exact (Nat.cast_le.mpr h1).trans h2

/-- **C67, the error.** Let `N` be the sum of the norms of the coefficients of `a`, and `m` the least integer that is at least
1, at least the norm of every coefficient and at least the square root of the norm of `a.mag2()`.  The coefficients of `a.exp()`
differ from those of the exponential of `a` by at most `m · (N/m)^19 / 19! · e^N`, all taken together. -/
theorem C67_error (hA : A.WF) {a : MV A S} (ha : a.Valid) {v E : Nat → 𝕜} {q : 𝕜} (hv : Coefs (.ok a) v) (hE : a.IsExp E)
    (hq : a.mag2 = .ok q) {m : Nat}
    (hm : IsLeast {x : Nat | 1 ≤ x ∧ (∀ i < 2 ^ A.dim, ‖v i‖ ≤ x) ∧ Real.sqrt ‖q‖ ≤ x} m) {fuel : Nat} (hf : 18 ≤ fuel) :
    ∃ x r, a.exp (fun c => ‖c‖) (algebraMap ℝ 𝕜) fuel = some x ∧ Coefs x r ∧
    ∑ i ∈ range (2 ^ A.dim), ‖r i - E i‖ ≤
      m * (((∑ i ∈ range (2 ^ A.dim), ‖v i‖) / m) ^ 19 / Nat.factorial 19) *
        Real.exp (∑ i ∈ range (2 ^ A.dim), ‖v i‖) := by
  have hva : ∀ i < 2 ^ A.dim, v i = a.val i := fun i hi => by
    rw [hv.unique (Is.of_valid ha).coefs i hi, ga_val hi]
  obtain ⟨m', hm1, hm'⟩ := expIntPow_ok hA (fun c : 𝕜 => ‖c‖) ha
  have hmm : m' = m := by
    have hiff : ∀ x : Nat, m' ≤ x ↔ x ∈ {x : Nat | 1 ≤ x ∧ (∀ i < 2 ^ A.dim, ‖v i‖ ≤ x) ∧ Real.sqrt ‖q‖ ≤ x} := by
      intro x
      rw [mag2_ok hA ha] at hq
      injection hq with hq
      rw [expIntPow_le_iff hA (norm := fun c : 𝕜 => ‖c‖) norm_zero ha hm' x, hq]
      refine and_congr_right fun _ => and_congr_left fun _ => ?_
      exact forall₂_congr fun i hi => by rw [hva i hi]
    exact le_antisymm ((hiff m).mpr hm.1) (hm.2 ((hiff m').mp le_rfl))
  subst hmm
  obtain ⟨x, hx, hxI⟩ := (exp_is (algebraMap ℝ 𝕜) hA _ ha hm' fuel).2 hf
  refine ⟨x, _, hx, hxI.coefs, ?_⟩
  have h := exp_error hA ha hE hm1 (le_sum_add_one (Finset.sum_nonneg fun _ _ => norm_nonneg _) fun x hx1 hx2 =>
    (expIntPow_le_iff hA (norm := fun c : 𝕜 => ‖c‖) norm_zero ha hm' x).mpr ⟨hx1, fun i hi =>
      (Finset.single_le_sum (f := fun i => ‖a.val i‖) (fun _ _ => norm_nonneg _) (mem_range.mpr hi)).trans hx2,
      (sqrt_mag2_le A.dim a.val).trans hx2⟩)
  rwa [Finset.sum_congr rfl (fun i hi => by rw [← hva i (mem_range.mp hi)] :
    ∀ i ∈ range (2 ^ A.dim), ‖a.val i‖ = ‖v i‖)] at h

/-- **C67, one coefficient.** When `a` has a single nonzero coefficient `t`, the error is at most `m · e^|t| / 19!` where `m` is the
least integer that is at least 1 and at least `|t|` (and `19!` is more than `10^17`). -/
theorem C67_error_single (hA : A.WF) {a : MV A S} (ha : a.Valid) {v E : Nat → 𝕜} (hv : Coefs (.ok a) v) (hE : a.IsExp E)
    {j : Nat} (hj : j < 2 ^ A.dim) (h0 : ∀ i < 2 ^ A.dim, i ≠ j → v i = 0) {fuel : Nat} (hf : 18 ≤ fuel) :
    ∃ x r, a.exp (fun c => ‖c‖) (algebraMap ℝ 𝕜) fuel = some x ∧ Coefs x r ∧
    ∑ i ∈ range (2 ^ A.dim), ‖r i - E i‖ ≤ (max 1 ⌈‖v j‖⌉₊ : ℕ) * Real.exp ‖v j‖ / Nat.factorial 19 := by
  set m := max 1 ⌈‖v j‖⌉₊ with hmdef
  have hvm : ‖v j‖ ≤ m := (Nat.le_ceil _).trans (by exact_mod_cast le_max_right _ _)
  have hva : ∀ i < 2 ^ A.dim, v i = a.val i := fun i hi => by
    rw [hv.unique (Is.of_valid ha).coefs i hi, ga_val hi]
  have hq := mag2_ok hA ha
  have hqn : Real.sqrt ‖geo A.sigma A.dim (fun i => rsg A.dim i • a.val i) a.val 0‖ ≤ ‖v j‖ := by
    rw [Real.sqrt_le_left (norm_nonneg _)]
    have e : geo A.sigma A.dim (fun i => rsg A.dim i • a.val i) a.val 0 =
        ((bsgn A.sigma A.dim j j * rsg A.dim j : ℤ) : 𝕜) * (v j * v j) := by
      unfold geo
      rw [Finset.sum_eq_single j]
      · simp only [Nat.xor_zero, ← hva j hj, zsmul_eq_mul]
        push_cast
        ring
      · intro i hi hij
        rw [Nat.xor_zero, ← hva i (mem_range.mp hi), h0 i (mem_range.mp hi) hij, mul_zero, smul_zero]
      · intro h; exact absurd (mem_range.mpr hj) h
    rw [e, norm_mul, norm_mul, ← RCLike.ofReal_intCast, RCLike.norm_ofReal, ← pow_two]
    have : |((bsgn A.sigma A.dim j j * rsg A.dim j : ℤ) : ℝ)| ≤ 1 := by
      have h1 := bsgn_abs_le (σ := A.sigma) UnitSig.le A.dim j j
      have h2 : |rsg A.dim j| ≤ 1 := by rw [rsg_eq]; split <;> simp
      rw [← Int.cast_abs, abs_mul]
      exact_mod_cast mul_le_one₀ h1 (abs_nonneg _) h2
    calc _ ≤ 1 * ‖v j‖ ^ 2 := by gcongr
      _ = _ := one_mul _
  have hm : IsLeast {x : Nat | 1 ≤ x ∧ (∀ i < 2 ^ A.dim, ‖v i‖ ≤ x) ∧
      Real.sqrt ‖geo A.sigma A.dim (fun i => rsg A.dim i • a.val i) a.val 0‖ ≤ x} m := by
    refine ⟨⟨le_max_left _ _, fun i hi => ?_, hqn.trans hvm⟩, fun x hx => ?_⟩
    · by_cases hij : i = j
      · rw [hij]; exact hvm
      · rw [h0 i hi hij, norm_zero]; positivity
    · exact max_le hx.1 (Nat.ceil_le.mpr (hx.2.1 j hj))
  obtain ⟨x, r, hx, hr, hb⟩ := C67_error hA ha hv hE hq hm hf
  refine ⟨x, r, hx, hr, hb.trans ?_⟩
  have hs : ∑ i ∈ range (2 ^ A.dim), ‖v i‖ = ‖v j‖ := by
    refine Finset.sum_eq_single j (fun i hi hij => ?_) (fun h => absurd (mem_range.mpr hj) h)
    rw [h0 i (mem_range.mp hi) hij, norm_zero]
  rw [hs]
  have hm1 : (0 : ℝ) < m := by exact_mod_cast hm.1.1
  have h1 : (‖v j‖ / m) ^ 19 ≤ 1 := by
    refine pow_le_one₀ (by positivity) ?_
    rw [div_le_one hm1]
    exact hvm
  have hf19 : (0 : ℝ) < Nat.factorial 19 := by exact_mod_cast Nat.factorial_pos 19
  calc (m : ℝ) * ((‖v j‖ / m) ^ 19 / Nat.factorial 19) * Real.exp ‖v j‖ ≤ m * (1 / Nat.factorial 19) * Real.exp ‖v j‖ := by gcongr
    _ = _ := by ring

/-! #### What the exponential is -/

/-- **C67.** If `b*b == 1` then the exponential of `t b` is `cosh t + b sinh t` (here with `(e^t ± e^-t)/2`). -/
theorem C67_square_one (hA : A.WF) {a b : MV A S} (hb : b.Valid) {t : 𝕜} (ha : b.smul t = .ok a) {v : Nat → 𝕜}
    (hv : Coefs (.ok b) v) (hbb : b.naiveMulImpl b ≈ᵣ MV.one (T := 𝕜)) :
    a.IsExp fun i => (if i = 0 then (NormedSpace.exp t + NormedSpace.exp (-t)) / 2 else 0) +
      v i * ((NormedSpace.exp t - NormedSpace.exp (-t)) / 2) := by
  have hva : ∀ i < 2 ^ A.dim, v i = b.val i := fun i hi => by
    rw [hv.unique (Is.of_valid hb).coefs i hi, ga_val hi]
  obtain ⟨u, hu, huv, hug⟩ := (is_smul hb t).ok
  rw [ha] at hu
  injection hu with hu
  subst hu
  have hsq : b.ga * b.ga = 1 := ((is_mul hA hb hb).iff_agree (Is.one hb.supp)).mp hbb
  refine (isExp_iff hA huv).mpr fun i hi => ?_
  rw [hug]
  have hpow : ∀ k : Nat, (t • b.ga) ^ k = t ^ k • ((2 : 𝕜)⁻¹ • (1 + b.ga)) + (-t) ^ k • ((2 : 𝕜)⁻¹ • (1 - b.ga)) := by
    intro k
    induction k with
    | zero =>
      rw [pow_zero, pow_zero, pow_zero, one_smul, one_smul, ← smul_add, show (1 + b.ga) + (1 - b.ga) = (2 : 𝕜) • 1 by
        rw [two_smul]; abel, smul_smul, inv_mul_cancel₀ two_ne_zero, one_smul]
    | succ k ih =>
      have e1 : (1 + b.ga) * b.ga = 1 + b.ga := by rw [add_mul, one_mul, hsq, add_comm]
      have e2 : (1 - b.ga) * b.ga = -(1 - b.ga) := by rw [sub_mul, one_mul, hsq, neg_sub]
      rw [pow_succ, ih, add_mul, smul_mul_smul_comm, smul_mul_smul_comm, smul_mul_assoc, smul_mul_assoc, e1, e2, pow_succ, pow_succ,
        mul_neg, neg_smul, smul_neg, smul_neg]
  have h1 := (NormedSpace.exp_series_hasSum_exp' (𝕂 := 𝕜) t).smul_const ((2 : 𝕜)⁻¹ • (1 + b.ga))
  have h2 := (NormedSpace.exp_series_hasSum_exp' (𝕂 := 𝕜) (-t)).smul_const ((2 : 𝕜)⁻¹ • (1 - b.ga))
  have h3 := NormedSpace.exp_series_hasSum_exp' (𝕂 := 𝕜) (t • b.ga)
  simp only [hpow, smul_add (_ : 𝕜) (_ • _ : GA A.sigma A.dim 𝕜), ← smul_assoc] at h3
  have h4 := h1.add h2
  simp only [← smul_assoc] at h4
  rw [h3.unique h4]
  have hcoef : ∀ c d : 𝕜, (c • (1 + b.ga) + d • (1 - b.ga)).fn i = (if i = 0 then c + d else 0) + b.val i * (c - d) := by
    intro c d
    have h1 : (1 : GA A.sigma A.dim 𝕜).fn i = if i = 0 then 1 else 0 := by rw [GA.one_def, GA.fn_of _ hi]; rfl
    have : (c • (1 + b.ga) + d • (1 - b.ga)).fn i = GA.coef i (c • (1 + b.ga) + d • (1 - b.ga)) := rfl
    rw [this, map_add, map_smul, map_smul, map_add, map_sub]
    show c • ((1 : GA A.sigma A.dim 𝕜).fn i + b.ga.fn i) + d • ((1 : GA A.sigma A.dim 𝕜).fn i - b.ga.fn i) = _
    rw [h1, ga_val hi]
    split <;> simp only [smul_eq_mul] <;> ring
  rw [hcoef, hva i hi]
  simp only [smul_eq_mul]
  split <;> ring

end

/-- **C67, rotors.** If `b*b == -1` then the exponential of `t b` is `cos t + b sin t`. -/
theorem C67_square_minus_one {A : ClAlg} {S : Type} [DecidableEq ℝ] [CoeffStorage S ℝ] [LawfulStorage S ℝ] (hA : A.WF)
    {a b : MV A S} (hb : b.Valid) {t : ℝ} (ha : b.smul t = .ok a) {v : Nat → ℝ}
    (hv : Coefs (.ok b) v) (hbb : b.naiveMulImpl b ≈ᵣ MV.fromScalar (-1 : ℝ)) :
    a.IsExp fun i => (if i = 0 then Real.cos t else 0) + v i * Real.sin t := by
  have hva : ∀ i < 2 ^ A.dim, v i = b.val i := fun i hi => by
    rw [hv.unique (Is.of_valid hb).coefs i hi, ga_val hi]
  obtain ⟨u, hu, huv, hug⟩ := (is_smul hb t).ok
  rw [ha] at hu
  injection hu with hu
  subst hu
  have hsq : b.ga * b.ga = -1 := by
    have := ((is_mul hA hb hb).iff_agree (Is.fromScalar hb.supp _)).mp hbb
    rwa [map_neg, map_one] at this
  refine (isExp_iff hA huv).mpr fun i hi => ?_
  rw [hug]
  let : NormedAlgebra ℚ (GA A.sigma A.dim ℝ) := NormedAlgebra.restrictScalars ℚ ℝ _
  let φ : ℂ →ₐ[ℝ] GA A.sigma A.dim ℝ := Complex.liftAux b.ga hsq
  have hφ : Continuous φ := LinearMap.continuous_of_finiteDimensional φ.toLinearMap
  have h1 : φ (t * Complex.I) = t • b.ga := by
    show Complex.liftAux b.ga hsq _ = _
    rw [Complex.liftAux_apply]
    simp
  have h2 : NormedSpace.exp (t • b.ga) = φ (Complex.exp (t * Complex.I)) := by
    rw [← h1, Complex.exp_eq_exp_ℂ, NormedSpace.map_exp φ hφ]
  rw [h2, Complex.exp_mul_I, ← Complex.ofReal_cos, ← Complex.ofReal_sin]
  show _ = GA.coef i (Complex.liftAux b.ga hsq _)
  rw [Complex.liftAux_apply, map_add, map_smul, Algebra.algebraMap_eq_smul_one, map_smul]
  show _ = _ • (1 : GA A.sigma A.dim ℝ).fn i + _ • b.ga.fn i
  rw [GA.one_def, GA.fn_of _ hi, ga_val hi, hva i hi]
  simp [single, mul_comm, Complex.cos_ofReal_re, Complex.sin_ofReal_re]

/-! #### Representations -/

/-- Entries of the array are at most as large as the sum of the norms of the coefficients. -/
theorem norm_entry_le {A : ClAlg} (hA : A.WF) {r : FFTRepr A ℂ} {f : Nat → ℂ} (hr : Represents r f) {k i j : Nat}
    (hk : k < r.arr.d0) (hi : i < r.arr.d1) (hj : j < r.arr.d2) : ‖r.arr.get k i j‖ ≤ ∑ k ∈ range (2 ^ A.dim), ‖f k‖ := by
  obtain ⟨⟨h0, h1, h2⟩, hg⟩ := hr
  rw [h0] at hk
  rw [h1] at hi
  rw [h2] at hj
  rw [hg k hk i hi j hj]
  have hle : A.nn ≤ 2 * A.half := by unfold ClAlg.half; omega
  have h := (Finset.single_le_sum (f := fun i => ‖ctr A.half A.nn (lay A.nn f k) i j‖) (fun _ _ => norm_nonneg _)
    (mem_range.mpr hi)).trans (ctr_column hle (lay A.nn f k) hj)
  refine h.trans ?_
  rw [show A.dim = A.nn + A.projDim from hA.dims.symm, Nat.pow_add]
  unfold lay
  calc ∑ r ∈ range (2 ^ A.nn), ‖f (r + k * 2 ^ A.nn)‖ = ∑ x ∈ (range (2 ^ A.nn)).map (addRightEmbedding (k * 2 ^ A.nn)), ‖f x‖ := by
        rw [Finset.sum_map]; rfl
    _ ≤ ∑ k ∈ range (2 ^ A.nn * 2 ^ A.projDim), ‖f k‖ := by
        refine Finset.sum_le_sum_of_subset_of_nonneg (fun x hx => ?_) (fun _ _ _ => norm_nonneg _)
        obtain ⟨y, hy, rfl⟩ := Finset.mem_map.mp hx
        rw [mem_range] at hy ⊢
        show y + k * 2 ^ A.nn < _
        calc y + k * 2 ^ A.nn < 2 ^ A.nn + k * 2 ^ A.nn := by omega
          _ = (k + 1) * 2 ^ A.nn := by ring
          _ ≤ 2 ^ A.projDim * 2 ^ A.nn := Nat.mul_le_mul_right _ hk
          _ = _ := Nat.mul_comm _ _

/-- **C67, representations.** The same bound for `a.fft().exp().ifft()` and a real multivector, with the `max_c` of `a.fft()`. -/
theorem C67_fft_error {A : ClAlg} (hA : A.WF) (hd : A.dim < 63) {a : MV A (ArrayStorage ℝ)} (ha : a.Valid) {v E : Nat → ℝ}
    (hv : Coefs (.ok a) v) (hE : a.IsExp E) {fuel : Nat} (hf : 18 ≤ fuel) :
    ∃ (m : Nat) (s : FFTRepr A ℂ) (x : Res (FFTRepr A ℂ)) (r : Nat → ℝ), a.fft = .ok s ∧ s.IsMaxC (fun z => ‖z‖) m ∧
    s.exp (fun z => ‖z‖) Complex.ofRealHom fuel = some x ∧
    Coefs (do let t ← x; (t.ifft : Res (MV A (ArrayStorage ℝ)))) r ∧
    ∑ i ∈ range (2 ^ A.dim), |r i - E i| ≤
      m * (((∑ i ∈ range (2 ^ A.dim), |v i|) / m) ^ 19 / Nat.factorial 19) * Real.exp (∑ i ∈ range (2 ^ A.dim), |v i|) := by
  have hva : ∀ i < 2 ^ A.dim, v i = a.val i := fun i hi => by
    rw [hv.unique (Is.of_valid ha).coefs i hi, ga_val hi]
  obtain ⟨s, hs, hsR⟩ := fft_is (K := ℂ) hA hd ha
  obtain ⟨m, hm1, hm⟩ := fft_expIntPow_ok hA hd two_ne_zero (fun z : ℂ => ‖z‖) hsR
  obtain ⟨x, hx, hxR⟩ := (fft_exp_is Complex.ofRealHom hA hd _ hsR hm1 hm fuel).2 hf
  set y : GA A.sigma A.dim ℝ := taylor (algebraMap ℝ ℝ) 19 (algebraMap ℝ ℝ (1 / (m : ℝ)) • a.ga) ^ usizeCast m with hy
  have hxR : RIs x (cxHom ℝ ℂ hA y) := hxR.congr (by
    rw [hy, map_pow, cxHom_taylor Complex.ofRealHom hA (fun _ => rfl), cxHom_smul]; rfl)
  obtain ⟨t, rfl, ht⟩ := hxR
  have hi : Is (do let t ← (.ok t : Res (FFTRepr A ℂ)); (t.ifft : Res (MV A (ArrayStorage ℝ)))) y := by
    refine (ifft_represents (T := ℝ) hA hd two_ne_zero (RDenotes.of ht)).congr (fun k hk => ?_)
    rw [← congrFun (dcx_cx (K := ℂ) A y.fn) k]
    exact dcx_congr (GA.fn_of (cx A y.fn) hk)
  have hmC := (fft_expIntPow_isMaxC (mag2_represents hA hd two_ne_zero hsR)).mp hm
  refine ⟨m, s, _, y.fn, hs, hmC, hx, hi.coefs, ?_⟩
  have hN : ∑ k ∈ range (2 ^ A.dim), ‖(cxHom ℝ ℂ hA a.ga).fn k‖ = ∑ k ∈ range (2 ^ A.dim), ‖a.val k‖ := by
    refine Finset.sum_congr rfl fun k hk => ?_
    rw [cxHom_ga, GA.fn_of _ (mem_range.mp hk)]
    unfold cx
    rw [norm_mul, norm_iPowNeg, one_mul]
    exact Complex.norm_real _
  have h := exp_error hA ha hE hm1 (le_sum_add_one (Finset.sum_nonneg fun _ _ => norm_nonneg _) fun x hx1 hx2 => by
    rw [← hN] at hx2
    refine hmC.2 ⟨hx1, fun k hk i hi j hj => (norm_entry_le hA hsR hk hi hj).trans hx2, fun q hq => ?_⟩
    rw [mag2_represents hA hd two_ne_zero hsR] at hq
    injection hq with hq
    rw [← hq]
    exact (sqrt_mag2_le A.dim _).trans hx2)
  rwa [Finset.sum_congr rfl (fun i hi => by rw [← hva i (mem_range.mp hi)] :
    ∀ i ∈ range (2 ^ A.dim), ‖a.val i‖ = ‖v i‖)] at h

/-! #### The error can be as large as the result

The comment in the code says that `a` is divided by a number "so that the series doesn't blow up".  The number bounds the
coefficients and the magnitude, but not the size of `a` as an operator. -/

namespace Ex

/-- Ten generators with alternating squares. -/
def sigH : List Sym := [.plus, .minus, .plus, .minus, .plus, .minus, .plus, .minus, .plus, .minus]

/-- `declare_algebra!(H, [+, -, +, -, +, -, +, -, +, -])`. -/
def H : ClAlg := (declareAlgebra sigH []).get rfl

theorem H_decl : declareAlgebra sigH [] = some H := rfl

theorem H_wf : H.WF := declareAlgebra_wf H_decl

/-- `(1 + e1 e0)(1 + e3 e2)(1 + e5 e4)(1 + e7 e6)(1 + e9 e8)`: coefficient 1 on 32 blades. -/
noncomputable def hX : MV H (ArrayStorage ℝ) := ⟨⟨10, ⟨1024, fun i => if (i &&& 341) * 3 = i then 1 else 0⟩⟩⟩

theorem hX_valid : hX.Valid := ⟨by decide, rfl, rfl⟩

theorem hX_val {i : Nat} (hi : i < 1024) : hX.val i = if (i &&& 341) * 3 = i then 1 else 0 := MV.arr_val hX_valid hi

/-- The blades of `hX`. -/
def sp (u : Nat) : Nat := 3 * ((u &&& 1) + 2 * (u &&& 2) + 4 * (u &&& 4) + 8 * (u &&& 8) + 16 * (u &&& 16))

theorem sp_facts : ∀ u < 32, sp u < 1024 ∧ ∀ v < 32, bsgn H.sigma 10 (sp u) (sp v) = 1 ∧ sp u ^^^ sp v = sp (u ^^^ v) := by
  decide +kernel

theorem sp_iff : ∀ i < 1024, ((i &&& 341) * 3 = i ↔ ∃ u < 32, sp u = i) := by decide +kernel

theorem sp_inj : ∀ u < 32, ∀ v < 32, sp u = sp v → u = v := by decide +kernel

theorem hX_mag : ∑ i ∈ range 1024, bsgn H.sigma 10 i i * rsg 10 i * (if (i &&& 341) * 3 = i then 1 else 0) = 0 := by
  decide +kernel

theorem sum_cast_zero (n : Nat) (F : Nat → ℤ) (h : ∑ i ∈ range n, F i = 0) : ∑ i ∈ range n, (F i : ℝ) = 0 := by
  rw [← Int.cast_sum, h, Int.cast_zero]

theorem hX_mag2 : hX.mag2 = .ok 0 := by
  rw [mag2_ok H_wf hX_valid]
  refine congrArg Except.ok (Eq.trans (?_ : _ = ∑ i ∈ range 1024, ((bsgn H.sigma 10 i i * rsg 10 i *
    (if (i &&& 341) * 3 = i then 1 else 0) : ℤ) : ℝ)) (sum_cast_zero 1024 _ hX_mag))
  unfold geo
  rw [show 2 ^ H.dim = 1024 from rfl]
  refine Finset.sum_congr rfl fun i hi => ?_
  show bsgn H.sigma 10 i (i ^^^ 0) • (rsg 10 i • hX.val i * hX.val (i ^^^ 0)) = _
  rw [Nat.xor_zero, hX_val (mem_range.mp hi), zsmul_eq_mul, zsmul_eq_mul]
  push_cast
  split <;> ring

theorem hX_ga : hX.ga = ∑ u ∈ range 32, GA.bl (sp u) := by
  rw [← GA.of_fn (∑ u ∈ range 32, GA.bl (sp u) : GA H.sigma H.dim ℝ)]
  refine GA.of_congr fun i hi => ?_
  have hi : i < 1024 := hi
  rw [show (∑ u ∈ range 32, GA.bl (sp u) : GA H.sigma H.dim ℝ).fn i = GA.coef i (∑ u ∈ range 32, GA.bl (sp u)) from rfl,
    map_sum, hX_val hi]
  have hc : ∀ u ∈ range 32, GA.coef (σ := H.sigma) (n := H.dim) (𝕜 := ℝ) i (GA.bl (sp u)) = if i = sp u then 1 else 0 := by
    intro u _
    exact GA.fn_of _ hi
  rw [Finset.sum_congr rfl hc]
  by_cases h : (i &&& 341) * 3 = i
  · obtain ⟨u, hu, rfl⟩ := (sp_iff i hi).mp h
    rw [if_pos h, Finset.sum_eq_single u]
    · rw [if_pos rfl]
    · intro v hv hvu
      rw [if_neg fun e => hvu (sp_inj u hu v (mem_range.mp hv) e).symm]
    · intro h; exact absurd (mem_range.mpr hu) h
  · rw [if_neg h, Finset.sum_eq_zero]
    intro u hu
    rw [if_neg fun e => h ((sp_iff i hi).mpr ⟨u, mem_range.mp hu, e.symm⟩)]

theorem hX_sq : hX.ga * hX.ga = (32 : ℝ) • hX.ga := by
  have h : ∀ u ∈ range 32, GA.bl (sp u) * hX.ga = hX.ga := by
    intro u hu
    have hu : u < 32 := mem_range.mp hu
    have hs := sum_xor (n := 5) hu (fun v => (GA.bl (sp v) : GA H.sigma H.dim ℝ))
    rw [show 2 ^ 5 = 32 from rfl] at hs
    rw [hX_ga, Finset.mul_sum, ← hs]
    refine Finset.sum_congr rfl fun v hv => ?_
    have hv := (sp_facts u hu).2 v (mem_range.mp hv)
    rw [GA.bl_mul_bl (sp_facts u hu).1]
    have e : bsgn H.sigma H.dim (sp u) (sp v) = 1 := hv.1
    rw [e, hv.2, Int.cast_one, one_smul, Nat.xor_comm]
  have e : hX.ga * hX.ga = (∑ u ∈ range 32, GA.bl (sp u)) * hX.ga := by rw [← hX_ga]
  rw [e, Finset.sum_mul, Finset.sum_congr rfl h, Finset.sum_const, card_range, ← Nat.cast_smul_eq_nsmul ℝ]
  norm_num

theorem hX_pow (k : Nat) : hX.ga ^ (k + 1) = (32 : ℝ) ^ k • hX.ga := by
  induction k with
  | zero => rw [zero_add, pow_one, pow_zero, one_smul]
  | succ k ih => rw [pow_succ, ih, smul_mul_assoc, hX_sq, smul_smul, pow_succ]

end Ex

/-- **C67, finding.** In the algebra `[+,-,+,-,+,-,+,-,+,-]` there is a multivector whose coefficients are 0 and 1 and whose magnitude is
0, so that `exp` divides it by 1, such that a coefficient of the exponential is more than 10^12 while `exp` returns less than a
hundredth of it. -/
theorem C67_accuracy_false : ∃ (E r : Nat → ℝ) (x : Res (MV Ex.H (ArrayStorage ℝ))),
    (∀ i < 2 ^ Ex.H.dim, Ex.hX.getByIdx i = .ok 0 ∨ Ex.hX.getByIdx i = .ok 1) ∧ Ex.hX.mag2 = .ok 0 ∧
    Ex.hX.IsExp E ∧ Ex.hX.exp (fun c => |c|) (RingHom.id ℝ) 18 = some x ∧ Coefs x r ∧
    10 ^ 12 < E 1023 ∧ r 1023 < E 1023 / 100 := by
  obtain ⟨E, hE, -⟩ := C67_exponential Ex.H_wf Ex.hX_valid
  obtain ⟨m, hm1, hm⟩ := expIntPow_ok Ex.H_wf (fun c : ℝ => |c|) Ex.hX_valid
  obtain ⟨x, hx, hxI⟩ := (exp_is (RingHom.id ℝ) Ex.H_wf _ Ex.hX_valid hm 18).2 le_rfl
  have hv : ∀ i < 1024, Ex.hX.val i = 0 ∨ Ex.hX.val i = 1 := by
    intro i hi
    rw [Ex.hX_val hi]
    split
    · exact Or.inr rfl
    · exact Or.inl rfl
  have hm' : m = 1 := by
    refine le_antisymm ?_ hm1
    rw [expIntPow_le_iff Ex.H_wf (norm := fun c : ℝ => |c|) abs_zero Ex.hX_valid hm]
    refine ⟨le_rfl, fun i hi => ?_, ?_⟩
    · rcases hv i hi with h | h <;> rw [h] <;> norm_num
    · have := Ex.hX_mag2
      rw [mag2_ok Ex.H_wf Ex.hX_valid] at this
      injection this with this
      rw [this]
      norm_num
  subst hm'
  have hE' := (isExp_iff Ex.H_wf Ex.hX_valid).mp hE 1023 (by decide)
  have h1023 : Ex.hX.ga.fn 1023 = 1 := by
    rw [ga_val (by decide), Ex.hX_val (by decide), if_pos (by decide)]
  have hone : (1 : GA Ex.H.sigma Ex.H.dim ℝ).fn 1023 = 0 := by
    rw [GA.one_def, GA.fn_of _ (by decide)]; rfl
  have hcoef : ∀ k : Nat, (Ex.hX.ga ^ (k + 1)).fn 1023 = (32 : ℝ) ^ k := by
    intro k
    rw [Ex.hX_pow, show ((32 : ℝ) ^ k • Ex.hX.ga).fn 1023 = GA.coef 1023 ((32 : ℝ) ^ k • Ex.hX.ga) from rfl, map_smul]
    show (32 : ℝ) ^ k • Ex.hX.ga.fn 1023 = _
    rw [h1023, smul_eq_mul, mul_one]
  have hexp : E 1023 = (Real.exp 32 - 1) / 32 := by
    rw [hE']
    refine (GA.hasSum_exp Ex.hX.ga 1023).unique ?_
    rw [← hasSum_nat_add_iff' 1]
    have h := ((hasSum_nat_add_iff' 1).mpr (NormedSpace.expSeries_div_hasSum_exp (32 : ℝ))).div_const 32
    simp only [Finset.sum_range_one, pow_zero, hone, Nat.factorial_zero, Nat.cast_one, sub_zero, div_one, hcoef] at h ⊢
    rw [Real.exp_eq_exp_ℝ]
    have e : (fun k : Nat => (32 : ℝ) ^ k / ((k + 1).factorial : ℝ)) = fun k : Nat => (32 : ℝ) ^ (k + 1) / ((k + 1).factorial : ℝ) / 32 := by
      funext k
      rw [pow_succ]
      ring
    rw [e]
    exact h
  have hbig : (6 * 10 ^ 13 : ℝ) < Real.exp 32 := by
    have h1 : (2.7 : ℝ) < Real.exp 1 := lt_trans (by norm_num) Real.exp_one_gt_d9
    have h2 : Real.exp 32 = Real.exp 1 ^ 32 := by rw [← Real.exp_nat_mul]; norm_num
    rw [h2]
    exact lt_trans (by norm_num) (pow_lt_pow_left₀ h1 (by norm_num) (by norm_num : (32 : ℕ) ≠ 0))
  refine ⟨E, _, x, fun i hi => ?_, Ex.hX_mag2, hE, hx, hxI.coefs, ?_, ?_⟩
  · rw [Ex.hX_valid.get hi]
    rcases hv i hi with h | h
    · exact Or.inl (by rw [h])
    · exact Or.inr (by rw [h])
  · rw [hexp]
    linarith
  · rw [hexp]
    have hr : (taylor (RingHom.id ℝ) 19 ((RingHom.id ℝ) (1 / ((1 : ℕ) : ℝ)) • Ex.hX.ga) ^ 1).fn 1023 =
        ∑ k ∈ range 18, (32 : ℝ) ^ k / ((k + 1).factorial : ℝ) := by
      rw [pow_one, Nat.cast_one, div_one, map_one, one_smul, taylor, Finset.sum_range_succ']
      have e : ∀ x : GA Ex.H.sigma Ex.H.dim ℝ, x.fn 1023 = GA.coef 1023 x := fun _ => rfl
      simp only [e, map_add, map_sum, map_smul] at hcoef hone ⊢
      rw [pow_zero, hone, smul_zero, add_zero]
      refine Finset.sum_congr rfl fun k _ => ?_
      rw [hcoef, RingHom.id_apply, smul_eq_mul, one_div, inv_mul_eq_div]
    rw [show usizeCast 1 = 1 by decide, hr]
    norm_num [Finset.sum_range_succ, Nat.factorial]
    linarith

/-! ### Examples -/

namespace Ex

/-- The blade `e1^e0` of the Euclidean algebra. -/
noncomputable def rB : MV E (ArrayStorage ℝ) := ⟨⟨3, ⟨8, fun i => if i = 3 then 1 else 0⟩⟩⟩

/-- The generator `e0`. -/
noncomputable def rE : MV E (ArrayStorage ℝ) := ⟨⟨3, ⟨8, fun i => if i = 1 then 1 else 0⟩⟩⟩

theorem rB_valid : rB.Valid := ⟨by decide, rfl, rfl⟩
theorem rE_valid : rE.Valid := ⟨by decide, rfl, rfl⟩

theorem coefs_val {A : ClAlg} {a : MV A (ArrayStorage ℝ)} (ha : a.Valid) : Coefs (.ok a) a.val :=
  (Is.of_valid ha).coefs.congr fun _ hi => ga_val hi a

theorem rB_ga : rB.ga = GA.bl 3 := GA.of_congr fun _ hi => MV.arr_val rB_valid hi
theorem rE_ga : rE.ga = GA.bl 1 := GA.of_congr fun _ hi => MV.arr_val rE_valid hi

theorem rB_sq : rB.naiveMulImpl rB ≈ᵣ MV.fromScalar (-1 : ℝ) := by
  refine (is_mul E_wf rB_valid rB_valid).agree (Is.fromScalar rB_valid.supp _) ?_
  rw [rB_ga, GA.bl_mul_bl (by decide), show bsgn E.sigma E.dim 3 3 = -1 by decide, Nat.xor_self, GA.bl_zero,
    Algebra.algebraMap_eq_smul_one, Int.cast_neg, Int.cast_one]

theorem rE_sq : rE.naiveMulImpl rE ≈ᵣ MV.one (T := ℝ) := by
  refine (is_mul E_wf rE_valid rE_valid).agree (Is.one rE_valid.supp) ?_
  rw [rE_ga, GA.bl_mul_bl (by decide), show bsgn E.sigma E.dim 1 1 = 1 by decide, Nat.xor_self, GA.bl_zero, Int.cast_one, one_smul]

end Ex

/-- A rotation: `exp` of `t e1^e0` is within `max 1 ⌈|t|⌉ e^|t| / 19!` of `cos t + sin t e1^e0`. -/
example (t : ℝ) : ∃ a x r, Ex.rB.smul t = .ok a ∧ a.exp (fun c => ‖c‖) (algebraMap ℝ ℝ) 18 = some x ∧ Coefs x r ∧
    ∑ i ∈ range 8, ‖r i - ((if i = 0 then Real.cos t else 0) + (if i = 3 then 1 else 0) * Real.sin t)‖ ≤
      (max 1 ⌈|t|⌉₊ : ℕ) * Real.exp |t| / Nat.factorial 19 := by
  obtain ⟨a, ha, hav, hag⟩ := (is_smul Ex.rB_valid t).ok
  have hv : ∀ i < 8, Ex.rB.val i = if i = 3 then 1 else 0 := fun i hi => MV.arr_val Ex.rB_valid hi
  have hE := C67_square_minus_one Ex.E_wf Ex.rB_valid ha ((Ex.coefs_val Ex.rB_valid).congr hv) Ex.rB_sq
  have hva : ∀ i < 8, a.val i = if i = 3 then t else 0 := by
    intro i hi
    rw [← ga_val (A := Ex.E) hi, hag, Ex.rB_ga, ← GA.of_single, GA.fn_of _ hi]; rfl
  obtain ⟨x, r, h1, h2, h3⟩ := C67_error_single (j := 3) Ex.E_wf hav ((Ex.coefs_val hav).congr hva) hE (by decide)
    (fun i _ h => if_neg h) (le_refl 18)
  exact ⟨a, x, r, ha, h1, h2, h3⟩

example : ∃ a, Ex.rE.smul (2 : ℝ) = .ok a ∧ a.IsExp fun i =>
    (if i = 0 then (NormedSpace.exp (2 : ℝ) + NormedSpace.exp (-2 : ℝ)) / 2 else 0) +
      Ex.rE.val i * ((NormedSpace.exp (2 : ℝ) - NormedSpace.exp (-2 : ℝ)) / 2) := by
  obtain ⟨a, ha, -⟩ := (is_smul Ex.rE_valid (2 : ℝ)).ok
  exact ⟨a, ha, C67_square_one Ex.E_wf Ex.rE_valid ha (Ex.coefs_val Ex.rE_valid) Ex.rE_sq⟩

/-- The bound for the multivector of the finding: `N = 32` and `m = 1`. -/
example {E : Nat → ℝ} (hE : Ex.hX.IsExp E) : ∃ x r, Ex.hX.exp (fun c => ‖c‖) (algebraMap ℝ ℝ) 18 = some x ∧ Coefs x r ∧
    ∑ i ∈ range (2 ^ Ex.H.dim), ‖r i - E i‖ ≤
      (1 : ℕ) * (((∑ i ∈ range (2 ^ Ex.H.dim), ‖Ex.hX.val i‖) / (1 : ℕ)) ^ 19 / Nat.factorial 19) *
        Real.exp (∑ i ∈ range (2 ^ Ex.H.dim), ‖Ex.hX.val i‖) := by
  refine C67_error Ex.H_wf Ex.hX_valid (Ex.coefs_val Ex.hX_valid) hE Ex.hX_mag2 ⟨⟨le_rfl, fun i hi => ?_, by simp⟩, fun x hx => hx.1⟩ le_rfl
  have hi : i < 1024 := hi
  rw [Ex.hX_val hi]
  split <;> simp

example := C67_exponential Ex.M_wf Ex.mR_valid

example {E : Nat → ℝ} (hE : Ex.mR.IsExp E) := C67_fft_error Ex.M_wf (by decide) Ex.mR_valid (Ex.coefs_val Ex.mR_valid) hE (le_refl 18)

end TClifford
