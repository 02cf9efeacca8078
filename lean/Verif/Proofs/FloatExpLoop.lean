import Verif.Proofs.FloatExp
import Verif.Proofs.FloatNorm
/-
The loop of `exp` in `f64` arithmetic: the coefficients of the series, and the rounding errors.
-/

set_option linter.unusedSectionVars false
set_option maxRecDepth 100000

namespace TClifford

open Finset FloatModel MV

/-- The values of `coeff`: `coeff = coeff / (i as f64)` for `i` = 1, 2, …. -/
def expCoefF : Nat → F64
  | 0 => 1
  | k + 1 => expCoefF k / Flt.ofRat ((k + 1 : ℕ) : ℚ)

theorem expCoefF_gt : ∀ k < 18, (expCoefF k).gt F64.epsilon = true := by decide +kernel

theorem expCoefF_18 : (expCoefF 18).gt F64.epsilon = false := by decide +kernel

/-- Every one of them is `1/k!` up to 2 units of relative error `2^-53`. -/
theorem expCoefF_acc : ∀ k < 19, expCoefF k ≠ .nonFinite ∧
    |(expCoefF k).toRat - 1 / k.factorial| ≤ 2 / 2 ^ 53 * (1 / k.factorial) := by decide +kernel

variable {S : Type} [CoeffStorage S F64] {A : ClAlg}

theorem taylorF_18 (x : MV A S) (fuel i : Nat) (res p : MV A S) : taylorF x fuel (expCoefF 18) i res p = some (.ok res) := by
  cases fuel <;> rw [taylorF, if_neg (by rw [expCoefF_18]; decide)]

theorem taylorF_succ (x : MV A S) {k : Nat} (hk : k < 18) (fuel : Nat) (res p : MV A S) :
    taylorF x (fuel + 1) (expCoefF k) (k + 1) res p =
      match (do
        let t ← p.smul (expCoefF (k + 1))
        let res ← res.add t
        let p ← p.naiveMulImpl x
        return (res, p) : Res (MV A S × MV A S)) with
      | .error e => some (.error e)
      | .ok (res, p) => taylorF x fuel (expCoefF (k + 1)) (k + 1 + 1) res p := by
  have e : expCoefF (k + 1) = expCoefF k / Flt.ofRat ((k + 1 : ℕ) : ℚ) := rfl
  rw [taylorF, if_pos (expCoefF_gt k hk), e]
  generalize expCoefF k / Flt.ofRat ((k + 1 : ℕ) : ℚ) = c
  dsimp only
  cases (do
    let t ← p.smul c
    let res ← res.add t
    let p ← p.naiveMulImpl x
    return (res, p) : Res (MV A S × MV A S)) <;> rfl

theorem taylorF_zero (x : MV A S) {k : Nat} (hk : k < 18) (i : Nat) (res p : MV A S) :
    taylorF x 0 (expCoefF k) i res p = none := by
  rw [taylorF, if_pos (expCoefF_gt k hk)]

/-- The loop stops after 18 iterations at the latest, earlier only with an error. -/
theorem taylorF_fuel (x : MV A S) (d : Nat) : ∀ {k : Nat}, k + d = 18 → ∀ (res p : MV A S),
    (∀ fuel < d, taylorF x fuel (expCoefF k) (k + 1) res p = none ∨
      ∃ e, taylorF x fuel (expCoefF k) (k + 1) res p = some (.error e)) ∧
    ∃ r, ∀ fuel ≥ d, taylorF x fuel (expCoefF k) (k + 1) res p = some r := by
  induction d with
  | zero =>
    intro k hk res p
    have hk : k = 18 := by omega
    subst hk
    exact ⟨fun _ h => absurd h (by omega), _, fun fuel _ => taylorF_18 x fuel _ res p⟩
  | succ d ih =>
    intro k hk res p
    constructor
    · intro fuel hf
      cases fuel with
      | zero => exact .inl (taylorF_zero x (by omega) _ _ _)
      | succ fuel =>
        rw [taylorF_succ x (by omega)]
        split
        · exact .inr ⟨_, rfl⟩
        · rename_i res' p' _
          exact (ih (k := k + 1) (by omega) res' p').1 fuel (by omega)
    · cases h : (do
        let t ← p.smul (expCoefF (k + 1))
        let res ← res.add t
        let p ← p.naiveMulImpl x
        return (res, p) : Res (MV A S × MV A S)) with
      | error e =>
        refine ⟨.error e, fun fuel hf => ?_⟩
        obtain ⟨fuel, rfl⟩ := Nat.exists_eq_succ_of_ne_zero (show fuel ≠ 0 by omega)
        rw [Nat.succ_eq_add_one, taylorF_succ x (by omega), h]
      | ok q =>
        obtain ⟨r, hr⟩ := (ih (k := k + 1) (by omega) q.1 q.2).2
        refine ⟨r, fun fuel hf => ?_⟩
        obtain ⟨fuel, rfl⟩ := Nat.exists_eq_succ_of_ne_zero (show fuel ≠ 0 by omega)
        rw [Nat.succ_eq_add_one, taylorF_succ x (by omega), h]
        exact hr fuel (by omega)

variable [LawfulStorage S F64]

/-- Error unit of `exp`: that of a product, with the part from underflow multiplied by `19!`. -/
noncomputable def expDelta (A : ClAlg) : ℝ := gMul F64 A + Nat.factorial 19 * hMul F64 A

theorem expDelta_ge : gMul F64 A + hMul F64 A ≤ expDelta A := by
  unfold expDelta
  have h1 := hMul_nonneg (F := F64) (A := A)
  have h2 : (1 : ℝ) ≤ Nat.factorial 19 := by exact_mod_cast Nat.factorial_pos 19
  nlinarith

theorem expDelta_nonneg : 0 ≤ expDelta A := by
  have h1 := hMul_nonneg (F := F64) (A := A)
  have h2 := gMul_nonneg (F := F64) (A := A)
  have := expDelta_ge (A := A)
  linarith

theorem u_f64 : u F64 = 1 / 2 ^ 53 := by
  show ((Fmt.f64.unitRoundoff : ℚ) : ℝ) = _
  unfold Fmt.unitRoundoff Fmt.f64
  norm_num

theorem two_u_le_expDelta : 2 * u F64 ≤ expDelta A := by
  have h1 := hMul_nonneg (F := F64) (A := A)
  have h2 := u_le_gMul (F := F64) (A := A)
  have := expDelta_ge (A := A)
  linarith

theorem expCoefF_near {k : Nat} (hk : k < 19) : fin (expCoefF k) ∧
    |re (expCoefF k) - 1 / k.factorial| ≤ 1 / k.factorial * ((1 + expDelta A) ^ 2 - 1) := by
  obtain ⟨h1, h2⟩ := expCoefF_acc k hk
  refine ⟨h1, ?_⟩
  have h3 : |re (expCoefF k) - 1 / k.factorial| ≤ 2 / 2 ^ 53 * (1 / k.factorial) := by
    show |((expCoefF k).toRat : ℝ) - _| ≤ _
    have := (Rat.cast_le (K := ℝ)).mpr h2
    push_cast at this ⊢
    exact this
  have h4 := two_u_le_expDelta (A := A)
  rw [u_f64] at h4
  have h5 := expDelta_nonneg (A := A)
  have h6 : (0 : ℝ) ≤ 1 / k.factorial := by positivity
  have h7 : 2 / 2 ^ 53 ≤ (1 + expDelta A) ^ 2 - 1 := by nlinarith
  calc _ ≤ _ := h3
    _ ≤ _ := by rw [mul_comm]; exact mul_le_mul_of_nonneg_left h7 h6

/-- The loop, from iteration `k` on. -/
theorem taylorF_near (hA : A.WF) {n : MV A S} {x : GA A.sigma A.dim ℝ} {s : ℝ} (hs : 1 ≤ s) (hn : NearV (expDelta A) n x s 2)
    (ho : Nat.factorial 19 * Real.exp s * (1 + expDelta A) ^ 58 ≤ Ω F64) (d : Nat) :
    ∀ {k : Nat}, k + d = 18 → ∀ {res p : MV A S},
    NearV (expDelta A) res (∑ j ∈ range (k + 1), ((j.factorial : ℝ)⁻¹) • x ^ j) (∑ j ∈ range (k + 1), s ^ j / j.factorial) (3 * k + 3) →
    NearV (expDelta A) p (x ^ (k + 1)) (s ^ (k + 1)) (3 * k + 2) → ∀ fuel ≥ d,
    ∃ r, taylorF n fuel (expCoefF k) (k + 1) res p = some (.ok r) ∧
      NearV (expDelta A) r (∑ j ∈ range 19, ((j.factorial : ℝ)⁻¹) • x ^ j) (Real.exp s) 57 := by
  have hδ := expDelta_nonneg (A := A)
  have hu := two_u_le_expDelta (A := A)
  have hu0 := u_nonneg (F := F64)
  have hη0 := η_nonneg (F := F64)
  have h1δ : (1 : ℝ) ≤ 1 + expDelta A := by linarith
  have hsum : ∀ k, ∑ j ∈ range k, s ^ j / j.factorial ≤ Real.exp s := fun k => Real.sum_le_exp_of_nonneg (by linarith) k
  have hexp : 0 < Real.exp s := Real.exp_pos s
  have hf19 : (1 : ℝ) ≤ Nat.factorial 19 := by exact_mod_cast Nat.factorial_pos 19
  have hofl : ∀ {B : ℝ} {k : ℕ}, 0 ≤ B → B ≤ Nat.factorial 19 * Real.exp s → k ≤ 58 → B * (1 + expDelta A) ^ k ≤ Ω F64 := by
    intro B k hB h hk
    exact (mul_le_mul h (pow_le_pow_right₀ h1δ hk) (by positivity) (by positivity)).trans ho
  have hpow : ∀ j ≤ 19, s ^ j ≤ Nat.factorial 19 * Real.exp s := by
    intro j hj
    have h1 := Real.pow_div_factorial_le_exp s (by linarith) j
    rw [div_le_iff₀ (by positivity)] at h1
    rw [mul_comm]
    refine h1.trans (mul_le_mul_of_nonneg_left ?_ hexp.le)
    exact_mod_cast Nat.factorial_le hj
  induction d with
  | zero =>
    intro k hk res p hres hp fuel _
    have hk : k = 18 := by omega
    subst hk
    exact ⟨res, taylorF_18 n fuel _ res p, hres.mono hδ (hsum _) le_rfl⟩
  | succ d ih =>
    intro k hk res p hres hp fuel hf
    obtain ⟨fuel, rfl⟩ := Nat.exists_eq_succ_of_ne_zero (show fuel ≠ 0 by omega)
    rw [Nat.succ_eq_add_one, taylorF_succ n (by omega)]
    have hs1 : 1 ≤ s ^ (k + 1) := one_le_pow₀ hs
    have hfk : (0 : ℝ) < (k + 1).factorial := by exact_mod_cast Nat.factorial_pos _
    have hc0 : (0 : ℝ) ≤ 1 / (k + 1).factorial := by positivity
    have hfk1 : ((k + 1).factorial : ℝ) ≤ Nat.factorial 19 := by exact_mod_cast Nat.factorial_le (by omega)
    have hfk2 : (1 : ℝ) ≤ (k + 1).factorial := by exact_mod_cast Nat.factorial_pos _
    obtain ⟨c1, c2⟩ := expCoefF_near (A := A) (k := k + 1) (by omega)
    -- the term
    obtain ⟨t, t1, t2⟩ := hp.smul hδ c1 hc0 c2 (by
      have e1 := η_le_hMul (F := F64) (A := A)
      have e2 : (2 : ℝ) ^ A.dim * η F64 ≤ Nat.factorial 19 * hMul F64 A * (1 / (k + 1).factorial) := by
        rw [mul_one_div, le_div_iff₀ hfk, mul_comm _ (hMul F64 A)]
        exact mul_le_mul e1 hfk1 hfk.le hMul_nonneg
      have e3 : u F64 + Nat.factorial 19 * hMul F64 A ≤ expDelta A := by
        have := u_le_gMul (F := F64) (A := A)
        unfold expDelta
        linarith
      have e4 : 0 ≤ Nat.factorial 19 * hMul F64 A := mul_nonneg (by positivity) hMul_nonneg
      have e5 : (1 : ℝ) / (k + 1).factorial ≤ s ^ (k + 1) * (1 / (k + 1).factorial) := le_mul_of_one_le_left hc0 hs1
      have e6 := mul_le_mul_of_nonneg_left e5 e4
      have e7 : 0 ≤ s ^ (k + 1) * (1 / (k + 1).factorial) := by positivity
      have e8 := mul_le_mul_of_nonneg_right e3 e7
      linarith) (hofl (by positivity) (by
        refine le_trans ?_ (hpow (k + 1) (by omega))
        refine mul_le_of_le_one_right (by positivity) ?_
        rw [div_le_one hfk]; exact hfk2) (by omega))
    -- the sum
    have hB : ∑ j ∈ range (k + 1), s ^ j / j.factorial + s ^ (k + 1) * (1 / (k + 1).factorial) =
        ∑ j ∈ range (k + 1 + 1), s ^ j / j.factorial := by rw [sum_range_succ _ (k + 1), mul_one_div]
    obtain ⟨r, r1, r2⟩ := (hres.mono hδ le_rfl (show 3 * k + 3 ≤ 3 * k + 2 + 2 + 1 by omega)).add hδ (by linarith) t2 (by
      rw [hB]
      refine hofl (Finset.sum_nonneg fun _ _ => by positivity) ((hsum _).trans ?_) (by omega)
      exact le_mul_of_one_le_left hexp.le hf19)
    -- the power
    obtain ⟨q, q1, q2⟩ := hp.mul hA hδ hn (by
      have e1 := expDelta_ge (A := A)
      have e2 : 1 ≤ s ^ (k + 1) * s := one_le_mul_of_one_le_of_one_le hs1 hs
      have e3 := hMul_nonneg (F := F64) (A := A)
      nlinarith) (by
      rw [← pow_succ]
      exact hofl (by positivity) (hpow _ (by omega)) (by omega))
    rw [hB, one_div, ← sum_range_succ (fun j : ℕ => ((j.factorial : ℝ)⁻¹) • x ^ j) (k + 1)] at r2
    rw [← pow_succ, ← pow_succ] at q2
    have hdo : (do
        let t ← p.smul (expCoefF (k + 1))
        let res ← res.add t
        let p ← p.naiveMulImpl n
        return (res, p) : Res (MV A S × MV A S)) = .ok (r, q) := by
      rw [t1]
      show (do
        let res ← res.add t
        let p ← p.naiveMulImpl n
        return (res, p) : Res (MV A S × MV A S)) = _
      rw [r1]
      show (do
        let p ← p.naiveMulImpl n
        return (r, p) : Res (MV A S × MV A S)) = _
      rw [q1]
      rfl
    rw [hdo]
    exact ih (by omega) r2 q2 fuel (by omega)

/-! ### The exponent -/

theorem foldl_fmax {X : Type} (g : X → F64) (l : List X) (hl : ∀ p ∈ l, fin (g p)) (m0 : F64) (h0 : fin m0) :
    fin (l.foldl (fun m p => Flt.fmax (g p).abs m) m0) ∧ ∀ B : ℚ,
      (l.foldl (fun m p => Flt.fmax (g p).abs m) m0).toRat ≤ B ↔ m0.toRat ≤ B ∧ ∀ p ∈ l, |(g p).toRat| ≤ B := by
  induction l generalizing m0 with
  | nil => exact ⟨h0, by simp⟩
  | cons p l ih =>
    obtain ⟨a1, a2⟩ := Flt.abs_ok (hl p (List.mem_cons_self ..))
    obtain ⟨m1, m2⟩ := Flt.fmax_ok a1 h0
    obtain ⟨r1, r2⟩ := ih (fun q hq => hl q (List.mem_cons_of_mem _ hq)) _ m1
    refine ⟨r1, fun B => ?_⟩
    rw [List.foldl_cons, r2, m2, a2]
    simp; tauto

/-- `max_c` of `exp`. -/
theorem expMaxF_ok {a : MV A S} (ha : a.Fine) {q : F64} (hq : a.mag2 = .ok q) (hqf : fin q) :
    ∃ M m, a.expMaxF = .ok M ∧ fin M ∧ M.toRat = (m : ℕ) ∧ ∀ n : ℕ, m ≤ n ↔
      1 ≤ n ∧ (∀ i < 2 ^ A.dim, |re (a.val i)| ≤ n) ∧ re q.abs.sqrt ≤ n := by
  have hfin : ∀ p ∈ a.coeffEnumerate, fin p.2 := fun p hp => by
    have h2 := LawfulStorage.enum_mem ha.1 hp
    rw [h2.2]; exact ha.2 p.1 h2.1
  obtain ⟨f1, f2⟩ := foldl_fmax (fun p : Nat × F64 => p.2) a.coeffEnumerate hfin 1 fin_one
  obtain ⟨a1, a2⟩ := Flt.abs_ok hqf
  obtain ⟨s1, s2⟩ := Flt.sqrt_ok a1 (by rw [a2]; exact abs_nonneg _)
  obtain ⟨m1, m2⟩ := Flt.fmax_ok f1 s1
  obtain ⟨c1, c2⟩ := Flt.ceil_ok m1
  have e1 : (1 : F64).toRat = 1 := by
    have : re (1 : F64) = 1 := re_one
    have h : (((1 : F64).toRat : ℚ) : ℝ) = ((1 : ℚ) : ℝ) := by rw [Rat.cast_one]; exact this
    exact_mod_cast h
  have hmax : 1 ≤ max (a.coeffEnumerate.foldl (fun m p => Flt.fmax p.2.abs m) (1 : F64)).toRat q.abs.sqrt.toRat := by
    refine le_max_of_le_left ?_
    have := ((f2 _).mp le_rfl).1
    rwa [e1] at this
  refine ⟨_, ⌈max (a.coeffEnumerate.foldl (fun m p => Flt.fmax p.2.abs m) (1 : F64)).toRat q.abs.sqrt.toRat⌉.toNat, ?_, c1, ?_, ?_⟩
  · unfold MV.expMaxF
    rw [hq]
    rfl
  · rw [c2, m2]
    have h0 : 0 ≤ ⌈max (a.coeffEnumerate.foldl (fun m p => Flt.fmax p.2.abs m) (1 : F64)).toRat q.abs.sqrt.toRat⌉ :=
      Int.ceil_nonneg (by linarith)
    have : (((⌈max (a.coeffEnumerate.foldl (fun m p => Flt.fmax p.2.abs m) (1 : F64)).toRat q.abs.sqrt.toRat⌉).toNat : ℕ) : ℤ) = _ :=
      Int.toNat_of_nonneg h0
    exact_mod_cast this.symm
  · intro n
    rw [Int.toNat_le, Int.ceil_le, max_le_iff]
    have := f2 (n : ℚ)
    rw [show ((n : ℤ) : ℚ) = (n : ℚ) by push_cast; rfl, this, e1, and_assoc]
    refine and_congr (by exact_mod_cast Iff.rfl) (and_congr ⟨?_, ?_⟩ ?_)
    · intro h i hi
      by_cases hv : a.val i = 0
      · rw [hv, re_zero, abs_zero]; positivity
      · have := h (i, a.val i) (LawfulStorage.enum_complete ha.1 hv)
        show |((a.val i).toRat : ℝ)| ≤ n
        exact_mod_cast this
    · intro h p hp
      have h2 := LawfulStorage.enum_mem ha.1 hp
      rw [h2.2]
      have := h p.1 h2.1
      change |((a.val p.1).toRat : ℝ)| ≤ n at this
      exact_mod_cast this
    · show _ ↔ ((q.abs.sqrt).toRat : ℝ) ≤ n
      exact_mod_cast Iff.rfl

end TClifford
