import Verif.Proofs.Exp
import Verif.Props.FFT
/-
`exp`: C53.
-/

set_option linter.unusedSectionVars false

namespace TClifford

open MV Finset

theorem foldl_max_le {X : Type} (g : X → ℝ) (l : List X) (m0 x : ℝ) :
    l.foldl (fun m p => max (g p) m) m0 ≤ x ↔ m0 ≤ x ∧ ∀ p ∈ l, g p ≤ x := by
  induction l generalizing m0 with
  | nil => simp
  | cons p l ih => rw [List.foldl_cons, ih]; simp; tauto

section
variable {T : Type} [CommRing T] [DecidableEq T] {S : Type} [CoeffStorage S T] [LawfulStorage S T] {A : ClAlg}

theorem expIntPow_ok (hA : A.WF) (norm : T → ℝ) {a : MV A S} (ha : a.Valid) : ∃ m : Nat, 1 ≤ m ∧ a.expIntPow norm = .ok m := by
  unfold MV.expIntPow
  rw [mag2_ok hA ha]
  refine ⟨_, ?_, rfl⟩
  have : (1 : ℝ) ≤ a.coeffEnumerate.foldl (fun m p => max (norm p.2) m) 1 :=
    ((foldl_max_le (fun p : Nat × T => norm p.2) a.coeffEnumerate 1 _).mp le_rfl).1
  exact Nat.one_le_ceil_iff.mpr (lt_of_lt_of_le one_pos (this.trans (le_max_left _ _)))

/-- The exponent used by `exp`, characterized. -/
theorem expIntPow_le_iff (hA : A.WF) {norm : T → ℝ} (h0 : norm 0 = 0) {a : MV A S} (ha : a.Valid) {m : Nat}
    (hm : a.expIntPow norm = .ok m) (x : Nat) :
    m ≤ x ↔ 1 ≤ x ∧ (∀ i < 2 ^ A.dim, norm (a.val i) ≤ x) ∧
      Real.sqrt (norm (geo A.sigma A.dim (fun i => rsg A.dim i • a.val i) a.val 0)) ≤ x := by
  unfold MV.expIntPow at hm
  rw [mag2_ok hA ha] at hm
  have hm : ⌈max (a.coeffEnumerate.foldl (fun m p => max (norm p.2) m) 1)
    (Real.sqrt (norm (geo A.sigma A.dim (fun i => rsg A.dim i • a.val i) a.val 0)))⌉₊ = m := by
    injection hm
  rw [← hm, Nat.ceil_le, max_le_iff, foldl_max_le (fun p : Nat × T => norm p.2), and_assoc]
  have h1 : (1 : ℝ) ≤ x ↔ 1 ≤ x := by exact_mod_cast Iff.rfl
  rw [h1]
  refine and_congr_right fun _ => and_congr_left fun _ => ?_
  constructor
  · intro h i hi
    by_cases hv : a.val i = 0
    · rw [hv, h0]; positivity
    · exact h (i, a.val i) (LawfulStorage.enum_complete ha hv)
  · intro h p hp
    have h2 := LawfulStorage.enum_mem ha hp
    rw [h2.2]
    exact h p.1 h2.1

/-- `m` is the `max_c` of `exp`: the least integer that is at least 1, at least the norm of every coefficient and at least the
square root of the norm of `a.mag2()`. -/
def MV.IsMaxC (norm : T → ℝ) (a : MV A S) (m : Nat) : Prop :=
  IsLeast {x : Nat | 1 ≤ x ∧ (∀ i < 2 ^ A.dim, ∀ c, a.getByIdx i = .ok c → norm c ≤ x) ∧
    ∀ q : T, a.mag2 = .ok q → Real.sqrt (norm q) ≤ x} m

theorem expIntPow_isMaxC (hA : A.WF) {norm : T → ℝ} (h0 : norm 0 = 0) {a : MV A S} (ha : a.Valid) {m : Nat} :
    a.expIntPow norm = .ok m ↔ a.IsMaxC norm m := by
  have key : ∀ {m}, a.expIntPow norm = .ok m → a.IsMaxC norm m := by
    intro m hm
    have hiff : ∀ x : Nat, m ≤ x ↔ x ∈ {x : Nat | 1 ≤ x ∧ (∀ i < 2 ^ A.dim, ∀ c, a.getByIdx i = .ok c → norm c ≤ x) ∧
        ∀ q : T, a.mag2 = .ok q → Real.sqrt (norm q) ≤ x} := by
      intro x
      rw [expIntPow_le_iff hA h0 ha hm x]
      refine and_congr_right fun _ => and_congr (forall₂_congr fun i hi => ?_) ?_
      · rw [ha.get hi]; simp
      · rw [mag2_ok hA ha]; simp
    exact ⟨(hiff m).mp le_rfl, fun x hx => (hiff x).mpr hx⟩
  refine ⟨key, fun h => ?_⟩
  obtain ⟨m', -, hm'⟩ := expIntPow_ok hA norm ha
  rw [hm', (key hm').unique h]

variable (ofReal : ℝ →+* T)

theorem exp_is (hA : A.WF) (norm : T → ℝ) {a : MV A S} (ha : a.Valid) {m : Nat} (hm : a.expIntPow norm = .ok m) (fuel : Nat) :
    (fuel < 18 → a.exp norm ofReal fuel = none) ∧
    (18 ≤ fuel → ∃ r, a.exp norm ofReal fuel = some r ∧
      Is r (taylor ofReal 19 (ofReal (1 / (m : ℝ)) • a.ga) ^ usizeCast m)) := by
  obtain ⟨o, ho, hov, hog⟩ := (Is.one (A := A) (S := S) (T := T) ha.supp).ok
  obtain ⟨n, hn, hnv, hng⟩ := (is_smul ha (ofReal (1 / (m : ℝ)))).ok
  have e : ∀ fuel, a.exp norm ofReal fuel =
      (taylorLoop (fun x y => x.add y) (fun x y => x.naiveMulImpl y) (fun x c => x.smul (ofReal c)) n fuel 1 1 o n).map
      (fun r => r.bind (fun r => r.pow (usizeCast m))) := by
    intro fuel
    unfold MV.exp
    have : (do
      let res ← MV.one (A := A) (S := S) (T := T)
      let m ← a.expIntPow norm
      let n ← a.smul (ofReal (1 / (m : ℝ)))
      return (res, m, n) : Res (MV A S × Nat × MV A S)) = .ok (o, m, n) := by
      rw [ho, hm]
      show (a.smul (ofReal (1 / (m : ℝ))) >>= fun n => Except.ok (o, m, n)) = _
      rw [hn]; rfl
    rw [this]
  have key := taylorLoop_spec (T := T) (G := GA A.sigma A.dim T) (ofReal := ofReal)
    (R := fun (u : MV A S) g => u.Valid ∧ u.ga = g)
    (add := fun x y => x.add y) (mul := fun x y => x.naiveMulImpl y) (scale := fun x c => x.smul (ofReal c))
    (fun {a b x y} ha hb => by
      obtain ⟨c, h1, h2, h3⟩ := (is_add ha.1 hb.1).ok
      exact ⟨c, h1, h2, by rw [h3, ha.2, hb.2]⟩)
    (fun {a b x y} ha hb => by
      obtain ⟨c, h1, h2, h3⟩ := (is_mul hA ha.1 hb.1).ok
      exact ⟨c, h1, h2, by rw [h3, ha.2, hb.2]⟩)
    (fun {a x} t ha => by
      obtain ⟨c, h1, h2, h3⟩ := (is_smul ha.1 (ofReal t)).ok
      exact ⟨c, h1, h2, by rw [h3, ha.2]⟩)
    (n := n) ⟨hnv, hng⟩ fuel 0 (by omega) o n ⟨hov, by rw [hog]; simp [taylor]⟩ ⟨hnv, by rw [hng, zero_add, pow_one]⟩
  simp only [Nat.factorial_zero, Nat.cast_one, div_one, zero_add, add_zero] at key
  rw [e]
  refine ⟨fun h => by rw [key.1 h]; rfl, fun h => ?_⟩
  obtain ⟨r, hr, hrv, hrg⟩ := key.2 h
  refine ⟨_, by rw [hr]; rfl, ?_⟩
  exact (is_pow hA hrv _).congr (by rw [hrg])

/-- **C53, termination.** The loop of `exp` ends after exactly 18 iterations, for every input and norm. -/
theorem C53_iterations (hA : A.WF) (norm : T → ℝ) {a : MV A S} (ha : a.Valid) (fuel : Nat) :
    ((a.exp norm ofReal fuel).isSome = true ↔ 18 ≤ fuel) ∧
    (∀ fuel', 18 ≤ fuel → 18 ≤ fuel' → ∃ r r', a.exp norm ofReal fuel = some r ∧ a.exp norm ofReal fuel' = some r' ∧
      r ≈ᵣ r') := by
  obtain ⟨m, -, hm⟩ := expIntPow_ok hA norm ha
  constructor
  · constructor
    · intro h
      by_contra hc
      rw [(exp_is ofReal hA norm ha hm fuel).1 (by omega)] at h
      exact absurd h (by simp)
    · intro h
      obtain ⟨r, hr, -⟩ := (exp_is ofReal hA norm ha hm fuel).2 h
      rw [hr]; rfl
  · intro fuel' h h'
    obtain ⟨r, hr, hrI⟩ := (exp_is ofReal hA norm ha hm fuel).2 h
    obtain ⟨r', hr', hrI'⟩ := (exp_is ofReal hA norm ha hm fuel').2 h'
    exact ⟨r, r', hr, hr', hrI.agree hrI' rfl⟩

/-- The sum `Σ_{k ≤ 18} n^k / k!`, written with `pow`, scalar multiplication and `+`. -/
noncomputable def expSeries (ofReal : ℝ → T) (n : MV A S) : Res (MV A S) := do
  let z ← MV.default (T := T)
  (List.range 19).foldlM (fun acc k => do
    let p ← n.pow k
    let t ← p.smul (ofReal (1 / (k.factorial : ℝ)))
    acc.add t) z

theorem expSeries_is (hA : A.WF) {n : MV A S} (hn : n.Valid) :
    Is (expSeries ofReal n) (taylor ofReal 19 n.ga) := by
  unfold expSeries
  refine (Is.zero hn.supp).bind (fun z hz hzg => ?_)
  have : ∀ (l : List Nat) (u : MV A S), u.Valid → Is (l.foldlM (fun acc k => do
      let p ← n.pow k
      let t ← p.smul (ofReal (1 / (k.factorial : ℝ)))
      acc.add t) u) (u.ga + (l.map fun k => ofReal (1 / (k.factorial : ℝ)) • n.ga ^ k).sum) := by
    intro l
    induction l with
    | nil =>
      intro u hu
      rw [List.map_nil, List.sum_nil, add_zero]
      exact Is.of_valid hu
    | cons k l ih =>
      intro u hu
      rw [List.foldlM_cons]
      have hstep : Is (do
          let p ← n.pow k
          let t ← p.smul (ofReal (1 / (k.factorial : ℝ)))
          u.add t) (u.ga + ofReal (1 / (k.factorial : ℝ)) • n.ga ^ k) :=
        (is_pow hA hn k).bind fun p hp hpg => (is_smul hp _).bind fun t ht htg =>
          (is_add hu ht).congr (by rw [htg, hpg])
      refine hstep.bind (fun v hv hvg => ?_)
      exact (ih v hv).congr (by rw [hvg, List.map_cons, List.sum_cons, add_assoc])
  refine (this (List.range 19) z hz).congr ?_
  rw [hzg, zero_add, taylor, list_sum_range]

/-- **C53, the result.** There is a `max_c`, and with `m = max_c` the function `exp` computes `(Σ_{k ≤ 18} (a/m)^k / k!)^m` if
`m < 2^64`, and the power with exponent `2^64 - 1` instead of `m` otherwise. -/
theorem C53_formula_partial (hA : A.WF) {norm : T → ℝ} (h0 : norm 0 = 0) {a : MV A S} (ha : a.Valid) :
    ∃ m : Nat, a.IsMaxC norm m ∧
    ∀ fuel ≥ 18, ∃ r, a.exp norm ofReal fuel = some r ∧
      r ≈ᵣ (do let n ← a.smul (ofReal (1 / (m : ℝ))); let s ← expSeries ofReal n; s.pow (min m (2 ^ 64 - 1))) := by
  obtain ⟨m, hm1, hm⟩ := expIntPow_ok hA norm ha
  refine ⟨m, (expIntPow_isMaxC hA h0 ha).mp hm, fun fuel hf => ?_⟩
  obtain ⟨r, hr, hrI⟩ := (exp_is ofReal hA norm ha hm fuel).2 hf
  refine ⟨r, hr, hrI.agree (g' := taylor ofReal 19 (ofReal (1 / (m : ℝ)) • a.ga) ^ usizeCast m) ?_ rfl⟩
  refine (is_smul ha _).bind (fun n hn hng => ?_)
  refine (expSeries_is ofReal hA hn).bind (fun s hs hsg => ?_)
  exact (is_pow hA hs (usizeCast m)).congr (by rw [hsg, hng])

/-- **C53, square-zero elements, in general.** If `a*a == 0` then `a.exp() == one() + a * (k/m)` where `m` is `max_c` and `k` is
`max_c as usize`, the smaller of `m` and `2^64 - 1`. -/
theorem C53_square_zero_value (hA : A.WF) {norm : T → ℝ} (hn : norm 0 = 0) {a : MV A S} (ha : a.Valid)
    (h : a.naiveMulImpl a ≈ᵣ MV.default (T := T)) {m : Nat} (hm : a.IsMaxC norm m) {fuel : Nat} (hf : 18 ≤ fuel) :
    ∃ r, a.exp norm ofReal fuel = some r ∧
    r ≈ᵣ (do let o ← MV.one (T := T); let b ← a.smul (ofReal ((min m (2 ^ 64 - 1) : Nat) / (m : ℝ))); o.add b) := by
  obtain ⟨r, hr, hrI⟩ := (exp_is ofReal hA norm ha ((expIntPow_isMaxC hA hn ha).mpr hm) fuel).2 hf
  have h0 : a.ga * a.ga = 0 := ((is_mul hA ha ha).iff_agree (Is.zero ha.supp)).mp h
  refine ⟨r, hr, hrI.agree ?_ (taylor_pow_of_sq_zero h0 m (usizeCast m))⟩
  exact (Is.one ha.supp).bind fun o ho hog => (is_smul ha _).bind fun b hb hbg =>
    (is_add ho hb).congr (by rw [hog, hbg]; rfl)

/-- **C53, square-zero elements.** If `a*a == 0`, and the norms of the coefficients and the square root of the norm of `a.mag2()`
are at most `2^64 - 1`, then `a.exp() == one() + a`.
Missing for the full claim: larger coefficients, for which it is false, see `C53_square_zero_false`. -/
theorem C53_square_zero_partial (hA : A.WF) {norm : T → ℝ} (hn : norm 0 = 0) {a : MV A S} (ha : a.Valid)
    (h : a.naiveMulImpl a ≈ᵣ MV.default (T := T)) (hc : ∀ i < 2 ^ A.dim, ∀ c, a.getByIdx i = .ok c → norm c ≤ 2 ^ 64 - 1)
    (hq : ∀ q : T, a.mag2 = .ok q → Real.sqrt (norm q) ≤ 2 ^ 64 - 1) {fuel : Nat} (hf : 18 ≤ fuel) :
    ∃ r, a.exp norm ofReal fuel = some r ∧ r ≈ᵣ (do let o ← MV.one (T := T); o.add a) := by
  obtain ⟨m, hm1, hm⟩ := expIntPow_ok hA norm ha
  have hm' := (expIntPow_isMaxC hA hn ha).mp hm
  have hlt : m < 2 ^ 64 := by
    have h64 : ((2 ^ 64 - 1 : Nat) : ℝ) = 2 ^ 64 - 1 := by norm_num
    have : m ≤ 2 ^ 64 - 1 := hm'.2 ⟨by norm_num, fun i hi c e => by rw [h64]; exact hc i hi c e, fun q e => by rw [h64]; exact hq q e⟩
    omega
  obtain ⟨r, hr, hrI⟩ := (exp_is ofReal hA norm ha hm fuel).2 hf
  have h0 : a.ga * a.ga = 0 := ((is_mul hA ha ha).iff_agree (Is.zero ha.supp)).mp h
  refine ⟨r, hr, hrI.agree (g' := 1 + a.ga) ?_ ?_⟩
  · exact (Is.one ha.supp).bind (fun o ho hog => (is_add ho ha).congr (by rw [hog]))
  · rw [taylor_pow_of_sq_zero h0, usizeCast_div hm1 hlt, map_one, one_smul]

/-- **C53 does not hold for large coefficients.** If `a*a == 0` and a coefficient has a norm of more than `2^64 - 1`, then `a.exp()` is
different from `one() + a`: `max_c as usize` saturates at `2^64 - 1`. -/
theorem C53_square_zero_false [IsDomain T] (hA : A.WF)
    {norm : T → ℝ} (hn : norm 0 = 0) {a : MV A S} (ha : a.Valid)
    (h : a.naiveMulImpl a ≈ᵣ MV.default (T := T)) {i : Nat} (hi : i < 2 ^ A.dim) {c : T} (hc : a.getByIdx i = .ok c)
    (hbig : 2 ^ 64 - 1 < norm c) {fuel : Nat} (hf : 18 ≤ fuel) :
    ∃ r, a.exp norm ofReal fuel = some r ∧ ¬ r ≈ᵣ (do let o ← MV.one (T := T); o.add a) := by
  obtain ⟨m, hm1, hm⟩ := expIntPow_ok hA norm ha
  have hm' := (expIntPow_isMaxC hA hn ha).mp hm
  have hge : 2 ^ 64 ≤ m := by
    have h1 : (2 ^ 64 : ℝ) < (m + 1 : Nat) := by
      have := hbig.trans_le (hm'.1.2.1 i hi c hc)
      push_cast
      linarith
    exact Nat.lt_succ_iff.mp (by exact_mod_cast h1)
  obtain ⟨r, hr, hrI⟩ := (exp_is ofReal hA norm ha hm fuel).2 hf
  have h0 : a.ga * a.ga = 0 := ((is_mul hA ha ha).iff_agree (Is.zero ha.supp)).mp h
  refine ⟨r, hr, fun hcon => ?_⟩
  have h1 : Is (do let o ← MV.one (T := T); o.add a) (1 + a.ga) :=
    (Is.one ha.supp).bind (fun o ho hog => (is_add ho ha).congr (by rw [hog]))
  have h2 := (hrI.iff_agree h1).mp hcon
  rw [taylor_pow_of_sq_zero h0, add_right_inj] at h2
  have h3 : (ofReal ((usizeCast m : ℝ) / (m : ℝ)) - 1) * a.val i = 0 := by
    have e := GA.of_inj (σ := A.sigma) (n := A.dim) (f := fun k => a.val k * ofReal ((usizeCast m : ℝ) / (m : ℝ))) (g := a.val)
      (by rw [GA.of_smul']; exact h2) i hi
    rw [sub_mul, one_mul, sub_eq_zero, mul_comm]
    exact e
  rcases mul_eq_zero.mp h3 with h4 | h4
  · rw [← map_one ofReal, ← map_sub] at h4
    have := (map_eq_zero_iff ofReal ofReal.injective).mp h4
    have := usizeCast_div_ne hge
    linarith
  · rw [ha.get hi, h4] at hc
    injection hc with hc
    rw [← hc, hn] at hbig
    norm_num at hbig

/-- **C53.** `zero().exp() == one()`. -/
theorem C53_exp_zero (hA : A.WF) (norm : T → ℝ) (hS : LawfulStorage.Supp (S := S) (T := T) A.dim) {fuel : Nat} (hf : 18 ≤ fuel) :
    ∃ z r, MV.default (A := A) (S := S) (T := T) = .ok z ∧ z.exp norm ofReal fuel = some r ∧ r ≈ᵣ MV.one (T := T) := by
  obtain ⟨z, hz, hzv, hzg⟩ := (Is.zero (A := A) (S := S) (T := T) hS).ok
  obtain ⟨m, hm1, hm⟩ := expIntPow_ok hA norm hzv
  obtain ⟨r, hr, hrI⟩ := (exp_is ofReal hA norm hzv hm fuel).2 hf
  refine ⟨z, r, hz, hr, hrI.agree (Is.one hS) ?_⟩
  rw [taylor_pow_of_sq_zero (by rw [hzg, mul_zero]), hzg, smul_zero, add_zero]

/-- **C53.** `a.exp()` commutes with `a`. -/
theorem C53_commute (hA : A.WF) (norm : T → ℝ) {a : MV A S} (ha : a.Valid) {fuel : Nat} (hf : 18 ≤ fuel) :
    ∃ r, a.exp norm ofReal fuel = some r ∧
    (do let x ← r; x.naiveMulImpl a) ≈ᵣ (do let x ← r; a.naiveMulImpl x) := by
  obtain ⟨m, hm1, hm⟩ := expIntPow_ok hA norm ha
  obtain ⟨r, hr, hrI⟩ := (exp_is ofReal hA norm ha hm fuel).2 hf
  refine ⟨r, hr, ?_⟩
  have hc : Commute (taylor ofReal 19 (ofReal (1 / (m : ℝ)) • a.ga) ^ usizeCast m) a.ga := by
    have h1 := taylor_commute (ofReal := ofReal) 19 (ofReal (1 / (m : ℝ)) • a.ga)
    refine Commute.pow_left ?_ _
    have hm0 : ofReal (m : ℝ) * ofReal (1 / (m : ℝ)) = 1 := by
      rw [← map_mul, mul_one_div_cancel (by exact_mod_cast Nat.one_le_iff_ne_zero.mp hm1), map_one]
    have h2 := h1.smul_right (ofReal (m : ℝ))
    rwa [smul_smul, hm0, one_smul] at h2
  refine Is.agree (hrI.bind fun x hx hxg => (is_mul hA hx ha).congr (by rw [hxg]))
    (hrI.bind fun x hx hxg => (is_mul hA ha hx).congr (by rw [hxg])) hc.eq

/-! #### Reversal -/

theorem rev_taylor {σ : Nat → ℤ} {n : Nat} (k : Nat) (x : GA σ n T) : GA.rev (taylor ofReal k x) = taylor ofReal k (GA.rev x) := by
  unfold taylor
  rw [map_sum]
  exact Finset.sum_congr rfl fun j _ => by rw [map_smul, GA.rev_pow]

/-- **C53.** `a.exp().rev() == a.rev().exp()`, when the coefficient norm is even and zero at zero. -/
theorem C53_rev (hA : A.WF) {norm : T → ℝ} (h0 : norm 0 = 0) (hneg : ∀ c, norm (-c) = norm c) {a b : MV A S} (ha : a.Valid)
    (hb : a.rev = .ok b) {fuel : Nat} (hf : 18 ≤ fuel) :
    ∃ r r', a.exp norm ofReal fuel = some r ∧ b.exp norm ofReal fuel = some r' ∧ (do let x ← r; x.rev) ≈ᵣ r' := by
  obtain ⟨b', hb', hbv, hbg⟩ := (is_rev ha).ok
  rw [hb] at hb'
  injection hb' with hb'
  subst hb'
  obtain ⟨m, hm1, hm⟩ := expIntPow_ok hA norm ha
  obtain ⟨m', hm1', hm'⟩ := expIntPow_ok hA norm hbv
  have hbval : ∀ i < 2 ^ A.dim, b.val i = rsg A.dim i • a.val i := by
    have := hbg
    rw [MV.ga, MV.ga, GA.rev_of] at this
    exact GA.of_inj this
  have hn : ∀ i < 2 ^ A.dim, norm (b.val i) = norm (a.val i) := by
    intro i hi
    rw [hbval i hi, rsg_eq]
    split
    · rw [one_smul]
    · rw [neg_one_smul, hneg]
  have hmag : geo A.sigma A.dim (fun i => rsg A.dim i • b.val i) b.val 0 =
      geo A.sigma A.dim (fun i => rsg A.dim i • a.val i) a.val 0 := by
    unfold geo
    refine Finset.sum_congr rfl fun i hi => ?_
    beta_reduce
    rw [Nat.xor_zero, hbval i (mem_range.mp hi), smul_smul, rsg_mul_self, one_smul, mul_comm]
  have hmm : m' = m := by
    apply eq_of_forall_ge_iff
    intro x
    rw [expIntPow_le_iff hA h0 hbv hm' x, expIntPow_le_iff hA h0 ha hm x, hmag]
    refine and_congr_right fun _ => and_congr_left fun _ => ?_
    exact forall₂_congr fun i hi => by rw [hn i hi]
  subst hmm
  obtain ⟨r, hr, hrI⟩ := (exp_is ofReal hA norm ha hm fuel).2 hf
  obtain ⟨r', hr', hrI'⟩ := (exp_is ofReal hA norm hbv hm' fuel).2 hf
  refine ⟨r, r', hr, hr', Is.agree (hrI.bind fun x hx hxg => (is_rev hx).congr (by rw [hxg])) hrI' ?_⟩
  rw [GA.rev_pow, rev_taylor, map_smul, hbg]

end

end TClifford
