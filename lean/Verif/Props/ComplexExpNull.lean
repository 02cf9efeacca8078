import Verif.Props.ComplexExpError
import Verif.Props.FloatExpNull
/-
C88: with `Complex64` coefficients, too, the exponential of multivectors whose blades share null generators is exact.
-/

set_option linter.unusedSectionVars false

namespace TClifford

open Finset FloatModel MV

/-- number of the products that can be different from zero -/
def Cx.cntTau (c : ℤ) (x y : Cx F64) : ℕ := if c = 0 ∨ x = 0 ∨ y = 0 then 0 else 1

theorem Cx.mul_eq_zero_of {x y : Cx F64} (hx : x.Fin) (hy : y.Fin) (h : x = 0 ∨ y = 0) : x * y = 0 := by
  rcases h with rfl | rfl
  · exact Cx.zero_mul' hy
  · exact Cx.mul_zero' hx

theorem Cx.sumInv_zero : SumInv (Cx F64) Cx.Fin (fun v n => n = 0 → v = 0) Cx.cntTau where
  zero _ := rfl
  left c y := by simp [cntTau]
  right c x := by simp [cntTau]
  null x y := by simp [cntTau]
  plus {v m x y} h hx hy h0 := by
    have h1 : x = 0 ∨ y = 0 := by
      by_contra hc
      have : cntTau 1 x y = 1 := if_neg (by simpa using hc)
      omega
    rw [h (by omega), mul_eq_zero_of hx hy h1, CoeffLaws.add_zero]
  minus {v m x y} h hx hy h0 := by
    have h1 : x = 0 ∨ y = 0 := by
      by_contra hc
      have : cntTau (-1) x y = 1 := if_neg (by simpa using hc)
      omega
    rw [h (by omega), mul_eq_zero_of hx hy h1, CoeffLaws.sub_zero]
  sum {v m w n} h1 h2 h0 := by rw [h1 (by omega), h2 (by omega), CoeffLaws.add_zero]
  good_negneg _ := Cx.neg_neg' _
  good_neg h := ⟨(neg_ok h.1).1, (neg_ok h.2).1⟩
  neg {x} c y _ := by simp only [cntTau, Cx.neg_eq_zero', neg_eq_zero]
  neg' {y} c x _ := by simp only [cntTau, Cx.neg_eq_zero', neg_eq_zero]
  negSum {v} s c x y h h0 := by
    rw [h (by simpa only [cntTau, neg_eq_zero] using h0)]
    exact SumLaws.neg_zero

theorem Cx.mul_ofReal {z : Cx F64} (hz : z.Fin) : z * Cx.ofReal 1 = z := by
  apply Cx.ext'
  · show z.re * 1 - z.im * 0 = z.re
    rw [FloatSigns.mul_one hz.1, FloatModel.mul_zero hz.2, CoeffLaws.sub_zero]
  · show z.re * 0 + z.im * 1 = z.im
    rw [FloatSigns.mul_one hz.2, FloatModel.mul_zero hz.1, FloatModel.zero_add]

section
variable {A : ClAlg} {S : Type} [CoeffStorage S (Cx F64)] [LawfulStorage S (Cx F64)] {a : MV A S}

/-- If every two blades of `a` and `b` share a generator that squares to zero, the computed product is zero. -/
theorem mul_nullC (hA : A.WF) {a b : MV A S} (ha : a.Valid) (hb : b.Valid) (fa : ∀ i < 2 ^ A.dim, (a.val i).Fin)
    (fb : ∀ i < 2 ^ A.dim, (b.val i).Fin)
    (h : ∀ i < 2 ^ A.dim, ∀ j < 2 ^ A.dim, a.val i ≠ 0 → b.val j ≠ 0 → i &&& j &&& A.projMask ≠ 0) :
    ∃ r, a.naiveMulImpl b = .ok r ∧ r.Valid ∧ ∀ k < 2 ^ A.dim, r.val k = 0 := by
  obtain ⟨r, h1, h2, h3⟩ := mul_inv Cx.sumInv_zero hA ha hb fa fb
  refine ⟨r, h1, h2, fun k hk => h3 k hk (sum_eq_zero fun i hi => ?_)⟩
  have hi' := mem_range.mp hi
  refine if_pos ?_
  by_cases g1 : a.val i = 0
  · exact .inr (.inl g1)
  by_cases g2 : b.val (i ^^^ k) = 0
  · exact .inr (.inr g2)
  left
  by_contra hne
  exact h i hi' _ (Nat.xor_lt_two_pow hi' hk) g1 g2 ((bsgn_ne_zero_iff hA).mp hne)

theorem mag2_nullC (hA : A.WF) (ha : a.Valid) (fa : ∀ i < 2 ^ A.dim, (a.val i).Fin)
    (h : ∀ i < 2 ^ A.dim, ∀ j < 2 ^ A.dim, a.val i ≠ 0 → a.val j ≠ 0 → i &&& j &&& A.projMask ≠ 0) : a.mag2 = .ok (0 : Cx F64) := by
  obtain ⟨r, h1, h2⟩ := signSum_inv Cx.sumInv_zero hA ha ha revC (fun i => by unfold revC; split <;> [rfl; exact SumLaws.neg_zero])
    (fun i hi => by
      unfold revC
      split
      · exact fa i hi
      · exact Cx.sumInv_zero.good_neg (fa i hi)) fa
  have e : r = 0 := h2 (sum_eq_zero fun i hi => by
    have hi' := mem_range.mp hi
    refine if_pos ?_
    by_cases g1 : a.val i = 0
    · exact .inr (.inr g1)
    left
    by_contra hne
    exact h i hi' i hi' g1 g1 ((bsgn_ne_zero_iff hA).mp hne))
  subst e
  exact h1

theorem smul_ofReal_denotes (ha : a.Valid) {t : F64} (ht : fin t) : Denotes (a.smul (Cx.ofReal t)) (fun i => a.val i * Cx.ofReal t) :=
  mapFold_denotes ha ha.supp (fun _ c => c * Cx.ofReal t) (fun _ => Cx.zero_mul' (v := Cx.ofReal t) ⟨ht, fin_zero⟩)

/-- The loop adds nothing when the power is zero. -/
theorem taylorFC_null (hA : A.WF) {x : MV A S} (hx : x.Valid) (fx : ∀ i < 2 ^ A.dim, (x.val i).Fin) (d : Nat) :
    ∀ {k : Nat}, k + d = 18 → ∀ {res p : MV A S}, res.Valid → p.Valid →
    (∀ i < 2 ^ A.dim, p.val i = 0) → ∀ fuel ≥ d, ∃ r, taylorFC x fuel (expCoefF k) (k + 1) res p = some (.ok r) ∧ r.Valid ∧
      ∀ i < 2 ^ A.dim, r.val i = res.val i := by
  induction d with
  | zero =>
    intro k hk res p hr _ _ fuel _
    obtain rfl : k = 18 := by omega
    exact ⟨res, taylorFC_18 x fuel _ res p, hr, fun _ _ => rfl⟩
  | succ d ih =>
    intro k hk res p hr hp h0 fuel hf
    obtain ⟨fuel, rfl⟩ : ∃ f, fuel = f + 1 := ⟨fuel - 1, by omega⟩
    have hc : fin (expCoefF (k + 1)) := (expCoefF_acc (k + 1) (by omega)).1
    obtain ⟨t, t1, t2, t3⟩ := smul_ofReal_denotes hp hc
    obtain ⟨s, s1, s2, s3⟩ := add_denotes hr t2
    obtain ⟨q, q1, q2, q3⟩ := mul_nullC hA hp hx (fun i hi => by rw [h0 i hi]; exact ⟨fin_zero, fin_zero⟩) fx
      (fun i hi j hj g => absurd (h0 i hi) g)
    obtain ⟨r, r1, r2, r3⟩ := ih (k := k + 1) (by omega) s2 q2 q3 fuel (by omega)
    refine ⟨r, ?_, r2, fun i hi => ?_⟩
    · rw [taylorFC_succ x (by omega)]
      simp only [t1, s1, q1, bind, Except.bind, pure, Except.pure]
      exact r1
    · rw [r3 i hi, s3 i hi]
      beta_reduce
      rw [t3 i hi]
      beta_reduce
      rw [h0 i hi, Cx.zero_mul' (v := Cx.ofReal (expCoefF (k + 1))) ⟨hc, fin_zero⟩, CoeffLaws.add_zero]

/-- **C88, exactness.** The same with `Complex64` coefficients, if the computed norm of every coefficient is at most one and
`hypot(0, 0)` is zero: `a.exp()` is exactly `1 + a` if every two blades of `a` share a generator that squares to zero. -/
theorem C88_complex_null_exact {hyp : F64 → F64 → F64} (h00 : hyp 0 0 = 0) (hA : A.WF) (ha : a.Valid) {x : Nat → Cx F64} (hx : Coefs (.ok a) x)
    (hf : ∀ i < 2 ^ A.dim, fin (x i).re ∧ fin (x i).im)
    (h1 : ∀ i < 2 ^ A.dim, fin (hyp (x i).re (x i).im) ∧ re (hyp (x i).re (x i).im) ≤ 1)
    (hn : ∀ i < 2 ^ A.dim, ∀ j < 2 ^ A.dim, x i ≠ 0 → x j ≠ 0 → i &&& j &&& A.projMask ≠ 0) {fuel : ℕ} (hfu : 18 ≤ fuel) :
    ∃ r, a.expFC hyp fuel = some (.ok r) ∧ (do let o ← one (T := Cx F64); o.add a) ≈ᵣ .ok r := by
  have hval : ∀ i < 2 ^ A.dim, a.val i = x i := fun i hi => by
    obtain ⟨v, e, hv⟩ := hx
    injection e with e
    subst e
    have := hv i hi
    rw [ha.get hi] at this
    injection this
  have fa : ∀ i < 2 ^ A.dim, (a.val i).Fin := fun i hi => by rw [hval i hi]; exact hf i hi
  have hn' : ∀ i < 2 ^ A.dim, ∀ j < 2 ^ A.dim, a.val i ≠ 0 → a.val j ≠ 0 → i &&& j &&& A.projMask ≠ 0 := fun i hi j hj => by
    rw [hval i hi, hval j hj]; exact hn i hi j hj
  have hq := mag2_nullC hA ha fa hn'
  have e1 : (1 : F64).toRat = 1 := by decide +kernel
  have hfold : ∀ l : List (Nat × Cx F64), (∀ p ∈ l, fin (hyp p.2.re p.2.im) ∧ re (hyp p.2.re p.2.im) ≤ 1) →
      l.foldl (fun m p => Flt.fmax (hyp p.2.re p.2.im) m) (1 : F64) = 1 := by
    intro l hl
    obtain ⟨f1, f2⟩ := foldl_fmax' (fun p : Nat × Cx F64 => hyp p.2.re p.2.im) l (fun p hp => (hl p hp).1) 1 fin_one
    refine re_inj f1 fin_one ?_
    have h3 := (f2 1).mpr ⟨e1.le, fun p hp => by
      have := (hl p hp).2
      change (((hyp p.2.re p.2.im).toRat : ℚ) : ℝ) ≤ 1 at this
      exact_mod_cast this⟩
    have h4 := ((f2 _).mp le_rfl).1
    rw [e1] at h4
    show ((Flt.toRat _ : ℚ) : ℝ) = ((Flt.toRat _ : ℚ) : ℝ)
    rw [le_antisymm h3 h4, e1]
  have hM : a.expMaxFC hyp = .ok 1 := by
    unfold MV.expMaxFC
    rw [hq, hfold a.coeffEnumerate fun p hp => by
      obtain ⟨hi, e⟩ := ha.enum.mem p hp
      rw [e, hval _ hi]
      exact h1 _ hi]
    show Except.ok (Flt.ceil (Flt.fmax 1 (hyp 0 0).sqrt)) = _
    rw [h00]
    exact congrArg Except.ok (by decide +kernel)
  have h11 : (1 : F64) / 1 = 1 := by decide +kernel
  obtain ⟨o, o1, o2, o3⟩ := one_denotes (T := Cx F64) (A := A) ha.supp
  obtain ⟨n, n1, n2, n3⟩ := smul_ofReal_denotes ha (fin_one (F := F64))
  have n3' : ∀ i < 2 ^ A.dim, n.val i = a.val i := fun i hi => by
    rw [n3 i hi]; beta_reduce; exact Cx.mul_ofReal (fa i hi)
  have nf : ∀ i < 2 ^ A.dim, (n.val i).Fin := fun i hi => by rw [n3' i hi]; exact fa i hi
  -- the first iteration
  obtain ⟨t, t1, t2, t3⟩ := smul_ofReal_denotes n2 (fin_one (F := F64))
  obtain ⟨s, s1, s2, s3⟩ := add_denotes o2 t2
  obtain ⟨q, q1, q2, q3⟩ := mul_nullC hA n2 n2 nf nf (fun i hi j hj => by rw [n3' i hi, n3' j hj]; exact hn' i hi j hj)
  obtain ⟨fuel, rfl⟩ : ∃ f, fuel = f + 1 := ⟨fuel - 1, by omega⟩
  obtain ⟨r, r1, r2, r3⟩ := taylorFC_null hA n2 nf 17 (k := 1) rfl s2 q2 q3 fuel (by omega)
  have hc1 : expCoefF 1 = 1 := by decide +kernel
  have hT : taylorFC n (fuel + 1) 1 1 o n = some (.ok r) := by
    have := taylorFC_succ n (k := 0) (by norm_num) fuel o n
    rw [show expCoefF 0 = 1 from rfl] at this
    rw [show (0 : ℕ) + 1 = 1 from rfl] at this
    rw [this]
    simp only [hc1, t1, s1, q1, bind, Except.bind, pure, Except.pure]
    rw [← hc1]
    exact r1
  have hu : (1 : F64).toUsize = .ok 1 := by decide +kernel
  refine ⟨r, ?_, ?_⟩
  · unfold MV.expFC
    simp only [o1, hM, hu, h11, n1, bind, Except.bind, pure, Except.pure]
    rw [hT]
    simp only [Option.map]
    rw [MV.pow, if_neg (by norm_num), if_pos rfl]
  · obtain ⟨w, w1, w2, w3⟩ := add_denotes o2 ha
    refine Agree.of_denotes (f := fun i => o.val i + a.val i) (g := r.val) ⟨w, ?_, w2, w3⟩ ⟨r, rfl, r2, fun _ _ => rfl⟩ fun i hi => ?_
    · rw [o1]; exact w1
    · rw [r3 i hi, s3 i hi]
      beta_reduce
      rw [t3 i hi]
      beta_reduce
      rw [Cx.mul_ofReal (nf i hi), n3' i hi]

end

namespace Ex

/-- The coefficients of `mNul`, and the same times `i`. -/
def xNC (i : Nat) : TClifford.Cx F64 := ⟨xN i, -xN i⟩

def mNulC : MV M (ArrayStorage (TClifford.Cx F64)) := ⟨⟨3, ⟨8, xNC⟩⟩⟩

theorem mNulC_valid : mNulC.Valid := ⟨by decide, rfl, rfl⟩

theorem mNulC_coefs : Coefs (.ok mNulC) xNC :=
  Denotes.coefs ⟨mNulC, rfl, mNulC_valid, fun i hi => by rw [arr_val' mNulC_valid hi]; rfl⟩

theorem xNC_norm : ∀ i < 8, (Flt.hypot (xNC i).re (xNC i).im) ≠ .nonFinite ∧ (Flt.hypot (xNC i).re (xNC i).im).toRat ≤ 1 := by decide +kernel

example : ∃ r, mNulC.expFC Flt.hypot 18 = some (.ok r) ∧ (do let o ← one (T := TClifford.Cx F64); o.add mNulC) ≈ᵣ .ok r :=
  C88_complex_null_exact (by decide +kernel) M_wf mNulC_valid mNulC_coefs (fun i hi => ⟨xN_fin i hi, (neg_ok (xN_fin i hi)).1⟩)
    (fun i hi => ⟨(xNC_norm i hi).1, by
      show ((Flt.toRat _ : ℚ) : ℝ) ≤ 1
      exact_mod_cast (xNC_norm i hi).2⟩)
    (fun i hi j hj h1 h2 => xN_null i hi j hj (fun h => h1 (by unfold xNC; rw [h]; decide +kernel)) (fun h => h2 (by unfold xNC; rw [h]; decide +kernel)))
    le_rfl

end Ex

end TClifford
