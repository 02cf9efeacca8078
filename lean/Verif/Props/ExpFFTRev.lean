import Verif.Props.ExpFFT
import Verif.Props.FFTRing
import Verif.Props.Rotors
/-
`exp` of Fourier representations: the reverse, and square-zero elements with large entries (C53, third part).
-/

set_option linter.unusedSectionVars false

namespace TClifford

open MV Finset

section
variable {K : Type} [Zero K] [Add K] [Sub K] [Neg K] [SignLaws K]

theorem ng_pred {P : K → Prop} (hP : ∀ x, P x → P (-x)) (b : Bool) {x : K} (h : P x) : P (ng b x) := by
  cases b
  · exact h
  · exact hP x h

theorem iflO_pred {P : K → Prop} (hP : ∀ x, P x → P (-x)) (m : Nat) {M : Nat → Nat → K} (h : ∀ i < 2 ^ m, ∀ j < 2 ^ m, P (M i j)) :
    ∀ i < 2 ^ m, ∀ j < 2 ^ m, P (iflO m M i j) := by
  induction m generalizing M with
  | zero => exact h
  | succ m ih =>
    have hp : 2 ^ (m + 1) = 2 ^ m + 2 ^ m := by rw [pow_succ]; omega
    rw [hp] at h ⊢
    intro i hi j hj
    rw [iflO_succ]
    unfold blk
    split <;> split
    · exact ih (fun i hi j hj => ng_pred hP _ (h _ (by omega) _ (by omega))) i (by omega) j (by omega)
    · exact ih (fun i hi j hj => ng_pred hP _ (h _ (by omega) _ (by omega))) i (by omega) _ (by omega)
    · exact ih (fun i hi j hj => ng_pred hP _ (h _ (by omega) _ (by omega))) _ (by omega) j (by omega)
    · exact ih (fun i hi j hj => ng_pred hP _ (h _ (by omega) _ (by omega))) _ (by omega) _ (by omega)

theorem revO_pred {P : K → Prop} (hP : ∀ x, P x → P (-x)) (s m w : Nat) {M : Nat → Nat → K} (h : ∀ i < 2 ^ m, ∀ j < 2 ^ m, P (M i j)) :
    ∀ i < 2 ^ m, ∀ j < 2 ^ m, P (revO s m w M i j) := by
  intro i hi j hj
  have h1 := iflO_pred hP m (M := fun i j => M j i) (fun i hi j hj => h j hj i hi) i hi j hj
  unfold revO
  refine ng_pred hP _ ?_
  split
  · exact ng_pred hP _ h1
  · exact h1

end

section
variable {A : ClAlg} {K : Type} [Field K] [DecidableEq K] [ImagUnit K]

/-- The entries of the reverse are those of the array in another order, up to their signs. -/
theorem rev_pred {P : K → Prop} (hP : ∀ x, P x → P (-x)) (hA : A.WF) (hd : A.dim < 63) {r t : FFTRepr A K} (hr : r.arr.Is A.projDim A.half)
    (ht : r.rev = .ok t) : (∀ k < t.arr.d0, ∀ i < t.arr.d1, ∀ j < t.arr.d2, P (t.arr.get k i j)) ↔
      ∀ k < r.arr.d0, ∀ i < r.arr.d1, ∀ j < r.arr.d2, P (r.arr.get k i j) := by
  obtain ⟨t', e, hI, hg⟩ := rev_ops hA hd hr
  rw [ht] at e
  injection e with e
  subst e
  rw [hI.1, hI.2.1, hI.2.2, hr.1, hr.2.1, hr.2.2]
  constructor
  · intro h k hk i hi j hj
    rw [← revO_revO A.projDim A.half k (r.arr.get k) i hi j hj, ← revO_congr A.projDim k (hg k hk) i hi j hj]
    exact revO_pred hP _ _ _ (h k hk) i hi j hj
  · intro h k hk i hi j hj
    rw [hg k hk i hi j hj]
    exact revO_pred hP _ _ _ (h k hk) i hi j hj

variable (ofReal : ℝ →+* K)

/-- **C53, representations.** `s.exp().rev() == s.rev().exp()` for `s = a.fft()`, when the norm of the entries is even. -/
theorem C53_fft_rev {T : Type} [CommRing T] [DecidableEq T] [IntoComplex T K] [LawfulInto T K] (hA : A.WF) (hd : A.dim < 63)
    (h2 : (2 : K) ≠ 0) {norm : K → ℝ} (hneg : ∀ c, norm (-c) = norm c) {a : MV A (ArrayStorage T)} (ha : a.Valid) {fuel : Nat} (hf : 18 ≤ fuel) :
    ∃ (s t : FFTRepr A K) (x y : Res (FFTRepr A K)), a.fft = .ok s ∧ s.rev = .ok t ∧ s.exp norm ofReal fuel = some x ∧
      t.exp norm ofReal fuel = some y ∧
      Same3 (do let r ← (do let e ← x; e.rev); return r.intoArray3) (do let r ← y; return r.intoArray3) := by
  obtain ⟨s, hs, hsR⟩ := fft_is (K := K) hA hd ha
  generalize cxHom T K hA a.ga = g at hsR
  obtain ⟨t, ht, htR⟩ := ris_rev hA hd hsR
  obtain ⟨m, hm1, hm⟩ := fft_expIntPow_ok hA hd h2 norm hsR
  have hq := mag2_represents hA hd h2 hsR
  have hq' := mag2_represents hA hd h2 htR
  have hmag : t.mag2 = s.mag2 := by
    rw [hq, hq']
    refine congrArg Except.ok ?_
    unfold geo
    refine Finset.sum_congr rfl fun i hi => ?_
    beta_reduce
    have e : (GA.rev g).fn i = rsg A.dim i • g.fn i := GA.fn_of (fun i => rsg A.dim i • g.fn i) (mem_range.mp hi)
    rw [Nat.xor_zero, e, smul_smul, rsg_mul_self, one_smul, mul_comm]
  have hmC := (fft_expIntPow_isMaxC hq).mp hm
  have hmC' : t.IsMaxC norm m := by
    have e : ∀ x : Nat, (∀ k < t.intoArray3.d0, ∀ i < t.intoArray3.d1, ∀ j < t.intoArray3.d2, norm (t.intoArray3.get k i j) ≤ x) ↔
        ∀ k < s.intoArray3.d0, ∀ i < s.intoArray3.d1, ∀ j < s.intoArray3.d2, norm (s.intoArray3.get k i j) ≤ x := fun x =>
      rev_pred (P := fun c => norm c ≤ x) (fun c hc => by rw [hneg]; exact hc) hA hd hsR.1 ht
    unfold FFTRepr.IsMaxC
    simp only [e, hmag]
    exact hmC
  have hm' := (fft_expIntPow_isMaxC hq').mpr hmC'
  obtain ⟨x, hx, hxR⟩ := (fft_exp_is ofReal hA hd norm hsR hm1 hm fuel).2 hf
  obtain ⟨y, hy, hyR⟩ := (fft_exp_is ofReal hA hd norm htR hm1 hm' fuel).2 hf
  obtain ⟨e, rfl, heR⟩ := hxR
  refine ⟨s, t, _, y, hs, ht, hx, hy, (ris_rev hA hd heR).same hA hyR ?_⟩
  rw [GA.rev_pow, rev_taylor, map_smul]

theorem ris_inj (hA : A.WF) (h2 : (2 : K) ≠ 0) {x y : Res (FFTRepr A K)} {g g' : CGA A K} (hx : RIs x g) (hy : RIs y g')
    (h : Same3 (do let r ← x; return r.intoArray3) (do let r ← y; return r.intoArray3)) : g = g' := by
  obtain ⟨r, rfl, hr, hrg⟩ := hx
  obtain ⟨s, rfl, hs, hsg⟩ := hy
  obtain ⟨a, b, e1, e2, -, e4⟩ := h
  injection e1 with e1
  injection e2 with e2
  subst e1 e2
  rw [← GA.of_fn g, ← GA.of_fn g']
  refine GA.of_congr fun k hk => ?_
  have hk' : k < 2 ^ (A.nn + A.projDim) := by rw [show A.nn + A.projDim = A.dim from hA.dims]; exact hk
  rw [← unfl_FL h2 (half_ge A) hrg hk', ← unfl_FL h2 (half_ge A) (s := A.projDim) (X := r.arr.get) (f := g'.fn) ?_ hk']
  intro w hw i hi j hj
  rw [← hsg w hw i hi j hj]
  exact e4 w (by rw [show r.intoArray3.d0 = _ from hr.1]; exact hw) i (by rw [show r.intoArray3.d1 = _ from hr.2.1]; exact hi) j
    (by rw [show r.intoArray3.d2 = _ from hr.2.2]; exact hj)

/-- **C53 does not hold for representations with large entries.** If `a*a == 0` and an entry of `a.fft()` has a norm of more than
`2^64 - 1`, then `a.fft().exp()` is different from `(one() + a).fft()`: `max_c as usize` saturates at `2^64 - 1`. -/
theorem C53_fft_square_zero_false {T : Type} [CommRing T] [DecidableEq T] [IntoComplex T K] [LawfulInto T K] (hA : A.WF) (hd : A.dim < 63)
    (h2 : (2 : K) ≠ 0) {norm : K → ℝ} (hn : norm 0 = 0) {a : MV A (ArrayStorage T)} (ha : a.Valid)
    (h : a.naiveMulImpl a ≈ᵣ MV.default (T := T)) {s : FFTRepr A K} (hs : a.fft = .ok s) {k i j : Nat} (hk : k < s.intoArray3.d0)
    (hi : i < s.intoArray3.d1) (hj : j < s.intoArray3.d2) (hbig : 2 ^ 64 - 1 < norm (s.intoArray3.get k i j)) {fuel : Nat} (hf : 18 ≤ fuel) :
    ∃ x, s.exp norm ofReal fuel = some x ∧
    ¬ Same3 (do let r ← x; return r.intoArray3)
      (do let r ← (do let o ← MV.one (T := T); let b ← o.add a; (b.fft : Res (FFTRepr A K))); return r.intoArray3) := by
  obtain ⟨s', hs', hsR⟩ := fft_is (K := K) hA hd ha
  rw [hs] at hs'
  injection hs' with hs'
  subst hs'
  obtain ⟨m, hm1, hm⟩ := fft_expIntPow_ok hA hd h2 norm hsR
  have hmC := (fft_expIntPow_isMaxC (mag2_represents hA hd h2 hsR)).mp hm
  have hge : 2 ^ 64 ≤ m := by
    have h1 : (2 ^ 64 : ℝ) < (m + 1 : Nat) := by
      have := hbig.trans_le (hmC.1.2.1 k hk i hi j hj)
      push_cast
      linarith
    exact Nat.lt_succ_iff.mp (by exact_mod_cast h1)
  obtain ⟨x, hx, hxR⟩ := (fft_exp_is ofReal hA hd norm hsR hm1 hm fuel).2 hf
  have h0 : a.ga * a.ga = 0 := ((is_mul hA ha ha).iff_agree (Is.zero ha.supp)).mp h
  refine ⟨x, hx, fun hcon => ?_⟩
  have h1 : Is (do let o ← MV.one (T := T); o.add a) (1 + a.ga) :=
    (Is.one ha.supp).bind (fun o ho hog => (is_add ho ha).congr (by rw [hog]))
  have h3 := ris_inj hA h2 hxR (is_fft (K := K) hA hd h1) (by simpa only [bind_assoc] using hcon)
  rw [taylor_pow_of_sq_zero (by rw [← map_mul, h0, map_zero]), map_add, map_one, add_right_inj] at h3
  have h4 : (ofReal ((usizeCast m : ℝ) / (m : ℝ)) - 1) • cxHom T K hA a.ga = 0 := by rw [sub_smul, one_smul, h3, sub_self]
  have h5 : ofReal ((usizeCast m : ℝ) / (m : ℝ)) - 1 ≠ 0 := by
    rw [← map_one ofReal, ← map_sub]
    intro h6
    have := (map_eq_zero_iff ofReal ofReal.injective).mp h6
    have := usizeCast_div_ne hge
    linarith
  have h6 : cxHom T K hA a.ga = 0 := by
    have := congrArg (fun z => (ofReal ((usizeCast m : ℝ) / (m : ℝ)) - 1)⁻¹ • z) h4
    simpa only [smul_smul, inv_mul_cancel₀ h5, one_smul, smul_zero] using this
  have h7 : RRep (FFTRepr.zero : FFTRepr A K) 0 := by
    have := (zero_represents (K := K) hA hd).is hA
    rwa [GA.of_zero] at this
  rw [h6] at hsR
  have h8 := hsR.2.trans h7.2.symm k (hsR.1.1 ▸ hk) i (hsR.1.2.1 ▸ hi) j (hsR.1.2.2 ▸ hj)
  rw [show s.intoArray3.get k i j = (FFTRepr.zero : FFTRepr A K).arr.get k i j from h8, show (FFTRepr.zero : FFTRepr A K).arr.get k i j = 0 from rfl, hn] at hbig
  norm_num at hbig

end

/-! ### Examples -/

example := C53_fft_rev Complex.ofRealHom Ex.M_wf (by decide) two_ne_zero (norm := fun z : ℂ => ‖z‖) norm_neg Ex.mR_valid (le_refl 18)

example : ∃ (s : FFTRepr Ex.M ℂ) (x : Res (FFTRepr Ex.M ℂ)), Ex.mBig.fft = .ok s ∧ s.exp (fun z => ‖z‖) Complex.ofRealHom 18 = some x ∧
    ¬ Same3 (do let r ← x; return r.intoArray3)
      (do let r ← (do let o ← MV.one (T := ℝ); let b ← o.add Ex.mBig; (b.fft : Res (FFTRepr Ex.M ℂ))); return r.intoArray3) := by
  obtain ⟨s, hs, hsR⟩ := fft_represents (K := ℂ) Ex.M_wf (by decide) Ex.mBig_valid
  have hI := hsR.1
  have e : s.intoArray3.get 1 0 0 = 2 ^ 70 := by
    rw [show s.intoArray3.get 1 0 0 = _ from hsR.2 1 (by decide) 0 (by decide) 0 (by decide)]
    have e1 : ∀ f : Nat → ℂ, FL Ex.M.half Ex.M.nn f 1 0 0 = psc 1 2 (lay 2 f 1) 0 + psc 1 2 (lay 2 f 1) 3 := fun f => rfl
    have e2 : ∀ x : Nat → ℂ, psc 1 2 x 0 = x 0 := fun x => by simp [psc, pad, bprod]
    have e3 : ∀ k < 8, cx Ex.M Ex.mBig.val k = iPowNeg (countOnes (k &&& Ex.M.imagMask)) *
        ((if k = 4 then 2 ^ 70 else if k = 5 then -2 else 0 : ℝ) : ℂ) := fun k hk => by rw [← Ex.mBig_val hk]; rfl
    have e4 : psc 1 2 (lay 2 (cx Ex.M Ex.mBig.val) 1) 3 = (0 : ℂ) := by
      have : lay 2 (cx Ex.M Ex.mBig.val) 1 3 = (0 : ℂ) := by
        show cx Ex.M Ex.mBig.val 7 = (0 : ℂ)
        rw [e3 7 (by decide)]; simp
      simp [psc, pad, this]
    rw [e1, e2, e4]
    show cx Ex.M Ex.mBig.val 4 + 0 = (2 ^ 70 : ℂ)
    rw [e3 4 (by decide), if_pos rfl, show countOnes (4 &&& Ex.M.imagMask) = 0 by decide]
    simp [iPowNeg]
  obtain ⟨x, hx⟩ := C53_fft_square_zero_false Complex.ofRealHom Ex.M_wf (by decide) two_ne_zero (norm := fun z : ℂ => ‖z‖) norm_zero
    Ex.mBig_valid Ex.mBig_sq hs (k := 1) (i := 0) (j := 0) (by rw [show s.intoArray3.d0 = _ from hI.1]; decide)
    (by rw [show s.intoArray3.d1 = _ from hI.2.1]; decide) (by rw [show s.intoArray3.d2 = _ from hI.2.2]; decide)
    (by rw [e]; norm_num) (le_refl 18)
  exact ⟨s, x, hs, hx⟩

end TClifford
