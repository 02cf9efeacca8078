import Verif.Props.Exp
import Verif.Props.ComplexExamples
/-
`exp` of Fourier representations: C53, second part; and examples for both parts.
-/

set_option linter.unusedSectionVars false

namespace TClifford

open MV Finset

section
variable {A : ClAlg} {K : Type} [Field K] [DecidableEq K] [ImagUnit K]

/-- The coefficient algebra of the Fourier representations. -/
abbrev CGA (A : ClAlg) (K : Type) := GA A.complexification.sigma A.dim K

/-- The representation represents this element. -/
def RRep (r : FFTRepr A K) (g : CGA A K) : Prop := Represents r g.fn

/-- The computation returns a representation of this element. -/
def RIs (x : Res (FFTRepr A K)) (g : CGA A K) : Prop := ∃ r, x = .ok r ∧ RRep r g

theorem RIs.congr {x : Res (FFTRepr A K)} {g g' : CGA A K} (h : RIs x g) (e : g = g') : RIs x g' := e ▸ h

theorem RDenotes.is (hA : A.WF) {x : Res (FFTRepr A K)} {f : Nat → K} (h : RDenotes x f) : RIs x (.of f) :=
  h.congr hA (fun _ hk => (GA.fn_of f hk).symm)

theorem Represents.is (hA : A.WF) {r : FFTRepr A K} {f : Nat → K} (h : Represents r f) : RRep r (.of f) := by
  obtain ⟨r', e, h'⟩ := (RDenotes.of h).is hA
  injection e with e
  exact e ▸ h'

theorem RIs.same (hA : A.WF) {x y : Res (FFTRepr A K)} {g g' : CGA A K} (hx : RIs x g) (hy : RIs y g') (h : g = g') :
    Same3 (do let r ← x; return r.intoArray3) (do let r ← y; return r.intoArray3) := by
  subst h
  exact RDenotes.same hA hx hy (fun _ _ => rfl)

theorem rrep_one (hA : A.WF) (hd : A.dim < 63) : RRep (FFTRepr.one : FFTRepr A K) 1 := (one_represents hA hd).is hA

theorem ris_add (hA : A.WF) {r s : FFTRepr A K} {g g' : CGA A K} (hr : RRep r g) (hs : RRep s g') : RIs (r.add s) (g + g') :=
  ((add_represents hr hs).is hA).congr (by rw [GA.of_add, GA.of_fn, GA.of_fn])

theorem ris_mul (hA : A.WF) {r s : FFTRepr A K} {g g' : CGA A K} (hr : RRep r g) (hs : RRep s g') : RIs (r.mul s) (g * g') :=
  ((mul_represents hA hr hs).is hA).congr (by rw [GA.of_mul, GA.of_fn, GA.of_fn])

theorem rrep_smul (hA : A.WF) {r : FFTRepr A K} {g : CGA A K} (hr : RRep r g) (c : K) : RRep (r.smul c) (c • g) := by
  have := (smul_represents c hr).is hA
  rwa [GA.of_smul', GA.of_fn] at this

theorem ris_sdiv (hA : A.WF) {r : FFTRepr A K} {g : CGA A K} (hr : RRep r g) {c : K} (hc : c ≠ 0) : RIs (r.sdiv c) (c⁻¹ • g) := by
  have h := (sdiv_represents hc hr).is hA
  simp only [div_eq_mul_inv] at h
  exact h.congr (by rw [GA.of_smul', GA.of_fn])

theorem ris_pow (hA : A.WF) (hd : A.dim < 63) {r : FFTRepr A K} {g : CGA A K} (hr : RRep r g) (n : Nat) :
    RIs (r.pow n) (g ^ n) :=
  ((pow_represents hA hd hr n).is hA).congr (by rw [GA.of_npow, GA.of_fn])

theorem fft_expIntPow_ok (hA : A.WF) (hd : A.dim < 63) (h2 : (2 : K) ≠ 0) (norm : K → ℝ) {r : FFTRepr A K} {g : CGA A K}
    (hr : RRep r g) : ∃ m : Nat, 1 ≤ m ∧ r.expIntPow norm = .ok m := by
  unfold FFTRepr.expIntPow
  rw [mag2_represents hA hd h2 hr]
  refine ⟨_, ?_, rfl⟩
  refine Nat.one_le_ceil_iff.mpr (lt_of_lt_of_le one_pos (le_trans ?_ (le_max_left _ _)))
  have h1 : ∀ (l : List Nat) (f : ℝ → Nat → ℝ) (m : ℝ), (∀ m k, m ≤ f m k) → m ≤ l.foldl f m := by
    intro l f
    induction l with
    | nil => intro m _; exact le_rfl
    | cons k l ih => intro m h; exact (h m k).trans (ih _ h)
  exact h1 _ _ _ fun m k => h1 _ _ _ fun m i => h1 _ _ _ fun m j => le_max_right _ _

/-- `m` is the `max_c` of `FFTRepr::exp`: the least integer that is at least 1, at least the norm of every entry of the array and
at least the square root of the norm of `mag2()`. -/
def FFTRepr.IsMaxC (norm : K → ℝ) (r : FFTRepr A K) (m : Nat) : Prop :=
  IsLeast {x : Nat | 1 ≤ x ∧ (∀ k < r.intoArray3.d0, ∀ i < r.intoArray3.d1, ∀ j < r.intoArray3.d2, norm (r.intoArray3.get k i j) ≤ x) ∧
    ∀ q : K, r.mag2 = .ok q → Real.sqrt (norm q) ≤ x} m

theorem foldl_le_iff {P : Nat → Prop} {f : ℝ → Nat → ℝ} {x : ℝ} (l : List Nat) (m0 : ℝ)
    (h : ∀ m, ∀ k ∈ l, f m k ≤ x ↔ m ≤ x ∧ P k) : l.foldl f m0 ≤ x ↔ m0 ≤ x ∧ ∀ k ∈ l, P k := by
  induction l generalizing m0 with
  | nil => simp
  | cons k l ih =>
    rw [List.foldl_cons, ih _ fun m k' hk' => h m k' (List.mem_cons_of_mem _ hk'), h m0 k List.mem_cons_self]
    simp; tauto

theorem fft_expIntPow_isMaxC {norm : K → ℝ} {r : FFTRepr A K} {q : K} (hq : r.mag2 = .ok q) {m : Nat} :
    r.expIntPow norm = .ok m ↔ r.IsMaxC norm m := by
  have key : ∀ {m}, r.expIntPow norm = .ok m → r.IsMaxC norm m := by
    intro m hm
    unfold FFTRepr.expIntPow at hm
    rw [hq] at hm
    have hm : ⌈max ((List.range r.arr.d0).foldl (fun m k => (List.range r.arr.d1).foldl (fun m i =>
      (List.range r.arr.d2).foldl (fun m j => max (norm (r.arr.get k i j)) m) m) m) (1 : ℝ)) (Real.sqrt (norm q))⌉₊ = m := by
      injection hm
    have hiff : ∀ x : Nat, m ≤ x ↔ x ∈ {x : Nat | 1 ≤ x ∧
        (∀ k < r.intoArray3.d0, ∀ i < r.intoArray3.d1, ∀ j < r.intoArray3.d2, norm (r.intoArray3.get k i j) ≤ x) ∧
        ∀ q : K, r.mag2 = .ok q → Real.sqrt (norm q) ≤ x} := by
      intro x
      have h1 : (1 : ℝ) ≤ x ↔ 1 ≤ x := by exact_mod_cast Iff.rfl
      rw [← hm, Nat.ceil_le, max_le_iff,
        foldl_le_iff (P := fun k => ∀ i ∈ List.range r.arr.d1, ∀ j ∈ List.range r.arr.d2, norm (r.arr.get k i j) ≤ x) _ _
          (fun m k _ => foldl_le_iff (P := fun i => ∀ j ∈ List.range r.arr.d2, norm (r.arr.get k i j) ≤ x) _ _
          (fun m i _ => foldl_le_iff (P := fun j => norm (r.arr.get k i j) ≤ x) _ _ (fun m j _ => by rw [max_le_iff, and_comm]))),
        and_assoc, h1, Set.mem_ofPred_eq]
      refine and_congr_right fun _ => and_congr ?_ ?_
      · simp only [List.mem_range]; rfl
      · rw [hq]; simp
    exact ⟨(hiff m).mp le_rfl, fun x hx => (hiff x).mpr hx⟩
  refine ⟨key, fun h => ?_⟩
  have : ∃ m', r.expIntPow norm = .ok m' := by
    unfold FFTRepr.expIntPow
    rw [hq]
    exact ⟨_, rfl⟩
  obtain ⟨m', hm'⟩ := this
  rw [hm', (key hm').unique h]

variable (ofReal : ℝ →+* K)

theorem fft_exp_is (hA : A.WF) (hd : A.dim < 63) (norm : K → ℝ) {r : FFTRepr A K} {g : CGA A K} (hr : RRep r g) {m : Nat}
    (hm1 : 1 ≤ m) (hm : r.expIntPow norm = .ok m) (fuel : Nat) :
    (fuel < 18 → r.exp norm ofReal fuel = none) ∧
    (18 ≤ fuel → ∃ x, r.exp norm ofReal fuel = some x ∧ RIs x (taylor ofReal 19 (ofReal (1 / (m : ℝ)) • g) ^ usizeCast m)) := by
  have hm0 : (m : ℝ) ≠ 0 := by exact_mod_cast Nat.one_le_iff_ne_zero.mp hm1
  have hc : ofReal (m : ℝ) ≠ 0 := (map_ne_zero ofReal).mpr hm0
  obtain ⟨n, hn, hnR⟩ := ris_sdiv hA hr hc
  rw [← map_inv₀, ← one_div] at hnR
  have e : ∀ fuel, r.exp norm ofReal fuel =
      (taylorLoop (fun x y => x.add y) (fun x y => x.mul y) (fun x c => .ok (x.smul (ofReal c))) n fuel 1 1 FFTRepr.one n).map
      (fun r => r.bind (fun r => r.pow (usizeCast m))) := by
    intro fuel
    unfold FFTRepr.exp
    have : (do
      let m ← r.expIntPow norm
      let n ← r.sdiv (ofReal (m : ℝ))
      return (m, n) : Res (Nat × FFTRepr A K)) = .ok (m, n) := by
      rw [hm]
      show (r.sdiv (ofReal (m : ℝ)) >>= fun n => Except.ok (m, n)) = _
      rw [hn]; rfl
    rw [this]
  have key := taylorLoop_spec (T := K) (G := CGA A K) (ofReal := ofReal) (R := RRep)
    (add := fun x y => x.add y) (mul := fun x y => x.mul y) (scale := fun x c => .ok (x.smul (ofReal c)))
    (fun ha hb => ris_add hA ha hb) (fun ha hb => ris_mul hA ha hb) (fun t ha => ⟨_, rfl, rrep_smul hA ha _⟩)
    (n := n) hnR fuel 0 (by omega) FFTRepr.one n (by simpa [taylor] using rrep_one hA hd) (by rw [zero_add, pow_one]; exact hnR)
  simp only [Nat.factorial_zero, Nat.cast_one, div_one, zero_add, add_zero] at key
  rw [e]
  refine ⟨fun h => by rw [key.1 h]; rfl, fun h => ?_⟩
  obtain ⟨r, hr, hrg⟩ := key.2 h
  exact ⟨_, by rw [hr]; rfl, ris_pow hA hd hrg _⟩

/-! #### Multivectors and their transforms -/

variable {T : Type} [CommRing T] [DecidableEq T] [IntoComplex T K] [LawfulInto T K]

/-- Complexification as a ring homomorphism. -/
noncomputable def cxHom (T : Type) [CommRing T] [DecidableEq T] (K : Type) [Field K] [DecidableEq K] [ImagUnit K] [IntoComplex T K]
    [LawfulInto T K] (hA : A.WF) : GA A.sigma A.dim T →+* CGA A K where
  toFun x := .of (cx A x.fn)
  map_one' := by
    rw [GA.one_def, GA.one_def, ← cx_single (T := T) A]
    exact GA.of_congr fun k hk => cx_congr (GA.fn_of _ hk)
  map_mul' x y := by
    rw [← GA.of_mul]
    refine GA.of_congr fun k hk => ?_
    rw [← cx_geo hA _ _ hk]
    exact cx_congr (GA.fn_of _ hk)
  map_zero' := by
    rw [← GA.of_zero, ← GA.of_zero]
    refine GA.of_congr fun k hk => ?_
    exact (cx_congr (GA.fn_of _ hk)).trans (cx_eq_zero rfl)
  map_add' x y := by
    rw [← GA.of_add]
    refine GA.of_congr fun k hk => ?_
    rw [← congrFun (cx_add A _ _) k]
    refine cx_congr ?_
    induction x using GA.ind with | _ f => induction y using GA.ind with | _ g =>
    rw [← GA.of_add, GA.fn_of _ hk, GA.fn_of _ hk, GA.fn_of _ hk]

theorem cxHom_smul (hA : A.WF) (t : T) (x : GA A.sigma A.dim T) :
    cxHom T K hA (t • x) = (IntoComplex.into t : K) • cxHom T K hA x := by
  show GA.of (cx A (t • x).fn) = _ • GA.of (cx A x.fn)
  rw [← GA.of_smul']
  refine GA.of_congr fun k hk => ?_
  rw [← congrFun (cx_mul A x.fn t) k]
  refine cx_congr ?_
  induction x using GA.ind with | _ f =>
  rw [← GA.of_smul', GA.fn_of _ hk, GA.fn_of _ hk]

theorem cxHom_ga (hA : A.WF) (a : MV A (ArrayStorage T)) : cxHom T K hA a.ga = .of (cx A a.val) :=
  GA.of_congr fun _ hk => cx_congr (MV.ga_val hk a)

theorem fft_is (hA : A.WF) (hd : A.dim < 63) {a : MV A (ArrayStorage T)} (ha : a.Valid) :
    RIs (a.fft : Res (FFTRepr A K)) (cxHom T K hA a.ga) :=
  ((fft_represents hA hd ha).is hA).congr (cxHom_ga hA a).symm

theorem is_fft (hA : A.WF) (hd : A.dim < 63) {x : Res (MV A (ArrayStorage T))} {g : GA A.sigma A.dim T} (hx : Is x g) :
    RIs (do let a ← x; (a.fft : Res (FFTRepr A K))) (cxHom T K hA g) := by
  obtain ⟨u, rfl, hu, rfl⟩ := hx.ok
  exact fft_is hA hd hu

theorem cxHom_taylor (hA : A.WF) {ofRealT : ℝ → T} (hof : ∀ x, (IntoComplex.into (ofRealT x) : K) = ofReal x) (n : Nat)
    (x : GA A.sigma A.dim T) : cxHom T K hA (taylor ofRealT n x) = taylor ofReal n (cxHom T K hA x) := by
  unfold taylor
  rw [map_sum]
  exact Finset.sum_congr rfl fun j _ => by rw [cxHom_smul, hof, map_pow]

/-- **C53, representations: termination.** The loop of `FFTRepr::exp` ends after exactly 18 iterations. -/
theorem C53_fft_iterations (hA : A.WF) (hd : A.dim < 63) (h2 : (2 : K) ≠ 0) (norm : K → ℝ) {a : MV A (ArrayStorage T)}
    (ha : a.Valid) : ∃ s : FFTRepr A K, a.fft = .ok s ∧ ∀ fuel, (s.exp norm ofReal fuel).isSome = true ↔ 18 ≤ fuel := by
  obtain ⟨s, hs, hsR⟩ := fft_is (K := K) hA hd ha
  obtain ⟨m, hm1, hm⟩ := fft_expIntPow_ok hA hd h2 norm hsR
  refine ⟨s, hs, fun fuel => ?_⟩
  constructor
  · intro h
    by_contra hc
    rw [(fft_exp_is ofReal hA hd norm hsR hm1 hm fuel).1 (by omega)] at h
    exact absurd h (by simp)
  · intro h
    obtain ⟨r, hr, -⟩ := (fft_exp_is ofReal hA hd norm hsR hm1 hm fuel).2 h
    rw [hr]; rfl

/-- **C53, representations: the result.** There is a `max_c` (which need not be the one of `a.exp()`), and with `m = max_c` the
representation `a.fft().exp()` is the transform of `(Σ_{k ≤ 18} (a/m)^k / k!)^m` if `m < 2^64`, and the power with exponent
`2^64 - 1` instead of `m` otherwise. -/
theorem C53_fft_formula_partial (hA : A.WF) (hd : A.dim < 63) (h2 : (2 : K) ≠ 0) (norm : K → ℝ) {ofRealT : ℝ →+* T}
    (hof : ∀ x, (IntoComplex.into (ofRealT x) : K) = ofReal x) {a : MV A (ArrayStorage T)} (ha : a.Valid) {fuel : Nat}
    (hf : 18 ≤ fuel) : ∃ (m : Nat) (s : FFTRepr A K) (x : Res (FFTRepr A K)), a.fft = .ok s ∧ s.IsMaxC norm m ∧
    s.exp norm ofReal fuel = some x ∧
    Same3 (do let r ← x; return r.intoArray3)
      (do let r ← (do let n ← a.smul (ofRealT (1 / (m : ℝ))); let t ← expSeries ofRealT n; let p ← t.pow (min m (2 ^ 64 - 1)); (p.fft : Res (FFTRepr A K)))
          return r.intoArray3) := by
  obtain ⟨s, hs, hsR⟩ := fft_is (K := K) hA hd ha
  obtain ⟨m, hm1, hm⟩ := fft_expIntPow_ok hA hd h2 norm hsR
  obtain ⟨x, hx, hxR⟩ := (fft_exp_is ofReal hA hd norm hsR hm1 hm fuel).2 hf
  refine ⟨m, s, x, hs, (fft_expIntPow_isMaxC (mag2_represents hA hd h2 hsR)).mp hm, hx,
    hxR.same hA (g' := cxHom T K hA (taylor ofRealT 19 (ofRealT (1 / (m : ℝ)) • a.ga) ^ usizeCast m)) ?_ ?_⟩
  · have h : Is (do let n ← a.smul (ofRealT (1 / (m : ℝ))); let t ← expSeries ofRealT n; t.pow (min m (2 ^ 64 - 1)))
        (taylor ofRealT 19 (ofRealT (1 / (m : ℝ)) • a.ga) ^ usizeCast m) := by
      refine (is_smul ha _).bind (fun n hn hng => ?_)
      refine (expSeries_is ofRealT hA hn).bind (fun s hs hsg => ?_)
      exact (is_pow hA hs (usizeCast m)).congr (by rw [hsg, hng])
    simpa only [bind_assoc] using is_fft (K := K) hA hd h
  · rw [map_pow, cxHom_taylor ofReal hA hof, cxHom_smul, hof]

/-- **C53, representations, square-zero elements, in general.** If `a*a == 0` then `a.fft().exp() == (one() + a * (k/m)).fft()`
where `m` is `max_c` and `k` is `max_c as usize`, the smaller of `m` and `2^64 - 1`. -/
theorem C53_fft_square_zero_value (hA : A.WF) (hd : A.dim < 63) (h2 : (2 : K) ≠ 0) {norm : K → ℝ} {ofRealT : ℝ →+* T}
    (hof : ∀ x, (IntoComplex.into (ofRealT x) : K) = ofReal x) {a : MV A (ArrayStorage T)} (ha : a.Valid)
    (h : a.naiveMulImpl a ≈ᵣ MV.default (T := T)) {s : FFTRepr A K} (hs : a.fft = .ok s) {m : Nat} (hm : s.IsMaxC norm m)
    {fuel : Nat} (hf : 18 ≤ fuel) :
    ∃ x, s.exp norm ofReal fuel = some x ∧
    Same3 (do let r ← x; return r.intoArray3)
      (do let r ← (do let o ← MV.one (T := T); let c ← a.smul (ofRealT ((min m (2 ^ 64 - 1) : Nat) / (m : ℝ))); let b ← o.add c; (b.fft : Res (FFTRepr A K)))
          return r.intoArray3) := by
  obtain ⟨s', hs', hsR⟩ := fft_is (K := K) hA hd ha
  rw [hs] at hs'
  injection hs' with hs'
  subst hs'
  have hm' := (fft_expIntPow_isMaxC (mag2_represents hA hd h2 hsR)).mpr hm
  obtain ⟨x, hx, hxR⟩ := (fft_exp_is ofReal hA hd norm hsR hm.1.1 hm' fuel).2 hf
  have h0 : a.ga * a.ga = 0 := ((is_mul hA ha ha).iff_agree (Is.zero ha.supp)).mp h
  refine ⟨x, hx, hxR.same hA (g' := cxHom T K hA (1 + ofRealT ((usizeCast m : ℝ) / (m : ℝ)) • a.ga)) ?_ ?_⟩
  · have h : Is (do let o ← MV.one (T := T); let c ← a.smul (ofRealT ((min m (2 ^ 64 - 1) : Nat) / (m : ℝ))); o.add c)
        (1 + ofRealT ((usizeCast m : ℝ) / (m : ℝ)) • a.ga) :=
      (Is.one ha.supp).bind fun o ho hog => (is_smul ha _).bind fun c hc hcg => (is_add ho hc).congr (by rw [hog, hcg]; rfl)
    simpa only [bind_assoc] using is_fft (K := K) hA hd h
  · rw [taylor_pow_of_sq_zero (by rw [← map_mul, h0, map_zero]), map_add, map_one, cxHom_smul, hof]

/-- **C53, representations.** If `a*a == 0` and `max_c` is less than `2^64`, then `a.fft().exp() == (one() + a).fft()`.
Missing for the full claim: larger `max_c`, see `C53_fft_square_zero_value`. -/
theorem C53_fft_square_zero_partial (hA : A.WF) (hd : A.dim < 63) (h2 : (2 : K) ≠ 0) {norm : K → ℝ} {a : MV A (ArrayStorage T)}
    (ha : a.Valid) (h : a.naiveMulImpl a ≈ᵣ MV.default (T := T)) {s : FFTRepr A K} (hs : a.fft = .ok s) {m : Nat}
    (hm : s.IsMaxC norm m) (hm64 : m < 2 ^ 64) {fuel : Nat} (hf : 18 ≤ fuel) :
    ∃ x, s.exp norm ofReal fuel = some x ∧
    Same3 (do let r ← x; return r.intoArray3)
      (do let r ← (do let o ← MV.one (T := T); let b ← o.add a; (b.fft : Res (FFTRepr A K))); return r.intoArray3) := by
  obtain ⟨s', hs', hsR⟩ := fft_is (K := K) hA hd ha
  rw [hs] at hs'
  injection hs' with hs'
  subst hs'
  have hm' := (fft_expIntPow_isMaxC (mag2_represents hA hd h2 hsR)).mpr hm
  obtain ⟨x, hx, hxR⟩ := (fft_exp_is ofReal hA hd norm hsR hm.1.1 hm' fuel).2 hf
  have h0 : a.ga * a.ga = 0 := ((is_mul hA ha ha).iff_agree (Is.zero ha.supp)).mp h
  refine ⟨x, hx, hxR.same hA (g' := cxHom T K hA (1 + a.ga)) ?_ ?_⟩
  · have h : Is (do let o ← MV.one (T := T); o.add a) (1 + a.ga) :=
      (Is.one ha.supp).bind (fun o ho hog => (is_add ho ha).congr (by rw [hog]))
    simpa only [bind_assoc] using is_fft (K := K) hA hd h
  · rw [taylor_pow_of_sq_zero (by rw [← map_mul, h0, map_zero]), usizeCast_div hm.1.1 hm64, map_one, one_smul, map_add, map_one]

/-- **C53, representations.** `zero().exp() == one()`. -/
theorem C53_fft_exp_zero (hA : A.WF) (hd : A.dim < 63) (h2 : (2 : K) ≠ 0) (norm : K → ℝ) {fuel : Nat} (hf : 18 ≤ fuel) :
    ∃ x, (FFTRepr.zero : FFTRepr A K).exp norm ofReal fuel = some x ∧
    Same3 (do let r ← x; return r.intoArray3) (.ok (FFTRepr.one : FFTRepr A K).intoArray3) := by
  have hz : RRep (FFTRepr.zero : FFTRepr A K) 0 := by
    have := (zero_represents (K := K) hA hd).is hA
    rwa [GA.of_zero] at this
  obtain ⟨m, hm1, hm⟩ := fft_expIntPow_ok hA hd h2 norm hz
  obtain ⟨x, hx, hxR⟩ := (fft_exp_is ofReal hA hd norm hz hm1 hm fuel).2 hf
  refine ⟨x, hx, hxR.same hA (y := .ok FFTRepr.one) ⟨_, rfl, rrep_one hA hd⟩ ?_⟩
  rw [taylor_pow_of_sq_zero (by rw [mul_zero]), smul_zero, add_zero]

/-- **C53, representations.** `s.exp()` commutes with `s = a.fft()`. -/
theorem C53_fft_commute (hA : A.WF) (hd : A.dim < 63) (h2 : (2 : K) ≠ 0) (norm : K → ℝ) {a : MV A (ArrayStorage T)}
    (ha : a.Valid) {fuel : Nat} (hf : 18 ≤ fuel) :
    ∃ (s : FFTRepr A K) (x : FFTRepr A K), a.fft = .ok s ∧ s.exp norm ofReal fuel = some (.ok x) ∧
    Same3 (do let p ← s.mul x; return p.intoArray3) (do let p ← x.mul s; return p.intoArray3) := by
  obtain ⟨s, hs, hsR⟩ := fft_is (K := K) hA hd ha
  obtain ⟨m, hm1, hm⟩ := fft_expIntPow_ok hA hd h2 norm hsR
  obtain ⟨_, hx, x, rfl, hxR⟩ := (fft_exp_is ofReal hA hd norm hsR hm1 hm fuel).2 hf
  refine ⟨s, x, hs, hx, (ris_mul hA hsR hxR).same hA (ris_mul hA hxR hsR) ?_⟩
  have h1 := taylor_commute (ofReal := ofReal) 19 (ofReal (1 / (m : ℝ)) • cxHom T K hA a.ga)
  have hm0 : ofReal (m : ℝ) * ofReal (1 / (m : ℝ)) = 1 := by
    rw [← map_mul, mul_one_div_cancel (by exact_mod_cast Nat.one_le_iff_ne_zero.mp hm1), map_one]
  have h2 := h1.smul_right (ofReal (m : ℝ))
  rw [smul_smul, hm0, one_smul] at h2
  exact ((h2.pow_left _).symm).eq

end

/-! ### Examples -/

namespace Ex

/-- A real multivector of the algebra with a null generator, whose square is zero: the null generator times `1 + e0`. -/
noncomputable def mN : MV M (ArrayStorage ℝ) := ⟨⟨3, ⟨8, fun i => if i = 4 then 3 / 2 else if i = 5 then -2 else 0⟩⟩⟩

theorem mN_valid : mN.Valid := ⟨by decide, rfl, rfl⟩

theorem mN_val {i : Nat} (hi : i < 8) : mN.val i = if i = 4 then 3 / 2 else if i = 5 then -2 else 0 := MV.arr_val mN_valid hi

theorem null_sq {a : MV M (ArrayStorage ℝ)} (ha : a.Valid) {x y : ℝ}
    (hv : ∀ {i}, i < 8 → a.val i = if i = 4 then x else if i = 5 then y else 0) : a.naiveMulImpl a ≈ᵣ MV.default (T := ℝ) := by
  refine Agree.of_denotes (mul_denotes M_wf ha ha) (default_denotes ha.supp) (fun k hk => ?_)
  unfold geo
  refine Finset.sum_eq_zero fun i hi => ?_
  have hk : k < 8 := hk
  have hi : i < 8 := mem_range.mp hi
  rw [hv hi, hv (show i ^^^ k < 8 from Nat.xor_lt_two_pow (n := 3) hi hk)]
  by_cases h : (i = 4 ∨ i = 5) ∧ (i ^^^ k = 4 ∨ i ^^^ k = 5)
  · have hb : bsgn M.sigma M.dim i (i ^^^ k) = 0 := by
      rcases h with ⟨rfl | rfl, h | h⟩ <;> rw [h] <;> decide
    rw [hb]; simp
  · by_cases h1 : i = 4 ∨ i = 5
    · have h2 : ¬(i ^^^ k = 4 ∨ i ^^^ k = 5) := fun h2 => h ⟨h1, h2⟩
      rw [not_or] at h2
      simp [h2.1, h2.2]
    · rw [not_or] at h1
      simp [h1.1, h1.2]

theorem mN_sq : mN.naiveMulImpl mN ≈ᵣ MV.default (T := ℝ) := null_sq mN_valid fun hi => mN_val hi

theorem null_mag2 {a : MV M (ArrayStorage ℝ)} (ha : a.Valid) {x y : ℝ}
    (hv : ∀ {i}, i < 8 → a.val i = if i = 4 then x else if i = 5 then y else 0) : a.mag2 = .ok 0 := by
  rw [mag2_ok M_wf ha]
  refine congrArg Except.ok (Finset.sum_eq_zero fun i hi => ?_)
  have hi : i < 8 := mem_range.mp hi
  rw [Nat.xor_zero]
  by_cases h : i = 4 ∨ i = 5
  · have : bsgn M.sigma M.dim i i = 0 := by rcases h with rfl | rfl <;> decide
    rw [this, zero_smul]
  · rw [not_or] at h
    rw [hv hi, if_neg h.1, if_neg h.2, mul_zero, smul_zero]

/-- A translation by a very long way: the null generator times `2^70 - 2 e0`. -/
noncomputable def mBig : MV M (ArrayStorage ℝ) := ⟨⟨3, ⟨8, fun i => if i = 4 then 2 ^ 70 else if i = 5 then -2 else 0⟩⟩⟩

theorem mBig_valid : mBig.Valid := ⟨by decide, rfl, rfl⟩

theorem mBig_val {i : Nat} (hi : i < 8) : mBig.val i = if i = 4 then 2 ^ 70 else if i = 5 then -2 else 0 := MV.arr_val mBig_valid hi

theorem mBig_sq : mBig.naiveMulImpl mBig ≈ᵣ MV.default (T := ℝ) := null_sq mBig_valid fun hi => mBig_val hi

theorem mBig_maxC : mBig.IsMaxC (fun x : ℝ => |x|) (2 ^ 70) := by
  refine ⟨⟨by norm_num, fun i hi c hc => ?_, fun q hq => ?_⟩, fun x hx => ?_⟩
  · rw [mBig_valid.get hi, mBig_val hi] at hc
    injection hc with hc
    rw [← hc]
    split
    · norm_num
    · split <;> norm_num
  · rw [null_mag2 mBig_valid fun hi => mBig_val hi] at hq
    injection hq with hq
    rw [← hq]; norm_num
  · have h : |(2 ^ 70 : ℝ)| ≤ x :=
      hx.2.1 4 (by decide) (2 ^ 70) (by rw [mBig_valid.get (by decide), mBig_val (by decide), if_pos rfl])
    rw [abs_of_pos (by positivity)] at h
    exact_mod_cast h

end Ex

example : ∃ r, Ex.mN.exp (fun x => |x|) (RingHom.id ℝ) 18 = some r ∧ r ≈ᵣ (do let o ← MV.one (T := ℝ); o.add Ex.mN) :=
  C53_square_zero_partial _ Ex.M_wf abs_zero Ex.mN_valid Ex.mN_sq
    (fun i hi c hc => by
      rw [Ex.mN_valid.get hi, Ex.mN_val hi] at hc
      injection hc with hc
      rw [← hc]
      split
      · norm_num [abs_of_pos]
      · split <;> norm_num)
    (fun q hq => by
      rw [Ex.null_mag2 Ex.mN_valid fun hi => Ex.mN_val hi] at hq
      injection hq with hq
      rw [← hq]; norm_num) le_rfl

/-- The exponential of a long translation is off by the factor 64. -/
example : ∃ r, Ex.mBig.exp (fun x => |x|) (RingHom.id ℝ) 18 = some r ∧
    r ≈ᵣ (do let o ← MV.one (T := ℝ); let b ← Ex.mBig.smul ((min (2 ^ 70) (2 ^ 64 - 1) : Nat) / ((2 ^ 70 : Nat) : ℝ)); o.add b) :=
  C53_square_zero_value (RingHom.id ℝ) Ex.M_wf abs_zero Ex.mBig_valid Ex.mBig_sq Ex.mBig_maxC le_rfl

example : ∃ r, Ex.mBig.exp (fun x => |x|) (RingHom.id ℝ) 18 = some r ∧ ¬ r ≈ᵣ (do let o ← MV.one (T := ℝ); o.add Ex.mBig) :=
  C53_square_zero_false (RingHom.id ℝ) Ex.M_wf abs_zero Ex.mBig_valid Ex.mBig_sq (i := 4) (by decide)
    (Ex.mBig_valid.get (by decide)) (by rw [Ex.mBig_val (by decide), if_pos rfl]; norm_num) le_rfl

example : (Ex.mR.exp (fun x => |x|) (RingHom.id ℝ) 18).isSome = true ∧ ¬(Ex.mR.exp (fun x => |x|) (RingHom.id ℝ) 17).isSome = true :=
  ⟨(C53_iterations _ Ex.M_wf _ Ex.mR_valid 18).1.mpr le_rfl,
    fun h => absurd ((C53_iterations _ Ex.M_wf _ Ex.mR_valid 17).1.mp h) (by decide)⟩

example := C53_formula_partial (RingHom.id ℝ) Ex.M_wf (norm := fun x => |x|) abs_zero Ex.mR_valid

example : ∃ z r, MV.default (A := Ex.M) (S := ArrayStorage ℝ) (T := ℝ) = .ok z ∧ z.exp (fun x => |x|) (RingHom.id ℝ) 20 = some r ∧
    r ≈ᵣ MV.one (T := ℝ) := C53_exp_zero _ Ex.M_wf _ Ex.mR_valid.supp (by decide)

example : ∃ r, Ex.mR.exp (fun x => |x|) (RingHom.id ℝ) 18 = some r ∧
    (do let x ← r; x.naiveMulImpl Ex.mR) ≈ᵣ (do let x ← r; Ex.mR.naiveMulImpl x) :=
  C53_commute _ Ex.M_wf _ Ex.mR_valid le_rfl

example : ∃ b r r', Ex.mR.rev = .ok b ∧ Ex.mR.exp (fun x => |x|) (RingHom.id ℝ) 18 = some r ∧
    b.exp (fun x => |x|) (RingHom.id ℝ) 18 = some r' ∧ (do let x ← r; x.rev) ≈ᵣ r' := by
  obtain ⟨b, hb, -⟩ := is_rev Ex.mR_valid
  obtain ⟨r, r', h⟩ := C53_rev (RingHom.id ℝ) Ex.M_wf (norm := fun x => |x|) abs_zero abs_neg Ex.mR_valid hb (le_refl 18)
  exact ⟨b, r, r', hb, h⟩

example : ∃ s : FFTRepr Ex.M ℂ, Ex.mR.fft = .ok s ∧ ∀ fuel, (s.exp (fun z => ‖z‖) Complex.ofRealHom fuel).isSome = true ↔ 18 ≤ fuel :=
  C53_fft_iterations _ Ex.M_wf (by decide) two_ne_zero _ Ex.mR_valid

example :=
  C53_fft_formula_partial Complex.ofRealHom Ex.M_wf (by decide) two_ne_zero (fun z => ‖z‖) (ofRealT := RingHom.id ℝ) (fun _ => rfl) Ex.mR_valid (le_refl 18)

example : ∃ (s : FFTRepr Ex.M ℂ) (m : Nat), Ex.mN.fft = .ok s ∧ s.IsMaxC (fun z => ‖z‖) m ∧ ∃ x,
    s.exp (fun z => ‖z‖) Complex.ofRealHom 18 = some x ∧ (m < 2 ^ 64 → Same3 (do let r ← x; return r.intoArray3)
      (do let r ← (do let o ← MV.one (T := ℝ); let b ← o.add Ex.mN; (b.fft : Res (FFTRepr Ex.M ℂ))); return r.intoArray3)) := by
  obtain ⟨m, s, x, hs, hm, hx, -⟩ := C53_fft_formula_partial Complex.ofRealHom Ex.M_wf (by decide) two_ne_zero (fun z => ‖z‖)
    (ofRealT := RingHom.id ℝ) (fun _ => rfl) Ex.mN_valid (le_refl 18)
  refine ⟨s, m, hs, hm, x, hx, fun h => ?_⟩
  obtain ⟨x', hx', h'⟩ := C53_fft_square_zero_partial Complex.ofRealHom Ex.M_wf (by decide) two_ne_zero Ex.mN_valid Ex.mN_sq hs hm h
    (le_refl 18)
  rw [hx] at hx'
  injection hx' with hx'
  exact hx' ▸ h'

example {s : FFTRepr Ex.M ℂ} (hs : Ex.mBig.fft = .ok s) {m : Nat} (hm : s.IsMaxC (fun z => ‖z‖) m) :=
  C53_fft_square_zero_value Complex.ofRealHom Ex.M_wf (by decide) two_ne_zero (ofRealT := RingHom.id ℝ) (fun _ => rfl)
    Ex.mBig_valid Ex.mBig_sq hs hm (le_refl 18)

example :=
  C53_fft_exp_zero Complex.ofRealHom Ex.M_wf (by decide) two_ne_zero (fun z => ‖z‖) (le_refl 18)

example : ∃ (s x : FFTRepr Ex.M ℂ), Ex.mR.fft = .ok s ∧ s.exp (fun z => ‖z‖) Complex.ofRealHom 18 = some (.ok x) ∧
    Same3 (do let p ← s.mul x; return p.intoArray3) (do let p ← x.mul s; return p.intoArray3) :=
  C53_fft_commute Complex.ofRealHom Ex.M_wf (by decide) two_ne_zero _ Ex.mR_valid le_rfl

end TClifford
