import Verif.Props.FFT
import Verif.Proofs.MatrixInv
import Verif.Proofs.Dominant
import Mathlib.Analysis.Complex.Basic
/-
C36, C37: `FFTRepr::inv`.  The norm is a parameter of which only definiteness (and, for completeness, positivity) is
assumed.
-/

set_option linter.unusedSectionVars false

namespace TClifford

open Finset MV

section
variable {K N : Type} [Field K] [DecidableEq K] [ImagUnit K] [LinearOrder N] [Zero N] {A : ClAlg} {T : Type} [Ring T] [DecidableEq T]
  [IntoComplex T K]

theorem nondegenerate_dims (hA : A.WF) (hn : A.projDim = 0) : A.nn = A.dim := by
  have : A.nn + A.projDim = A.dim := hA.dims
  omega

/-- The matrix products of a representation of a non-degenerate algebra and the result of `inv`. -/
theorem inv_mm {norm : K → N} (hN : ∀ x, norm x = 0 ↔ x = 0) {r s : FFTRepr A K} (hr : r.arr.Is 0 A.half)
    (h : r.inv norm = some s) : s.arr.Is 0 A.half ∧ MEq (2 ^ A.half) (2 ^ A.half) (mm A.half (s.arr.get 0) (r.arr.get 0)) idm ∧
      MEq (2 ^ A.half) (2 ^ A.half) (mm A.half (r.arr.get 0) (s.arr.get 0)) idm := by
  unfold FFTRepr.inv at h
  cases hm : matrixInv norm (r.arr.layer 0) with
  | none => rw [hm] at h; exact absurd h (by simp)
  | some y =>
    rw [hm] at h
    have h := (Option.some.inj h).symm
    subst h
    obtain ⟨-, h2, h3, h4⟩ := matrixInv_left hN hm
    have hrows : (r.arr.layer 0).rows = 2 ^ A.half := hr.2.1
    rw [hrows] at h2 h3 h4
    exact ⟨⟨rfl, h2, h3⟩, h4, left_inv_right h4⟩

/-- The product of two one-layer representations. -/
theorem mul_one_layer {r s : FFTRepr A K} (hr : r.arr.Is 0 A.half) (hs : s.arr.Is 0 A.half) :
    ∃ t, r.mul s = .ok t ∧ t.arr.Is 0 A.half ∧ MEq (2 ^ A.half) (2 ^ A.half) (t.arr.get 0) (mm A.half (r.arr.get 0) (s.arr.get 0)) := by
  obtain ⟨t, h1, h2, h3⟩ := wmul_spec hr hs
  exact ⟨⟨t⟩, by unfold FFTRepr.mul; rw [h1]; rfl, h2, h3 0 (by norm_num)⟩

/-- **C36.** If `r.inv()` is `Some(s)` then `s * r == one()` and `r * s == one()`. -/
theorem C36_inv {norm : K → N} (hN : ∀ x, norm x = 0 ↔ x = 0) (hA : A.WF) (hd : A.dim < 63) (hn : A.projDim = 0)
    {r s : FFTRepr A K} (hr : r.intoArray3.dims = (1, 2 ^ ((A.dim + 1) / 2), 2 ^ ((A.dim + 1) / 2))) (h : r.inv norm = some s) :
    Same3 (do let p ← s.mul r; return p.intoArray3) (.ok (FFTRepr.one : FFTRepr A K).intoArray3) ∧
    Same3 (do let p ← r.mul s; return p.intoArray3) (.ok (FFTRepr.one : FFTRepr A K).intoArray3) := by
  have hnn := nondegenerate_dims hA hn
  have hI : r.arr.Is 0 A.half := by
    have : (r.arr.d0, r.arr.d1, r.arr.d2) = (1, 2 ^ ((A.dim + 1) / 2), 2 ^ ((A.dim + 1) / 2)) := hr
    rw [← hnn] at this
    simp only [Prod.mk.injEq] at this
    exact ⟨this.1, this.2.1, this.2.2⟩
  obtain ⟨hs, h1, h2⟩ := inv_mm hN hI h
  have h1s : (FFTRepr.one : FFTRepr A K).arr.Is 0 A.half := by
    have := (one_represents (K := K) hA hd).1
    rwa [hn] at this
  have key : ∀ {x y : FFTRepr A K}, x.arr.Is 0 A.half → y.arr.Is 0 A.half →
      MEq (2 ^ A.half) (2 ^ A.half) (mm A.half (x.arr.get 0) (y.arr.get 0)) idm →
      Same3 (do let p ← x.mul y; return p.intoArray3) (.ok (FFTRepr.one : FFTRepr A K).intoArray3) := by
    intro x y hx hy he
    obtain ⟨t, e, ht, hg⟩ := mul_one_layer hx hy
    rw [e]
    refine ⟨t.arr, _, rfl, rfl, ?_, ?_⟩
    · show (t.arr.d0, t.arr.d1, t.arr.d2) = ((FFTRepr.one : FFTRepr A K).arr.d0, (FFTRepr.one : FFTRepr A K).arr.d1, (FFTRepr.one : FFTRepr A K).arr.d2)
      rw [ht.1, ht.2.1, ht.2.2, h1s.1, h1s.2.1, h1s.2.2]
    · rw [ht.1, ht.2.1, ht.2.2]
      intro k hk i hi j hj
      have hk0 : k = 0 := by simpa using hk
      subst hk0
      rw [hg i hi j hj, he i hi j hj]
      show (if i = j then (1 : K) else 0) = if 0 = 0 ∧ i = j then 1 else 0
      simp
  exact ⟨key hs hI h1, key hI hs h2⟩

/-- A two-sided inverse matrix of the matrix of `f` comes from a two-sided inverse of `f`, also in odd dimensions. -/
theorem ctr_inv (h2 : (2 : K) ≠ 0) {m p : Nat} (hm : 2 * m ≤ 64) (hp : p = 2 * m ∨ p + 1 = 2 * m) {f : Nat → K} {Y : Nat → Nat → K}
    (hl : MEq (2 ^ m) (2 ^ m) (mm m Y (ctr m p f)) idm) (hr : MEq (2 ^ m) (2 ^ m) (mm m (ctr m p f) Y) idm) {k : Nat} (hk : k < 2 ^ p) :
    geo (fun _ => 1) p (ictr m Y) f k = single 0 1 k ∧ geo (fun _ => 1) p f (ictr m Y) k = single 0 1 k := by
  have hpm : p ≤ 2 * m := by omega
  have hk' : k < 2 ^ (2 * m) := lt_of_lt_of_le hk (Nat.pow_le_pow_right (by norm_num) hpm)
  have hf : ctr m p f = ctr m (2 * m) (pad p f) := by
    unfold ctr
    refine cnn_congr fun i hi => ?_
    unfold psc pad
    rw [if_pos hi]
  have hY := ctr_ictr h2 m Y
  have e1 : geo (fun _ => 1) (2 * m) (ictr m Y) (pad p f) k = single 0 1 k := by
    refine ctr_injective h2 (le_refl _) (((ctr_geo hm (le_refl _) _ _).trans ((mm_congr hY (MEq.rfl' _)).trans ?_)).trans
      (ctr_one m (2 * m)).symm) hk'
    rw [← hf]; exact hl
  have e2 : geo (fun _ => 1) (2 * m) (pad p f) (ictr m Y) k = single 0 1 k := by
    refine ctr_injective h2 (le_refl _) (((ctr_geo hm (le_refl _) _ _).trans ((mm_congr (MEq.rfl' _) hY).trans ?_)).trans
      (ctr_one m (2 * m)).symm) hk'
    rw [← hf]; exact hr
  rcases hp with hp | hp
  · subst hp
    refine ⟨e1 ▸ geo_congr (fun _ _ => rfl) (fun _ _ => rfl) (fun i hi => ?_) hk, e2 ▸ geo_congr (fun _ _ => rfl) (fun i hi => ?_)
      (fun _ _ => rfl) hk⟩ <;> exact (if_pos hi).symm
  · rw [← hp] at e1 e2
    have hh : ∀ i < 2 ^ p, hi p (pad p f) i = 0 := fun i _ => if_neg (by omega)
    have hlo : ∀ i < 2 ^ p, pad p f i = f i := fun i hi => if_pos hi
    rw [geo_lo _ _ _ _ hk, geo_congr (fun _ _ => rfl) (fun _ _ => rfl) hlo hk,
      geo_congr (g' := 0) (fun _ _ => rfl) (fun _ _ => rfl) hh hk] at e1
    rw [geo_lo _ _ _ _ hk, geo_congr (fun _ _ => rfl) hlo (fun _ _ => rfl) hk,
      geo_congr (f := flp p (hi p (pad p f))) (f' := 0) (fun _ _ => rfl) (fun i hi => by unfold flp; rw [hh i hi, smul_zero]; rfl)
        (fun _ _ => rfl) hk] at e2
    refine ⟨?_, ?_⟩
    · rw [← e1]; simp [geo]
    · rw [← e2]; simp [geo]

theorem from_sum [FromComplex T K] [LawfulComplex T K] {ι : Type} (s : Finset ι) (f : ι → K) :
    (FromComplex.from_ (∑ i ∈ s, f i) : T) = ∑ i ∈ s, FromComplex.from_ (f i) := by
  classical
  induction s using Finset.induction_on with
  | empty => exact from_zero
  | insert i s hi ih => rw [sum_insert hi, sum_insert hi, LawfulComplex.from_add, ih]

theorem from_neg [FromComplex T K] [LawfulComplex T K] (x : K) : (FromComplex.from_ (-x) : T) = -FromComplex.from_ x := by
  have := LawfulComplex.from_add (T := T) x (-x)
  rw [add_neg_cancel, from_zero] at this
  exact (neg_eq_of_add_eq_zero_right this.symm).symm

theorem from_zsmul [FromComplex T K] [LawfulComplex T K] (c : ℤ) (x : K) :
    (FromComplex.from_ (c • x) : T) = c • FromComplex.from_ x :=
  map_zsmul (⟨⟨FromComplex.from_, from_zero⟩, LawfulComplex.from_add⟩ : K →+ T) c x

/-- Coefficients form a commutative ring, being embedded in a field. -/
theorem coeff_comm [FromComplex T K] [LawfulComplex T K] (s t : T) : s * t = t * s := by
  rw [← from_into (K := K) (s * t), LawfulInto.into_mul, mul_comm, ← LawfulInto.into_mul, from_into]

theorem from_geo_left [FromComplex T K] [LawfulComplex T K] (σ : Nat → ℤ) (n : Nat) (a : Nat → T) (z : Nat → K) (k : Nat) :
    (FromComplex.from_ (geo σ n (fun i => IntoComplex.into (a i)) z k) : T) = geo σ n a (fun i => FromComplex.from_ (z i)) k := by
  unfold geo
  rw [from_sum]
  refine sum_congr rfl fun i _ => ?_
  rw [from_zsmul, LawfulComplex.from_into_mul]

theorem from_geo_right [FromComplex T K] [LawfulComplex T K] (σ : Nat → ℤ) (n : Nat) (a : Nat → T) (z : Nat → K) (k : Nat) :
    (FromComplex.from_ (geo σ n z (fun i => IntoComplex.into (a i)) k) : T) = geo σ n (fun i => FromComplex.from_ (z i)) a k := by
  unfold geo
  rw [from_sum]
  refine sum_congr rfl fun i _ => ?_
  rw [from_zsmul, mul_comm, LawfulComplex.from_into_mul, coeff_comm (K := K)]

/-- **C36.** If `a.fft().inv()` is `Some(s)` then `s.ifft()` is the two-sided inverse of `a`. -/
theorem C36_fft_inv [FromComplex T K] [LawfulComplex T K] {norm : K → N} (hN : ∀ x, norm x = 0 ↔ x = 0) (h2 : (2 : K) ≠ 0)
    (hA : A.WF) (hd : A.dim < 63) (hn : A.projDim = 0) {a : MV A (ArrayStorage T)} (ha : a.Valid) {s : FFTRepr A K}
    (h : (do let r ← (a.fft : Res (FFTRepr A K)); return r.inv norm) = .ok (some s)) :
    (do let b ← (s.ifft : Res (MV A (ArrayStorage T))); b.naiveMulImpl a) ≈ᵣ MV.one ∧
    (do let b ← (s.ifft : Res (MV A (ArrayStorage T))); a.naiveMulImpl b) ≈ᵣ MV.one := by
  have hnn := nondegenerate_dims hA hn
  have hS : A.dim ≤ 63 := by omega
  obtain ⟨r, e1, hr⟩ := fft_represents (K := K) hA hd ha
  rw [e1] at h
  have h : r.inv norm = some s := by simpa using h
  have hI : r.arr.Is 0 A.half := hn ▸ hr.1
  obtain ⟨hs, hl, hr'⟩ := inv_mm hN hI h
  have hF : MEq (2 ^ A.half) (2 ^ A.half) (r.arr.get 0) (ctr A.half A.dim (cx A a.val)) := by
    have := hr.2 0 (Nat.two_pow_pos _)
    unfold FL at this
    rwa [lay_zero, hnn] at this
  have hsI : s.arr.Is A.projDim A.half := by rw [hn]; exact hs
  have hb := ifft_denotes (T := T) hA hd hsI
  have hu : ∀ k < 2 ^ A.dim, unfl A.half A.nn s.arr.get k = ictr A.half (s.arr.get 0) k := by
    intro k hk
    unfold unfl
    rw [hnn, Nat.div_eq_of_lt hk, Nat.mod_eq_of_lt hk]
  have hb := hb.congr (fun k hk => dcx_congr (T := T) (A := A) (hu k hk))
  have key := fun {k : Nat} (hk : k < 2 ^ A.dim) => ctr_inv h2 (m := A.half) (p := A.dim) (half_le hA) (by rw [← hnn]; unfold ClAlg.half; omega)
    ((mm_congr (MEq.rfl' _) hF.symm).trans hl) ((mm_congr hF.symm (MEq.rfl' _)).trans hr') hk
  generalize ictr A.half (s.arr.get 0) = y at hb key
  have hσ : ∀ i < A.dim, A.complexification.sigma i = 1 := fun i hi => by
    rw [hA.sigma_complexification hi, if_pos (by omega)]
  -- the inverse with coefficients in `K`, in the original signature
  let z : Nat → K := dcx (T := K) A y
  have hz : cx A z = y := cx_dcx A y
  have hc : ∀ {k : Nat}, k < 2 ^ A.dim → geo A.sigma A.dim z (fun i => IntoComplex.into (a.val i)) k = single 0 1 k ∧
      geo A.sigma A.dim (fun i => IntoComplex.into (a.val i)) z k = single 0 1 k := by
    intro k hk
    have hcx : cx (T := T) (K := K) A a.val = cx (T := K) A (fun i => IntoComplex.into (a.val i)) := rfl
    obtain ⟨k1, k2⟩ := key hk
    rw [← geo_congr hσ (fun _ _ => rfl) (fun _ _ => rfl) hk, hcx, ← hz, ← cx_geo hA _ _ hk] at k1
    rw [← geo_congr hσ (fun _ _ => rfl) (fun _ _ => rfl) hk, hcx, ← hz, ← cx_geo hA _ _ hk] at k2
    constructor
    · have := congrFun (dcx_cx (T := K) (K := K) A (geo A.sigma A.dim z (fun i => IntoComplex.into (a.val i)))) k
      rw [← this, dcx_congr (g := single 0 1) k1, ← cx_single (T := K) A, dcx_cx, cx_single]
    · have := congrFun (dcx_cx (T := K) (K := K) A (geo A.sigma A.dim (fun i => IntoComplex.into (a.val i)) z)) k
      rw [← this, dcx_congr (g := single 0 1) k2, ← cx_single (T := K) A, dcx_cx, cx_single]
  have hfs : ∀ k, (FromComplex.from_ (single 0 (1 : K) k) : T) = single 0 1 k := by
    intro k
    unfold single
    split
    · exact LawfulComplex.from_one
    · exact from_zero
  refine ⟨Agree.of_denotes (hb.mul hA (.of_valid ha)) (one_denotes hS) (fun k hk => ?_),
    Agree.of_denotes (hb.bind (fun u hu huv => (mul_denotes hA ha hu).congr (fun i hi =>
      geo_congr (fun _ _ => rfl) (fun _ _ => rfl) huv hi))) (one_denotes hS) (fun k hk => ?_)⟩
  · rw [← hfs, ← (hc hk).1, from_geo_right]; rfl
  · rw [← hfs, ← (hc hk).2, from_geo_left]; rfl

/-- **C36.** For a multivector without inverse, `inv()` returns `None`. -/
theorem C36_singular [FromComplex T K] [LawfulComplex T K] {norm : K → N} (hN : ∀ x, norm x = 0 ↔ x = 0) (h2 : (2 : K) ≠ 0)
    (hA : A.WF) (hd : A.dim < 63) (hn : A.projDim = 0) {a : MV A (ArrayStorage T)} (ha : a.Valid)
    (hs : ¬ ∃ b : MV A (ArrayStorage T), b.Valid ∧ b.naiveMulImpl a ≈ᵣ MV.one) :
    (do let r ← (a.fft : Res (FFTRepr A K)); return r.inv norm) = .ok none := by
  obtain ⟨r, e1, hr⟩ := fft_represents (K := K) hA hd ha
  cases hi : r.inv norm with
  | none => rw [e1]; show Except.ok (r.inv norm) = _; rw [hi]
  | some s =>
    exfalso
    have h := (C36_fft_inv hN h2 hA hd hn ha (s := s) (by rw [e1]; show Except.ok (r.inv norm) = _; rw [hi])).1
    have hsI : s.arr.Is A.projDim A.half := by
      have := (inv_mm hN (hn ▸ hr.1) hi).1
      rwa [← hn] at this
    obtain ⟨b, e2, hb, -⟩ := ifft_denotes (T := T) hA hd hsI
    rw [e2] at h
    exact hs ⟨b, hb, h⟩

/-- **C37, the part that holds.** In a non-degenerate algebra of dimension at most 2, `a.fft().inv()` is `Some` for every `a`
with a left inverse.  The full statement, without the bound on the dimension, is false: see `C37_inv_misses_vector`. -/
theorem C37_inv_complete_partial [LawfulInto T K] {norm : K → N} (hN : ∀ x, norm x = 0 ↔ x = 0) (hpos : ∀ x, 0 ≤ norm x)
    (hA : A.WF) (hn : A.projDim = 0) (hd2 : A.dim ≤ 2) {a b : MV A (ArrayStorage T)} (ha : a.Valid) (hb : b.Valid)
    (h : b.naiveMulImpl a ≈ᵣ MV.one) :
    ∃ s, (do let r ← (a.fft : Res (FFTRepr A K)); return r.inv norm) = .ok (some s) := by
  have hd : A.dim < 63 := by omega
  have hnn := nondegenerate_dims hA hn
  have hS : A.dim ≤ 63 := by omega
  obtain ⟨r, e1, hr⟩ := fft_represents (K := K) hA hd ha
  obtain ⟨t, e2, ht⟩ := fft_represents (K := K) hA hd hb
  rw [e1]
  have hI : r.arr.Is 0 A.half := hn ▸ hr.1
  have htI : t.arr.Is 0 A.half := hn ▸ ht.1
  -- the matrix of `b` is a left inverse
  have hmul : ∀ k < 2 ^ A.dim, geo A.complexification.sigma A.dim (cx (K := K) A b.val) (cx A a.val) k = single 0 1 k := by
    intro k hk
    obtain ⟨u, v, hu, hv, huV, hvV, huv⟩ := h
    obtain ⟨u', hu', -, hmu⟩ := mul_denotes hA hb ha
    obtain ⟨v', hv', -, hmv⟩ := one_denotes (A := A) (S := ArrayStorage T) (T := T) hS
    rw [hu] at hu'
    rw [hv] at hv'
    cases hu'; cases hv'
    rw [← cx_geo hA _ _ hk, ← cx_single (T := T)]
    apply cx_congr
    rw [← hmu k hk, (beq_iff huV hvV).mp huv k hk, hmv k hk]
  obtain ⟨p, e3, hp⟩ := (mul_represents hA ht hr).congr hA hmul
  obtain ⟨p', e3', hpI, hpg⟩ := mul_one_layer htI hI
  rw [e3] at e3'
  cases e3'
  have hone := one_represents (K := K) hA hd
  have hl : MEq (2 ^ A.half) (2 ^ A.half) (mm A.half (t.arr.get 0) (r.arr.get 0)) idm := by
    refine hpg.symm.trans ((hp.2 0 (Nat.two_pow_pos _)).trans ?_)
    show MEq _ _ (ctr A.half A.nn (lay A.nn (single 0 1) 0)) idm
    rw [lay_zero]
    exact ctr_one _ _
  suffices hsome : (matrixInv norm (r.arr.layer 0)).isSome by
    obtain ⟨y, hy⟩ := Option.isSome_iff_exists.mp hsome
    refine ⟨⟨Arr3.ofArr2 y⟩, ?_⟩
    show Except.ok (r.inv norm) = _
    unfold FFTRepr.inv
    rw [hy]; rfl
  have hh : A.half = 0 ∨ A.half = 1 := by unfold ClAlg.half; omega
  rcases hh with hh | hh <;> rw [hh] at hI hl
  · refine matrixInv_one hN hI.2.1 hI.2.2 (fun h0 => ?_)
    have := hl 0 (by norm_num) 0 (by norm_num)
    have h0 : r.arr.get 0 0 0 = 0 := h0
    simp [mm, idm, h0] at this
  · refine matrixInv_two hN hpos hI.2.1 hI.2.2 (fun h0 => ?_)
    have h0 : r.arr.get 0 0 0 * r.arr.get 0 1 1 - r.arr.get 0 0 1 * r.arr.get 0 1 0 = 0 := h0
    have h00 := hl 0 (by norm_num) 0 (by norm_num)
    have h01 := hl 0 (by norm_num) 1 (by norm_num)
    have h10 := hl 1 (by norm_num) 0 (by norm_num)
    have h11 := hl 1 (by norm_num) 1 (by norm_num)
    simp only [mm, idm, pow_one, sum_range_succ, sum_range_zero, zero_add] at h00 h01 h10 h11
    norm_num at h00 h01 h10 h11
    have : (1 : K) = (t.arr.get 0 0 0 * t.arr.get 0 1 1 - t.arr.get 0 0 1 * t.arr.get 0 1 0) *
        (r.arr.get 0 0 0 * r.arr.get 0 1 1 - r.arr.get 0 0 1 * r.arr.get 0 1 0) := by
      linear_combination (-(t.arr.get 0 1 0 * r.arr.get 0 0 1 + t.arr.get 0 1 1 * r.arr.get 0 1 1)) * h00 - h11 +
        (t.arr.get 0 1 0 * r.arr.get 0 0 0 + t.arr.get 0 1 1 * r.arr.get 0 1 0) * h01
    rw [h0, mul_zero] at this
    exact one_ne_zero this

/-- The first column of the matrix of a multiple of the first basis vector. -/
theorem cnn_e0_col {R : Type} [Ring R] (c : R) (m : Nat) : ∀ i < 2 ^ m, i ≠ 1 → cnn m (single 1 c) i 0 = 0 := by
  induction m with
  | zero => intro i hi h1; simp [cnn, single]
  | succ m ih =>
    intro i hi h1
    have hz : cnn m (0 : Nat → R) = 0 := by
      have := cnn_sub m (0 : Nat → R) 0
      rwa [sub_self, sub_self] at this
    have hhi : TClifford.hi (2 * m + 1) (single 1 c) = 0 := by
      funext k
      have : 2 ^ (2 * m + 1) = 2 * 2 ^ (2 * m) := by rw [pow_succ]; ring
      have := Nat.two_pow_pos (2 * m)
      exact if_neg (by omega)
    rw [cnn_succ, hhi]
    have hhz : TClifford.hi (2 * m) (0 : Nat → R) = 0 := rfl
    rw [hhz, hz]
    unfold blk
    by_cases hm : i < 2 ^ m
    · rw [if_pos hm, if_pos (Nat.two_pow_pos m)]
      simpa using ih i hm h1
    · rw [if_neg hm, if_pos (Nat.two_pow_pos m)]
      cases m with
      | zero =>
        exfalso
        have : i = 0 ∨ i = 1 := by omega
        rcases this with h | h <;> simp_all
      | succ m =>
        have : TClifford.hi (2 * (m + 1)) (single 1 c) = 0 := by
          funext k
          have : 2 ^ (2 * (m + 1)) = 4 * 2 ^ (2 * m) := by rw [show 2 * (m + 1) = 2 * m + 2 by ring, pow_add]; ring
          have := Nat.two_pow_pos (2 * m)
          exact if_neg (by omega)
        rw [this, hz]; simp

/-- **C37, another part that holds.** In any non-degenerate algebra `a.fft().inv()` is `Some` for every `a` whose scalar part is
larger than the sum of the absolute values of the other coefficients. -/
theorem C37_inv_dominant_partial {K : Type} [NormedField K] [DecidableEq K] [ImagUnit K] [IntoComplex T K] [LawfulInto T K]
    (hA : A.WF) (hn : A.projDim = 0) (hd : A.dim < 63) {a : MV A (ArrayStorage T)} (ha : a.Valid) {f : Nat → T}
    (hf : Coefs (.ok a) f)
    (h : ∑ k ∈ (range (2 ^ A.dim)).erase 0, ‖(IntoComplex.into (f k) : K)‖ < ‖(IntoComplex.into (f 0) : K)‖) :
    ∃ s, (do let r ← (a.fft : Res (FFTRepr A K)); return r.inv (fun x : K => ‖x‖)) = .ok (some s) := by
  have hnn := nondegenerate_dims hA hn
  obtain ⟨r, e1, hr⟩ := fft_represents (K := K) hA hd ha
  rw [e1]
  have hI : r.arr.Is 0 A.half := hn ▸ hr.1
  suffices hsome : (matrixInv (fun x : K => ‖x‖) (r.arr.layer 0)).isSome by
    obtain ⟨y, hy⟩ := Option.isSome_iff_exists.mp hsome
    refine ⟨⟨Arr3.ofArr2 y⟩, ?_⟩
    show Except.ok (r.inv _) = _
    unfold FFTRepr.inv
    rw [hy]; rfl
  have hrows : (r.arr.layer 0).rows = 2 ^ A.half := hI.2.1
  have hcols : (r.arr.layer 0).cols = 2 ^ A.half := hI.2.2
  refine matrixInv_dominant (by rw [hrows, hcols]) ?_
  rw [hrows]
  have hg : MEq (2 ^ A.half) (2 ^ A.half) (r.arr.get 0) (ctr A.half A.nn (cx A a.val)) := by
    have := hr.2 0 (Nat.two_pow_pos _)
    unfold FL at this
    rwa [lay_zero] at this
  have hle : A.nn ≤ 2 * A.half := by unfold ClAlg.half; omega
  have hv : ∀ k < 2 ^ A.dim, ‖cx (K := K) A a.val k‖ = ‖(IntoComplex.into (f k) : K)‖ := by
    intro k hk
    unfold cx
    rw [norm_mul, norm_iPowNeg, one_mul, hf.val ha hk]
  have hc : ∑ k ∈ (range (2 ^ A.nn)).erase 0, ‖cx (K := K) A a.val k‖ < ‖cx (K := K) A a.val 0‖ := by
    rw [hnn, hv 0 (Nat.two_pow_pos _)]
    refine lt_of_le_of_lt (le_of_eq (sum_congr rfl fun k hk => ?_)) h
    exact hv k (mem_range.mp (mem_of_mem_erase hk))
  intro m h0 hm
  have := ctr_dominant hle hc m h0 hm
  show ∑ j ∈ _, ‖r.arr.get 0 j m‖ < ‖r.arr.get 0 m m‖
  rw [hg m hm m hm]
  refine lt_of_le_of_lt (le_of_eq (sum_congr rfl fun j hj => ?_)) this
  rw [hg j (mem_Ico.mp (mem_of_mem_erase hj)).2 m hm]

/-- **C37 does not hold in general.**  In every non-degenerate algebra of dimension at least 3, the first basis vector `e` is
invertible (`e * e == ±1`) but `e.fft().inv()` is `None`: the check of src/fftrepr/matrix.rs:69-71 rejects matrices with a
zero on the diagonal that a later row exchange would have removed. -/
theorem C37_inv_misses_vector [FromComplex T K] [LawfulComplex T K] {norm : K → N} (hN : ∀ x, norm x = 0 ↔ x = 0)
    (h2 : (2 : K) ≠ 0) (hA : A.WF) (hn : A.projDim = 0) (h3 : 3 ≤ A.dim) (hd : A.dim < 63) :
    ((do let e ← (MV.basisVec (T := T) 0 : Res (MV A (ArrayStorage T))); e.naiveMulImpl e) ≈ᵣ fromScalar (T := T) 1 ∨
      (do let e ← (MV.basisVec (T := T) 0 : Res (MV A (ArrayStorage T))); e.naiveMulImpl e) ≈ᵣ fromScalar (T := T) (-1)) ∧
    (do let e ← (MV.basisVec (T := T) 0 : Res (MV A (ArrayStorage T)))
        let r ← (e.fft : Res (FFTRepr A K))
        return r.inv norm) = .ok none := by
  have hnn := nondegenerate_dims hA hn
  have hS : A.dim ≤ 63 := by omega
  have h1 : (1 : Nat) < 2 ^ A.dim := Nat.one_lt_two_pow (by omega)
  have hb := basisVec_denotes (A := A) (S := ArrayStorage T) (T := T) hS (n := 0) (by omega)
  rw [pow_zero] at hb
  have hσ : A.sigma 0 = 1 ∨ A.sigma 0 = -1 := by
    rw [hA.sigma_nonnull (by omega)]; split <;> simp
  constructor
  · have hm : Denotes (do let e ← (MV.basisVec (T := T) 0 : Res (MV A (ArrayStorage T))); e.naiveMulImpl e)
        (single 0 ((A.sigma 0 : ℤ) : T)) := by
      refine (hb.bind (fun u hu huv => (mul_denotes hA hu hu).congr (fun i hi => geo_congr (fun _ _ => rfl) huv huv hi))).congr
        (fun k hk => ?_)
      rw [geo_single_single _ h1, show (1 : Nat) = 2 ^ 0 from rfl, Nat.xor_self, bsgn_two_pow_eq _ (by omega)]
      simp
    rcases hσ with h | h <;> rw [h] at hm
    · exact .inl (Agree.of_denotes hm (fromScalar_denotes hS _) (fun k _ => by simp))
    · exact .inr (Agree.of_denotes hm (fromScalar_denotes hS _) (fun k _ => by simp))
  · obtain ⟨e, e1, he, hv⟩ := hb
    obtain ⟨r, e2, hr⟩ := fft_represents (K := K) hA hd he
    rw [e1]
    show (do let r ← (e.fft : Res (FFTRepr A K)); return r.inv norm) = _
    rw [e2]
    show Except.ok (r.inv norm) = _
    have hI : r.arr.Is 0 A.half := hn ▸ hr.1
    have hh : 2 ≤ A.half := by unfold ClAlg.half; omega
    have h4 : 4 ≤ 2 ^ A.half := by
      calc 4 = 2 ^ 2 := rfl
        _ ≤ 2 ^ A.half := Nat.pow_le_pow_right (by norm_num) hh
    have hF : MEq (2 ^ A.half) (2 ^ A.half) (r.arr.get 0) (ctr A.half A.dim (cx A e.val)) := by
      have := hr.2 0 (Nat.two_pow_pos _)
      unfold FL at this
      rwa [lay_zero, hnn] at this
    have hcx : ∀ k < 2 ^ A.dim, k ≠ 1 → cx (K := K) A e.val k = 0 := by
      intro k hk hk1
      unfold cx
      rw [hv k hk]
      unfold single
      rw [if_neg hk1, into_zero, mul_zero]
    have hnone : matrixInv norm (r.arr.layer 0) = none := by
      have hrows : (r.arr.layer 0).rows = 2 ^ A.half := hI.2.1
      refine matrixInv_none hN (by rw [hrows]; omega) (fun i hi h1 => ?_) ?_
      · rw [hrows] at hi
        show r.arr.get 0 i 0 = 0
        rw [hF i hi 0 (by omega)]
        have : ctr A.half A.dim (cx A e.val) = cnn A.half (single 1 (psc A.half A.dim (cx A e.val) 1) : Nat → K) := by
          unfold ctr
          refine cnn_congr fun k hk => ?_
          unfold single
          split
          · rename_i h; rw [h]
          · rename_i h
            unfold psc pad
            split
            · rename_i hk'; rw [hcx k hk' h, mul_zero]
            · rw [mul_zero]
        rw [this]
        exact cnn_e0_col _ _ i hi h1
      · show r.arr.get 0 2 2 = 0
        rw [hF 2 (by omega) 2 (by omega)]
        refine ctr_odd h2 (by rw [← hnn]; exact half_ge A) (fun k hk hpar => hcx k hk ?_) (by omega) (by omega) rfl
        rintro rfl
        revert hpar; decide
    unfold FFTRepr.inv
    rw [hnone]; rfl

end

/-! ### The hypotheses can be met -/

section examples
open Ex

/-- `inv` succeeds for the transform of `eF`, in an odd-dimensional algebra. -/
theorem eF_inv : ((do let r ← (eF.fft : Res (FFTRepr E (ZMod 5))); return r.inv (fun x : ZMod 5 => x.val)).map Option.isSome) = .ok true := by
  decide +kernel

example : ∃ s : FFTRepr E (ZMod 5), (do let b ← (s.ifft : Res (MV E (ArrayStorage (ZMod 5)))); b.naiveMulImpl eF) ≈ᵣ MV.one ∧
    (do let b ← (s.ifft : Res (MV E (ArrayStorage (ZMod 5)))); eF.naiveMulImpl b) ≈ᵣ MV.one := by
  have h := eF_inv
  cases hx : (do let r ← (eF.fft : Res (FFTRepr E (ZMod 5))); return r.inv (fun x : ZMod 5 => x.val)) with
  | error e => rw [hx] at h; exact absurd h (by simp [Except.map])
  | ok o =>
    rw [hx] at h
    cases o with
    | none => exact absurd h (by simp [Except.map])
    | some s => exact ⟨s, C36_fft_inv val5 (by decide) E_wf (by decide) rfl eF_valid hx⟩

/-- A matrix with an inverse, as a representation of `P1`. -/
def r2 : FFTRepr P1 (ZMod 5) := ⟨⟨1, 2, 2, fun _ i j => i + 2 * j + 1⟩⟩

example : ∃ s, r2.inv (fun x : ZMod 5 => x.val) = some s ∧
    Same3 (do let p ← s.mul r2; return p.intoArray3) (.ok (FFTRepr.one : FFTRepr P1 (ZMod 5)).intoArray3) := by
  have h : (r2.inv (fun x : ZMod 5 => x.val)).isSome = true := by decide +kernel
  obtain ⟨s, hs⟩ := Option.isSome_iff_exists.mp h
  exact ⟨s, hs, (C36_inv val5 P1_wf (by decide) rfl rfl hs).1⟩

/-- `1 + e` with `e * e == 1` has no inverse. -/
example : (do let r ← ((⟨⟨1, ⟨2, fun _ => 1⟩⟩⟩ : MV P1 (ArrayStorage ℝ)).fft : Res (FFTRepr P1 ℂ)); return r.inv (fun z : ℂ => ‖z‖)) =
    .ok none := by
  refine C36_singular (fun _ => norm_eq_zero) two_ne_zero P1_wf (by decide) rfl ⟨by decide, rfl, rfl⟩ ?_
  rintro ⟨b, hb, u, v, hu, hv, huV, hvV, huv⟩
  obtain ⟨u', hu', -, hmu⟩ := mul_denotes P1_wf hb (show (⟨⟨1, ⟨2, fun _ => 1⟩⟩⟩ : MV P1 (ArrayStorage ℝ)).Valid from ⟨by decide, rfl, rfl⟩)
  obtain ⟨v', hv', -, hmv⟩ := one_denotes (A := P1) (S := ArrayStorage ℝ) (T := ℝ) (show P1.dim ≤ 63 by decide)
  rw [hu] at hu'
  rw [hv] at hv'
  cases hu'; cases hv'
  have h := (beq_iff huV hvV).mp huv
  have h0 := h 0 (by decide)
  have h1 := h 1 (by decide)
  rw [hmu 0 (by decide), hmv 0 (by decide)] at h0
  rw [hmu 1 (by decide), hmv 1 (by decide)] at h1
  have hs : P1.sigma 0 = 1 := rfl
  have hd : P1.dim = 1 := rfl
  have e0 : ∀ k < 2, (⟨⟨1, ⟨2, fun _ => 1⟩⟩⟩ : MV P1 (ArrayStorage ℝ)).val k = 1 := fun k hk => if_pos hk
  simp only [geo, hd, pow_one, sum_range_succ, sum_range_zero] at h0 h1
  rw [e0 _ (by decide), e0 _ (by decide)] at h0 h1
  simp [single, bsgn, hs, sg, par] at h0 h1
  linarith

example : ∃ s, (do let r ← (p1.fft : Res (FFTRepr P1 (ZMod 5))); return r.inv (fun x : ZMod 5 => x.val)) = .ok (some s) :=
  C37_inv_complete_partial val5 (fun _ => Nat.zero_le _) P1_wf rfl (by decide) p1_valid p1'_valid
    ⟨_, _, rfl, rfl, ⟨by decide, rfl, rfl⟩, ⟨by decide, rfl, rfl⟩, by decide +kernel⟩

/-- The multivector of three-dimensional space with scalar part 8 and all other coefficients 1. -/
noncomputable def dom8 : MV E (ArrayStorage ℝ) := ⟨⟨3, ⟨8, fun k => if k = 0 then 8 else 1⟩⟩⟩

example : ∃ s, (do let r ← (dom8.fft : Res (FFTRepr E ℂ)); return r.inv (fun z : ℂ => ‖z‖)) = .ok (some s) := by
  have hv : dom8.Valid := ⟨by decide, rfl, rfl⟩
  refine C37_inv_dominant_partial (T := ℝ) (K := ℂ) (f := fun k => if k = 0 then 8 else 1) E_wf rfl (by decide) hv
    ⟨_, rfl, fun i hi => ?_⟩ ?_
  · rw [hv.get hi]
    congr 1
    exact if_pos (show i < 8 from hi)
  · have e : ∀ x : ℝ, ‖(IntoComplex.into x : ℂ)‖ = |x| := fun x => by
      show ‖(x : ℂ)‖ = _
      rw [Complex.norm_real, Real.norm_eq_abs]
    simp only [e]
    have h2 : ∑ k ∈ (range (2 ^ E.dim)).erase 0, |(if k = 0 then 8 else 1 : ℝ)| = ∑ k ∈ (range 8).erase 0, (1 : ℝ) :=
      sum_congr rfl fun k hk => by rw [if_neg (ne_of_mem_erase hk), abs_one]
    rw [h2, sum_const, card_erase_of_mem (by simp), card_range]
    norm_num

/-- The basis vector `x` of three-dimensional space, with real coefficients and complex matrices. -/
example := C37_inv_misses_vector (T := ℝ) (K := ℂ) (norm := fun z : ℂ => ‖z‖) (fun _ => norm_eq_zero) two_ne_zero E_wf rfl
  (by decide) (by decide)

end examples

end TClifford
