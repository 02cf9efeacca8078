import Verif.Props.Pga
import Verif.Props.Examples
/-
Incidence in projective geometric algebra: C48; translated hyperplanes: C47; examples for C46 to C49.
-/

set_option linter.unusedSectionVars false

namespace TClifford

open MV Finset

namespace GA
variable {σ : Nat → ℤ} {n : Nat} {T : Type} [CommRing T]

/-- The same coefficients in the exterior algebra. -/
def ext (x : GA σ n T) : Ext n T := of x.fn

theorem ext_of (f : Nat → T) : ext (of f : GA σ n T) = of f := of_congr fun _ hi => fn_of f hi

theorem ext_smul (c : T) (x : GA σ n T) : ext (c • x) = c • ext x := by
  unfold ext
  rw [← of_smul']
  exact of_congr fun i _ => (fn_smul c x i).trans (mul_comm _ _)

theorem ext_sum (s : Finset Nat) (g : Nat → GA σ n T) : ext (∑ j ∈ s, g j) = ∑ j ∈ s, ext (g j) := by
  have h : ∀ x y : GA σ n T, x.fn = y.fn → x = y := fun x y h => by rw [← of_fn x, ← of_fn y, h]
  unfold ext
  rw [← of_fn (∑ j ∈ s, (of (g j).fn : Ext n T))]
  refine of_congr fun i hi => ?_
  rw [fn_sum, fn_sum]
  exact sum_congr rfl fun j _ => (fn_of _ hi).symm

theorem ext_vec (x : Nat → T) : ext (vec x : GA σ n T) = vec x := by
  unfold vec
  rw [ext_sum]
  refine sum_congr rfl fun k _ => ?_
  rw [ext_smul]
  congr 1
  exact ext_of _

theorem ext_dual (x : GA σ n T) : ext (dual x) = dual (ext x) := by
  induction x using ind with | _ f =>
  rw [dual_of, ext_of, ext_of, dual_of]

/-- A generator times the dual of another one vanishes in the exterior algebra. -/
theorem e_wedge_D {j k : Nat} (hj : j < n) (h : j ≠ k) : (e j * D k : Ext n T) = 0 := by
  have hz : bsgn (fun _ => 0) n (2 ^ j) (2 ^ k ^^^ (2 ^ n - 1)) = 0 := by
    refine bsgn_null ?_
    intro hc
    have := hc j hj
    rw [Nat.testBit_xor, Nat.testBit_two_pow_self, Nat.testBit_two_pow_sub_one, Nat.testBit_two_pow] at this
    simp [hj, h.symm] at this
  unfold D e
  rw [mul_smul_comm]
  have : (bl (2 ^ j) * bl (2 ^ k ^^^ (2 ^ n - 1)) : Ext n T) = 0 := by
    rw [bl_mul_bl (two_pow_lt hj), hz, Int.cast_zero, zero_smul]
  rw [show (of (single (2 ^ j) 1) * bl (2 ^ k ^^^ (2 ^ n - 1)) : Ext n T) = 0 from this, smul_zero]

theorem vec_wedge_dual (c x : Nat → T) :
    (vec c * dual (vec x) : Ext n T) = ((csg n : T) * ∑ k ∈ range n, c k * x k) • ps := by
  rw [dual_vec]
  unfold vec
  rw [sum_mul, mul_sum, sum_smul]
  refine sum_congr rfl fun k hk => ?_
  have hk := mem_range.mp hk
  rw [mul_sum, sum_eq_single k]
  · rw [smul_mul_smul_comm, e_mul_D hk, smul_smul, mul_comm]
  · intro j hj hne
    rw [smul_mul_smul_comm, e_wedge_D hk hne.symm, smul_zero]
  · intro h; exact absurd (mem_range.mpr hk) h

theorem ps_ne_zero [Nontrivial T] : (ps : GA σ n T) ≠ 0 := by
  intro h
  have hlt : 2 ^ n - 1 < 2 ^ n := by have := Nat.two_pow_pos n; omega
  have h2 := congrArg (fun g => GA.fn g (2 ^ n - 1)) h
  beta_reduce at h2
  have hz : (0 : GA σ n T).fn (2 ^ n - 1) = 0 := by
    unfold GA.fn; rw [dif_pos hlt]; rfl
  rw [ps, fn_bl _ hlt, if_pos rfl, hz] at h2
  exact one_ne_zero h2

theorem dual_inj [DecidableEq T] {x y : GA σ n T} (h : dual x = dual y) : x = y := by
  induction x using ind with | _ f =>
  induction y using ind with | _ g =>
  rw [dual_of, dual_of] at h
  refine of_congr fun i hi => ?_
  rw [← dual_undual_F f hi, ← dual_undual_F g hi]
  unfold undualF
  rw [of_inj h _ (xor_mask_lt hi)]

section
variable {d : Nat} (hn : n = d + 1) (h1 : ∀ i < d, σ i = 1) (h0 : σ d = 0)
include hn h1 h0

theorem null_mul_tb (y : Nat → T) : (e d * tb d y : GA σ n T) = 0 := by
  subst hn
  rw [tb_eq h1 h0, ← mul_assoc, e_null_sq h1 h0, zero_mul]

theorem tb_mul_null (y : Nat → T) : (tb d y * e d : GA σ n T) = 0 := by
  subst hn
  rw [tb_eq' h1 h0, neg_mul, mul_assoc, e_null_sq h1 h0, mul_zero, neg_zero]

/-- `e_j B = B e_j - 2 y_j e_d`. -/
theorem e_mul_tb (y : Nat → T) {j : Nat} (hj : j < d) : (e j * tb d y : GA σ n T) = tb d y * e j - (2 * y j) • e d := by
  subst hn
  have key : ∀ k < d, (e j * (e d * e k) : GA σ (d + 1) T) = e d * e k * e j - if k = j then (2 : T) • e d else 0 := by
    intro k hk
    rw [← mul_assoc, e_anti (i := j) (j := d) (by omega) (by omega) (by omega)]
    by_cases h : k = j
    · subst h
      rw [if_pos rfl, neg_mul, mul_assoc, e_unit_sq h1 h0 hk, mul_one, two_smul]
      abel
    · rw [if_neg h, neg_mul, mul_assoc, e_anti (i := j) (j := k) (by omega) (by omega) (fun e => h e.symm), mul_neg, neg_neg,
        sub_zero, mul_assoc]
  unfold tb
  rw [mul_sum, sum_mul]
  have : ∀ k ∈ range d, (e j * (y k • (e d * e k)) : GA σ (d + 1) T) =
      (y k • (e d * e k)) * e j - if k = j then (2 * y k) • e d else 0 := by
    intro k hk
    rw [mul_smul_comm, key k (mem_range.mp hk), smul_sub, smul_mul_assoc]
    congr 1
    split
    · rw [smul_smul, mul_comm]
    · rw [smul_zero]
  rw [sum_congr rfl this, sum_sub_distrib]
  congr 1
  rw [sum_ite_eq' (range d) j, if_pos (mem_range.mpr hj)]

/-- A translation applied to a vector. -/
theorem tb_sandwich_vec (y c : Nat → T) : ((1 - tb d y) * vec c * (1 + tb d y) : GA σ n T) =
    vec (fun k => if k < d then c k else c k - 2 * ∑ j ∈ range d, c j * y j) := by
  have hs : (vec c * tb d y : GA σ n T) = tb d y * vec c - (2 * ∑ j ∈ range d, c j * y j) • e d := by
    unfold vec
    rw [sum_mul, mul_sum, hn, sum_range_succ, sum_range_succ, smul_mul_assoc, mul_smul_comm, ← hn, null_mul_tb hn h1 h0,
      tb_mul_null hn h1 h0, smul_zero, add_zero, add_zero, mul_sum, sum_smul, ← sum_sub_distrib]
    refine sum_congr rfl fun j hj => ?_
    rw [smul_mul_assoc, e_mul_tb hn h1 h0 y (mem_range.mp hj), smul_sub, mul_smul_comm, smul_smul]
    congr 2
    ring
  have h2 : (tb d y * vec c * tb d y : GA σ n T) = 0 := by
    rw [mul_assoc, hs, mul_sub, ← mul_assoc, tb_mul_tb' hn h1 h0, zero_mul, mul_smul_comm, tb_mul_null hn h1 h0, smul_zero, sub_zero]
  have h3 : (vec (fun k => if k < d then c k else c k - 2 * ∑ j ∈ range d, c j * y j) : GA σ n T) =
      vec c - (2 * ∑ j ∈ range d, c j * y j) • e d := by
    unfold vec
    rw [hn, sum_range_succ, sum_range_succ]
    beta_reduce
    rw [if_neg (lt_irrefl d), sub_smul, add_sub_assoc]
    congr 1
    exact sum_congr rfl fun k hk => by rw [if_pos (mem_range.mp hk)]
  rw [h3, sub_mul, one_mul, sub_mul, mul_add, mul_add, mul_one, mul_one, h2, add_zero, hs]
  abel

end

end GA

section
variable {A : ClAlg} {S : Type} {T : Type} [CommRing T] [DecidableEq T] [CoeffStorage S T] [LawfulStorage S T]

/-- The computation returns a multivector with these coefficients, in the exterior algebra. -/
def MV.IsExt (x : Res (MV A S)) (g : GA.Ext A.dim T) : Prop := ∃ u, x = .ok u ∧ u.Valid ∧ u.ga.ext = g

theorem ga_ext (a : MV A S) : a.ga.ext = .of a.val := GA.ext_of _

theorem MV.isExt_of_denotes {x : Res (MV A S)} {f : Nat → T} (h : Denotes x f) : IsExt x (.of f) := by
  obtain ⟨u, hu, huv, huf⟩ := h
  exact ⟨u, hu, huv, by rw [ga_ext]; exact GA.of_congr huf⟩

theorem MV.IsExt.congr {x : Res (MV A S)} {g g' : GA.Ext A.dim T} (h : IsExt x g) (e : g = g') : IsExt x g' := e ▸ h

theorem MV.IsExt.bind {x : Res (MV A S)} {g g' : GA.Ext A.dim T} {k : MV A S → Res (MV A S)} (hx : IsExt x g)
    (hk : ∀ u, u.Valid → u.ga.ext = g → IsExt (k u) g') : IsExt (x >>= k) g' := by
  obtain ⟨u, rfl, huv, hug⟩ := hx
  exact hk u huv hug

theorem MV.isExt_wedge [WedgeProduct A S] [LawfulWedge A S] {a b : MV A S} (ha : a.Valid) (hb : b.Valid) :
    IsExt (a.wedge b) (a.ga.ext * b.ga.ext) := by
  rw [ga_ext, ga_ext, ← GA.of_mul]
  exact isExt_of_denotes (LawfulWedge.wedge ha hb)

theorem MV.isExt_meet [WedgeProduct A S] [LawfulWedge A S] (hA : A.WF) {a b : MV A S} (ha : a.Valid) (hb : b.Valid) :
    ∃ u, a.meet b = .ok u ∧ u.Valid ∧ GA.dual u.ga.ext = GA.dual a.ga.ext * GA.dual b.ga.ext := by
  obtain ⟨u, hu, huv, huf⟩ := LawfulWedge.meet hA ha hb
  refine ⟨u, hu, huv, ?_⟩
  rw [ga_ext, ga_ext, ga_ext, GA.of_congr huf, GA.dual_of, GA.dual_of, GA.dual_of, ← GA.of_mul]
  exact GA.of_congr fun i hi => undual_dual_F _ hi

theorem MV.IsExt.zero_iff (hS : LawfulStorage.Supp (S := S) (T := T) A.dim) {x : Res (MV A S)} {g : GA.Ext A.dim T} (h : IsExt x g) :
    x ≈ᵣ MV.default (T := T) ↔ g = 0 := by
  obtain ⟨u, rfl, huv, rfl⟩ := h
  rw [Is.iff_agree (Is.of_valid huv) (Is.zero hS)]
  constructor
  · intro h
    rw [h]
    have : (0 : GA A.sigma A.dim T) = .of (fun _ => 0) := GA.of_zero.symm
    rw [this, GA.ext_of, GA.of_zero]
  · intro h
    rw [ga_ext, ← GA.of_zero] at h
    rw [ga, ← GA.of_zero]
    exact GA.of_congr fun i hi => GA.of_inj h i hi

end

section
variable {sig : List Sym} {names : List String} {A : ClAlg} {d : Nat} {S : Type} [DecidableEq ℝ] [CoeffStorage S ℝ]
  [LawfulStorage S ℝ]

/-- The value of the hyperplane equation `c_0 x_0 + … + c_{d-1} x_{d-1} + c_d` at `x`. -/
def planeEq (d : Nat) (c x : List ℝ) : ℝ := (∑ k ∈ range d, c.getD k 0 * x.getD k 0) + c.getD d 0

theorem planeEq_hom {c x : List ℝ} (hx : x.length = d) : ∑ k ∈ range (d + 1), c.getD k 0 * hom x k = planeEq d c x := by
  rw [sum_range_succ]
  unfold planeEq
  congr 1
  · exact sum_congr rfl fun k hk => by rw [hom_lt (by have := mem_range.mp hk; omega)]
  · rw [← hx, hom_last, mul_one]

theorem csg_ne_zero (n : Nat) : (GA.csg n : ℝ) ≠ 0 := by
  intro h
  have := congrArg (Int.cast (R := ℝ)) (GA.csg_mul_self n)
  rw [Int.cast_mul, h] at this
  simp at this

/-- **C48.** A hyperplane wedged with a point is zero exactly if the point satisfies the hyperplane's equation, in every
dimension, every storage and both implementations of the wedge product.
Missing for the full claim: `pga_point(x)` for `x` the origin, which does not exist (`C46_origin_false`); `PointOf` includes the
unscaled origin. -/
theorem C48_hyperplane_partial [WedgeProduct A S] [LawfulWedge A S] (hA : declareAlgebra sig names = some A)
    (hp : implPga sig = some d) (hS : LawfulStorage.Supp (S := S) (T := ℝ) A.dim) {c x : List ℝ} (hc : c.length = d + 1)
    (hc0 : ∃ t ∈ c, t ≠ 0) (hx : x.length = d) {p : MV A S} (hpt : PointOf x p) :
    (do let h ← pgaHyperplane c; h.wedge p) ≈ᵣ MV.default (T := ℝ) ↔ planeEq d c x = 0 := by
  have hP := isPga hA hp
  obtain ⟨hpv, r, hr, hpg⟩ := hpt.ga hP hS hx
  have hm : euclMag c ≠ 0 := fun h => by
    obtain ⟨t, ht, hne⟩ := hc0
    exact hne (euclMag_eq_zero.mp h t ht)
  obtain ⟨h, hh, hhv, hhg⟩ := (is_hyperplane (S := S) hP hS hc hc0).ok
  rw [hh]
  show h.wedge p ≈ᵣ _ ↔ _
  rw [(isExt_wedge hhv hpv).zero_iff hS, hhg, hpg, GA.ext_smul, GA.ext_smul, GA.ext_dual, GA.ext_vec, GA.ext_vec, smul_mul_smul_comm,
    GA.vec_wedge_dual, smul_smul, smul_eq_zero, or_iff_left GA.ps_ne_zero, hP.dim, planeEq_hom hx, mul_eq_zero,
    or_iff_right (mul_ne_zero (inv_ne_zero hm) hr), mul_eq_zero, or_iff_right (csg_ne_zero _)]

/-- **C48.** The value of the equation, up to normalisation, is the pseudoscalar coefficient. -/
theorem C48_hyperplane_value [WedgeProduct A S] [LawfulWedge A S] (hA : declareAlgebra sig names = some A)
    (hp : implPga sig = some d) (hS : LawfulStorage.Supp (S := S) (T := ℝ) A.dim) {c x : List ℝ} (hc : c.length = d + 1)
    (hc0 : ∃ t ∈ c, t ≠ 0) (hx : x.length = d) (hx0 : ∃ t ∈ x, t ≠ 0) :
    ∃ w : MV A S, (do let h ← pgaHyperplane c; let p ← pgaPoint x; h.wedge p) = .ok w ∧
      (∀ i < 2 ^ (d + 1), i ≠ 2 ^ (d + 1) - 1 → w.getByIdx i = .ok 0) ∧
      w.getByIdx (2 ^ (d + 1) - 1) = .ok ((if d % 2 = 0 then 1 else -1) * planeEq d c x / (euclMag c * euclMag x)) := by
  have hP := isPga hA hp
  obtain ⟨h, hh, hhv, hhg⟩ := (is_hyperplane (S := S) hP hS hc hc0).ok
  obtain ⟨p, hp, hpv, hpg⟩ := (is_pgaPoint (S := S) hP hS hx hx0).ok
  rw [hh, hp]
  obtain ⟨w, hw, hwv, hwg⟩ := isExt_wedge hhv hpv
  refine ⟨w, hw, ?_⟩
  rw [hhg, hpg, GA.ext_smul, GA.ext_smul, GA.ext_dual, GA.ext_vec, GA.ext_vec, smul_mul_smul_comm,
    GA.vec_wedge_dual, smul_smul, ga_ext] at hwg
  have hval : ∀ i < 2 ^ (d + 1), w.getByIdx i = .ok ((euclMag c)⁻¹ * (euclMag x)⁻¹ * ((GA.csg A.dim : ℝ) *
      ∑ k ∈ range A.dim, c.getD k 0 * hom x k) * if i = 2 ^ (d + 1) - 1 then 1 else 0) := by
    intro i hi
    rw [← hP.dim] at hi
    have := congrArg (fun g => GA.fn g i) hwg
    beta_reduce at this
    rw [GA.fn_of _ hi, GA.fn_smul, GA.ps, GA.fn_bl _ hi] at this
    rw [hwv.get hi, this, hP.dim]
  constructor
  · intro i hi hne
    rw [hval i hi, if_neg hne, mul_zero]
  · rw [hval _ (by have := Nat.two_pow_pos (d + 1); omega), if_pos rfl, mul_one, hP.dim, planeEq_hom hx]
    congr 1
    have : (GA.csg (d + 1) : ℝ) = if d % 2 = 0 then 1 else -1 := by
      unfold GA.csg
      by_cases h : d % 2 = 0
      · rw [if_pos (by omega), if_pos h]; simp
      · rw [if_neg (by omega), if_neg h]; simp
    rw [this, div_eq_mul_inv, mul_inv]
    ring

/-- **C48 fails at the origin.** For a hyperplane through the origin the wedge product with `pga_point` of the origin is not
zero: it does not have finite coefficients. -/
theorem C48_origin_false [WedgeProduct A S] (hA : declareAlgebra sig names = some A) (hp : implPga sig = some d)
    (hS : LawfulStorage.Supp (S := S) (T := ℝ) A.dim) {c : List ℝ} (hc : c.length = d + 1) (hc0 : ∃ t ∈ c, t ≠ 0) :
    (do let h ← pgaHyperplane (A := A) (S := S) c; let p ← pgaPoint (List.replicate d 0); h.wedge p) = .error .nonFinite := by
  have hP := isPga hA hp
  obtain ⟨h, hh, -⟩ := (is_hyperplane (S := S) hP hS hc hc0).ok
  rw [hh, C46_origin_false hA hp hS]
  rfl

/-- **C48.** `p.meet(q)` is the line through the two points: `p.meet(q).meet(x)` is zero exactly if `x` is on the line through
them, or they are the same point. -/
theorem C48_line_partial [WedgeProduct A S] [LawfulWedge A S] (hA : declareAlgebra sig names = some A)
    (hp : implPga sig = some d) (hS : LawfulStorage.Supp (S := S) (T := ℝ) A.dim) {p q x : List ℝ} (hpl : p.length = d)
    (hql : q.length = d) (hxl : x.length = d) {P Q X : MV A S} (hP : PointOf p P) (hQ : PointOf q Q) (hX : PointOf x X) :
    (do let l ← P.meet Q; l.meet X) ≈ᵣ MV.default (T := ℝ) ↔
      p = q ∨ ∃ t : ℝ, x = List.zipWith (fun a b => a + t * (b - a)) p q := by
  have hA' := isPga hA hp
  obtain ⟨hPv, r, hr, hPg⟩ := hP.ga hA' hS hpl
  obtain ⟨hQv, s, hs, hQg⟩ := hQ.ga hA' hS hql
  obtain ⟨hXv, t, ht, hXg⟩ := hX.ga hA' hS hxl
  obtain ⟨l, hl, hlv, hlg⟩ := isExt_meet hA'.wf hPv hQv
  obtain ⟨m, hm, hmv, hmg⟩ := isExt_meet hA'.wf hlv hXv
  rw [hl]
  show l.meet X ≈ᵣ _ ↔ _
  rw [hm, MV.IsExt.zero_iff hS ⟨m, rfl, hmv, rfl⟩]
  have hc := csg_ne_zero A.dim
  have hd : ∀ {a : MV A S} {r : ℝ} {y : List ℝ}, a.ga = r • GA.dual (GA.vec (hom y)) →
      GA.dual a.ga.ext = (r * (GA.csg A.dim : ℝ)) • (GA.vec (hom y) : GA.Ext A.dim ℝ) := by
    intro a r y h
    rw [h, GA.ext_smul, GA.ext_dual, GA.ext_vec, map_smul, GA.dual_dual_vec, smul_smul]
  have h0 : m.ga.ext = 0 ↔ GA.dual m.ga.ext = 0 :=
    ⟨fun h => by rw [h, map_zero], fun h => GA.dual_inj (by rw [h, map_zero])⟩
  rw [h0, hmg, hlg, hd hPg, hd hQg, hd hXg, smul_mul_smul_comm, smul_mul_smul_comm, smul_eq_zero,
    or_iff_right (mul_ne_zero (mul_ne_zero (mul_ne_zero hr hc) (mul_ne_zero hs hc)) (mul_ne_zero ht hc)),
    GA.collinear_iff hA'.dim (by rw [← hpl, hom_last]) (by rw [← hql, hom_last]) (by rw [← hxl, hom_last])]
  refine or_congr ?_ (exists_congr fun u => ?_)
  · constructor
    · intro h
      rw [← range_map_getD p, ← range_map_getD q, hpl, hql]
      refine List.map_congr_left fun k hk => ?_
      have hk := List.mem_range.mp hk
      have := h k hk
      rwa [hom_lt (by omega), hom_lt (by omega)] at this
    · rintro rfl k _; rfl
  · constructor
    · intro h
      apply List.ext_getElem
      · simp; omega
      · intro k h1 h2
        have := h k (by omega)
        rw [hom_lt (by omega), hom_lt (by omega), hom_lt (by omega), List.getD_eq_getElem _ _ h1,
          List.getD_eq_getElem _ _ (by omega), List.getD_eq_getElem _ _ (by omega)] at this
        rw [this, List.getElem_zipWith]
    · intro h k hk
      have hk' : k < (List.zipWith (fun a b => a + u * (b - a)) p q).length := by simp; omega
      rw [hom_lt (by omega), hom_lt (by omega), hom_lt (by omega), h, List.getD_eq_getElem _ _ hk', List.getElem_zipWith,
        List.getD_eq_getElem _ _ (by omega), List.getD_eq_getElem _ _ (by omega)]

/-- **C48.** The meet of two points is incident with both. -/
theorem C48_meet_incident_partial [WedgeProduct A S] [LawfulWedge A S] (hA : declareAlgebra sig names = some A)
    (hp : implPga sig = some d) (hS : LawfulStorage.Supp (S := S) (T := ℝ) A.dim) {p q : List ℝ} (hpl : p.length = d)
    (hql : q.length = d) {P Q : MV A S} (hP : PointOf p P) (hQ : PointOf q Q) :
    (do let l ← P.meet Q; l.meet P) ≈ᵣ MV.default (T := ℝ) ∧ (do let l ← P.meet Q; l.meet Q) ≈ᵣ MV.default (T := ℝ) := by
  constructor
  · refine (C48_line_partial hA hp hS hpl hql hpl hP hQ hP).mpr (.inr ⟨0, ?_⟩)
    apply List.ext_getElem
    · simp; omega
    · intro k h1 h2; simp
  · refine (C48_line_partial hA hp hS hpl hql hql hP hQ hQ).mpr (.inr ⟨1, ?_⟩)
    apply List.ext_getElem
    · simp; omega
    · intro k h1 h2; simp

/-- **C47.** A translation applied to a hyperplane: `t.rev() * h * t` is the hyperplane with the constant term
`c_d - Σ c_k v_k` (scaled as the original one). -/
theorem C47_hyperplane (hA : declareAlgebra sig names = some A) (hp : implPga sig = some d)
    (hS : LawfulStorage.Supp (S := S) (T := ℝ) A.dim) {c v : List ℝ} (hc : c.length = d) (hv : v.length = d) (w : ℝ)
    (hc0 : ∃ t ∈ c ++ [w], t ≠ 0) :
    (do let t ← pgaTranslation (A := A) (S := S) v; let r ← t.rev; let h ← pgaHyperplane (c ++ [w]); let q ← r.naiveMulImpl h
        q.naiveMulImpl t) ≈ᵣ
      (do let u ← fromVector (c ++ [w - (List.zipWith (· * ·) c v).sum]); u.sdiv (euclMag (c ++ [w]))) := by
  have hP := isPga hA hp
  have hm : euclMag (c ++ [w]) ≠ 0 := fun h => by
    obtain ⟨t, ht, hne⟩ := hc0
    exact hne (euclMag_eq_zero.mp h t ht)
  refine Is.agree ((is_translation hP hS (v := v) (by omega)).bind fun t ht htg => (is_rev ht).bind fun r hr hrg =>
    (is_hyperplane hP hS (by simp [hc]) hc0).bind fun h hh hhg => (is_mul hP.wf hr hh).bind fun q hq hqg =>
    (is_mul hP.wf hq ht).congr (by
      rw [hqg, hrg, hhg, htg, map_add, GA.rev_one, GA.rev_tb' hP.dim hP.unit hP.null, ← sub_eq_add_neg, mul_smul_comm, smul_mul_assoc,
        GA.tb_sandwich_vec hP.dim hP.unit hP.null]))
    ((is_fromVector hS (by simp [hc, hP.dim])).bind fun u hu hug => (is_sdiv hu hm).congr (by rw [hug])) ?_
  congr 1
  refine GA.vec_congr fun k hk => ?_
  rw [hP.dim] at hk
  by_cases hkd : k < d
  · rw [if_pos hkd, List.getD_append _ _ _ _ (by omega), List.getD_append _ _ _ _ (by omega)]
  · have : k = d := by omega
    subst this
    rw [if_neg hkd, List.getD_append_right _ _ _ _ (by omega), List.getD_append_right _ _ _ _ (by omega), hc]
    simp only [Nat.sub_self, List.getD_cons_zero]
    congr 1
    have : (List.zipWith (· * ·) c v).sum = ∑ j ∈ range k, c.getD j 0 * v.getD j 0 := by
      have : List.zipWith (· * ·) c v = (List.range k).map fun j => c.getD j 0 * v.getD j 0 := by
        apply List.ext_getElem
        · simp; omega
        · intro i h1 h2
          have : i < k := by simpa using h2
          rw [List.getElem_zipWith, List.getElem_map, List.getElem_range, List.getD_eq_getElem c 0 (by omega),
            List.getD_eq_getElem v 0 (by omega)]
      rw [this]
      rfl
    rw [this, mul_sum]
    refine sum_congr rfl fun j hj => ?_
    rw [List.getD_append _ _ _ _ (by have := mem_range.mp hj; omega)]
    ring

end

/-! ### Examples -/

namespace Ex

/-- Signature `[+,+,+,0]`. -/
def sigP : List Sym := [.plus, .plus, .plus, .null]

/-- `declare_algebra!(PGA3, [+, +, +, 0], ["x", "y", "z", "e"])`, src/pga.rs:70. -/
def P3 : ClAlg := (declareAlgebra sigP ["x", "y", "z", "e"]).get rfl

theorem P3_decl : declareAlgebra sigP ["x", "y", "z", "e"] = some P3 := rfl

theorem P3_pga : implPga sigP = some 3 := rfl

noncomputable instance : DecidableEq ℝ := Classical.decEq ℝ

abbrev PD := ArrayStorage ℝ

theorem P3_supp : LawfulStorage.Supp (S := PD) (T := ℝ) P3.dim := by
  show P3.dim ≤ 63
  decide

example := C46_roundtrip_partial (S := PD) P3_decl P3_pga P3_supp (x := [3, 3, 3]) rfl ⟨3, by simp, by norm_num⟩

example : ∃ p : MV P3 PD, PointOf [0, 0, 0] p := by
  obtain ⟨p, hp, -⟩ := (is_rawPoint (S := PD) (isPga P3_decl P3_pga) P3_supp (x := [0, 0, 0]) rfl).ok
  exact ⟨p, .inr hp⟩

theorem P3_point (x : List ℝ) (hx : x.length = 3) (h0 : ∃ c ∈ x, c ≠ 0) : ∃ p : MV P3 PD, PointOf x p := by
  obtain ⟨p, hp, -⟩ := C46_roundtrip_partial (S := PD) P3_decl P3_pga P3_supp hx h0
  exact ⟨p, .inl hp⟩

example := C46_origin_false (S := PD) P3_decl P3_pga P3_supp
example := C46_unscaled (S := PD) P3_decl P3_pga P3_supp (x := [2, 4, 6]) rfl (w := 2) (by norm_num)
example := C46_length (S := PD) P3_decl P3_pga P3_supp (x := [2, 4]) (by simp)

example : ∃ t : MV P3 PD, pgaTranslation [4, 0, 3] = .ok t := by
  obtain ⟨p, hp⟩ := P3_point [3, 3, 3] rfl ⟨3, by simp, by norm_num⟩
  obtain ⟨t, ht, -⟩ := C47_translate_partial P3_decl P3_pga P3_supp (x := [3, 3, 3]) (v := [4, 0, 3]) rfl rfl hp
  exact ⟨t, ht⟩

example := C47_compose (S := PD) P3_decl P3_pga P3_supp (v := [4, 0, 3]) (w := [1, 2, 5]) rfl rfl
example := C47_unitary (S := PD) P3_decl P3_pga P3_supp (v := [4, 0, 3]) rfl
example := C47_hyperplane (S := PD) P3_decl P3_pga P3_supp (c := [1, 1, 1]) (v := [4, 0, 3]) rfl rfl (-9) ⟨1, by simp, by norm_num⟩

/-- The basis of `P3` has a last vector. -/
theorem P3_basis : ∃ (es : List (MV P3 PD)) (e : MV P3 PD), MV.basis (T := ℝ) = .ok (es ++ [e]) := by
  obtain ⟨bs, hbs, hlen, -⟩ := basis_ok (A := P3) (S := PD) (T := ℝ) P3_supp
  have : bs ≠ [] := by intro h; rw [h] at hlen; exact absurd hlen (by decide)
  exact ⟨bs.dropLast, bs.getLast this, by rw [List.dropLast_append_getLast this]; exact hbs⟩

example : True := by
  obtain ⟨es, e, h⟩ := P3_basis
  have := C47_bivector P3_decl P3_pga P3_supp h (v := [4, 0, 3]) rfl
  have := C47_exp_partial P3_decl P3_pga P3_supp h (v := [4, 0, 3]) rfl (by
    intro x hx
    rw [List.mem_cons, List.mem_cons, List.mem_singleton] at hx
    rcases hx with rfl | rfl | rfl <;> norm_num) (fuel := 20) (by norm_num)
  have := C47_exp_false P3_decl P3_pga P3_supp h (v := [2 ^ 66, 0, 3]) rfl (x := 2 ^ 66) (by simp) (by norm_num) (fuel := 20) (by norm_num)
  trivial

/-- The point of the library's own test lies on the plane, and the plane does not contain `(3, 3, 4)`. -/
example : planeEq 3 [1, 1, 1, -9] [3, 3, 3] = 0 ∧ planeEq 3 [1, 1, 1, -9] [3, 3, 4] ≠ 0 := by
  unfold planeEq
  simp [sum_range_succ]
  norm_num

example : True := by
  obtain ⟨p, hp⟩ := P3_point [3, 3, 3] rfl ⟨3, by simp, by norm_num⟩
  obtain ⟨q, hq⟩ := P3_point [1, 2, 3] rfl ⟨1, by simp, by norm_num⟩
  obtain ⟨x, hx⟩ := P3_point [5, 4, 3] rfl ⟨5, by simp, by norm_num⟩
  have := C48_hyperplane_partial P3_decl P3_pga P3_supp (c := [1, 1, 1, -9]) rfl ⟨1, by simp, by norm_num⟩ rfl hp
  have := C48_line_partial P3_decl P3_pga P3_supp rfl rfl rfl hp hq hx
  have := C48_meet_incident_partial P3_decl P3_pga P3_supp rfl rfl hp hq
  trivial

example := C48_hyperplane_value (S := PD) P3_decl P3_pga P3_supp (c := [1, 1, 1, -9]) (x := [3, 3, 4]) rfl ⟨1, by simp, by norm_num⟩
  rfl ⟨3, by simp, by norm_num⟩
example := C48_origin_false (S := PD) P3_decl P3_pga P3_supp (c := [1, 1, 1, 0]) rfl ⟨1, by simp, by norm_num⟩

example := (C49_ok_iff_partial (S := PD) P3_decl P3_pga P3_supp [1, 2, 3, 4, 5]).2 (by simp)
example := (C49_ok_iff_partial (S := PD) P3_decl P3_pga P3_supp [1, 2, 3]).1 (by simp)
example := C49_extra_entry_false (S := PD) P3_decl P3_pga P3_supp [1, 2, 3] rfl 4
example := C49_short (S := PD) P3_decl P3_pga P3_supp [1, 2] (by simp)

end Ex

end TClifford
