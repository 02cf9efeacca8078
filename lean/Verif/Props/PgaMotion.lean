import Verif.Proofs.PgaMotion
import Verif.Props.PgaJoin
import Mathlib.Analysis.InnerProductSpace.Projection.FiniteDimensional
import Mathlib.Analysis.InnerProductSpace.PiL2
import Mathlib.Analysis.Normed.Affine.MazurUlam
/-
C89: sandwiching a PGA point with hyperplanes reflects it, products of hyperplanes give exactly the isometries of space.
-/

set_option linter.unusedSectionVars false

namespace TClifford

open MV Finset

/-- The mirror image of `x` in the hyperplane `c_0 x_0 + … + c_{d-1} x_{d-1} + c_d = 0`. -/
noncomputable def mirror (d : Nat) (c x : List ℝ) : List ℝ :=
  (List.range d).map fun k => x.getD k 0 - 2 * planeEq d c x / (∑ j ∈ range d, c.getD j 0 * c.getD j 0) * c.getD k 0

/-- The coefficients of the equation of a hyperplane: `d + 1` numbers, the first `d` not all zero. -/
def IsPlane (d : Nat) (c : List ℝ) : Prop := c.length = d + 1 ∧ ∃ k < d, c.getD k 0 ≠ 0

theorem IsPlane.ne_zero {d : Nat} {c : List ℝ} (h : IsPlane d c) : ∃ t ∈ c, t ≠ 0 := by
  obtain ⟨h, k, hk, hne⟩ := h
  rw [List.getD_eq_getElem _ _ (by omega)] at hne
  exact ⟨_, List.getElem_mem _, hne⟩

theorem IsPlane.sq_pos {d : Nat} {c : List ℝ} (h : IsPlane d c) : 0 < ∑ j ∈ range d, c.getD j 0 * c.getD j 0 := by
  obtain ⟨-, k, hk, hne⟩ := h
  exact sum_pos' (fun j _ => mul_self_nonneg _) ⟨k, mem_range.mpr hk, mul_self_pos.mpr hne⟩

theorem mirror_length (d : Nat) (c x : List ℝ) : (mirror d c x).length = d := by simp [mirror]

theorem mirror_getD {d k : Nat} (hk : k < d) (c x : List ℝ) : (mirror d c x).getD k 0 =
    x.getD k 0 - 2 * planeEq d c x / (∑ j ∈ range d, c.getD j 0 * c.getD j 0) * c.getD k 0 := by
  rw [List.getD_eq_getElem _ _ (by rw [mirror_length]; exact hk)]
  simp [mirror]

section
variable {sig : List Sym} {names : List String} {A : ClAlg} {d : Nat} {S : Type} [DecidableEq ℝ] [CoeffStorage S ℝ]
  [LawfulStorage S ℝ]

/-- A multiple of the point `x` in the ring. -/
def IsPt (A : ClAlg) (d : Nat) (x : List ℝ) (g : GA A.sigma A.dim ℝ) : Prop :=
  x.length = d ∧ ∃ t : ℝ, t ≠ 0 ∧ g = t • GA.dual (GA.vec (hom x))

theorem IsPt.mirror (hP : IsPga A d) {c x : List ℝ} (hc : IsPlane d c) {g : GA A.sigma A.dim ℝ} (hg : IsPt A d x g) :
    IsPt A d (mirror d c x) (GA.vec (fun k => c.getD k 0) * g * GA.vec (fun k => c.getD k 0)) := by
  obtain ⟨hx, t, ht, rfl⟩ := hg
  refine ⟨mirror_length d c x, -(GA.csg A.dim : ℝ) * t * (∑ j ∈ range d, c.getD j 0 * c.getD j 0),
    mul_ne_zero (mul_ne_zero (neg_ne_zero.mpr (csg_ne_zero _)) ht) hc.sq_pos.ne', ?_⟩
  have key : ∀ n, n = d + 1 → A.sigma d = 0 → (GA.vec (fun k => c.getD k 0) * GA.dual (GA.vec (hom x)) * GA.vec (fun k => c.getD k 0) : GA A.sigma n ℝ) =
      (-(GA.csg n : ℝ)) • GA.dual (GA.vec (fun k => if k < d then (∑ j ∈ range d, c.getD j 0 * c.getD j 0) * hom x k -
        2 * (∑ j ∈ range (d + 1), c.getD j 0 * hom x j) * c.getD k 0 else (∑ j ∈ range d, c.getD j 0 * c.getD j 0) * hom x k)) := by
    intro n hn h0
    subst hn
    exact GA.vec_sandwich_dual hP.unit h0 _ _
  have hv : (GA.vec (fun k => if k < d then (∑ j ∈ range d, c.getD j 0 * c.getD j 0) * hom x k -
        2 * (∑ j ∈ range (d + 1), c.getD j 0 * hom x j) * c.getD k 0 else (∑ j ∈ range d, c.getD j 0 * c.getD j 0) * hom x k) :
        GA A.sigma A.dim ℝ) = (∑ j ∈ range d, c.getD j 0 * c.getD j 0) • GA.vec (hom (TClifford.mirror d c x)) := by
    rw [← GA.vec_smul]
    refine GA.vec_congr fun k hk => ?_
    rw [hP.dim] at hk
    by_cases hkd : k < d
    · rw [if_pos hkd, hom_lt (by omega), hom_lt (by rw [mirror_length]; exact hkd), mirror_getD hkd, planeEq_hom hx]
      have h0 := hc.sq_pos.ne'
      generalize (∑ j ∈ range d, c.getD j 0 * c.getD j 0) = q at h0 ⊢
      field_simp
    · have : k = d := by omega
      subst this
      have h1 : hom x k = 1 := by rw [← hx, hom_last]
      have h2 := hom_last (x := TClifford.mirror k c x)
      rw [mirror_length] at h2
      rw [if_neg hkd, h1, h2]
  rw [mul_smul_comm, smul_mul_assoc, key _ hP.dim hP.null, hv, map_smul]
  module

theorem IsPt.smul {x : List ℝ} {g : GA A.sigma A.dim ℝ} (hg : IsPt A d x g) {r : ℝ} (hr : r ≠ 0) : IsPt A d x (r • g) := by
  obtain ⟨hx, t, ht, rfl⟩ := hg
  exact ⟨hx, r * t, mul_ne_zero hr ht, by rw [smul_smul]⟩

/-- The coordinates of a point. -/
theorem IsPt.extract (hP : IsPga A d) {x : List ℝ} {q : MV A S} (hq : q.Valid) (hg : IsPt A d x q.ga) : q.pgaExtractPoint d = .ok x := by
  obtain ⟨hx, t, ht, hg⟩ := hg
  have hl : hom x d = 1 := by rw [← hx, hom_last]
  rw [extract_ok hP hq hg ht (by rw [hl]; exact one_ne_zero), hl]
  congr 1
  refine Eq.trans ?_ (range_map_getD x)
  rw [hx]
  exact List.map_congr_left fun k hk => by rw [div_one, hom_lt (by rw [hx]; exact List.mem_range.mp hk)]

/-- **C89.** `h * p * h` is the mirror image of the point, for `h = pga_hyperplane(c)` and `p` a multivector of the point `x`. -/
theorem C89_reflection (hA : declareAlgebra sig names = some A) (hp : implPga sig = some d)
    (hS : LawfulStorage.Supp (S := S) (T := ℝ) A.dim) {c x : List ℝ} (hc : IsPlane d c) (hx : x.length = d) {p : MV A S}
    (hpt : PointOf x p) :
    (do let h ← pgaHyperplane c; let q ← h.naiveMulImpl p; let q ← q.naiveMulImpl h; q.pgaExtractPoint d) =
      .ok (mirror d c x) := by
  have hP := isPga hA hp
  obtain ⟨hpv, r, hr, hpg⟩ := hpt.ga hP hS hx
  have hm : euclMag c ≠ 0 := fun h => by
    obtain ⟨t, ht, hne⟩ := hc.ne_zero
    exact hne (euclMag_eq_zero.mp h t ht)
  obtain ⟨h, hh, hhv, hhg⟩ := (is_hyperplane (S := S) hP hS hc.1 hc.ne_zero).ok
  obtain ⟨q, hq, hqv, hqg⟩ := (is_mul hP.wf hhv hpv).ok
  obtain ⟨w, hw, hwv, hwg⟩ := (is_mul hP.wf hqv hhv).ok
  rw [hh]
  show (h.naiveMulImpl p >>= fun q => _) = _
  rw [hq]
  show (q.naiveMulImpl h >>= fun q => _) = _
  rw [hw]
  refine IsPt.extract hP hwv ?_
  rw [hwg, hqg, hhg, smul_mul_assoc, smul_mul_assoc, mul_smul_comm]
  exact ((IsPt.mirror hP hc ⟨hx, r, hr, hpg⟩).smul (inv_ne_zero hm)).smul (inv_ne_zero hm)

/-- The product of hyperplanes. -/
noncomputable def mirrors (cs : List (List ℝ)) : Res (MV A S) := do
  let hs ← cs.mapM pgaHyperplane
  versor hs

theorem is_mirrors (hP : IsPga A d) (hS : LawfulStorage.Supp (S := S) (T := ℝ) A.dim) (cs : List (List ℝ)) (hc : ∀ c ∈ cs, IsPlane d c) :
    ∃ V : MV A S, mirrors cs = .ok V ∧ V.Valid ∧ ∀ g x, IsPt A d x g →
      IsPt A d (cs.foldl (fun x c => mirror d c x) x) (GA.rev V.ga * g * V.ga) := by
  have key : ∃ hs : List (MV A S), cs.mapM pgaHyperplane = .ok hs ∧ (∀ h ∈ hs, h.Valid) ∧ ∀ g x, IsPt A d x g →
      IsPt A d (cs.foldl (fun x c => mirror d c x) x) (GA.rev (hs.map MV.ga).prod * g * (hs.map MV.ga).prod) := by
    induction cs with
    | nil => exact ⟨[], rfl, by simp, fun g x h => by simpa [GA.rev_one] using h⟩
    | cons c cs ih =>
      obtain ⟨hs, i1, i2, i3⟩ := ih fun c' h => hc c' (by simp [h])
      have hcp := hc c (by simp)
      have hm : euclMag c ≠ 0 := fun h => by
        obtain ⟨t, ht, hne⟩ := hcp.ne_zero
        exact hne (euclMag_eq_zero.mp h t ht)
      obtain ⟨h, hh, hhv, hhg⟩ := (is_hyperplane (S := S) hP hS hcp.1 hcp.ne_zero).ok
      refine ⟨h :: hs, ?_, ?_, ?_⟩
      · rw [List.mapM_cons, hh, i1]; rfl
      · intro h' hm'
        rcases List.mem_cons.mp hm' with rfl | hm'
        · exact hhv
        · exact i2 _ hm'
      · intro g x hg
        rw [List.map_cons, List.prod_cons, List.foldl_cons]
        have h1 := ((IsPt.mirror hP hcp hg).smul (inv_ne_zero hm)).smul (inv_ne_zero hm)
        have h2 := i3 _ _ h1
        have : GA.rev h.ga = h.ga := by
          rw [hhg, map_smul, (GA.vec_isVec _).rev_eq]
        rw [GA.rev_mul, this]
        have e : ∀ a b : GA A.sigma A.dim ℝ, a * h.ga * g * (h.ga * b) = a * (h.ga * g * h.ga) * b := fun a b => by
          simp only [mul_assoc]
        rw [e]
        have e2 : h.ga * g * h.ga = (euclMag c)⁻¹ • (euclMag c)⁻¹ • (GA.vec (fun k => c.getD k 0) * g * GA.vec (fun k => c.getD k 0)) := by
          rw [hhg, smul_mul_assoc, smul_mul_assoc, mul_smul_comm]
        rw [e2]
        exact h2
  obtain ⟨hs, i1, i2, i3⟩ := key
  obtain ⟨V, v1, v2, v3⟩ := (is_versor hP.wf hS hs i2).ok
  refine ⟨V, ?_, v2, fun g x hg => by rw [v3]; exact i3 g x hg⟩
  unfold mirrors
  rw [i1]
  exact v1

theorem is_rotate' (hA : A.WF) {R x : MV A S} (hR : R.Valid) (hx : x.Valid) : Is (R.rotate x) (GA.rev R.ga * x.ga * R.ga) :=
  (is_rev hR).bind fun r hr hrg => (is_mul hA hr hx).bind fun z hz hzg => (is_mul hA hz hR).congr (by rw [hzg, hrg])

/-- **C89.** For a product `V` of hyperplanes, `V.rev() * p * V` is the point mirrored in the hyperplanes, one after another. -/
theorem C89_mirrors (hA : declareAlgebra sig names = some A) (hp : implPga sig = some d)
    (hS : LawfulStorage.Supp (S := S) (T := ℝ) A.dim) {cs : List (List ℝ)} (hc : ∀ c ∈ cs, IsPlane d c) {x : List ℝ} (hx : x.length = d)
    {p : MV A S} (hpt : PointOf x p) :
    (do let V ← mirrors cs; let q ← V.rotate p; q.pgaExtractPoint d) = .ok (cs.foldl (fun x c => mirror d c x) x) := by
  have hP := isPga hA hp
  obtain ⟨hpv, r, hr, hpg⟩ := hpt.ga hP hS hx
  obtain ⟨V, v1, v2, v3⟩ := is_mirrors (S := S) hP hS cs hc
  obtain ⟨q, hq, hqv, hqg⟩ := (is_rotate' hP.wf v2 hpv).ok
  rw [v1]
  show (V.rotate p >>= fun q => _) = _
  rw [hq]
  refine IsPt.extract hP hqv ?_
  rw [hqg]
  exact v3 _ _ ⟨hx, r, hr, hpg⟩

/-- A translation moves points. -/
theorem IsPt.translate (hP : IsPga A d) {x : List ℝ} {g : GA A.sigma A.dim ℝ} (hg : IsPt A d x g) (y : Nat → ℝ) {z : List ℝ}
    (hz : z.length = d) (h : ∀ k < d, z.getD k 0 = x.getD k 0 + 2 * y k) :
    IsPt A d z ((1 - GA.tb d y) * g * (1 + GA.tb d y)) := by
  obtain ⟨hx, t, ht, rfl⟩ := hg
  refine ⟨hz, t, ht, ?_⟩
  rw [mul_smul_comm, smul_mul_assoc, GA.tb_sandwich' hP.dim hP.unit hP.null]
  congr 2
  refine GA.vec_congr fun k hk => ?_
  rw [hP.dim] at hk
  have hl : hom x d = 1 := by rw [← hx, hom_last]
  by_cases hkd : k < d
  · rw [if_pos hkd, hl, hom_lt (by omega), hom_lt (by omega), h k hkd]; ring
  · have : k = d := by omega
    subst this
    rw [if_neg hkd, hl, ← hz, hom_last]

/-- **C89.** `t.rev() * V * t` for a translation `t = pga_translation(v)` and a product `V` of hyperplanes does the same as `V`, with
`v` in the place of the origin (this is how the crate's test turns a point around another one). -/
theorem C89_around_point (hA : declareAlgebra sig names = some A) (hp : implPga sig = some d)
    (hS : LawfulStorage.Supp (S := S) (T := ℝ) A.dim) {cs : List (List ℝ)} (hc : ∀ c ∈ cs, IsPlane d c) {x v : List ℝ} (hx : x.length = d)
    (hv : v.length = d) {p : MV A S} (hpt : PointOf x p) :
    (do let t ← pgaTranslation v; let V ← mirrors cs; let r ← t.rev; let W ← r.naiveMulImpl V; let W ← W.naiveMulImpl t
        let q ← W.rotate p; q.pgaExtractPoint d) =
      .ok (List.zipWith (· + ·) (cs.foldl (fun x c => mirror d c x) (List.zipWith (· - ·) x v)) v) := by
  have hP := isPga hA hp
  obtain ⟨hpv, r, hr, hpg⟩ := hpt.ga hP hS hx
  obtain ⟨t, t1, t2, t3⟩ := (is_translation (S := S) hP hS (v := v) (by omega)).ok
  obtain ⟨V, v1, v2, v3⟩ := is_mirrors (S := S) hP hS cs hc
  obtain ⟨u, u1, u2, u3⟩ := (is_rev t2).ok
  obtain ⟨W, w1, w2, w3⟩ := (is_mul hP.wf u2 v2).ok
  obtain ⟨W', x1, x2, x3⟩ := (is_mul hP.wf w2 t2).ok
  obtain ⟨q, q1, q2, q3⟩ := (is_rotate' hP.wf x2 hpv).ok
  rw [t1]
  show (mirrors cs >>= fun V => _) = _
  rw [v1]
  show (t.rev >>= fun V => _) = _
  rw [u1]
  show (u.naiveMulImpl V >>= fun V => _) = _
  rw [w1]
  show (W.naiveMulImpl t >>= fun V => _) = _
  rw [x1]
  show (W'.rotate p >>= fun q => _) = _
  rw [q1]
  refine IsPt.extract hP q2 ?_
  set y : Nat → ℝ := fun k => v.getD k 0 / 2 with hy
  have hneg : (GA.tb d (fun k => -y k) : GA A.sigma A.dim ℝ) = -GA.tb d y := by
    unfold GA.tb
    rw [← sum_neg_distrib]
    exact sum_congr rfl fun k _ => by rw [neg_smul]
  have hrev : GA.rev (GA.tb d y : GA A.sigma A.dim ℝ) = -GA.tb d y := GA.rev_tb' hP.dim hP.unit hP.null _
  have e1 := IsPt.translate hP ⟨hx, r, hr, hpg⟩ (fun k => -y k) (z := List.zipWith (· - ·) x v) (by simp [hx, hv]) (fun k hk => by
    rw [List.getD_eq_getElem _ _ (by simp [hx, hv]; exact hk), List.getElem_zipWith, List.getD_eq_getElem _ _ (by omega), hy]
    beta_reduce
    rw [List.getD_eq_getElem _ _ (by omega)]
    ring)
  have e2 := v3 _ _ e1
  have hl : ∀ (l : List (List ℝ)) (z : List ℝ), z.length = d → (l.foldl (fun x c => mirror d c x) z).length = d := by
    intro l
    induction l with
    | nil => exact fun z h => h
    | cons c l ih => exact fun z _ => ih _ (mirror_length d c z)
  have hl' := hl cs (List.zipWith (· - ·) x v) (by simp [hx, hv])
  have e3 := IsPt.translate hP e2 y (z := List.zipWith (· + ·) (cs.foldl (fun x c => mirror d c x) (List.zipWith (· - ·) x v)) v)
    (by simp [hl', hv]) (fun k hk => by rw [zipWith_getD _ _ (by omega), hy]; ring)
  rw [hneg, sub_neg_eq_add, ← sub_eq_add_neg] at e3
  rw [q3, x3, w3, u3, t3]
  refine Eq.mp (congrArg _ ?_) e3
  rw [GA.rev_mul, GA.rev_mul, map_add, GA.rev_one, hrev, map_add, GA.rev_one, map_neg, hrev, neg_neg, ← sub_eq_add_neg]
  simp only [mul_assoc]

/-- The square of the distance of two points. -/
def dist2 (d : Nat) (x y : List ℝ) : ℝ := ∑ k ∈ range d, (x.getD k 0 - y.getD k 0) ^ 2

theorem mirror_dist (d : Nat) {c : List ℝ} (hc : IsPlane d c) (x y : List ℝ) : dist2 d (mirror d c x) (mirror d c y) = dist2 d x y := by
  unfold dist2
  set q := ∑ j ∈ range d, c.getD j 0 * c.getD j 0 with hq
  have hq0 : q ≠ 0 := hc.sq_pos.ne'
  set t := 2 * (planeEq d c x - planeEq d c y) / q with ht
  have hp : planeEq d c x - planeEq d c y = ∑ k ∈ range d, c.getD k 0 * (x.getD k 0 - y.getD k 0) := by
    unfold planeEq
    rw [add_sub_add_right_eq_sub, ← sum_sub_distrib]
    exact sum_congr rfl fun k _ => by ring
  have : ∀ k ∈ range d, ((mirror d c x).getD k 0 - (mirror d c y).getD k 0) ^ 2 =
      (x.getD k 0 - y.getD k 0) ^ 2 - 2 * t * (c.getD k 0 * (x.getD k 0 - y.getD k 0)) + t ^ 2 * (c.getD k 0 * c.getD k 0) := by
    intro k hk
    rw [mirror_getD (mem_range.mp hk), mirror_getD (mem_range.mp hk), ← hq, ht]
    ring
  rw [sum_congr rfl this, sum_add_distrib, sum_sub_distrib, ← mul_sum, ← mul_sum, ← hp, ← hq, ht]
  field_simp
  ring

/-- **C89.** Sandwiching with a product of hyperplanes keeps distances. -/
theorem C89_distance (hA : declareAlgebra sig names = some A) (hp : implPga sig = some d)
    (hS : LawfulStorage.Supp (S := S) (T := ℝ) A.dim) {cs : List (List ℝ)} (hc : ∀ c ∈ cs, IsPlane d c) {V : MV A S} (hV : mirrors cs = .ok V)
    {x y : List ℝ} (hx : x.length = d) (hy : y.length = d) {p q : MV A S} (hpt : PointOf x p) (hqt : PointOf y q) :
    ∃ x' y', (do let r ← V.rotate p; r.pgaExtractPoint d) = .ok x' ∧ (do let r ← V.rotate q; r.pgaExtractPoint d) = .ok y' ∧
      dist2 d x' y' = dist2 d x y := by
  have h1 := C89_mirrors hA hp hS hc hx hpt
  have h2 := C89_mirrors hA hp hS hc hy hqt
  rw [hV] at h1 h2
  refine ⟨_, _, h1, h2, ?_⟩
  clear h1 h2 hV hpt hqt hx hy
  induction cs generalizing x y with
  | nil => rfl
  | cons c cs ih =>
    rw [List.foldl_cons, List.foldl_cons, ih fun c' h => hc c' (by simp [h]), mirror_dist d (hc c (by simp))]

end

/-! ### All isometries -/

section
variable {d : Nat}

/-- Coordinates as a list. -/
def coords (x : EuclideanSpace ℝ (Fin d)) : List ℝ := List.ofFn fun i => x i

theorem coords_length (x : EuclideanSpace ℝ (Fin d)) : (coords x).length = d := by simp [coords]

theorem coords_getD (x : EuclideanSpace ℝ (Fin d)) {k : Nat} (hk : k < d) : (coords x).getD k 0 = x ⟨k, hk⟩ := by
  rw [List.getD_eq_getElem _ _ (by rw [coords_length]; exact hk)]
  simp [coords]

theorem sum_coords (x y : EuclideanSpace ℝ (Fin d)) (w : ℝ) :
    ∑ j ∈ range d, (coords x ++ [w]).getD j 0 * (coords y).getD j 0 = inner ℝ x y := by
  rw [PiLp.inner_apply, Finset.sum_range]
  refine sum_congr rfl fun i _ => ?_
  rw [List.getD_append _ _ _ _ (by rw [coords_length]; exact i.2), coords_getD _ i.2, coords_getD _ i.2]
  simp [mul_comm]

/-- The mirror image in the hyperplane `⟨v, x⟩ + w = 0`. -/
theorem mirror_coords (v x : EuclideanSpace ℝ (Fin d)) (w : ℝ) : mirror d (coords v ++ [w]) (coords x) =
    coords (x - (2 * (inner ℝ v x + w) / inner ℝ v v) • v) := by
  apply List.ext_getElem
  · rw [mirror_length, coords_length]
  · intro k h1 h2
    have hk : k < d := by rwa [mirror_length] at h1
    have e1 := mirror_getD hk (coords v ++ [w]) (coords x)
    have e2 := coords_getD (x - (2 * (inner ℝ v x + w) / inner ℝ v v) • v) hk
    rw [List.getD_eq_getElem _ _ h1] at e1
    rw [List.getD_eq_getElem _ _ h2] at e2
    rw [e1, e2]
    have h3 : ∑ j ∈ range d, (coords v ++ [w]).getD j 0 * (coords v ++ [w]).getD j 0 = inner ℝ v v := by
      rw [← sum_coords v v w]
      exact sum_congr rfl fun j hj => by
        rw [List.getD_append _ _ _ _ (by rw [coords_length]; exact mem_range.mp hj)]
    have h4 : planeEq d (coords v ++ [w]) (coords x) = inner ℝ v x + w := by
      unfold planeEq
      rw [sum_coords, List.getD_append_right _ _ _ _ (by rw [coords_length])]
      simp [coords_length]
    rw [h3, h4, List.getD_append _ _ _ _ (by rw [coords_length]; exact hk), coords_getD _ hk, coords_getD _ hk]
    simp

theorem isPlane_coords {v : EuclideanSpace ℝ (Fin d)} (hv : v ≠ 0) (w : ℝ) : IsPlane d (coords v ++ [w]) := by
  refine ⟨by simp [coords_length], ?_⟩
  by_contra h
  push Not at h
  refine hv (PiLp.ext fun i => ?_)
  have := h i i.2
  rwa [List.getD_append _ _ _ _ (by rw [coords_length]; exact i.2), coords_getD _ i.2] at this

theorem reflection_eq (v x : EuclideanSpace ℝ (Fin d)) :
    (Submodule.span ℝ {v})ᗮ.reflection x = x - (2 * (inner ℝ v x + 0) / inner ℝ v v) • v := by
  rw [Submodule.reflection_orthogonal_apply, Submodule.reflection_singleton_apply]
  simp only [RCLike.ofReal_real_eq_id, id_eq]
  rw [← real_inner_self_eq_norm_sq, ← Nat.cast_smul_eq_nsmul ℝ, smul_smul, add_zero, neg_sub]
  congr 2
  push_cast
  ring

theorem linear_mirrors (l : List (EuclideanSpace ℝ (Fin d))) : ∃ cs : List (List ℝ), cs.length ≤ l.length ∧ (∀ c ∈ cs, IsPlane d c) ∧
    ∀ x, cs.foldl (fun x c => mirror d c x) (coords x) = coords ((l.map fun v => (Submodule.span ℝ {v})ᗮ.reflection).prod x) := by
  induction l with
  | nil => exact ⟨[], le_rfl, by simp, fun x => rfl⟩
  | cons v l ih =>
    obtain ⟨cs, h1, h2, h3⟩ := ih
    by_cases hv : v = 0
    · refine ⟨cs, by simp; omega, h2, fun x => ?_⟩
      rw [h3, List.map_cons, List.prod_cons, show ∀ (a b : EuclideanSpace ℝ (Fin d) ≃ₗᵢ[ℝ] EuclideanSpace ℝ (Fin d)) x, (a * b) x = a (b x) from fun _ _ _ => rfl, reflection_eq, hv]
      simp
    · refine ⟨cs ++ [coords v ++ [0]], by simp; omega, ?_, fun x => ?_⟩
      · intro c hc
        rcases List.mem_append.mp hc with hc | hc
        · exact h2 c hc
        · rw [List.mem_singleton.mp hc]; exact isPlane_coords hv 0
      · rw [List.foldl_append, h3, List.foldl_cons, List.foldl_nil, mirror_coords, List.map_cons, List.prod_cons,
          show ∀ (a b : EuclideanSpace ℝ (Fin d) ≃ₗᵢ[ℝ] EuclideanSpace ℝ (Fin d)) x, (a * b) x = a (b x) from fun _ _ _ => rfl, reflection_eq]

theorem isometry_mirrors (f : EuclideanSpace ℝ (Fin d) ≃ᵢ EuclideanSpace ℝ (Fin d)) : ∃ cs : List (List ℝ), cs.length ≤ d + 1 ∧
    (∀ c ∈ cs, IsPlane d c) ∧ ∀ x, cs.foldl (fun x c => mirror d c x) (coords x) = coords (f x) := by
  have lin : ∀ φ : EuclideanSpace ℝ (Fin d) ≃ᵢ EuclideanSpace ℝ (Fin d), φ 0 = 0 → ∃ cs : List (List ℝ), cs.length ≤ d ∧
      (∀ c ∈ cs, IsPlane d c) ∧ ∀ x, cs.foldl (fun x c => mirror d c x) (coords x) = coords (φ x) := by
    intro φ h0
    obtain ⟨l, hl, hφ⟩ := (φ.toRealLinearIsometryEquivOfMapZero h0).reflections_generate_dim
    obtain ⟨cs, h1, h2, h3⟩ := linear_mirrors l
    refine ⟨cs, h1.trans (hl.trans (by simp)), h2, fun x => ?_⟩
    rw [h3, ← hφ]
    rfl
  by_cases h0 : f 0 = 0
  · obtain ⟨cs, h1, h2, h3⟩ := lin f h0
    exact ⟨cs, by omega, h2, h3⟩
  · set t := f 0 with ht
    have htt : inner ℝ t t ≠ (0 : ℝ) := by rwa [Ne, inner_self_eq_zero]
    have hr : ∀ x, mirror d (coords t ++ [-(inner ℝ t t / 2)]) (coords x) = coords ((Submodule.span ℝ {t})ᗮ.reflection x + t) := by
      intro x
      rw [mirror_coords, reflection_eq, sub_add]
      congr 2
      rw [show ∀ a : ℝ, a • t - t = (a - 1) • t from fun a => by rw [sub_smul, one_smul]]
      congr 1
      field_simp
      ring
    obtain ⟨cs, h1, h2, h3⟩ := lin (f.trans ((Submodule.span ℝ {t})ᗮ.reflection.toIsometryEquiv.trans (IsometryEquiv.addRight t))) (by
      show (Submodule.span ℝ {t})ᗮ.reflection (f 0) + t = 0
      rw [← ht, Submodule.reflection_orthogonalComplement_singleton_eq_neg, neg_add_cancel])
    refine ⟨cs ++ [coords t ++ [-(inner ℝ t t / 2)]], by simp; omega, ?_, fun x => ?_⟩
    · intro c hc
      rcases List.mem_append.mp hc with hc | hc
      · exact h2 c hc
      · rw [List.mem_singleton.mp hc]; exact isPlane_coords h0 _
    · rw [List.foldl_append, h3, List.foldl_cons, List.foldl_nil, hr]
      congr 1
      show (Submodule.span ℝ {t})ᗮ.reflection ((Submodule.span ℝ {t})ᗮ.reflection (f x) + t) + t = f x
      rw [map_add, Submodule.reflection_reflection, Submodule.reflection_orthogonalComplement_singleton_eq_neg, neg_add_cancel_right]

end

section
variable {sig : List Sym} {names : List String} {A : ClAlg} {d : Nat} {S : Type} [DecidableEq ℝ] [CoeffStorage S ℝ]
  [LawfulStorage S ℝ]

/-- **C89.** Every isometry of space is given by a product of at most `d + 1` hyperplanes. -/
theorem C89_isometry (hA : declareAlgebra sig names = some A) (hp : implPga sig = some d)
    (hS : LawfulStorage.Supp (S := S) (T := ℝ) A.dim) (f : EuclideanSpace ℝ (Fin d) ≃ᵢ EuclideanSpace ℝ (Fin d)) :
    ∃ (cs : List (List ℝ)) (V : MV A S), cs.length ≤ d + 1 ∧ mirrors cs = .ok V ∧ V.Valid ∧
      ∀ (x : EuclideanSpace ℝ (Fin d)) (p : MV A S), PointOf (coords x) p →
        (do let q ← V.rotate p; q.pgaExtractPoint d) = .ok (coords (f x)) := by
  obtain ⟨cs, h1, h2, h3⟩ := isometry_mirrors f
  obtain ⟨V, v1, v2, -⟩ := is_mirrors (S := S) (isPga hA hp) hS cs h2
  refine ⟨cs, V, h1, v1, v2, fun x p hpt => ?_⟩
  have := C89_mirrors hA hp hS h2 (coords_length x) hpt
  rw [v1, h3] at this
  exact this

end

/-! ### Examples -/

open Ex in
example : ∃ p : MV P3 PD, PointOf [3, 3, 3] p ∧
    (do let h ← pgaHyperplane [1, 0, 0, -1]; let q ← h.naiveMulImpl p; let q ← q.naiveMulImpl h; q.pgaExtractPoint 3) = .ok [-1, 3, 3] := by
  obtain ⟨p, hp⟩ := P3_point [3, 3, 3] rfl ⟨3, by simp, by norm_num⟩
  have hc : IsPlane 3 [1, 0, 0, -1] := ⟨rfl, 0, by norm_num, by norm_num⟩
  refine ⟨p, hp, ?_⟩
  rw [C89_reflection P3_decl P3_pga P3_supp hc rfl hp]
  norm_num [mirror, planeEq, sum_range_succ, List.range_succ]

open Ex in
example : ∃ p V : MV P3 PD, PointOf [3, 3, 3] p ∧ mirrors [[1, 0, 0, -1], [1, 1, 0, 0]] = .ok V ∧
    (do let q ← V.rotate p; q.pgaExtractPoint 3) = .ok [-3, 1, 3] := by
  obtain ⟨p, hp⟩ := P3_point [3, 3, 3] rfl ⟨3, by simp, by norm_num⟩
  have hc : ∀ c ∈ ([[1, 0, 0, -1], [1, 1, 0, 0]] : List (List ℝ)), IsPlane 3 c := by
    intro c hc
    simp only [List.mem_cons, List.not_mem_nil, or_false] at hc
    rcases hc with rfl | rfl
    · exact ⟨rfl, 0, by norm_num, by norm_num⟩
    · exact ⟨rfl, 0, by norm_num, by norm_num⟩
  obtain ⟨V, hV, -⟩ := is_mirrors (S := PD) (isPga P3_decl P3_pga) P3_supp _ hc
  refine ⟨p, V, hp, hV, ?_⟩
  have := C89_mirrors P3_decl P3_pga P3_supp hc rfl hp
  rw [hV] at this
  refine this.trans ?_
  norm_num [mirror, planeEq, sum_range_succ, List.range_succ]

open Ex in
/-- A quarter turn around the axis through `(4, 0, 3)` in the direction of `y`, as in the crate's test. -/
example : ∃ p : MV P3 PD, PointOf [3, 3, 3] p ∧
    (do let t ← pgaTranslation [4, 0, 3]; let V ← mirrors [[1, 0, 0, 0], [1, 0, 1, 0]]; let r ← t.rev; let W ← r.naiveMulImpl V
        let W ← W.naiveMulImpl t; let q ← W.rotate p; q.pgaExtractPoint 3) = .ok [4, 3, 2] := by
  obtain ⟨p, hp⟩ := P3_point [3, 3, 3] rfl ⟨3, by simp, by norm_num⟩
  have hc : ∀ c ∈ ([[1, 0, 0, 0], [1, 0, 1, 0]] : List (List ℝ)), IsPlane 3 c := by
    intro c hc
    simp only [List.mem_cons, List.not_mem_nil, or_false] at hc
    rcases hc with rfl | rfl
    · exact ⟨rfl, 0, by norm_num, by norm_num⟩
    · exact ⟨rfl, 0, by norm_num, by norm_num⟩
  refine ⟨p, hp, ?_⟩
  rw [C89_around_point P3_decl P3_pga P3_supp hc rfl rfl hp]
  norm_num [mirror, planeEq, sum_range_succ, List.range_succ]

open Ex in
example : ∃ p q V : MV P3 PD, ∃ x' y', PointOf [3, 3, 3] p ∧ PointOf [0, 1, 2] q ∧ mirrors [[1, 2, 3, -1]] = .ok V ∧
    (do let r ← V.rotate p; r.pgaExtractPoint 3) = .ok x' ∧ (do let r ← V.rotate q; r.pgaExtractPoint 3) = .ok y' ∧
    dist2 3 x' y' = 14 := by
  obtain ⟨p, hp⟩ := P3_point [3, 3, 3] rfl ⟨3, by simp, by norm_num⟩
  obtain ⟨q, hq⟩ := P3_point [0, 1, 2] rfl ⟨1, by simp, by norm_num⟩
  have hc : ∀ c ∈ ([[1, 2, 3, -1]] : List (List ℝ)), IsPlane 3 c := by
    intro c hc
    rw [List.mem_singleton.mp hc]
    exact ⟨rfl, 0, by norm_num, by norm_num⟩
  obtain ⟨V, hV, -⟩ := is_mirrors (S := PD) (isPga P3_decl P3_pga) P3_supp _ hc
  obtain ⟨x', y', h1, h2, h3⟩ := C89_distance P3_decl P3_pga P3_supp hc hV rfl rfl hp hq
  refine ⟨p, q, V, x', y', hp, hq, hV, h1, h2, h3.trans ?_⟩
  norm_num [dist2, sum_range_succ]

/-- The isometry `x ↦ -x + (1, 2, 3)`, a point reflection. -/
noncomputable def Ex.pointRefl : EuclideanSpace ℝ (Fin 3) ≃ᵢ EuclideanSpace ℝ (Fin 3) :=
  (IsometryEquiv.neg _).trans (IsometryEquiv.addRight (!₂[1, 2, 3] : EuclideanSpace ℝ (Fin 3)))

open Ex in
example := C89_isometry (S := PD) P3_decl P3_pga P3_supp pointRefl

end TClifford
