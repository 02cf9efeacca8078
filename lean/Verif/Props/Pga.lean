import Verif.Proofs.Pga
import Verif.Props.Exp
import Verif.Props.Exterior
/-
Projective geometric algebra: C46 to C49.

`IsPga A d` is implied by `declareAlgebra sig names = some A` and `implPga sig = some d`, the model of the bound
`A: PGAlgebra<d>`; the theorems below have the latter as hypotheses.
-/

set_option linter.unusedSectionVars false

namespace TClifford

open MV Finset

section
variable {sig : List Sym} {names : List String} {A : ClAlg} {d : Nat} {S : Type} [DecidableEq ℝ] [CoeffStorage S ℝ]
  [LawfulStorage S ℝ]

/-- A multivector representing the point `x`: `pga_point(x)`, or the dual of `(x, 1)` without the scaling of `pga_point`
(which exists for the origin too). -/
def PointOf (x : List ℝ) (a : MV A S) : Prop :=
  pgaPoint x = .ok a ∨ (do let v ← fromVector (x ++ [1]); v.dual) = .ok a

theorem GA.fn_add {σ : Nat → ℤ} {n : Nat} {T : Type} [CommRing T] (x y : GA σ n T) (i : Nat) : (x + y).fn i = x.fn i + y.fn i := by
  unfold GA.fn
  by_cases hi : i < 2 ^ n
  · simp only [dif_pos hi]; rfl
  · simp only [dif_neg hi, add_zero]

theorem pgaPoint_err (hP : IsPga A d) (hS : LawfulStorage.Supp (S := S) (T := ℝ) A.dim) {x : List ℝ} (hx : x.length ≠ d) :
    pgaPoint (A := A) (S := S) x = .error (.cl .InvalidShape) := by
  unfold pgaPoint
  dsimp only
  rw [fromVector_err hS (by rw [List.length_append, hP.dim]; simp; omega)]
  rfl

theorem is_rawPoint (hP : IsPga A d) (hS : LawfulStorage.Supp (S := S) (T := ℝ) A.dim) {x : List ℝ} (hx : x.length = d) :
    Is (do let v ← fromVector (A := A) (S := S) (x ++ [1]); v.dual) (GA.dual (GA.vec (hom x))) :=
  (is_fromVector hS (by simp [hx, hP.dim])).bind fun _ hv hvg => (is_dual hP.wf hv).congr (by rw [hvg]; rfl)

theorem GA.dual_ne_zero {σ : Nat → ℤ} {n : Nat} {y : Nat → ℝ} {k : Nat} (hk : k < n) (h : y k ≠ 0) :
    (GA.dual (GA.vec y) : GA σ n ℝ) ≠ 0 := by
  intro h0
  have h1 := GA.dual_dual_vec (σ := σ) (n := n) y
  rw [h0, map_zero] at h1
  have h2 := congrArg (fun g => GA.fn g (2 ^ k)) h1
  beta_reduce at h2
  rw [GA.fn_smul, GA.fn_vec _ hk] at h2
  have hz : (0 : GA σ n ℝ).fn (2 ^ k) = 0 := by
    unfold GA.fn; rw [dif_pos (GA.two_pow_lt hk)]; rfl
  rw [hz] at h2
  rcases mul_eq_zero.mp h2.symm with h3 | h3
  · have := congrArg (Int.cast (R := ℝ)) (GA.csg_mul_self n)
    rw [Int.cast_mul, h3] at this
    simp at this
  · exact h h3

theorem pgaPoint_origin (hP : IsPga A d) (hS : LawfulStorage.Supp (S := S) (T := ℝ) A.dim) {x : List ℝ} (hx : x.length = d)
    (h0 : ∀ c ∈ x, c = 0) : pgaPoint (A := A) (S := S) x = .error .nonFinite := by
  obtain ⟨p, hp, hpv, hpg⟩ := (is_rawPoint (S := S) hP hS hx).ok
  have : pgaPoint (A := A) (S := S) x = (do let p ← (do let v ← fromVector (A := A) (S := S) (x ++ [1]); v.dual); p.sdiv (euclMag x)) := by
    unfold pgaPoint
    simp only [bind_assoc]
  rw [this, hp, euclMag_eq_zero.mpr h0]
  show p.sdiv (0 : ℝ) = _
  refine sdiv_zero hpv ?_
  by_contra hc
  push Not at hc
  refine GA.dual_ne_zero (σ := A.sigma) (n := A.dim) (y := hom x) (k := d) (by rw [hP.dim]; omega) ?_ ?_
  · rw [← hx, hom_last]; exact one_ne_zero
  · rw [← hpg, ga, ← GA.of_zero]
    exact GA.of_congr hc

/-- A point as an element of the ring. -/
theorem PointOf.ga (hP : IsPga A d) (hS : LawfulStorage.Supp (S := S) (T := ℝ) A.dim) {x : List ℝ} (hx : x.length = d) {a : MV A S}
    (h : PointOf x a) : a.Valid ∧ ∃ c : ℝ, c ≠ 0 ∧ a.ga = c • GA.dual (GA.vec (hom x)) := by
  rcases h with h | h
  · by_cases h0 : ∀ c ∈ x, c = 0
    · rw [pgaPoint_origin hP hS hx h0] at h
      exact absurd h (by simp)
    · have hm : euclMag x ≠ 0 := fun h => h0 (euclMag_eq_zero.mp h)
      push Not at h0
      obtain ⟨u, hu, huv, hug⟩ := (is_pgaPoint (S := S) hP hS hx h0).ok
      rw [hu] at h
      injection h with h
      subst h
      exact ⟨huv, _, inv_ne_zero hm, hug⟩
  · obtain ⟨u, hu, huv, hug⟩ := (is_rawPoint (S := S) hP hS hx).ok
    rw [hu] at h
    injection h with h
    subst h
    exact ⟨huv, 1, one_ne_zero, by rw [hug, one_smul]⟩

theorem range_map_getD (x : List ℝ) : (List.range x.length).map (fun k => x.getD k 0) = x := by
  apply List.ext_getElem
  · simp
  · intro i h1 h2
    simp [h2]

/-! ### C46 -/

/-- **C46, full statement except the origin.** `pga_point(x)` succeeds and `pga_extract_point` returns `x`, for every `x` with
`d` coordinates not all zero, in every dimension and every storage.
Missing for the full claim: the origin, for which it is false, see `C46_origin_false`. -/
theorem C46_roundtrip_partial (hA : declareAlgebra sig names = some A) (hp : implPga sig = some d)
    (hS : LawfulStorage.Supp (S := S) (T := ℝ) A.dim) {x : List ℝ} (hx : x.length = d) (h0 : ∃ c ∈ x, c ≠ 0) :
    ∃ p : MV A S, pgaPoint x = .ok p ∧ p.Valid ∧ p.pgaExtractPoint d = .ok x := by
  have hP := isPga hA hp
  obtain ⟨p, hp, hpv, hpg⟩ := (is_pgaPoint (S := S) hP hS hx h0).ok
  have hm : euclMag x ≠ 0 := fun h => by
    obtain ⟨c, hc, hne⟩ := h0
    exact hne (euclMag_eq_zero.mp h c hc)
  refine ⟨p, hp, hpv, ?_⟩
  have hl : hom x d = 1 := by rw [← hx, hom_last]
  rw [extract_ok hP hpv hpg (inv_ne_zero hm) (by rw [hl]; exact one_ne_zero), hl]
  simp only [div_one]
  congr 1
  refine Eq.trans ?_ (range_map_getD x)
  rw [hx]
  refine List.map_congr_left fun k hk => hom_lt (by rw [hx]; exact List.mem_range.mp hk)

/-- **C46 fails at the origin.** `pga_point([0, …, 0])` divides by the length of its argument: its coefficients are not
finite, in every dimension. -/
theorem C46_origin_false (hA : declareAlgebra sig names = some A) (hp : implPga sig = some d)
    (hS : LawfulStorage.Supp (S := S) (T := ℝ) A.dim) :
    pgaPoint (A := A) (S := S) (List.replicate d 0) = .error .nonFinite :=
  pgaPoint_origin (isPga hA hp) hS (List.length_replicate ..) (fun _ hc => List.eq_of_mem_replicate hc)

/-- **C46.** Without the scaling, every point including the origin is recovered, also with another last coordinate. -/
theorem C46_unscaled (hA : declareAlgebra sig names = some A) (hp : implPga sig = some d)
    (hS : LawfulStorage.Supp (S := S) (T := ℝ) A.dim) {x : List ℝ} (hx : x.length = d) {w : ℝ} (hw : w ≠ 0) :
    (do let v ← fromVector (A := A) (S := S) (x ++ [w]); let p ← v.dual; p.pgaExtractPoint d) = .ok (x.map (· / w)) := by
  have hP := isPga hA hp
  obtain ⟨p, hp, hpv, hpg⟩ := ((is_fromVector (A := A) (S := S) hS (l := x ++ [w]) (by simp [hx, hP.dim])).bind
    fun _ hv hvg => (is_dual hP.wf hv).congr (by rw [hvg])).ok
  have e : (do let v ← fromVector (A := A) (S := S) (x ++ [w]); let p ← v.dual; p.pgaExtractPoint d) =
      (do let p ← (do let v ← fromVector (A := A) (S := S) (x ++ [w]); v.dual); p.pgaExtractPoint d) := by
    simp only [bind_assoc]
  rw [e, hp]
  show p.pgaExtractPoint d = _
  have hl : (x ++ [w]).getD d 0 = w := by
    rw [List.getD_append_right _ _ _ _ (by omega), hx]; simp
  rw [extract_ok hP hpv (c := 1) (by rw [one_smul]; exact hpg) one_ne_zero (by rw [hl]; exact hw), hl]
  congr 1
  refine Eq.trans ?_ (congrArg (List.map (· / w)) (range_map_getD x))
  rw [hx, List.map_map]
  refine List.map_congr_left fun k hk => ?_
  rw [List.mem_range] at hk
  show (x ++ [w]).getD k 0 / w = x.getD k 0 / w
  rw [List.getD_append _ _ _ _ (by omega)]

/-- **C46.** A wrong number of coordinates is reported. -/
theorem C46_length (hA : declareAlgebra sig names = some A) (hp : implPga sig = some d)
    (hS : LawfulStorage.Supp (S := S) (T := ℝ) A.dim) {x : List ℝ} (hx : x.length ≠ d) :
    pgaPoint (A := A) (S := S) x = .error (.cl .InvalidShape) := pgaPoint_err (isPga hA hp) hS hx

/-! ### C47 -/

theorem zipWith_getD (x v : List ℝ) (h : x.length = v.length) {k : Nat} :
    (List.zipWith (· + ·) x v).getD k 0 = x.getD k 0 + v.getD k 0 := by
  by_cases hk : k < x.length
  · rw [List.getD_eq_getElem _ _ (by simp; omega), List.getD_eq_getElem _ _ hk, List.getD_eq_getElem _ _ (by omega)]
    simp
  · rw [List.getD_eq_default _ _ (by simp; omega), List.getD_eq_default _ _ (by omega), List.getD_eq_default _ _ (by omega), add_zero]

/-- **C47.** `t.rev() * p * t` represents the translated point, for `t = pga_translation(v)` and `p` a multivector of the
point `x` (see `PointOf`).  The coordinates are recovered by `pga_extract_point`.
Missing for the full claim: `p = pga_point(x)` for `x` the origin, which does not exist (`C46_origin_false`). -/
theorem C47_translate_partial (hA : declareAlgebra sig names = some A) (hp : implPga sig = some d)
    (hS : LawfulStorage.Supp (S := S) (T := ℝ) A.dim) {x v : List ℝ} (hx : x.length = d) (hv : v.length = d) {p : MV A S}
    (hpt : PointOf x p) : ∃ t : MV A S, pgaTranslation v = .ok t ∧ t.Valid ∧
    (do let r ← t.rev; let q ← r.naiveMulImpl p; let q ← q.naiveMulImpl t; q.pgaExtractPoint d) =
      .ok (List.zipWith (· + ·) x v) := by
  have hP := isPga hA hp
  obtain ⟨hpv, c, hc, hpg⟩ := hpt.ga hP hS hx
  obtain ⟨t, ht, htv, htg⟩ := (is_translation (S := S) hP hS (v := v) (by omega)).ok
  refine ⟨t, ht, htv, ?_⟩
  set y : Nat → ℝ := fun k => v.getD k 0 / 2 with hy
  have hres : Is (do let r ← t.rev; let q ← r.naiveMulImpl p; q.naiveMulImpl t)
      (c • GA.dual (GA.vec (fun k => if k < d then hom x k + 2 * hom x d * y k else hom x k))) := by
    refine (is_rev htv).bind fun r hr hrg => ?_
    refine (is_mul hP.wf hr hpv).bind fun q hq hqg => ?_
    refine (is_mul hP.wf hq htv).congr ?_
    rw [hqg, hrg, htg, hpg, map_add, GA.rev_one, GA.rev_tb' hP.dim hP.unit hP.null, ← sub_eq_add_neg, mul_smul_comm, smul_mul_assoc,
      GA.tb_sandwich' hP.dim hP.unit hP.null]
  obtain ⟨q, hq, hqv, hqg⟩ := hres.ok
  have e : (do let r ← t.rev; let q ← r.naiveMulImpl p; let q ← q.naiveMulImpl t; q.pgaExtractPoint d) =
      (do let q ← (do let r ← t.rev; let q ← r.naiveMulImpl p; q.naiveMulImpl t); q.pgaExtractPoint d) := by
    simp only [bind_assoc]
  rw [e, hq]
  show q.pgaExtractPoint d = _
  have hl : hom x d = 1 := by rw [← hx, hom_last]
  rw [extract_ok hP hqv hqg hc (by rw [if_neg (by omega), hl]; exact one_ne_zero), if_neg (by omega), hl]
  congr 1
  refine Eq.trans ?_ (range_map_getD _)
  rw [List.length_zipWith, hx, hv, Nat.min_self]
  refine List.map_congr_left fun k hk => ?_
  rw [List.mem_range] at hk
  rw [if_pos hk, zipWith_getD _ _ (by omega), hom_lt (by omega), hy]
  ring

/-- **C47.** Translations compose by adding the directions. -/
theorem C47_compose (hA : declareAlgebra sig names = some A) (hp : implPga sig = some d)
    (hS : LawfulStorage.Supp (S := S) (T := ℝ) A.dim) {v w : List ℝ} (hv : v.length = d) (hw : w.length = d) :
    (do let s ← pgaTranslation (A := A) (S := S) v; let t ← pgaTranslation (A := A) (S := S) w; s.naiveMulImpl t) ≈ᵣ
      pgaTranslation (List.zipWith (· + ·) v w) := by
  have hP := isPga hA hp
  refine Is.agree ((is_translation hP hS (v := v) (by omega)).bind fun s hs hsg =>
    (is_translation hP hS (v := w) (by omega)).bind fun t ht htg => (is_mul hP.wf hs ht).congr (by rw [hsg, htg]))
    (is_translation hP hS (by simp; omega)) ?_
  have : (fun k => (List.zipWith (· + ·) v w).getD k 0 / 2) = fun k => v.getD k 0 / 2 + w.getD k 0 / 2 := by
    funext k
    rw [zipWith_getD _ _ (by omega), add_div]
  rw [this, GA.tb_add' hP.dim hP.unit hP.null, add_mul, one_mul, mul_add, GA.tb_mul_tb' hP.dim hP.unit hP.null, mul_one, add_zero]
  abel

/-- **C47.** `t.rev() * t == one()`. -/
theorem C47_unitary (hA : declareAlgebra sig names = some A) (hp : implPga sig = some d)
    (hS : LawfulStorage.Supp (S := S) (T := ℝ) A.dim) {v : List ℝ} (hv : v.length = d) :
    (do let t ← pgaTranslation (A := A) (S := S) v; let r ← t.rev; r.naiveMulImpl t) ≈ᵣ MV.one (T := ℝ) := by
  have hP := isPga hA hp
  refine Is.agree ((is_translation hP hS (v := v) (by omega)).bind fun t ht htg =>
    (is_rev ht).bind fun r hr hrg => (is_mul hP.wf hr ht).congr (by rw [hrg, htg])) (Is.one hS) ?_
  rw [map_add, GA.rev_one, GA.rev_tb' hP.dim hP.unit hP.null, add_mul, one_mul, mul_add, neg_mul, neg_mul, GA.tb_mul_tb' hP.dim hP.unit hP.null,
    mul_one]
  simp

/-- The bivector `Σ_k (v_k / 2) e e_k` of a translation, made from the basis vectors `es` (`e` being the last one). -/
noncomputable def transBivector (es : List (MV A S)) (e : MV A S) (v : List ℝ) : Res (MV A S) := do
  let z ← MV.default (T := ℝ)
  (es.zip v).foldlM (fun acc p => do
    let b ← e.naiveMulImpl p.1
    let b ← b.smul (p.2 / 2)
    acc.add b) z

theorem transBivector_is (hP : IsPga A d) (hS : LawfulStorage.Supp (S := S) (T := ℝ) A.dim) {es : List (MV A S)} {e : MV A S}
    (hes : MV.basis (T := ℝ) = .ok (es ++ [e])) {v : List ℝ} (hv : v.length = d) :
    Is (transBivector es e v) (GA.tb d (fun k => v.getD k 0 / 2)) := by
  obtain ⟨bs, hbs, hlen, hb⟩ := basis_ok (A := A) (S := S) (T := ℝ) hS
  rw [hes] at hbs
  injection hbs with hbs
  subst hbs
  rw [hP.dim] at hlen
  have hesl : es.length = d := by simpa using hlen
  have hbk : ∀ k (hk : k < es.length), es[k].Valid ∧ es[k].ga = GA.e k := by
    intro k hk
    obtain ⟨u, hu, huv, huf⟩ := hb k (by simp; omega)
    injection hu with hu
    rw [List.getElem_append_left hk] at hu
    subst hu
    exact ⟨huv, GA.of_congr huf⟩
  have hbe : e.Valid ∧ e.ga = GA.e d := by
    obtain ⟨u, hu, huv, huf⟩ := hb d (by simp; omega)
    injection hu with hu
    rw [List.getElem_append_right (by omega)] at hu
    simp only [List.getElem_singleton] at hu
    subst hu
    exact ⟨huv, GA.of_congr huf⟩
  unfold transBivector
  refine (Is.zero hS).bind fun z hz hzg => ?_
  have key : ∀ m ≤ d, ∀ (u : MV A S), u.Valid → Is (((es.zip v).take m).foldlM (fun acc p => do
      let b ← e.naiveMulImpl p.1
      let b ← b.smul (p.2 / 2)
      acc.add b) u) (u.ga + ∑ k ∈ range m, (v.getD k 0 / 2) • (GA.e d * GA.e k)) := by
    intro m
    induction m with
    | zero =>
      intro _ u hu
      rw [List.take_zero, range_zero, sum_empty, add_zero]
      exact Is.of_valid hu
    | succ m ih =>
      intro hm u hu
      rw [List.take_add_one, List.foldlM_append]
      refine (ih (by omega) u hu).bind fun w hw hwg => ?_
      have hml : m < (es.zip v).length := by simp; omega
      rw [List.getElem?_eq_getElem hml]
      show Is (List.foldlM (m := Res) _ w [(es.zip v)[m]]) _
      rw [List.foldlM_cons]
      obtain ⟨h1, h2⟩ := hbk m (by omega)
      have : Is (do
          let b ← e.naiveMulImpl (es.zip v)[m].1
          let b ← b.smul ((es.zip v)[m].2 / 2)
          w.add b) (u.ga + ∑ k ∈ range (m + 1), (v.getD k 0 / 2) • (GA.e d * GA.e k)) := by
        simp only [List.getElem_zip]
        refine (is_mul hP.wf hbe.1 h1).bind fun b hb hbg => ?_
        refine (is_smul hb _).bind fun b' hb' hbg' => ?_
        refine (is_add hw hb').congr ?_
        rw [hwg, hbg', hbg, hbe.2, h2, sum_range_succ, ← add_assoc, List.getD_eq_getElem _ _ (by omega)]
      refine this.bind fun r hr hrg => ?_
      exact Is.of_ga hr hrg
  have := key d le_rfl z hz
  rw [List.take_of_length_le (by simp; omega)] at this
  exact this.congr (by rw [hzg, zero_add]; rfl)

theorem transBivector_mag2 (hP : IsPga A d) {b : MV A S} (hb : b.Valid) {y : Nat → ℝ} (hbg : b.ga = GA.tb d y) : b.mag2 = .ok 0 := by
  have h : GA.rev b.ga * b.ga = 0 := by
    rw [hbg, GA.rev_tb' hP.dim hP.unit hP.null, neg_mul, GA.tb_mul_tb' hP.dim hP.unit hP.null, neg_zero]
  rw [MV.ga, GA.rev_of, ← GA.of_mul, ← GA.of_zero] at h
  rw [mag2_ok hP.wf hb, GA.of_inj h 0 (Nat.two_pow_pos _)]

/-- **C47.** `pga_translation(v)` is one plus the bivector `Σ_k (v_k / 2) e e_k`. -/
theorem C47_bivector (hA : declareAlgebra sig names = some A) (hp : implPga sig = some d)
    (hS : LawfulStorage.Supp (S := S) (T := ℝ) A.dim) {es : List (MV A S)} {e : MV A S}
    (hes : MV.basis (T := ℝ) = .ok (es ++ [e])) {v : List ℝ} (hv : v.length = d) :
    pgaTranslation v ≈ᵣ (do let b ← transBivector es e v; let o ← MV.one (T := ℝ); o.add b) := by
  have hP := isPga hA hp
  refine Is.agree (is_translation hP hS (by omega)) ((transBivector_is hP hS hes hv).bind fun b hb hbg =>
    (Is.one hS).bind fun o ho hog => (is_add ho hb).congr (by rw [hog, hbg])) rfl

/-- **C47.** `pga_translation(v)` is the exponential of the bivector, as computed by `exp`, when no coefficient of the bivector
is more than `2^64 - 1`.
Missing for the full claim: larger directions, for which it is false, see `C47_exp_false`. -/
theorem C47_exp_partial (hA : declareAlgebra sig names = some A) (hp : implPga sig = some d)
    (hS : LawfulStorage.Supp (S := S) (T := ℝ) A.dim) {es : List (MV A S)} {e : MV A S}
    (hes : MV.basis (T := ℝ) = .ok (es ++ [e])) {v : List ℝ} (hv : v.length = d) (hb : ∀ x ∈ v, |x / 2| ≤ 2 ^ 64 - 1)
    {fuel : Nat} (hf : 18 ≤ fuel) :
    ∃ b r, transBivector es e v = .ok b ∧ b.exp (fun x => |x|) (RingHom.id ℝ) fuel = some r ∧ r ≈ᵣ pgaTranslation v := by
  have hP := isPga hA hp
  have hB := hb
  obtain ⟨b, hb, hbv, hbg⟩ := (transBivector_is hP hS hes hv).ok
  have h0 : b.naiveMulImpl b ≈ᵣ MV.default (T := ℝ) :=
    (is_mul hP.wf hbv hbv).agree (Is.zero hS) (by rw [hbg, GA.tb_mul_tb' hP.dim hP.unit hP.null])
  obtain ⟨r, hr, hrA⟩ := C53_square_zero_partial (RingHom.id ℝ) hP.wf (norm := fun x : ℝ => |x|) abs_zero hbv h0 (fun i hi c hc => by
    rw [hbv.get hi, ← ga_val hi, hbg] at hc
    injection hc with hc
    rw [← hc]
    rcases GA.fn_tb_cases (T := ℝ) (σ := A.sigma) hP.dim (fun k => v.getD k 0 / 2) hi with h | ⟨k, hk, h⟩
    · rw [h]; norm_num
    · rw [h, List.getD_eq_getElem _ _ (by omega)]
      exact hB _ (List.getElem_mem _)) (fun q hq => by
    rw [transBivector_mag2 hP hbv hbg] at hq
    injection hq with hq
    rw [← hq]; norm_num) hf
  refine ⟨b, r, hb, hr, hrA.trans ?_⟩
  exact Is.agree ((Is.one hS).bind fun o ho hog => (is_add ho hbv).congr (by rw [hog, hbg])) (is_translation hP hS (by omega)) rfl

/-- **C47 does not hold for directions that are too long.** If half of an entry of `v` is more than `2^64 - 1`, then `exp` of the
bivector is different from `pga_translation(v)`. -/
theorem C47_exp_false (hA : declareAlgebra sig names = some A) (hp : implPga sig = some d)
    (hS : LawfulStorage.Supp (S := S) (T := ℝ) A.dim) {es : List (MV A S)} {e : MV A S}
    (hes : MV.basis (T := ℝ) = .ok (es ++ [e])) {v : List ℝ} (hv : v.length = d) {x : ℝ} (hx : x ∈ v) (hb : 2 ^ 64 - 1 < |x / 2|)
    {fuel : Nat} (hf : 18 ≤ fuel) :
    ∃ b r, transBivector es e v = .ok b ∧ b.exp (fun x => |x|) (RingHom.id ℝ) fuel = some r ∧ ¬ r ≈ᵣ pgaTranslation v := by
  have hP := isPga hA hp
  obtain ⟨b, hb', hbv, hbg⟩ := (transBivector_is hP hS hes hv).ok
  have h0 : b.naiveMulImpl b ≈ᵣ MV.default (T := ℝ) :=
    (is_mul hP.wf hbv hbv).agree (Is.zero hS) (by rw [hbg, GA.tb_mul_tb' hP.dim hP.unit hP.null])
  obtain ⟨k, hk, rfl⟩ := List.mem_iff_getElem.mp hx
  have hi : 2 ^ d ||| 2 ^ k < 2 ^ A.dim := by rw [hP.dim]; exact or_two_pow_lt (by omega)
  obtain ⟨r, hr, hrA⟩ := C53_square_zero_false (RingHom.id ℝ) hP.wf (norm := fun x : ℝ => |x|) abs_zero hbv h0 hi (hbv.get hi) (by
    rw [← ga_val hi, hbg, GA.fn_tb (T := ℝ) (σ := A.sigma) hP.dim (fun k => v.getD k 0 / 2) (by omega : k < d),
      List.getD_eq_getElem _ _ hk]
    exact hb) hf
  refine ⟨b, r, hb', hr, fun h => hrA (h.trans ?_)⟩
  exact (Is.agree ((Is.one hS).bind fun o ho hog => (is_add ho hbv).congr (by rw [hog, hbg])) (is_translation hP hS (by omega)) rfl).symm

/-! ### C49 -/

/-- **C49, as the code has it.** `pga_translation(v)` is Ok exactly if `v` has at most `d + 1` entries; otherwise it returns
`IndexOutOfBounds`.
Missing for the full claim: `d + 1` entries should be refused, see `C49_extra_entry_false`. -/
theorem C49_ok_iff_partial (hA : declareAlgebra sig names = some A) (hp : implPga sig = some d)
    (hS : LawfulStorage.Supp (S := S) (T := ℝ) A.dim) (v : List ℝ) :
    (v.length ≤ d + 1 → ∃ t : MV A S, pgaTranslation v = .ok t ∧ t.Valid) ∧
    (d + 1 < v.length → pgaTranslation (A := A) (S := S) v = .error (.cl .IndexOutOfBounds)) := by
  have hP := isPga hA hp
  have hd := LawfulStorage.supp_le hS
  rw [hP.dim] at hd
  constructor
  · intro h
    obtain ⟨t, ht, htv, -⟩ := (is_translation' (S := S) hP hS h).ok
    exact ⟨t, ht, htv⟩
  · intro h
    unfold pgaTranslation
    rw [hP.mask]
    dsimp only
    rw [fromIndexedIter_err hS]
    · rfl
    · refine ⟨_, List.mem_map.mpr ⟨(v[d + 1], d + 1), ?_, rfl⟩, ?_⟩
      · exact List.mem_zipIdx_iff_getElem?.mpr (List.getElem?_eq_getElem h)
      · show 2 ^ A.dim ≤ 2 ^ d ||| ushl 1 (d + 1)
        rw [hP.dim, ushl_one (by omega)]
        exact Nat.right_le_or

/-- **C49 fails for one entry too many.** A direction with `d + 1` entries is accepted; the result is not a motor of a
translation, since the last entry goes to the basis vector of the null direction. -/
theorem C49_extra_entry_false (hA : declareAlgebra sig names = some A) (hp : implPga sig = some d)
    (hS : LawfulStorage.Supp (S := S) (T := ℝ) A.dim) (v : List ℝ) (hv : v.length = d) (w : ℝ) :
    ∃ t : MV A S, pgaTranslation (v ++ [w]) = .ok t ∧ t.getByIdx (2 ^ d) = .ok (w / 2) := by
  have hP := isPga hA hp
  obtain ⟨t, ht, htv, htg⟩ := (is_translation' (S := S) hP hS (v := v ++ [w]) (by simp [hv])).ok
  refine ⟨t, ht, ?_⟩
  have hlt : 2 ^ d < 2 ^ A.dim := GA.two_pow_lt (by rw [hP.dim]; omega)
  rw [htv.get hlt, ← MV.ga_val hlt, htg, GA.fn_add, GA.one_def, GA.fn_of _ hlt, GA.fn_sum, sum_eq_single d]
  · rw [GA.fn_smul, GA.fn_bl _ hlt, Nat.or_self, if_pos rfl, List.getD_append_right _ _ _ _ (by omega), hv]
    simp [single]
  · intro k hk hne
    rw [GA.fn_smul, GA.fn_bl _ hlt, if_neg, mul_zero]
    intro h
    refine hne (or_two_pow_inj (d := d) (by have := mem_range.mp hk; omega) le_rfl ?_)
    rw [← h, Nat.or_self]
  · intro h; exact absurd (mem_range.mpr (by omega)) h

/-- **C49.** A direction with fewer than `d` entries is accepted and stands for the one padded with zeros. -/
theorem C49_short (hA : declareAlgebra sig names = some A) (hp : implPga sig = some d)
    (hS : LawfulStorage.Supp (S := S) (T := ℝ) A.dim) (v : List ℝ) (hv : v.length ≤ d) :
    pgaTranslation (A := A) (S := S) v ≈ᵣ pgaTranslation (v ++ List.replicate (d - v.length) 0) := by
  have hP := isPga hA hp
  refine Is.agree (is_translation hP hS hv) (is_translation hP hS (by simp; omega)) ?_
  have : (fun k => (v ++ List.replicate (d - v.length) 0).getD k 0 / 2) = fun k => v.getD k 0 / 2 := by
    funext k
    congr 1
    by_cases hk : k < v.length
    · rw [List.getD_append _ _ _ _ hk]
    · rw [List.getD_append_right _ _ _ _ (by omega), List.getD_eq_default v _ (by omega), List.getD_eq_getElem?_getD,
        List.getElem?_replicate]
      split <;> rfl
  rw [this]

end

end TClifford
