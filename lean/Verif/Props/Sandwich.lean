import Verif.Proofs.Sandwich
import Verif.Props.Dual
/-
C66: sandwich products with products of vectors.
-/

set_option linter.unusedSectionVars false

namespace TClifford

open MV Finset

section
variable {A : ClAlg} {S T : Type} [CommRing T] [DecidableEq T] [CoeffStorage S T] [LawfulStorage S T]

/-- `V * x * V.rev()`. -/
def MV.sandwich (V x : MV A S) : Res (MV A S) := do
  let z ← V.naiveMulImpl x
  let r ← V.rev
  z.naiveMulImpl r

theorem is_sandwich (hA : A.WF) {V x : MV A S} (hV : V.Valid) (hx : x.Valid) : Is (V.sandwich x) (GA.swch V.ga x.ga) :=
  (is_mul hA hV hx).bind fun z hz hzg => (is_rev hV).bind fun r hr hrg => (is_mul hA hz hr).congr (by rw [hrg, hzg]; rfl)

/-- What a product of vectors is. -/
theorem versor_ok (hA : A.WF) (hS : LawfulStorage.Supp (S := S) (T := T) A.dim) (l : List (MV A S)) (hl : ∀ v ∈ l, v.Valid ∧ IsGrade 1 v)
    {V : MV A S} (hV : versor l = .ok V) : V.Valid ∧ V.ga = (l.map MV.ga).prod ∧ V.mag2 = .ok (GA.normOf (l.map MV.ga)) := by
  obtain ⟨V', g1, g2, g3⟩ := (is_versor hA hS l fun v hv => (hl v hv).1).ok
  rw [hV] at g1
  injection g1 with g1
  subst g1
  refine ⟨g2, g3, ?_⟩
  rw [mag2_ga hA g2, g3, GA.rev_mul_versor _ (vecs_ga hl), GA.fn_zero_smul_one]

theorem is_gradeExtract {x : Res (MV A S)} {g : GA A.sigma A.dim T} (h : Is x g) {k : Nat} (hk : k < 2 ^ 32) :
    Is (do let u ← x; u.gradeExtract k) (GA.gr k g) :=
  (is_of_denotes (gradeExtract_lift h hk)).congr (GA.of_congr fun i hi => by rw [countOnes_eq_cnt hi])

/-- **C66.** The sandwich of a multivector of grade `k` has grade `k`. -/
theorem C66_grade (hA : A.WF) (l : List (MV A S)) (hl : ∀ v ∈ l, v.Valid ∧ IsGrade 1 v) {k : Nat} {V x : MV A S}
    (hV : versor l = .ok V) (hx : x.Valid) (hk : IsGrade k x) : ∃ y, V.sandwich x = .ok y ∧ y.Valid ∧ IsGrade k y := by
  obtain ⟨g1, g2, -⟩ := versor_ok hA hx.supp l hl hV
  obtain ⟨y, y1, y2, y3⟩ := (is_sandwich hA g1 hx).ok
  refine ⟨y, y1, y2, fun i hi hne => ?_⟩
  have hxh : GA.IsHom k x.ga := fun i hi hc => by rw [ga_val hi]; exact hk.hom hx i hi hc
  have := GA.swch_hom _ (vecs_ga hl) hxh i hi (by rwa [← countOnes_eq_cnt hi])
  rw [y2.get hi, ← ga_val hi, y3, g2, this]

/-- **C66.** Extracting a grade commutes with the sandwich. -/
theorem C66_grade_extract (hA : A.WF) (l : List (MV A S)) (hl : ∀ v ∈ l, v.Valid ∧ IsGrade 1 v) {k : Nat} (hk : k < 2 ^ 32) {V x : MV A S}
    (hV : versor l = .ok V) (hx : x.Valid) :
    (do let y ← V.sandwich x; y.gradeExtract k) ≈ᵣ (do let g ← x.gradeExtract k; V.sandwich g) := by
  obtain ⟨g1, g2, -⟩ := versor_ok hA hx.supp l hl hV
  refine (is_gradeExtract (is_sandwich hA g1 hx) hk).agree
    ((is_gradeExtract (Is.of_valid hx) hk).bind fun g hg hgg => hgg ▸ is_sandwich hA g1 hg) ?_
  rw [g2, GA.gr_swch _ (vecs_ga hl)]

/-- **C66.** `(V a V~) * (V b V~) == V.mag2() V (a * b) V~`. -/
theorem C66_mul (hA : A.WF) (l : List (MV A S)) (hl : ∀ v ∈ l, v.Valid ∧ IsGrade 1 v) {V a b : MV A S}
    (hV : versor l = .ok V) (ha : a.Valid) (hb : b.Valid) :
    (do let x ← V.sandwich a; let y ← V.sandwich b; x.naiveMulImpl y) ≈ᵣ
      (do let p ← a.naiveMulImpl b; let z ← V.sandwich p; let m ← V.mag2; z.smul m) := by
  obtain ⟨g1, g2, g3⟩ := versor_ok hA ha.supp l hl hV
  rw [g3]
  refine Is.agree ((is_sandwich hA g1 ha).bind fun x hx hxg => (is_sandwich hA g1 hb).bind fun y hy hyg =>
      (is_mul hA hx hy).congr (by rw [hxg, hyg]))
    ((is_mul hA ha hb).bind fun p hp hpg => (is_sandwich hA g1 hp).bind fun z hz hzg => (is_smul hz _).congr (by rw [hzg, hpg])) ?_
  rw [g2, GA.swch_mul _ (vecs_ga hl)]

/-- **C66.** `(V a V~) ^ (V b V~) == V.mag2() V (a ^ b) V~`. -/
theorem C66_wedge [WedgeProduct A S] [LawfulWedge A S] (hA : A.WF) (l : List (MV A S)) (hl : ∀ v ∈ l, v.Valid ∧ IsGrade 1 v) {V a b : MV A S}
    (hV : versor l = .ok V) (ha : a.Valid) (hb : b.Valid) :
    (do let x ← V.sandwich a; let y ← V.sandwich b; x.wedge y) ≈ᵣ
      (do let p ← a.wedge b; let z ← V.sandwich p; let m ← V.mag2; z.smul m) := by
  obtain ⟨g1, g2, g3⟩ := versor_ok hA ha.supp l hl hV
  rw [g3]
  refine Is.agree ((is_sandwich hA g1 ha).bind fun x hx hxg => (is_sandwich hA g1 hb).bind fun y hy hyg =>
      (is_wedge hx hy).congr (by rw [hxg, hyg]))
    ((is_wedge ha hb).bind fun p hp hpg => (is_sandwich hA g1 hp).bind fun z hz hzg => (is_smul hz _).congr (by rw [hzg, hpg])) ?_
  rw [g2, GA.swch_wdg _ (vecs_ga hl)]

/-- **C66.** The scalar part is multiplied by `V.mag2()`, `vdot` and `mag2` by its square. -/
theorem C66_scalars (hA : A.WF) (l : List (MV A S)) (hl : ∀ v ∈ l, v.Valid ∧ IsGrade 1 v) {V a b x y : MV A S}
    (hV : versor l = .ok V) (ha : a.Valid) (hb : b.Valid) (hx : V.sandwich a = .ok x) (hy : V.sandwich b = .ok y) :
    ∃ m s d q, V.mag2 = .ok m ∧ a.scalarPart = .ok s ∧ x.scalarPart = .ok (m * s) ∧ a.vdot b = .ok d ∧ x.vdot y = .ok (m ^ 2 * d) ∧
      a.mag2 = .ok q ∧ x.mag2 = .ok (m ^ 2 * q) := by
  obtain ⟨g1, g2, g3⟩ := versor_ok hA ha.supp l hl hV
  obtain ⟨x', x1, x2, x3⟩ := (is_sandwich hA g1 ha).ok
  obtain ⟨y', y1, y2, y3⟩ := (is_sandwich hA g1 hb).ok
  rw [hx] at x1
  rw [hy] at y1
  injection x1 with x1
  injection y1 with y1
  subst x1 y1
  rw [g2] at x3 y3
  have hv := vecs_ga hl
  have h0 := Nat.two_pow_pos A.dim
  have hd : ∀ {a b : MV A S}, a.Valid → b.Valid → a.vdot b = .ok ((a.ga * b.ga).fn 0) := by
    intro a b ha hb
    rw [vdot_ok hA ha hb, MV.ga, MV.ga, ← GA.of_mul, GA.fn_of _ h0]
  have hs : ∀ {a : MV A S}, a.Valid → a.scalarPart = .ok (a.ga.fn 0) := by
    intro a ha
    rw [scalarPart_ok ha, ga_val h0]
  refine ⟨_, _, _, _, g3, hs ha, ?_, hd ha hb, ?_, mag2_ga hA ha, ?_⟩
  · rw [hs x2, x3, GA.swch_scalar _ hv]
  · rw [hd x2 y2, x3, y3, GA.swch_mul _ hv, GA.vfn_smul, GA.swch_scalar _ hv, pow_two, mul_assoc]
  · rw [mag2_ga hA x2, x3, GA.swch_rev, GA.swch_mul _ hv, GA.vfn_smul, GA.swch_scalar _ hv, pow_two, mul_assoc]

/-- **C66.** The sandwich of the unit pseudoscalar with `k` vectors in `n` dimensions is `(-1)^(k(n-1)) V.mag2()` times the
pseudoscalar. -/
theorem C66_pseudoscalar (hA : A.WF) (hS : LawfulStorage.Supp (S := S) (T := T) A.dim) (l : List (MV A S))
    (hl : ∀ v ∈ l, v.Valid ∧ IsGrade 1 v) {V : MV A S} (hV : versor l = .ok V) :
    (do let I ← blade (2 ^ A.dim - 1); V.sandwich I) ≈ᵣ
      (do let m ← V.mag2; let I ← blade (2 ^ A.dim - 1); I.smul ((-1) ^ (l.length * (A.dim - 1)) * m)) := by
  obtain ⟨g1, g2, g3⟩ := versor_ok hA hS l hl hV
  rw [g3]
  refine Is.agree (g := GA.swch V.ga GA.psc) ((is_ps hS).bind fun I hI hIg => hIg ▸ is_sandwich hA g1 hI)
    ((is_ps hS).bind fun I hI hIg => (is_smul hI _).congr (by rw [hIg])) ?_
  rw [g2]
  have hm : (2 ^ A.dim - 1 : Nat) < 2 ^ A.dim := by have := Nat.two_pow_pos A.dim; omega
  have key : ∀ v : GA A.sigma A.dim T, GA.IsVec v → v * GA.psc = ((-1 : T) ^ (A.dim - 1)) • (GA.psc * v) := by
    intro v hv
    unfold GA.psc GA.bl
    conv_lhs => rw [← GA.of_fn v]
    conv_rhs => rw [← GA.of_fn v]
    rw [← GA.of_mul, ← GA.of_mul, ← GA.of_smul]
    refine GA.of_congr fun k hk => ?_
    have hc : (2 ^ A.dim - 1) ^^^ k < 2 ^ A.dim := Nat.xor_lt_two_pow hm hk
    rw [geo_single_right _ hm _ _ hk, geo_single_left _ hm, ps_sign _ hc, mul_one, one_mul]
    by_cases h1 : cnt A.dim ((2 ^ A.dim - 1) ^^^ k) = 1
    · have hpos : 1 ≤ A.dim := by have := cnt_le A.dim ((2 ^ A.dim - 1) ^^^ k); omega
      rw [par_eq, h1, ← Int.cast_smul_eq_zsmul T, ← Int.cast_smul_eq_zsmul T, smul_eq_mul, smul_eq_mul, ← mul_assoc]
      congr 1
      push_cast
      congr 1
      split
      · rename_i h
        rw [Even.neg_one_pow (by rw [Nat.even_iff]; omega)]
      · rename_i h
        rw [Odd.neg_one_pow (by rw [Nat.odd_iff]; omega)]; simp
    · rw [hv _ hc h1]; simp
  have hind : ∀ l : List (GA A.sigma A.dim T), (∀ v ∈ l, GA.IsVec v) →
      l.prod * GA.psc = ((-1 : T) ^ (l.length * (A.dim - 1))) • (GA.psc * l.prod) := by
    intro l hl
    induction l with
    | nil => simp
    | cons v l ih =>
      rw [List.prod_cons, mul_assoc, ih fun w hw => hl w (by simp [hw]), mul_smul_comm, ← mul_assoc, key v (hl v (by simp)), smul_mul_assoc,
        smul_smul, List.length_cons, Nat.add_mul, pow_add, one_mul, mul_assoc]
  unfold GA.swch
  rw [hind _ (vecs_ga hl), smul_mul_assoc, mul_assoc, GA.versor_mul_rev _ (vecs_ga hl), mul_smul_comm, mul_one, smul_smul, List.length_map]

end

/-! ### Examples -/

theorem Ex.vs_versor : ∃ V, versor [Ex.vU, Ex.vV, Ex.vU] = .ok V :=
  let ⟨V, h, _⟩ := (is_versor Ex.M_wf (show Ex.M.dim ≤ 63 by decide) _ fun v hv => (Ex.vs v hv).1).ok
  ⟨V, h⟩

/-- The sandwich of these examples is not zero. -/
example : (do let V ← versor [Ex.vU, Ex.vV, Ex.vU]; V.mag2) = .ok 200 := by decide +kernel

/-- A multivector with all grades, over ℚ, in the algebra `+ - 0`. -/
def Ex.mQ : MV Ex.M (ArrayStorage ℚ) := ⟨⟨3, ⟨8, fun i => i + 1⟩⟩⟩
theorem Ex.mQ_valid : Ex.mQ.Valid := ⟨by decide, rfl, rfl⟩

example : ∃ V y, versor [Ex.vU, Ex.vV, Ex.vU] = .ok V ∧ V.sandwich Ex.vU = .ok y ∧ IsGrade 1 y := by
  obtain ⟨V, hV⟩ := Ex.vs_versor
  obtain ⟨y, h1, -, h2⟩ := C66_grade Ex.M_wf _ Ex.vs hV Ex.vU_valid Ex.vU_grade
  exact ⟨V, y, hV, h1, h2⟩

example : ∃ V, versor [Ex.vU, Ex.vV, Ex.vU] = .ok V ∧
    (do let y ← V.sandwich Ex.mQ; y.gradeExtract 2) ≈ᵣ (do let g ← Ex.mQ.gradeExtract 2; V.sandwich g) ∧
    (do let x ← V.sandwich Ex.mQ; let y ← V.sandwich Ex.vV; x.naiveMulImpl y) ≈ᵣ
      (do let p ← Ex.mQ.naiveMulImpl Ex.vV; let z ← V.sandwich p; let m ← V.mag2; z.smul m) ∧
    (do let x ← V.sandwich Ex.mQ; let y ← V.sandwich Ex.vV; x.wedge y) ≈ᵣ
      (do let p ← Ex.mQ.wedge Ex.vV; let z ← V.sandwich p; let m ← V.mag2; z.smul m) ∧
    (do let I ← blade (2 ^ 3 - 1); V.sandwich I) ≈ᵣ (do let m ← V.mag2; let I ← blade (2 ^ 3 - 1); I.smul ((-1) ^ (3 * (3 - 1)) * m)) := by
  obtain ⟨V, hV⟩ := Ex.vs_versor
  exact ⟨V, hV, C66_grade_extract Ex.M_wf _ Ex.vs (by norm_num) hV Ex.mQ_valid, C66_mul Ex.M_wf _ Ex.vs hV Ex.mQ_valid Ex.vV_valid,
    C66_wedge Ex.M_wf _ Ex.vs hV Ex.mQ_valid Ex.vV_valid, C66_pseudoscalar Ex.M_wf (show Ex.M.dim ≤ 63 by decide) _ Ex.vs hV⟩

example : ∃ V x m q, versor [Ex.vU, Ex.vV, Ex.vU] = .ok V ∧ V.sandwich Ex.mQ = .ok x ∧ V.mag2 = .ok m ∧ Ex.mQ.mag2 = .ok q ∧
    x.mag2 = .ok (m ^ 2 * q) := by
  obtain ⟨V, hV⟩ := Ex.vs_versor
  obtain ⟨g1, -, -⟩ := versor_ok Ex.M_wf (show Ex.M.dim ≤ 63 by decide) _ Ex.vs hV
  obtain ⟨x, hx, -⟩ := (is_sandwich Ex.M_wf g1 Ex.mQ_valid).ok
  obtain ⟨m, -, -, q, h1, -, -, -, -, h2, h3⟩ := C66_scalars Ex.M_wf _ Ex.vs hV Ex.mQ_valid Ex.mQ_valid hx hx
  exact ⟨V, x, m, q, hV, hx, h1, h2, h3⟩

end TClifford
