import Verif.Proofs.ExpRotor
import Verif.Props.Rotors
import Verif.Props.Pin
/-
C93: exponentials of bivectors are rotors.
-/

set_option linter.unusedSectionVars false

namespace TClifford

open MV Finset

section
variable {A : ClAlg} {S 𝕜 : Type} [RCLike 𝕜] [DecidableEq 𝕜] [CoeffStorage S 𝕜] [LawfulStorage S 𝕜]

/-- The coefficients of `R` are those of the exponential of `a`, the sum of the series `Σ_k a^k / k!`. -/
def MV.ExpOf (a R : MV A S) : Prop := ∃ E : Nat → 𝕜, a.IsExp E ∧ Coefs (.ok R) E

theorem expOf_iff (hA : A.WF) {a R : MV A S} (ha : a.Valid) (hR : R.Valid) : ExpOf a R ↔ R.ga = NormedSpace.exp a.ga := by
  constructor
  · rintro ⟨E, h1, h2⟩
    refine GA.vext_fn fun i hi => ?_
    rw [← (isExp_iff hA ha).mp h1 i hi]
    exact ((Is.of_valid hR).coefs.unique h2 i hi)
  · intro h
    exact ⟨_, (isExp_iff hA ha).mpr fun _ _ => rfl, h ▸ (Is.of_valid hR).coefs⟩

theorem IsGrade.isHom {p : Nat} {a : MV A S} (ha : a.Valid) (h : IsGrade p a) : GA.IsHom p a.ga := fun i hi hc => by
  rw [ga_val hi]
  exact h.hom ha i hi hc

theorem isGrade_of_hom {p : Nat} {a : MV A S} (ha : a.Valid) (h : GA.IsHom p a.ga) : IsGrade p a := fun i hi hc => by
  rw [ha.get hi, ← ga_val hi, h i hi (by rw [← countOnes_eq_cnt hi]; exact hc)]

/-- **C93.** There is exactly one exponential. -/
theorem C93_exists (hA : A.WF) {a : MV A S} (ha : a.Valid) : ∃ R : MV A S, R.Valid ∧ ExpOf a R ∧ ∀ Q : MV A S, Q.Valid → ExpOf a Q → .ok Q ≈ᵣ .ok R := by
  have hd : Denotes (fromIndexedIter (A := A) (S := S) ((List.range (2 ^ A.dim)).map fun i => (i, (NormedSpace.exp a.ga).fn i))) (NormedSpace.exp a.ga).fn := by
    refine fromIndexedIter_enum ha.supp ⟨?_, fun p hp => ?_, fun i hi _ => ?_⟩
    · rw [List.map_map]
      exact (List.map_id (List.range (2 ^ A.dim))).symm ▸ List.nodup_range
    · obtain ⟨i, hi, rfl⟩ := List.mem_map.mp hp
      exact ⟨List.mem_range.mp hi, rfl⟩
    · exact List.mem_map.mpr ⟨i, List.mem_range.mpr hi, rfl⟩
  obtain ⟨R, -, hR, hRg⟩ := Is.ok (g := NormedSpace.exp a.ga) hd
  exact ⟨R, hR, (expOf_iff hA ha hR).mpr hRg, fun Q hQ h => (Is.of_valid hQ).agree (Is.of_valid hR) (((expOf_iff hA ha hQ).mp h).trans hRg.symm)⟩

/-- **C93.** When `a * b == b * a`, the exponential of `a + b` is the product of the exponentials. -/
theorem C93_add (hA : A.WF) {a b s R Q P : MV A S} (ha : a.Valid) (hb : b.Valid) (hc : a.naiveMulImpl b ≈ᵣ b.naiveMulImpl a)
    (hs : a.add b = .ok s) (hR : R.Valid) (hQ : Q.Valid) (hP : P.Valid) (hRa : ExpOf a R) (hQb : ExpOf b Q) (hPs : ExpOf s P) :
    R.naiveMulImpl Q ≈ᵣ .ok P := by
  obtain ⟨s', s1, s2, s3⟩ := (is_add ha hb).ok
  rw [hs] at s1
  injection s1 with s1
  subst s1
  refine (is_mul hA hR hQ).agree (Is.of_valid hP) ?_
  rw [(expOf_iff hA ha hR).mp hRa, (expOf_iff hA hb hQ).mp hQb, (expOf_iff hA s2 hP).mp hPs, s3]
  let : NormedAlgebra ℚ (GA A.sigma A.dim 𝕜) := NormedAlgebra.restrictScalars ℚ 𝕜 _
  exact (NormedSpace.exp_add_of_commute ((Is.iff_agree (is_mul hA ha hb) (is_mul hA hb ha)).mp hc)).symm

/-- **C93.** The exponential of `-a` is the inverse of the exponential of `a`. -/
theorem C93_neg (hA : A.WF) {a b R Q : MV A S} (ha : a.Valid) (hn : a.neg = .ok b) (hR : R.Valid) (hQ : Q.Valid) (hRa : ExpOf a R)
    (hQb : ExpOf b Q) : Q.naiveMulImpl R ≈ᵣ MV.one ∧ R.naiveMulImpl Q ≈ᵣ MV.one := by
  obtain ⟨s', s1, s2, s3⟩ := (is_neg ha).ok
  rw [hn] at s1
  injection s1 with s1
  subst s1
  have h1 := (expOf_iff hA ha hR).mp hRa
  have h2 := (expOf_iff hA s2 hQ).mp hQb
  rw [s3] at h2
  exact ⟨(is_mul hA hQ hR).agree (Is.one ha.supp) (by rw [h1, h2, GA.exp_neg_mul]), (is_mul hA hR hQ).agree (Is.one ha.supp) (by rw [h1, h2, GA.exp_mul_neg])⟩

/-- **C93.** The reverse, and the grade involution, of the exponential are the exponentials of the reverse and of the grade involution. -/
theorem C93_rev (hA : A.WF) {a R x y : MV A S} (ha : a.Valid) (hR : R.Valid) (hRa : ExpOf a R) (hx : a.rev = .ok x) (hy : R.rev = .ok y) :
    ExpOf x y := by
  obtain ⟨x', x1, x2, x3⟩ := (is_rev ha).ok
  rw [hx] at x1
  injection x1 with x1
  subst x1
  obtain ⟨y', y1, y2, y3⟩ := (is_rev hR).ok
  rw [hy] at y1
  injection y1 with y1
  subst y1
  rw [expOf_iff hA x2 y2, y3, x3, (expOf_iff hA ha hR).mp hRa, GA.rev_exp]

theorem exp_rotor_ga (hA : A.WF) {a R : MV A S} (ha : a.Valid) (hg : IsGrade 2 a) (hR : R.Valid) (hRa : ExpOf a R) :
    GA.rev R.ga = NormedSpace.exp (-a.ga) ∧ R.ga = NormedSpace.exp a.ga := by
  have h := (expOf_iff hA ha hR).mp hRa
  refine ⟨?_, h⟩
  rw [h, GA.rev_exp, GA.rev_hom_two (hg.isHom ha)]

/-- **C93, exponentials of bivectors are rotors.** For every bivector, simple or not, in every signature, the exponential `R` is even and
`R.rev() * R == R * R.rev() == 1`. -/
theorem C93_rotor (hA : A.WF) {a R : MV A S} (ha : a.Valid) (hg : IsGrade 2 a) (hR : R.Valid) (hRa : ExpOf a R) :
    R.flip ≈ᵣ .ok R ∧ (do let r ← R.rev; r.naiveMulImpl R) ≈ᵣ MV.one ∧ (do let r ← R.rev; R.naiveMulImpl r) ≈ᵣ MV.one ∧ R.mag2 = .ok 1 := by
  obtain ⟨h1, h2⟩ := exp_rotor_ga hA ha hg hR hRa
  have h3 : GA.rev R.ga * R.ga = 1 := by rw [h1, h2, GA.exp_neg_mul]
  refine ⟨(is_flip hR).agree (Is.of_valid hR) ?_, ?_, ?_, ?_⟩
  · rw [h2, GA.flip_exp, GA.flip_hom_two (hg.isHom ha)]
  · exact ((is_rev hR).bind fun r hr hrg => (is_mul hA hr hR).congr (by rw [hrg])).agree (Is.one ha.supp) h3
  · refine ((is_rev hR).bind fun r hr hrg => (is_mul hA hR hr).congr (g' := R.ga * GA.rev R.ga) (by rw [hrg])).agree (Is.one ha.supp) ?_
    rw [h1, h2, GA.exp_mul_neg]
  · rw [mag2_ga hA hR, h3, GA.one_def, GA.fn_of _ (Nat.two_pow_pos _)]
    rfl

/-- **C93, rotors keep grades.** With the exponential `R` of a bivector, `R.rev() * x * R` has the grade of `x`. -/
theorem C93_grades (hA : A.WF) {a R : MV A S} (ha : a.Valid) (hg : IsGrade 2 a) (hR : R.Valid) (hRa : ExpOf a R) {k : Nat} {x : MV A S}
    (hx : x.Valid) (hk : IsGrade k x) : ∃ y, R.rotate x = .ok y ∧ y.Valid ∧ IsGrade k y := by
  obtain ⟨h1, h2⟩ := exp_rotor_ga hA ha hg hR hRa
  obtain ⟨y, y1, y2, y3⟩ := (is_rotateF hA hR hx).ok
  refine ⟨y, y1, y2, isGrade_of_hom y2 ?_⟩
  rw [y3, h1, h2]
  exact GA.exp_sandwich_hom (hg.isHom ha) (hk.isHom hx)

/-- **C93, rotors keep products.** `x` to `R.rev() * x * R` is compatible with `*`, `^` and `vdot`. -/
theorem C93_products [WedgeProduct A S] [LawfulWedge A S] (hA : A.WF) {a R : MV A S} (ha : a.Valid) (hg : IsGrade 2 a) (hR : R.Valid) (hRa : ExpOf a R) {x y : MV A S}
    (hx : x.Valid) (hy : y.Valid) :
    (do let p ← x.naiveMulImpl y; R.rotate p) ≈ᵣ (do let u ← R.rotate x; let v ← R.rotate y; u.naiveMulImpl v) ∧
    (do let p ← x.wedge y; R.rotate p) ≈ᵣ (do let u ← R.rotate x; let v ← R.rotate y; u.wedge v) ∧
    (do let u ← R.rotate x; let v ← R.rotate y; u.vdot v) = x.vdot y := by
  obtain ⟨h1, h2⟩ := exp_rotor_ga hA ha hg hR hRa
  have hrot : ∀ {z : MV A S}, z.Valid → Is (R.rotate z) (GA.expL a.ga z.ga) := fun hz => (is_rotateF hA hR hz).congr (by rw [h1, h2]; rfl)
  refine ⟨?_, ?_, ?_⟩
  · refine ((is_mul hA hx hy).bind fun p hp hpg => (hrot hp).congr (g' := GA.expL a.ga (x.ga * y.ga)) (by rw [hpg])).agree
      ((hrot hx).bind fun u hu hug => (hrot hy).bind fun v hv hvg => (is_mul hA hu hv).congr (g' := GA.expL a.ga x.ga * GA.expL a.ga y.ga) (by rw [hug, hvg])) ?_
    exact GA.expL_mul _ _ _
  · refine ((is_wedge hx hy).bind fun p hp hpg => (hrot hp).congr (g' := GA.expL a.ga (GA.wdg x.ga y.ga)) (by rw [hpg])).agree
      ((hrot hx).bind fun u hu hug => (hrot hy).bind fun v hv hvg => (is_wedge hu hv).congr (g' := GA.wdg (GA.expL a.ga x.ga) (GA.expL a.ga y.ga)) (by rw [hug, hvg])) ?_
    exact GA.expL_wdg (hg.isHom ha) _ _
  · obtain ⟨u, u1, u2, u3⟩ := (hrot hx).ok
    obtain ⟨v, v1, v2, v3⟩ := (hrot hy).ok
    rw [u1, v1]
    show u.vdot v = _
    rw [vdot_dot hA u2 v2, vdot_dot hA hx hy, u3, v3, GA.exp_dot]

/-- **C93, the action on vectors.** The matrix of `v` to `R.rev() * v * R` has determinant one, keeps the quadratic form of the
algebra, and it leaves the null generators as they are. -/
theorem C93_matrix (hA : A.WF) {a R : MV A S} (ha : a.Valid) (hg : IsGrade 2 a) (hR : R.Valid) (hRa : ExpOf a R) :
    ∃ M : Matrix (Fin A.dim) (Fin A.dim) 𝕜, MatrixOf R.rotate M ∧ M.det = 1 ∧
      M.transpose * Matrix.diagonal (fun i : Fin A.dim => (A.sigma i : 𝕜)) * M = Matrix.diagonal (fun i : Fin A.dim => (A.sigma i : 𝕜)) ∧
      ∀ i j : Fin A.dim, A.sigma i = 0 → M j i = if j = i then 1 else 0 := by
  obtain ⟨h1, h2⟩ := exp_rotor_ga hA ha hg hR hRa
  have hb := hg.isHom ha
  refine ⟨GA.matOf (GA.expL a.ga), matrixOf_is ha.supp fun e he => (is_rotateF hA hR he).congr (by rw [h1, h2]; rfl), GA.exp_det hb, GA.exp_orth hb, ?_⟩
  intro i j hi
  show (GA.expL a.ga (GA.e i)).fn (2 ^ (j : Nat)) = _
  rw [GA.exp_null hb i.2 hi, GA.fn_e j.2]
  simp only [Fin.ext_iff]

/-- **C93, the computed exponential.** With `N` the sum of the norms of the coefficients of the bivector `a`, `m` the exponent that
`exp` takes (C67) and `d = m · (N/m)^19 / 19! · e^N`, the result `x` of `a.exp()` has `x.rev() * x` closer to one than `d (2 e^N + d)`. -/
theorem C93_error (hA : A.WF) {a : MV A S} (ha : a.Valid) (hg : IsGrade 2 a) {v : Nat → 𝕜} {q : 𝕜} (hv : Coefs (.ok a) v)
    (hq : a.mag2 = .ok q) {m : Nat}
    (hm : IsLeast {x : Nat | 1 ≤ x ∧ (∀ i < 2 ^ A.dim, ‖v i‖ ≤ x) ∧ Real.sqrt ‖q‖ ≤ x} m) {fuel : Nat} (hf : 18 ≤ fuel) {N d : ℝ}
    (hN : N = ∑ i ∈ range (2 ^ A.dim), ‖v i‖) (hd : d = m * ((N / m) ^ 19 / Nat.factorial 19) * Real.exp N) :
    ∃ x r, a.exp (fun c => ‖c‖) (algebraMap ℝ 𝕜) fuel = some (.ok x) ∧ Coefs (do let y ← x.rev; y.naiveMulImpl x) r ∧
      ∑ i ∈ range (2 ^ A.dim), ‖r i - (if i = 0 then 1 else 0)‖ ≤ d * (2 * Real.exp N + d) := by
  obtain ⟨x, r, hx, hr, he⟩ := C67_error hA ha hv ((isExp_iff hA ha).mpr fun _ _ => rfl) hq hm hf
  obtain ⟨m', hm1, hm'⟩ := expIntPow_ok hA (fun c : 𝕜 => ‖c‖) ha
  obtain ⟨x', hx', hxI⟩ := (exp_is (algebraMap ℝ 𝕜) hA _ ha hm' fuel).2 hf
  rw [hx] at hx'
  injection hx' with hx'
  subst hx'
  obtain ⟨u, rfl, hu, hug⟩ := hxI.ok
  have hI : Is (do let y ← u.rev; y.naiveMulImpl u) (GA.rev u.ga * u.ga) := (is_rev hu).bind fun y hy hyg => (is_mul hA hy hu).congr (by rw [hyg])
  refine ⟨u, _, hx, hI.coefs, ?_⟩
  have hva : ∀ i < 2 ^ A.dim, v i = a.val i := fun i hi => by
    rw [hv.unique (Is.of_valid ha).coefs i hi, ga_val hi]
  have hn : ‖a.ga‖ = N := by
    rw [hN, MV.ga, GA.norm_of]
    exact Finset.sum_congr rfl fun i hi => by rw [hva i (mem_range.mp hi)]
  have hsub : ∀ (y z : GA A.sigma A.dim 𝕜) (i : Nat), (y - z).fn i = y.fn i - z.fn i := fun y z i => map_sub (GA.coef i) y z
  have h1 : ‖u.ga - NormedSpace.exp a.ga‖ ≤ d := by
    rw [hd, hN]
    refine le_trans (le_of_eq ?_) he
    rw [GA.norm_def]
    refine Finset.sum_congr rfl fun i hi => ?_
    rw [hr.unique (Is.of_valid hu).coefs i (mem_range.mp hi), hsub]
  have h2 := GA.rotor_error (hg.isHom ha) h1
  rw [hn] at h2
  refine le_trans (le_of_eq ?_) h2
  rw [GA.norm_def]
  refine Finset.sum_congr rfl fun i hi => ?_
  rw [hsub, GA.one_def, GA.fn_of _ (mem_range.mp hi)]
  rfl

end

namespace Ex

/-- Two plus generators, a minus one and a null one. -/
def Q4 : ClAlg := (declareAlgebra [.plus, .plus, .minus, .null] []).get rfl
theorem Q4_wf : Q4.WF := declareAlgebra_wf (sig := [.plus, .plus, .minus, .null]) (names := []) rfl

/-- A bivector that is not the wedge of two vectors: `e1^e0 + 2 e3^e2 + 3 e2^e0`. -/
noncomputable def bivQ : MV Q4 (ArrayStorage ℝ) := ⟨⟨4, ⟨16, fun i => if i = 3 then 1 else if i = 12 then 2 else if i = 5 then 3 else 0⟩⟩⟩

theorem bivQ_valid : bivQ.Valid := ⟨by decide, rfl, rfl⟩

theorem bivQ_grade : IsGrade 2 bivQ := by
  intro i hi hne
  rw [bivQ_valid.get hi, MV.arr_val bivQ_valid hi]
  show Except.ok (if i = 3 then (1 : ℝ) else if i = 12 then 2 else if i = 5 then 3 else 0) = _
  rw [if_neg, if_neg, if_neg] <;> rintro rfl <;> exact hne (by decide +kernel)

end Ex

section

/-- The exponential of a bivector that is not simple, with generators that square to `1`, `-1` and `0`. -/
example : ∃ R : MV Ex.Q4 (ArrayStorage ℝ), R.Valid ∧ ExpOf Ex.bivQ R ∧ (do let r ← R.rev; r.naiveMulImpl R) ≈ᵣ MV.one ∧
    ∃ M, MatrixOf R.rotate M ∧ M.det = 1 := by
  obtain ⟨R, h1, h2, -⟩ := C93_exists Ex.Q4_wf Ex.bivQ_valid
  obtain ⟨M, hM, hd, -⟩ := C93_matrix Ex.Q4_wf Ex.bivQ_valid Ex.bivQ_grade h1 h2
  exact ⟨R, h1, h2, (C93_rotor Ex.Q4_wf Ex.bivQ_valid Ex.bivQ_grade h1 h2).2.1, M, hM, hd⟩

example {R : MV Ex.Q4 (ArrayStorage ℝ)} (hR : R.Valid) (h : ExpOf Ex.bivQ R) :=
  C93_grades Ex.Q4_wf Ex.bivQ_valid Ex.bivQ_grade hR h Ex.bivQ_valid Ex.bivQ_grade

example {R : MV Ex.Q4 (ArrayStorage ℝ)} (hR : R.Valid) (h : ExpOf Ex.bivQ R) :=
  C93_products Ex.Q4_wf Ex.bivQ_valid Ex.bivQ_grade hR h Ex.bivQ_valid hR

/-- `bivQ` commutes with itself: the exponential of `2 bivQ` is the square. -/
example {s R P : MV Ex.Q4 (ArrayStorage ℝ)} (hs : Ex.bivQ.add Ex.bivQ = .ok s) (hR : R.Valid) (hP : P.Valid) (h : ExpOf Ex.bivQ R) (h' : ExpOf s P) :
    R.naiveMulImpl R ≈ᵣ .ok P :=
  C93_add Ex.Q4_wf Ex.bivQ_valid Ex.bivQ_valid ((is_mul Ex.Q4_wf Ex.bivQ_valid Ex.bivQ_valid).agree (is_mul Ex.Q4_wf Ex.bivQ_valid Ex.bivQ_valid) rfl) hs hR hR hP h h h'

example {b R Q : MV Ex.Q4 (ArrayStorage ℝ)} (hs : Ex.bivQ.neg = .ok b) (hR : R.Valid) (hQ : Q.Valid) (h : ExpOf Ex.bivQ R) (h' : ExpOf b Q) :=
  C93_neg Ex.Q4_wf Ex.bivQ_valid hs hR hQ h h'

/-- The reverse of the exponential of `bivQ` is the exponential of the reverse. -/
example {x y R : MV Ex.Q4 (ArrayStorage ℝ)} (hx : Ex.bivQ.rev = .ok x) (hy : R.rev = .ok y) (hR : R.Valid) (h : ExpOf Ex.bivQ R) :=
  C93_rev Ex.Q4_wf Ex.bivQ_valid hR h hx hy

/-- The computed rotor of the bivector `e1^e0` in three dimensions: `d = e / 19!`. -/
example : ∃ x r, Ex.rB.exp (fun c : ℝ => ‖c‖) (algebraMap ℝ ℝ) 18 = some (.ok x) ∧ Coefs (do let y ← x.rev; y.naiveMulImpl x) r ∧
    ∑ i ∈ range 8, ‖r i - (if i = 0 then 1 else 0)‖ ≤ Real.exp 1 / Nat.factorial 19 * (2 * Real.exp 1 + Real.exp 1 / Nat.factorial 19) := by
  have hv : ∀ i < 8, Ex.rB.val i = if i = 3 then 1 else 0 := fun i hi => MV.arr_val Ex.rB_valid hi
  have hh : GA.IsHom 2 (GA.bl 3 : GA Ex.E.sigma Ex.E.dim ℝ) := GA.isHom_bl (a := 3) (by decide)
  have hq : Ex.rB.mag2 = .ok (1 : ℝ) := by
    rw [mag2_ga Ex.E_wf Ex.rB_valid, Ex.rB_ga, GA.rev_hom_two hh, neg_mul, GA.bl_mul_bl (by decide),
      show bsgn Ex.E.sigma Ex.E.dim 3 3 = -1 by decide, Nat.xor_self, GA.bl_zero, Int.cast_neg, Int.cast_one, neg_smul, neg_neg, one_smul,
      GA.one_def, GA.fn_of _ (Nat.two_pow_pos _)]
    rfl
  have hg : IsGrade 2 Ex.rB := isGrade_of_hom Ex.rB_valid (by rw [Ex.rB_ga]; exact hh)
  refine C93_error (m := 1) (N := 1) Ex.E_wf Ex.rB_valid hg ((Ex.coefs_val Ex.rB_valid).congr hv) hq ⟨⟨le_rfl, fun i _ => ?_, ?_⟩, fun x hx => hx.1⟩ (le_refl 18) ?_ ?_
  · by_cases h : i = 3 <;> simp [h]
  · simp
  · show (1 : ℝ) = ∑ i ∈ range 8, ‖(if i = 3 then (1 : ℝ) else 0)‖
    simp [Finset.sum_range_succ]
  · simp [div_eq_inv_mul]

end

end TClifford
