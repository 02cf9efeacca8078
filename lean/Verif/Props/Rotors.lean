import Verif.Proofs.Rotor
import Verif.Props.Determinant
import Verif.Props.Sandwich
import Verif.Props.ExpBound
import Mathlib.Analysis.Complex.Exponential
import Mathlib.Analysis.Real.Pi.Bounds
/-
C83: what products of vectors and rotors do to vectors, as matrices; the example of the README.
-/

set_option linter.unusedSectionVars false

namespace TClifford

open MV Finset

section
variable {A : ClAlg} {S T : Type} [CommRing T] [DecidableEq T] [CoeffStorage S T] [LawfulStorage S T]

/-- `M` is the matrix whose column `i` is `f(basis()[i]).extract_vector()`. -/
def MatrixOf (f : MV A S → Res (MV A S)) (M : Matrix (Fin A.dim) (Fin A.dim) T) : Prop :=
  ∀ i : Fin A.dim, (do let e ← basisVec (A := A) (S := S) (T := T) i; let y ← f e; y.extractVector) = .ok (List.ofFn fun j => M j i)

theorem extractVector_is {x : Res (MV A S)} {g : GA A.sigma A.dim T} (h : Is x g) :
    (do let y ← x; y.extractVector) = .ok (List.ofFn fun j : Fin A.dim => g.fn (2 ^ (j : Nat))) := by
  obtain ⟨u, rfl, hu, rfl⟩ := h.ok
  show u.extractVector = _
  have hd := LawfulStorage.supp_le hu.supp
  unfold extractVector
  have : ∀ ks : List Nat, (∀ k ∈ ks, k < A.dim) →
      ks.mapM (m := Res) (fun i => u.getByIdx (ushl 1 i)) = .ok (ks.map (fun k => u.ga.fn (2 ^ k))) := by
    intro ks hks
    induction ks with
    | nil => rfl
    | cons k ks ih =>
      have hk := hks k (by simp)
      have h2 : 2 ^ k < 2 ^ A.dim := Nat.pow_lt_pow_right (by norm_num) hk
      rw [List.mapM_cons, ushl_one (by omega), hu.get h2, ih (fun j hj => hks j (by simp [hj])), List.map_cons, ga_val h2]
      rfl
  rw [this _ (fun k hk => List.mem_range.mp hk), List.ofFn_eq_map, ← List.map_coe_finRange_eq_range, List.map_map]
  rfl

theorem matrixOf_is (hS : LawfulStorage.Supp (S := S) (T := T) A.dim) {f : MV A S → Res (MV A S)} {F : GA A.sigma A.dim T → GA A.sigma A.dim T}
    (h : ∀ e : MV A S, e.Valid → Is (f e) (F e.ga)) : MatrixOf f (GA.matOf F) := by
  intro i
  have h1 : Is (basisVec (A := A) (S := S) (T := T) i) (GA.e i) := is_of_denotes (basisVec_denotes hS i.2)
  have h2 := extractVector_is (h1.bind fun e he heg => heg ▸ h e he)
  rw [bind_assoc] at h2
  exact h2

/-- **C83.** Products of vectors act on vectors with the determinant `(-1)^((dim+1) k) V.mag2()^dim`, where `k` is the number of
vectors. -/
theorem C83_versor_det (hA : A.WF) (hn : 0 < A.dim) (hS : LawfulStorage.Supp (S := S) (T := T) A.dim) (l : List (MV A S))
    (hl : ∀ v ∈ l, v.Valid ∧ IsGrade 1 v) {V : MV A S} (hV : versor l = .ok V) :
    ∃ M m, MatrixOf V.sandwich M ∧ V.mag2 = .ok m ∧ M.det = (-1) ^ ((A.dim + 1) * l.length) * m ^ A.dim := by
  obtain ⟨g1, g2, g3⟩ := versor_ok hA hS l hl hV
  refine ⟨_, _, matrixOf_is hS fun e he => is_sandwich hA g1 he, g3, ?_⟩
  have h := GA.det_versor hn _ (vecs_ga hl)
  rw [← g2, List.length_map] at h
  exact h

end

section
variable {A : ClAlg} {S T : Type} [Field T] [DecidableEq T] [CoeffStorage S T] [LawfulStorage S T] [WedgeProduct A S] [LawfulWedge A S]

/-- `R.rev() * x * R`. -/
def MV.rotate (R x : MV A S) : Res (MV A S) := do
  let r ← R.rev
  let z ← r.naiveMulImpl x
  z.naiveMulImpl R

/-- `c + s * a.wedge(b)`. -/
def MV.rotor (c s : T) (a b : MV A S) : Res (MV A S) := do
  let B ← a.wedge b
  let B ← B.smul s
  let o ← fromScalar (T := T) c
  o.add B

theorem is_rotate (hA : A.WF) {R x : MV A S} (hR : R.Valid) (hx : x.Valid) : Is (R.rotate x) (GA.rev R.ga * x.ga * R.ga) :=
  (is_rev hR).bind fun r hr hrg => (is_mul hA hr hx).bind fun z hz hzg => (is_mul hA hz hR).congr (by rw [hzg, hrg])

theorem is_rotor (h2 : (2 : T) ≠ 0) {a b : MV A S} (ha : a.Valid) (hb : b.Valid) (ha1 : IsGrade 1 a) (hb1 : IsGrade 1 b) (c s : T) :
    Is (MV.rotor c s a b) (c • (1 : GA A.sigma A.dim T) + s • GA.biv a.ga b.ga) := by
  refine (is_wedge ha hb).bind fun B hB hBg => (is_smul hB s).bind fun C hC hCg => (Is.fromScalar ha.supp c).bind fun o ho hog =>
    (is_add ho hC).congr ?_
  rw [hog, hCg, hBg, GA.wdg_eq_biv h2 (ha1.isVec ha) (hb1.isVec hb), Algebra.algebraMap_eq_smul_one]

theorem vdot_dot (hA : A.WF) {a b : MV A S} (ha : a.Valid) (hb : b.Valid) : a.vdot b = .ok (GA.dot a.ga b.ga) := by
  unfold GA.dot
  rw [vdot_ok hA ha hb, MV.ga, MV.ga, ← GA.of_mul, GA.fn_of _ (Nat.two_pow_pos _)]

/-- **C83.** Rodrigues' formula for `R = c + s a∧b`, in terms of `a·a`, `a·b`, `b·b`, `v·a` and `v·b`, and the magnitude of
`R`. -/
theorem C83_rotation (hA : A.WF) (h2 : (2 : T) ≠ 0) {a b v : MV A S} (ha : a.Valid) (hb : b.Valid) (hv : v.Valid)
    (ha1 : IsGrade 1 a) (hb1 : IsGrade 1 b) (hv1 : IsGrade 1 v) {c s aa ab bb va vb : T} (haa : a.vdot a = .ok aa) (hab : a.vdot b = .ok ab)
    (hbb : b.vdot b = .ok bb) (hva : v.vdot a = .ok va) (hvb : v.vdot b = .ok vb) {R : MV A S} (hR : MV.rotor c s a b = .ok R) :
    R.mag2 = .ok (c ^ 2 + s ^ 2 * (aa * bb - ab ^ 2)) ∧
    R.rotate v ≈ᵣ (do
      let x ← v.smul (c ^ 2 + s ^ 2 * (aa * bb - ab ^ 2))
      let y ← b.smul (2 * c * s * va + 2 * s ^ 2 * (va * ab - vb * aa))
      let z ← a.smul (2 * c * s * vb + 2 * s ^ 2 * (va * bb - vb * ab))
      let w ← x.add y
      w.sub z) := by
  obtain ⟨R', r1, r2, r3⟩ := (is_rotor h2 ha hb ha1 hb1 c s).ok
  rw [hR] at r1
  injection r1 with r1
  subst r1
  rw [vdot_dot hA ha ha] at haa
  rw [vdot_dot hA ha hb] at hab
  rw [vdot_dot hA hb hb] at hbb
  rw [vdot_dot hA hv ha] at hva
  rw [vdot_dot hA hv hb] at hvb
  injection haa with haa
  injection hab with hab
  injection hbb with hbb
  injection hva with hva
  injection hvb with hvb
  subst haa hab hbb hva hvb
  have ha' := ha1.isVec ha
  have hb' := hb1.isVec hb
  constructor
  · rw [mag2_ga hA r2, r3, GA.rev_rotor ha' hb', GA.rev_mul_rotor ha' hb', GA.fn_zero_smul_one]
  · refine (is_rotate hA r2 hv).agree ((is_smul hv _).bind fun x hx hxg => (is_smul hb _).bind fun y hy hyg =>
      (is_smul ha _).bind fun z hz hzg => (is_add hx hy).bind fun w hw hwg => (is_sub hw hz).congr (by rw [hwg, hzg, hyg, hxg])) ?_
    rw [r3, GA.rev_rotor ha' hb', GA.rotor_sandwich ha' hb' c s (hv1.isVec hv)]

/-- **C83.** The matrix of the rotation with `R = c + s a∧b` has the determinant `R.mag2()^dim`, and it multiplies the quadratic
form of the algebra by `R.mag2()^2`. -/
theorem C83_rotation_det (hA : A.WF) (h2 : (2 : T) ≠ 0) {a b : MV A S} (ha : a.Valid) (hb : b.Valid) (ha1 : IsGrade 1 a)
    (hb1 : IsGrade 1 b) {c s : T} {R : MV A S} (hR : MV.rotor c s a b = .ok R) {m : T} (hm : R.mag2 = .ok m) (hm0 : m ≠ 0) :
    ∃ M, MatrixOf R.rotate M ∧ M.det = m ^ A.dim ∧
      M.transpose * Matrix.diagonal (fun i : Fin A.dim => (A.sigma i : T)) * M = m ^ 2 • Matrix.diagonal (fun i : Fin A.dim => (A.sigma i : T)) := by
  obtain ⟨R', r1, r2, r3⟩ := (is_rotor h2 ha hb ha1 hb1 c s).ok
  rw [hR] at r1
  injection r1 with r1
  subst r1
  have ha' := ha1.isVec ha
  have hb' := hb1.isVec hb
  rw [mag2_ga hA r2, r3, GA.rev_rotor ha' hb', GA.rev_mul_rotor ha' hb', GA.fn_zero_smul_one] at hm
  injection hm with hm
  subst hm
  have hf : ∀ x, GA.rev R.ga * x * R.ga = (c • (1 : GA A.sigma A.dim T) - s • GA.biv a.ga b.ga) * x * (c • (1 : GA A.sigma A.dim T) + s • GA.biv a.ga b.ga) := by
    intro x
    rw [r3, GA.rev_rotor ha' hb']
  refine ⟨_, matrixOf_is ha.supp fun e he => (is_rotate hA r2 he).congr (hf _), GA.det_rotor ha' hb' hm0, ?_⟩
  exact GA.matOf_orth _ (fun i => GA.rotor_vec ha' hb' c s (GA.isVec_e i.2))
    fun i j => GA.rotor_dot h2 ha' hb' c s (GA.isVec_e i.2) (GA.isVec_e j.2)

omit [Field T] [DecidableEq T] [CoeffStorage S T] [LawfulStorage S T] [WedgeProduct A S] [LawfulWedge A S] in
/-- **C83.** For orthogonal unit vectors, `R = cos t + sin t a∧b` rotates their plane by the angle `2t`, from `a` to `b`, and it
leaves the vectors orthogonal to the plane as they are. -/
theorem C83_angle [DecidableEq ℝ] [CoeffStorage S ℝ] [LawfulStorage S ℝ] [WedgeProduct A S] [LawfulWedge A S] (hA : A.WF) {a b v : MV A S}
    (ha : a.Valid) (hb : b.Valid) (hv : v.Valid) (ha1 : IsGrade 1 a) (hb1 : IsGrade 1 b) (hv1 : IsGrade 1 v) (haa : a.vdot a = .ok (1 : ℝ))
    (hab : a.vdot b = .ok (0 : ℝ)) (hbb : b.vdot b = .ok (1 : ℝ)) (hva : v.vdot a = .ok (0 : ℝ)) (hvb : v.vdot b = .ok (0 : ℝ)) (t : ℝ)
    {R : MV A S} (hR : MV.rotor (Real.cos t) (Real.sin t) a b = .ok R) :
    R.rotate a ≈ᵣ (do let x ← a.smul (Real.cos (2 * t)); let y ← b.smul (Real.sin (2 * t)); x.add y) ∧
    R.rotate b ≈ᵣ (do let x ← b.smul (Real.cos (2 * t)); let y ← a.smul (Real.sin (2 * t)); x.sub y) ∧ R.rotate v ≈ᵣ .ok v := by
  have hba : b.vdot a = .ok (0 : ℝ) := by
    rw [vdot_dot hA hb ha, GA.dot_comm (hb1.isVec hb) (ha1.isVec ha), ← vdot_dot hA ha hb, hab]
  obtain ⟨R', r1, r2, r3⟩ := (is_rotor two_ne_zero ha hb ha1 hb1 (Real.cos t) (Real.sin t)).ok
  rw [hR] at r1
  injection r1 with r1
  subst r1
  have hc := Real.cos_sq_add_sin_sq t
  have ha' := ha1.isVec ha
  have hb' := hb1.isVec hb
  have key : ∀ w : MV A S, w.Valid → IsGrade 1 w → ∀ {p q : ℝ}, w.vdot a = .ok p → w.vdot b = .ok q → Is (R.rotate w)
      (w.ga + (2 * Real.cos t * Real.sin t * p - 2 * Real.sin t ^ 2 * q) • b.ga - (2 * Real.cos t * Real.sin t * q + 2 * Real.sin t ^ 2 * p) • a.ga) := by
    intro w hw hw1 p q hp hq
    refine (is_rotate hA r2 hw).congr ?_
    rw [vdot_dot hA ha ha] at haa
    rw [vdot_dot hA ha hb] at hab
    rw [vdot_dot hA hb hb] at hbb
    rw [vdot_dot hA hw ha] at hp
    rw [vdot_dot hA hw hb] at hq
    injection haa with haa
    injection hab with hab
    injection hbb with hbb
    injection hp with hp
    injection hq with hq
    rw [r3, GA.rev_rotor ha' hb', GA.rotor_sandwich ha' hb' _ _ (hw1.isVec hw), haa, hab, hbb, hp, hq]
    rw [show Real.cos t ^ 2 + Real.sin t ^ 2 * (1 * 1 - 0 ^ 2) = 1 from by linarith, one_smul]
    congr 2
    · congr 1; ring
    · ring
  refine ⟨(key a ha ha1 haa hab).agree ((is_smul ha _).bind fun x hx hxg => (is_smul hb _).bind fun y hy hyg =>
      (is_add hx hy).congr (by rw [hxg, hyg])) ?_, (key b hb hb1 hba hbb).agree ((is_smul hb _).bind fun x hx hxg => (is_smul ha _).bind fun y hy hyg =>
      (is_sub hx hy).congr (by rw [hxg, hyg])) ?_, (key v hv hv1 hva hvb).agree (Is.of_valid hv) (by simp)⟩
  · rw [Real.sin_two_mul, Real.cos_two_mul, show 2 * Real.cos t ^ 2 - 1 = 1 - 2 * Real.sin t ^ 2 from by linarith]
    module
  · rw [Real.sin_two_mul, Real.cos_two_mul, show 2 * Real.cos t ^ 2 - 1 = 1 - 2 * Real.sin t ^ 2 from by linarith]
    module

end

/-! ### The example of the README -/

section
variable {A : ClAlg} {K : Type} [Field K] [DecidableEq K] [ImagUnit K] {T : Type} [CommRing T] [DecidableEq T] [IntoComplex T K]

theorem cxHom_rev [LawfulInto T K] (hA : A.WF) (x : GA A.sigma A.dim T) : cxHom T K hA (GA.rev x) = GA.rev (cxHom T K hA x) := by
  show GA.of (cx A (GA.rev x).fn) = GA.rev (GA.of (cx A x.fn))
  rw [GA.rev_of]
  refine GA.of_congr fun k hk => ?_
  rw [← congrFun (cx_smul A (rsg A.dim) x.fn) k]
  refine cx_congr ?_
  induction x using GA.ind with | _ f =>
  rw [GA.rev_of, GA.fn_of _ hk, GA.fn_of _ hk]

theorem ris_rev (hA : A.WF) (hd : A.dim < 63) {r : FFTRepr A K} {g : CGA A K} (hr : RRep r g) : RIs r.rev (GA.rev g) :=
  ((rev_represents hA hd hr).is hA).congr (by rw [← GA.rev_of, GA.of_fn])

theorem RIs.bind {x : Res (FFTRepr A K)} {g g' : CGA A K} {k : FFTRepr A K → Res (FFTRepr A K)} (hx : RIs x g)
    (h : ∀ r, RRep r g → RIs (k r) g') : RIs (x >>= k) g' := by
  obtain ⟨r, rfl, hr⟩ := hx
  exact h r hr

theorem ris_ifft [FromComplex T K] [LawfulComplex T K] (hA : A.WF) (hd : A.dim < 63) (h2 : (2 : K) ≠ 0) {x : Res (FFTRepr A K)}
    {g : GA A.sigma A.dim T} (hx : RIs x (cxHom T K hA g)) : Is (do let t ← x; (t.ifft : Res (MV A (ArrayStorage T)))) g := by
  refine (ifft_represents (T := T) hA hd h2 hx).congr (fun k hk => ?_)
  rw [← congrFun (dcx_cx (K := K) A g.fn) k]
  exact dcx_congr (GA.fn_of (cx A g.fn) hk)

end

theorem abs_pow_sub_one_le {x δ : ℝ} (h : |x - 1| ≤ δ) (N : Nat) : |x ^ N - 1| ≤ (1 + δ) ^ N - 1 := by
  have hx : |x| ≤ 1 + δ := by
    have := abs_add_le (x - 1) 1
    rw [sub_add_cancel, abs_one] at this
    linarith
  induction N with
  | zero => simp
  | succ N ih =>
    have h1 : x ^ (N + 1) - 1 = x * (x ^ N - 1) + (x - 1) := by ring
    rw [h1]
    refine (abs_add_le _ _).trans ?_
    rw [abs_mul]
    have h3 : |x| * |x ^ N - 1| ≤ (1 + δ) * ((1 + δ) ^ N - 1) :=
      mul_le_mul hx ih (abs_nonneg _) ((abs_nonneg _).trans hx)
    calc |x| * |x ^ N - 1| + |x - 1| ≤ (1 + δ) * ((1 + δ) ^ N - 1) + δ := add_le_add h3 h
      _ = _ := by ring

/-- The sum of 19 terms of the series of `exp(i t)` has almost absolute value one. -/
theorem norm_taylor_I {t : ℝ} (ht : |t| ≤ 1) :
    |‖∑ j ∈ range 19, ((t : ℂ) * Complex.I) ^ j / (Nat.factorial j : ℂ)‖ - 1| ≤ |t| * (20 / (19 * Nat.factorial 19)) := by
  have hn : ‖(t : ℂ) * Complex.I‖ = |t| := by rw [norm_mul, Complex.norm_I, mul_one, Complex.norm_real, Real.norm_eq_abs]
  have h := Complex.exp_bound (x := (t : ℂ) * Complex.I) (by rw [hn]; exact ht) (n := 19) (by norm_num)
  rw [hn] at h
  have h1 := abs_norm_sub_norm_le (∑ j ∈ range 19, ((t : ℂ) * Complex.I) ^ j / (Nat.factorial j : ℂ)) (Complex.exp ((t : ℂ) * Complex.I))
  rw [Complex.norm_exp_ofReal_mul_I, norm_sub_rev] at h1
  refine h1.trans (h.trans ?_)
  refine mul_le_mul (pow_le_of_le_one (abs_nonneg _) ht (by norm_num)) (le_of_eq ?_) (by positivity) (abs_nonneg _)
  rw [Nat.succ_eq_add_one]
  push_cast
  rw [div_eq_mul_inv, mul_comm (19 : ℝ)]

open Classical in
/-- **C83, the example of the README.** For vectors `a` and `b` of a real algebra with `q = a.wedge(b).mag2() > 0` and every
real `angle`, let `rot = (a.wedge(b) / q.sqrt() * angle).fft().exp()`. The matrix with the columns
`(rot.rev() * e.fft() * rot).ifft().extract_vector()` multiplies the quadratic form of the algebra by `k^2` and has the
determinant `k^dim` for a number `k` very close to one; computed without rounding errors. -/
theorem C83_readme_rotor {A : ClAlg} [WedgeProduct A (ArrayStorage ℝ)] [LawfulWedge A (ArrayStorage ℝ)] (hA : A.WF) (hd : A.dim < 63)
    {a b B : MV A (ArrayStorage ℝ)} (ha : a.Valid) (hb : b.Valid) (ha1 : IsGrade 1 a) (hb1 : IsGrade 1 b) (hB : a.wedge b = .ok B)
    {q : ℝ} (hq : B.mag2 = .ok q) (hq0 : 0 < q) (angle : ℝ) {fuel : Nat} (hf : 18 ≤ fuel) :
    ∃ (s rot : FFTRepr A ℂ) (M : Matrix (Fin A.dim) (Fin A.dim) ℝ) (k : ℝ),
      (do let u ← B.sdiv (Real.sqrt q); let t ← u.smul angle; (t.fft : Res (FFTRepr A ℂ))) = .ok s ∧
      s.exp (fun z => ‖z‖) Complex.ofRealHom fuel = some (.ok rot) ∧
      MatrixOf (fun e : MV A (ArrayStorage ℝ) => do
        let r ← rot.rev
        let f ← (e.fft : Res (FFTRepr A ℂ))
        let p ← r.mul f
        let p ← p.mul rot
        (p.ifft : Res (MV A (ArrayStorage ℝ)))) M ∧
      |k - 1| ≤ Real.exp (|angle| * (40 / (19 * Nat.factorial 19))) - 1 ∧ M.det = k ^ A.dim ∧
      |M.det - 1| ≤ Real.exp (A.dim * |angle| * (40 / (19 * Nat.factorial 19))) - 1 ∧
      M.transpose * Matrix.diagonal (fun i : Fin A.dim => (A.sigma i : ℝ)) * M = k ^ 2 • Matrix.diagonal (fun i : Fin A.dim => (A.sigma i : ℝ)) := by
  have ha' := ha1.isVec ha
  have hb' := hb1.isVec hb
  obtain ⟨B', b1, b2, b3⟩ := (is_wedge ha hb).ok
  rw [hB] at b1
  injection b1 with b1
  subst b1
  rw [GA.wdg_eq_biv two_ne_zero ha' hb'] at b3
  -- the square of the bivector
  have hsq := GA.biv_sq ha' hb'
  set d := GA.dot a.ga b.ga with hdd
  have hqe : q = GA.dot a.ga a.ga * GA.dot b.ga b.ga - d ^ 2 := by
    rw [mag2_ga hA b2, b3, GA.rev_biv ha' hb', neg_mul, hsq, ← neg_smul, GA.fn_zero_smul_one] at hq
    injection hq with hq
    rw [← hq]; ring
  have hr0 : Real.sqrt q ≠ 0 := (Real.sqrt_pos.mpr hq0).ne'
  have hrr : Real.sqrt q * Real.sqrt q = q := Real.mul_self_sqrt hq0.le
  -- the unit bivector
  set U : GA A.sigma A.dim ℝ := (Real.sqrt q)⁻¹ • GA.biv a.ga b.ga with hU
  have hUsq : U * U = -1 := by
    rw [hU, smul_mul_smul_comm, hsq, smul_smul, show d ^ 2 - GA.dot a.ga a.ga * GA.dot b.ga b.ga = -(Real.sqrt q * Real.sqrt q) from by rw [hrr, hqe]; ring]
    rw [show (Real.sqrt q)⁻¹ * (Real.sqrt q)⁻¹ * -(Real.sqrt q * Real.sqrt q) = -1 from by field_simp, neg_smul, one_smul]
  have hUrev : GA.rev U = -U := by rw [hU, map_smul, GA.rev_biv ha' hb', smul_neg]
  have ht : Is (do let u ← B.sdiv (Real.sqrt q); u.smul angle) (angle • U) :=
    (is_sdiv b2 hr0).bind fun u hu hug => (is_smul hu _).congr (by rw [hug, b3])
  obtain ⟨t, t1, t2, t3⟩ := ht.ok
  obtain ⟨s, hs, hsR⟩ := fft_is (K := ℂ) hA hd t2
  have hs' : (do let u ← B.sdiv (Real.sqrt q); let t ← u.smul angle; (t.fft : Res (FFTRepr A ℂ))) = .ok s := by
    rw [← bind_assoc, t1]; exact hs
  obtain ⟨m, hm1, hm⟩ := fft_expIntPow_ok hA hd two_ne_zero (fun z : ℂ => ‖z‖) hsR
  obtain ⟨x, hx, hxR⟩ := (fft_exp_is Complex.ofRealHom hA hd _ hsR hm1 hm fuel).2 hf
  have hmC := (fft_expIntPow_isMaxC (mag2_represents hA hd two_ne_zero hsR)).mp hm
  have hmpos : (0 : ℝ) < m := by exact_mod_cast hm1
  -- `max_c` is at least the angle
  have hma : |angle| ≤ m := by
    have h1 := C34_mag2 (T := ℝ) (K := ℂ) two_ne_zero hA hd t2
    rw [hs, mag2_ga hA t2, t3, map_smul, hUrev, smul_mul_smul_comm, neg_mul, hUsq, neg_neg, GA.fn_zero_smul_one] at h1
    have h2 := hmC.1.2.2 _ h1
    have h3 : ‖(IntoComplex.into (angle * angle) : ℂ)‖ = |angle| * |angle| := by
      show ‖((angle * angle : ℝ) : ℂ)‖ = _
      rw [Complex.norm_real, Real.norm_eq_abs, abs_mul]
    beta_reduce at h2
    rw [h3, Real.sqrt_mul_self (abs_nonneg _)] at h2
    exact h2
  set θ : ℝ := angle / m with hθ
  have hθ1 : |θ| ≤ 1 := by rw [hθ, abs_div, Nat.abs_cast]; exact (div_le_one hmpos).mpr hma
  -- the rotor as the image of a complex number
  let φ : ℂ →ₐ[ℝ] GA A.sigma A.dim ℝ := Complex.liftAux U hUsq
  have hφ : ∀ z : ℂ, φ z = z.re • (1 : GA A.sigma A.dim ℝ) + z.im • U := by
    intro z
    show Complex.liftAux U hUsq z = _
    rw [Complex.liftAux_apply, Algebra.algebraMap_eq_smul_one]
  set w : ℂ := ∑ j ∈ range 19, ((θ : ℂ) * Complex.I) ^ j / (Nat.factorial j : ℂ) with hw
  set z : ℂ := w ^ usizeCast m with hz
  have hy : RIs x (cxHom ℝ ℂ hA (φ z)) := hxR.congr (by
    have e1 : φ ((θ : ℂ) * Complex.I) = (1 / (m : ℝ)) • t.ga := by
      rw [hφ, t3, Complex.re_ofReal_mul, Complex.im_ofReal_mul, Complex.I_re, Complex.I_im, mul_zero, zero_smul, zero_add, mul_one,
        hθ, div_eq_mul_one_div, mul_comm, mul_smul]
    have e2 : φ w = taylor (RingHom.id ℝ) 19 ((1 / (m : ℝ)) • t.ga) := by
      unfold taylor
      rw [hw, map_sum]
      refine sum_congr rfl fun j _ => ?_
      rw [← e1, ← map_pow]
      have : ((θ : ℂ) * Complex.I) ^ j / (Nat.factorial j : ℂ) = (1 / (Nat.factorial j : ℝ)) • ((θ : ℂ) * Complex.I) ^ j := by
        rw [Complex.real_smul]; push_cast; ring
      rw [this, map_smul]
      rfl
    rw [hz, map_pow, map_pow, e2, cxHom_taylor Complex.ofRealHom hA (fun _ => rfl), cxHom_smul]
    rfl)
  obtain ⟨rot, rfl, hrot⟩ := hy
  -- the action
  have hM : MatrixOf (fun e : MV A (ArrayStorage ℝ) => do
        let r ← rot.rev
        let f ← (e.fft : Res (FFTRepr A ℂ))
        let p ← r.mul f
        let p ← p.mul rot
        (p.ifft : Res (MV A (ArrayStorage ℝ)))) (GA.matOf fun x => GA.rev (φ z) * x * φ z) := by
    refine matrixOf_is ha.supp fun e he => ?_
    have h1 : RIs (do
        let r ← rot.rev
        let f ← (e.fft : Res (FFTRepr A ℂ))
        let p ← r.mul f
        p.mul rot) (cxHom ℝ ℂ hA (GA.rev (φ z) * e.ga * φ z)) := by
      rw [map_mul, map_mul, cxHom_rev]
      exact (ris_rev hA hd hrot).bind fun r hr => (fft_is hA hd he).bind fun f hf => (ris_mul hA hr hf).bind fun p hp => ris_mul hA hp hrot
    simpa only [bind_assoc] using ris_ifft (T := ℝ) hA hd two_ne_zero h1
  set c := z.re with hc
  set σ := z.im * (Real.sqrt q)⁻¹ with hσ
  have hφz : φ z = c • (1 : GA A.sigma A.dim ℝ) + σ • GA.biv a.ga b.ga := by rw [hφ, hU, smul_smul]
  have hk : c ^ 2 + σ ^ 2 * (GA.dot a.ga a.ga * GA.dot b.ga b.ga - d ^ 2) = ‖w‖ ^ (2 * usizeCast m) := by
    rw [← hqe, pow_mul', ← norm_pow, ← hz, ← Complex.normSq_eq_norm_sq, Complex.normSq_apply, hσ, mul_pow, inv_pow, Real.sq_sqrt hq0.le]
    field_simp
    rw [hc]
  have hfun : (fun x => GA.rev (φ z) * x * φ z) = fun x => (c • (1 : GA A.sigma A.dim ℝ) - σ • GA.biv a.ga b.ga) * x *
      (c • (1 : GA A.sigma A.dim ℝ) + σ • GA.biv a.ga b.ga) := by
    funext x
    rw [hφz, GA.rev_rotor ha' hb']
  have hδ := norm_taylor_I hθ1
  rw [← hw] at hδ
  -- powers of the absolute value
  have hpow : ∀ N : Nat, |‖w‖ ^ (2 * usizeCast m * N) - 1| ≤ Real.exp (N * |angle| * (40 / (19 * Nat.factorial 19))) - 1 := by
    intro N
    refine (abs_pow_sub_one_le hδ _).trans (sub_le_sub_right ?_ 1)
    have hum : (usizeCast m : ℝ) ≤ m := by exact_mod_cast min_le_left _ _
    calc (1 + |θ| * (20 / (19 * Nat.factorial 19))) ^ (2 * usizeCast m * N)
        ≤ Real.exp (|θ| * (20 / (19 * Nat.factorial 19))) ^ (2 * usizeCast m * N) := by
          refine pow_le_pow_left₀ (by positivity) ?_ _
          rw [add_comm]; exact Real.add_one_le_exp _
      _ = Real.exp ((2 * usizeCast m * N : Nat) * (|θ| * (20 / (19 * Nat.factorial 19)))) := by rw [← Real.exp_nat_mul]
      _ ≤ _ := by
          refine Real.exp_le_exp.mpr ?_
          have h1 : |θ| * m = |angle| := by rw [hθ, abs_div, Nat.abs_cast, div_mul_cancel₀ _ hmpos.ne']
          rw [← h1]
          push_cast
          have h2 : (2 * (usizeCast m : ℝ) * N) * (|θ| * (20 / (19 * (Nat.factorial 19 : ℝ)))) ≤ (2 * (m : ℝ) * N) * (|θ| * (20 / (19 * (Nat.factorial 19 : ℝ)))) := by
            gcongr
          refine h2.trans (le_of_eq ?_)
          ring
  have hw0 : ‖w‖ ≠ 0 := by
    intro h0
    rw [h0, zero_sub, abs_neg, abs_one] at hδ
    have : |θ| * (20 / (19 * (Nat.factorial 19 : ℝ))) ≤ 1 * (20 / (19 * (Nat.factorial 19 : ℝ))) := mul_le_mul_of_nonneg_right hθ1 (by positivity)
    have h3 : (20 / (19 * (Nat.factorial 19 : ℝ))) < 1 := by norm_num [Nat.factorial]
    linarith
  have hk0 : c ^ 2 + σ ^ 2 * (GA.dot a.ga a.ga * GA.dot b.ga b.ga - d ^ 2) ≠ 0 := by rw [hk]; exact pow_ne_zero _ hw0
  have hdet := GA.det_rotor ha' hb' hk0
  rw [← hfun, hk] at hdet
  refine ⟨s, rot, _, ‖w‖ ^ (2 * usizeCast m), hs', hx, hM, ?_, hdet, ?_, ?_⟩
  · have := hpow 1
    rw [mul_one, Nat.cast_one, one_mul] at this
    exact this
  · rw [hdet, ← pow_mul]
    exact hpow A.dim
  · rw [hfun, ← hk]
    exact GA.matOf_orth _ (fun i => GA.rotor_vec ha' hb' c σ (GA.isVec_e i.2))
      fun i j => GA.rotor_dot two_ne_zero ha' hb' c σ (GA.isVec_e i.2) (GA.isVec_e j.2)

open Classical in
/-- **C83, the assertion of the README.** In eight dimensions and for angles up to `π`, the determinant of the matrix of the README
differs from one by less than `1e-12`; computed without rounding errors. -/
theorem C83_readme_det {A : ClAlg} [WedgeProduct A (ArrayStorage ℝ)] [LawfulWedge A (ArrayStorage ℝ)] (hA : A.WF) (hd : A.dim = 8)
    {a b B : MV A (ArrayStorage ℝ)} (ha : a.Valid) (hb : b.Valid) (ha1 : IsGrade 1 a) (hb1 : IsGrade 1 b) (hB : a.wedge b = .ok B)
    {q : ℝ} (hq : B.mag2 = .ok q) (hq0 : 0 < q) {angle : ℝ} (h0 : 0 ≤ angle) (hpi : angle ≤ Real.pi) {s rot : FFTRepr A ℂ} {fuel : Nat}
    (hs : (do let u ← B.sdiv (Real.sqrt q); let t ← u.smul angle; (t.fft : Res (FFTRepr A ℂ))) = .ok s)
    (hrot : s.exp (fun z => ‖z‖) Complex.ofRealHom fuel = some (.ok rot)) {M : Matrix (Fin A.dim) (Fin A.dim) ℝ}
    (hM : MatrixOf (fun e : MV A (ArrayStorage ℝ) => do
        let r ← rot.rev
        let f ← (e.fft : Res (FFTRepr A ℂ))
        let p ← r.mul f
        let p ← p.mul rot
        (p.ifft : Res (MV A (ArrayStorage ℝ)))) M) : |M.det - 1| < 1e-12 := by
  have hf : 18 ≤ fuel := by
    obtain ⟨B', b1, b2, -⟩ := (is_wedge ha hb).ok
    rw [hB] at b1
    injection b1 with b1
    subst b1
    obtain ⟨u, u1, u2, -⟩ := (is_sdiv b2 (Real.sqrt_pos.mpr hq0).ne').ok
    obtain ⟨t, t1, t2, -⟩ := (is_smul u2 angle).ok
    obtain ⟨s', s1, h⟩ := C53_fft_iterations (K := ℂ) Complex.ofRealHom hA (by omega) two_ne_zero (fun z => ‖z‖) t2
    have hs' : (.ok s' : Res (FFTRepr A ℂ)) = .ok s := by
      rw [← s1, ← hs, u1]
      show _ = (u.smul angle >>= fun t => (t.fft : Res (FFTRepr A ℂ)))
      rw [t1]; rfl
    injection hs' with hs'
    rw [← h fuel, hs', hrot]; rfl
  obtain ⟨s', rot', M', k, e1, e2, e3, -, -, e4, -⟩ := C83_readme_rotor hA (by omega) ha hb ha1 hb1 hB hq hq0 angle hf
  rw [hs] at e1
  injection e1 with e1
  subst e1
  rw [hrot] at e2
  injection e2 with e2
  injection e2 with e2
  subst e2
  have hMM : M = M' := by
    funext j i
    have h1 := hM i
    have h2 := e3 i
    rw [h1] at h2
    injection h2 with h2
    exact congrFun (List.ofFn_injective h2) j
  rw [hMM]
  refine lt_of_le_of_lt e4 ?_
  rw [abs_of_nonneg h0, hd]
  have hx : ((8 : Nat) : ℝ) * angle * (40 / (19 * (Nat.factorial 19 : ℝ))) ≤ 1e-13 := by
    have h4 : angle ≤ 4 := hpi.trans Real.pi_le_four
    calc ((8 : Nat) : ℝ) * angle * (40 / (19 * (Nat.factorial 19 : ℝ))) ≤ ((8 : Nat) : ℝ) * 4 * (40 / (19 * (Nat.factorial 19 : ℝ))) := by gcongr
      _ ≤ 1e-13 := by norm_num [Nat.factorial]
  have hx0 : 0 ≤ ((8 : Nat) : ℝ) * angle * (40 / (19 * (Nat.factorial 19 : ℝ))) := by positivity
  have h := Real.abs_exp_sub_one_le (x := ((8 : Nat) : ℝ) * angle * (40 / (19 * (Nat.factorial 19 : ℝ)))) (by rw [abs_of_nonneg hx0]; linarith)
  rw [abs_of_nonneg hx0] at h
  have h5 := le_abs_self (Real.exp (((8 : Nat) : ℝ) * angle * (40 / (19 * (Nat.factorial 19 : ℝ)))) - 1)
  linarith

/-! ### Examples -/

theorem isGrade_of_isVec {A : ClAlg} {S T : Type} [CommRing T] [DecidableEq T] [CoeffStorage S T] [LawfulStorage S T] {v : MV A S} (hv : v.Valid)
    (h : GA.IsVec v.ga) : IsGrade 1 v := fun i hi hc => by
  rw [hv.get hi, ← ga_val hi, h i hi (by rwa [← countOnes_eq_cnt hi])]

example (V : MV Ex.M (ArrayStorage ℚ)) (hV : versor [Ex.vU, Ex.vV, Ex.vU] = .ok V) :=
  C83_versor_det (A := Ex.M) (S := ArrayStorage ℚ) Ex.M_wf (by decide) Ex.M_supp [Ex.vU, Ex.vV, Ex.vU] Ex.vs hV

/-- `e_1 (2 e_0 + e_1)` in the algebra with the squares `1, -1, 0`. -/
example : (do let V ← versor [Ex.vec3 (0 : ℤ) 1 0, Ex.vec3 2 1 0]; V.mag2) = .ok (-3) := by decide +kernel
example : (do let V ← versor [Ex.vec3 (0 : ℤ) 1 0, Ex.vec3 2 1 0]; let e ← basisVec 0; let y ← V.sandwich e; y.extractVector) = .ok [5, -4, 0] := by
  decide +kernel
example : (do let V ← versor [Ex.vec3 (0 : ℤ) 1 0, Ex.vec3 2 1 0]; let e ← basisVec 1; let y ← V.sandwich e; y.extractVector) = .ok [-4, 5, 0] := by
  decide +kernel
example : (do let V ← versor [Ex.vec3 (0 : ℤ) 1 0, Ex.vec3 2 1 0]; let e ← basisVec 2; let y ← V.sandwich e; y.extractVector) = .ok [0, 0, -3] := by
  decide +kernel

example (R : MV Ex.M (ArrayStorage ℚ)) (hR : MV.rotor 3 (1 / 2) (Ex.vec3 1 2 3) (Ex.vec3 (-1) 0 5) = .ok R) :=
  C83_rotation (A := Ex.M) (S := ArrayStorage ℚ) Ex.M_wf two_ne_zero (a := Ex.vec3 1 2 3) (b := Ex.vec3 (-1) 0 5) (v := Ex.vec3 2 7 1)
    (Ex.vec3_valid _ _ _) (Ex.vec3_valid _ _ _) (Ex.vec3_valid _ _ _) (Ex.vec3_grade _ _ _) (Ex.vec3_grade _ _ _) (Ex.vec3_grade _ _ _)
    (aa := -3) (ab := -1) (bb := 1) (va := -12) (vb := -2) (by decide +kernel) (by decide +kernel) (by decide +kernel) (by decide +kernel)
    (by decide +kernel) hR

example (R : MV Ex.M (ArrayStorage ℚ)) (hR : MV.rotor 3 (1 / 2) (Ex.vec3 1 2 3) (Ex.vec3 (-1) 0 5) = .ok R) :=
  C83_rotation_det (A := Ex.M) (S := ArrayStorage ℚ) Ex.M_wf two_ne_zero (a := Ex.vec3 1 2 3) (b := Ex.vec3 (-1) 0 5)
    (Ex.vec3_valid _ _ _) (Ex.vec3_valid _ _ _) (Ex.vec3_grade _ _ _) (Ex.vec3_grade _ _ _) hR (m := 8)
    (by
      have : (do let R ← MV.rotor (A := Ex.M) (S := ArrayStorage ℚ) 3 (1 / 2) (Ex.vec3 1 2 3) (Ex.vec3 (-1) 0 5); R.mag2) = .ok 8 := by decide +kernel
      rw [hR] at this
      exact this) (by norm_num)

namespace Ex

/-- `declare_algebra!(Cl8, [+,+,+,+,+,+,+,+])`, README.md:61. -/
def Cl8 : ClAlg := (declareAlgebra (List.replicate 8 .plus) []).get rfl

theorem Cl8_wf : Cl8.WF := declareAlgebra_wf (rfl : declareAlgebra (List.replicate 8 .plus) [] = some Cl8)

open Classical in
/-- Two vectors of the algebra of the README, their wedge product and its magnitude. -/
theorem Cl8_vectors : ∃ a b B : MV Cl8 (ArrayStorage ℝ), a.Valid ∧ b.Valid ∧ IsGrade 1 a ∧ IsGrade 1 b ∧ a.wedge b = .ok B ∧ B.mag2 = .ok 9 := by
  have hS : LawfulStorage.Supp (S := ArrayStorage ℝ) (T := ℝ) Cl8.dim := by
    show (8 : Nat) ≤ 63
    omega
  have h0 : (0 : Nat) < Cl8.dim := by decide
  have h5 : (5 : Nat) < Cl8.dim := by decide
  obtain ⟨a, -, a2, a3⟩ := (is_of_denotes (basisVec_denotes (A := Cl8) hS h0)).ok
  obtain ⟨c, -, c2, c3⟩ := (is_of_denotes (basisVec_denotes (A := Cl8) hS h5)).ok
  obtain ⟨d, -, d2, d3⟩ := (is_smul c2 3).ok
  obtain ⟨b, -, b2, b3⟩ := (is_add a2 d2).ok
  have ha3 : a.ga = GA.e 0 := a3
  have hb3 : b.ga = GA.e 0 + (3 : ℝ) • GA.e 5 := by rw [b3, d3, c3, ha3]; rfl
  have hva : GA.IsVec a.ga := by rw [ha3]; exact GA.isVec_e h0
  have hvb : GA.IsVec b.ga := by rw [hb3]; exact (GA.isVec_e h0).add ((GA.isVec_e h5).smul _)
  obtain ⟨B, B1, B2, B3⟩ := (is_wedge a2 b2).ok
  refine ⟨a, b, B, a2, b2, isGrade_of_isVec a2 hva, isGrade_of_isVec b2 hvb, B1, ?_⟩
  rw [mag2_ga Cl8_wf B2, B3, GA.wdg_eq_biv two_ne_zero hva hvb, GA.rev_biv hva hvb, neg_mul, GA.biv_sq hva hvb, ← neg_smul, GA.fn_zero_smul_one]
  have e1 : GA.dot (GA.e 0 : GA Cl8.sigma Cl8.dim ℝ) (GA.e 0) = 1 :=
    (GA.dot_e (σ := Cl8.sigma) (T := ℝ) (⟨0, h0⟩ : Fin Cl8.dim) ⟨0, h0⟩).trans (by rw [if_pos rfl, show Cl8.sigma 0 = 1 from by decide]; simp)
  have e2 : GA.dot (GA.e 5 : GA Cl8.sigma Cl8.dim ℝ) (GA.e 5) = 1 :=
    (GA.dot_e (σ := Cl8.sigma) (T := ℝ) (⟨5, h5⟩ : Fin Cl8.dim) ⟨5, h5⟩).trans (by rw [if_pos rfl, show Cl8.sigma 5 = 1 from by decide]; simp)
  have e3 : GA.dot (GA.e 5 : GA Cl8.sigma Cl8.dim ℝ) (GA.e 0) = 0 :=
    (GA.dot_e (σ := Cl8.sigma) (T := ℝ) (⟨5, h5⟩ : Fin Cl8.dim) ⟨0, h0⟩).trans (if_neg (by simp))
  have e4 : GA.dot (GA.e 0 : GA Cl8.sigma Cl8.dim ℝ) (GA.e 5) = 0 :=
    (GA.dot_e (σ := Cl8.sigma) (T := ℝ) (⟨0, h0⟩ : Fin Cl8.dim) ⟨5, h5⟩).trans (if_neg (by simp))
  have hab : GA.dot a.ga b.ga = 1 := by
    rw [GA.dot_comm hva hvb, hb3, ha3, GA.dot_add_left, GA.dot_smul_left, e1, e3]; norm_num
  have hbb : GA.dot b.ga b.ga = 10 := by
    rw [hb3, GA.dot_add_left, GA.dot_smul_left, ← hb3, GA.dot_comm (GA.isVec_e h0) hvb, GA.dot_comm (GA.isVec_e h5) hvb, hb3, GA.dot_add_left,
      GA.dot_add_left, GA.dot_smul_left, GA.dot_smul_left, e1, e2, e3, e4]; norm_num
  rw [hab, hbb, ha3, e1]
  norm_num

theorem Cl8_basis [DecidableEq ℝ] (k : Fin Cl8.dim) : ∃ a : MV Cl8 (ArrayStorage ℝ), a.Valid ∧ IsGrade 1 a ∧ a.ga = GA.e k := by
  have hS : LawfulStorage.Supp (S := ArrayStorage ℝ) (T := ℝ) Cl8.dim := by
    show (8 : Nat) ≤ 63
    omega
  obtain ⟨a, -, a2, a3⟩ := (is_of_denotes (basisVec_denotes (A := Cl8) hS k.2)).ok
  have ha3 : a.ga = GA.e k := a3
  exact ⟨a, a2, isGrade_of_isVec a2 (by rw [ha3]; exact GA.isVec_e k.2), ha3⟩

theorem Cl8_vdot [DecidableEq ℝ] {k l : Fin Cl8.dim} {a b : MV Cl8 (ArrayStorage ℝ)} (ha : a.Valid) (hb : b.Valid) (hak : a.ga = GA.e k)
    (hbl : b.ga = GA.e l) : a.vdot b = .ok (if k = l then 1 else 0 : ℝ) := by
  rw [vdot_dot Cl8_wf ha hb, hak, hbl, GA.dot_e]
  have : ∀ i : Fin 8, Cl8.sigma i = 1 := by decide
  rw [this k, Int.cast_one]

end Ex

/-- A rotation of the plane of `e_0` and `e_5` leaves `e_2` as it is. -/
example [DecidableEq ℝ] (t : ℝ) : ∃ R v : MV Ex.Cl8 (ArrayStorage ℝ), R.rotate v ≈ᵣ .ok v ∧ ¬ v.ga = 0 := by
  obtain ⟨a, a1, a2, a3⟩ := Ex.Cl8_basis (0 : Fin 8)
  obtain ⟨b, b1, b2, b3⟩ := Ex.Cl8_basis (5 : Fin 8)
  obtain ⟨v, v1, v2, v3⟩ := Ex.Cl8_basis (2 : Fin 8)
  obtain ⟨R, r1, -⟩ := (is_rotor two_ne_zero a1 b1 a2 b2 (Real.cos t) (Real.sin t)).ok
  refine ⟨R, v, (C83_angle Ex.Cl8_wf a1 b1 v1 a2 b2 v2 (Ex.Cl8_vdot a1 a1 a3 a3) (Ex.Cl8_vdot a1 b1 a3 b3) (Ex.Cl8_vdot b1 b1 b3 b3)
    (Ex.Cl8_vdot v1 a1 v3 a3) (Ex.Cl8_vdot v1 b1 v3 b3) t r1).2.2, fun h => ?_⟩
  have := Ex.Cl8_vdot v1 v1 v3 v3
  rw [vdot_dot Ex.Cl8_wf v1 v1, h] at this
  unfold GA.dot at this
  rw [mul_zero, GA.fn_zero] at this
  injection this with this
  exact zero_ne_one (this.trans (if_pos rfl))

open Classical in
/-- The pipeline of the README with two vectors of `Cl8` and the angle 3. -/
example : ∃ (a b B : MV Ex.Cl8 (ArrayStorage ℝ)) (s rot : FFTRepr Ex.Cl8 ℂ) (M : Matrix (Fin 8) (Fin 8) ℝ), a.wedge b = .ok B ∧
    (do let u ← B.sdiv (Real.sqrt 9); let t ← u.smul 3; (t.fft : Res (FFTRepr Ex.Cl8 ℂ))) = .ok s ∧
    s.exp (fun z => ‖z‖) Complex.ofRealHom 18 = some (.ok rot) ∧ |M.det - 1| < 1e-12 := by
  obtain ⟨a, b, B, ha, hb, ha1, hb1, hB, hq⟩ := Ex.Cl8_vectors
  obtain ⟨s, rot, M, k, e1, e2, e3, -⟩ := C83_readme_rotor Ex.Cl8_wf (by decide) ha hb ha1 hb1 hB hq (by norm_num) 3 (le_refl 18)
  exact ⟨a, b, B, s, rot, M, hB, e1, e2, C83_readme_det Ex.Cl8_wf rfl ha hb ha1 hb1 hB hq (by norm_num) (by norm_num) Real.pi_gt_three.le e1 e2 e3⟩

end TClifford
