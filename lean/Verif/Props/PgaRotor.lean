import Verif.Props.PgaMotion
import Mathlib.Analysis.SpecialFunctions.Trigonometric.Basic
/-
C89: turning points around an axis, the way `pga_test` of the crate does it; `pga_test` with real numbers.
-/

set_option linter.unusedSectionVars false

namespace TClifford

open MV Finset

/-- The point `x` turned by the angle `φ` around `v`, in the direction from the axis `i` to the axis `j`. -/
noncomputable def turned (i j : Nat) (φ : ℝ) (v x : List ℝ) : List ℝ := (List.range x.length).map fun k =>
  if k = i then v.getD i 0 + (Real.cos φ * (x.getD i 0 - v.getD i 0) - Real.sin φ * (x.getD j 0 - v.getD j 0))
  else if k = j then v.getD j 0 + (Real.sin φ * (x.getD i 0 - v.getD i 0) + Real.cos φ * (x.getD j 0 - v.getD j 0))
  else x.getD k 0

theorem turned_length (i j : Nat) (φ : ℝ) (v x : List ℝ) : (turned i j φ v x).length = x.length := by simp [turned]

theorem turned_getD {i j k : Nat} (φ : ℝ) (v : List ℝ) {x : List ℝ} (hk : k < x.length) : (turned i j φ v x).getD k 0 =
    if k = i then v.getD i 0 + (Real.cos φ * (x.getD i 0 - v.getD i 0) - Real.sin φ * (x.getD j 0 - v.getD j 0))
    else if k = j then v.getD j 0 + (Real.sin φ * (x.getD i 0 - v.getD i 0) + Real.cos φ * (x.getD j 0 - v.getD j 0))
    else x.getD k 0 := by
  rw [List.getD_eq_getElem _ _ (by rw [turned_length]; exact hk)]
  simp [turned]

/-- Two coefficients. -/
noncomputable def two (i j : Nat) (a b : ℝ) (k : Nat) : ℝ := if k = i then a else if k = j then b else 0

theorem sum_two {i j d : Nat} (hi : i < d) (hj : j < d) (h : i ≠ j) (a b : ℝ) (y : Nat → ℝ) :
    ∑ k ∈ range d, two i j a b k * y k = a * y i + b * y j := by
  have e : ∀ k, two i j a b k * y k = (if k = i then a * y i else 0) + (if k = j then b * y j else 0) := by
    intro k
    unfold two
    by_cases h1 : k = i
    · subst h1; simp [h]
    · by_cases h2 : k = j
      · subst h2; simp [h1]
      · simp [h1, h2]
  rw [sum_congr rfl fun k _ => e k, sum_add_distrib, sum_ite_eq', sum_ite_eq', if_pos (mem_range.mpr hi), if_pos (mem_range.mpr hj)]

/-- The list of the coefficients. -/
noncomputable def twoL (d i j : Nat) (a b : ℝ) : List ℝ := (List.range (d + 1)).map (two i j a b)

theorem twoL_getD {d i j k : Nat} (a b : ℝ) (hk : k < d + 1) : (twoL d i j a b).getD k 0 = two i j a b k := by
  unfold twoL
  rw [List.getD_eq_getElem _ _ (by simpa using hk)]
  simp

theorem mirror_two {d i j k : Nat} (hi : i < d) (hj : j < d) (h : i ≠ j) {a b : ℝ} (hab : a * a + b * b = 1) (x : List ℝ) (hk : k < d) :
    (mirror d (twoL d i j a b) x).getD k 0 = x.getD k 0 - 2 * (a * x.getD i 0 + b * x.getD j 0) * two i j a b k := by
  have h1 : ∑ k ∈ range d, (twoL d i j a b).getD k 0 * (twoL d i j a b).getD k 0 = 1 := by
    rw [sum_congr rfl fun k hk => by rw [twoL_getD a b (by have := mem_range.mp hk; omega)], sum_two hi hj h]
    unfold two
    simp [h.symm, hab]
  have h2 : planeEq d (twoL d i j a b) x = a * x.getD i 0 + b * x.getD j 0 := by
    unfold planeEq
    rw [sum_congr rfl fun k hk => by rw [twoL_getD a b (by have := mem_range.mp hk; omega)], sum_two hi hj h, twoL_getD a b (by omega)]
    unfold two
    rw [if_neg (by omega), if_neg (by omega), add_zero]
  rw [mirror_getD hk, h1, h2, twoL_getD a b (by omega), div_one]

theorem twoL_plane {d i j : Nat} (hi : i < d) (hj : j < d) (h : i ≠ j) {a b : ℝ} (hab : a * a + b * b = 1) : IsPlane d (twoL d i j a b) := by
  refine ⟨by simp [twoL], ?_⟩
  by_cases ha : a = 0
  · refine ⟨j, hj, ?_⟩
    rw [twoL_getD a b (by omega)]
    unfold two
    rw [if_neg h.symm, if_pos rfl]
    rintro rfl
    simp [ha] at hab
  · refine ⟨i, hi, ?_⟩
    rw [twoL_getD a b (by omega)]
    unfold two
    rwa [if_pos rfl]

namespace GA
variable {σ : Nat → ℤ} {n : Nat}

theorem vec_two {i j : Nat} (hi : i < n) (hj : j < n) (h : i ≠ j) (a b : ℝ) : (vec (two i j a b) : GA σ n ℝ) = a • e i + b • e j := by
  unfold vec
  have e' : ∀ k, two i j a b k • (e k : GA σ n ℝ) = (if k = i then a • e i else 0) + (if k = j then b • e j else 0) := by
    intro k
    unfold two
    by_cases h1 : k = i
    · subst h1; simp [h]
    · by_cases h2 : k = j
      · subst h2; simp [h1]
      · simp [h1, h2]
  rw [sum_congr rfl fun k _ => e' k, sum_add_distrib, sum_ite_eq', sum_ite_eq', if_pos (mem_range.mpr hi), if_pos (mem_range.mpr hj)]

/-- `cos θ + sin θ eᵢ eⱼ` -/
noncomputable def rot (i j : Nat) (θ : ℝ) : GA σ n ℝ := Real.cos θ • 1 + Real.sin θ • (e i * e j)

variable {i j : Nat} (hi : i < n) (hj : j < n) (h : i ≠ j) (si : σ i = 1) (sj : σ j = 1)
include hi hj h si sj

theorem ee_sq : (e i * e j * (e i * e j) : GA σ n ℝ) = -1 := by
  have hs : (e j * e j : GA σ n ℝ) = 1 := by rw [e_sq hj, sj, Int.cast_one, one_smul]
  have hs' : (e i * e i : GA σ n ℝ) = 1 := by rw [e_sq hi, si, Int.cast_one, one_smul]
  rw [mul_assoc, ← mul_assoc (e j), e_anti hj hi h.symm, neg_mul, mul_neg, mul_assoc (e i) (e j), hs, mul_one, hs']

theorem rot_mul (θ φ : ℝ) : (rot i j θ * rot i j φ : GA σ n ℝ) = rot i j (θ + φ) := by
  have hb := ee_sq (σ := σ) hi hj h si sj
  unfold rot
  rw [Real.cos_add, Real.sin_add]
  simp only [add_mul, mul_add, smul_mul_assoc, mul_smul_comm, hb, one_mul, mul_one]
  module

theorem rot_pow (θ : ℝ) (k : Nat) : (rot i j θ ^ k : GA σ n ℝ) = rot i j (k * θ) := by
  induction k with
  | zero => simp [rot]
  | succ k ih => rw [pow_succ, ih, rot_mul hi hj h si sj]; congr 1; push_cast; ring

theorem rot_eq (θ : ℝ) : (rot i j θ : GA σ n ℝ) = vec (two i j 1 0) * vec (two i j (Real.cos θ) (Real.sin θ)) := by
  have hs' : (e i * e i : GA σ n ℝ) = 1 := by rw [e_sq hi, si, Int.cast_one, one_smul]
  rw [vec_two hi hj h, vec_two hi hj h, one_smul, zero_smul, add_zero, mul_add, mul_smul_comm, mul_smul_comm, hs', rot]

theorem rev_rot (θ : ℝ) : rev (rot i j θ : GA σ n ℝ) = vec (two i j (Real.cos θ) (Real.sin θ)) * vec (two i j 1 0) := by
  rw [rot_eq hi hj h si sj, rev_mul, (vec_isVec _).rev_eq, (vec_isVec _).rev_eq]

end GA

section
variable {sig : List Sym} {names : List String} {A : ClAlg} {d : Nat} {S : Type} [DecidableEq ℝ] [CoeffStorage S ℝ]
  [LawfulStorage S ℝ]

/-- A point turned around the origin. -/
theorem IsPt.turn (hP : IsPga A d) {i j : Nat} (hi : i < d) (hj : j < d) (h : i ≠ j) (θ : ℝ) {x : List ℝ} {g : GA A.sigma A.dim ℝ}
    (hg : IsPt A d x g) :
    ∃ z : List ℝ, IsPt A d z (GA.rev (GA.rot i j θ) * g * GA.rot i j θ) ∧ ∀ k < d, z.getD k 0 =
      if k = i then Real.cos (2 * θ) * x.getD i 0 - Real.sin (2 * θ) * x.getD j 0
      else if k = j then Real.sin (2 * θ) * x.getD i 0 + Real.cos (2 * θ) * x.getD j 0 else x.getD k 0 := by
  have hn : A.dim = d + 1 := hP.dim
  have sq := Real.sin_sq_add_cos_sq θ
  have h1 : (1 : ℝ) * 1 + 0 * 0 = 1 := by norm_num
  have h2 : Real.cos θ * Real.cos θ + Real.sin θ * Real.sin θ = 1 := by linarith
  have hv : ∀ a b : ℝ, (GA.vec (fun k => (twoL d i j a b).getD k 0) : GA A.sigma A.dim ℝ) = GA.vec (two i j a b) := fun a b =>
    GA.vec_congr fun k hk => twoL_getD a b (by omega)
  have e := IsPt.mirror hP (twoL_plane hi hj h h2) (IsPt.mirror hP (twoL_plane hi hj h h1) hg)
  rw [hv, hv] at e
  refine ⟨TClifford.mirror d (twoL d i j (Real.cos θ) (Real.sin θ)) (TClifford.mirror d (twoL d i j 1 0) x), ?_, fun k hk => ?_⟩
  · rw [GA.rev_rot (by omega) (by omega) h (hP.unit i hi) (hP.unit j hj), GA.rot_eq (by omega) (by omega) h (hP.unit i hi) (hP.unit j hj)]
    refine Eq.mp (congrArg _ ?_) e
    simp only [mul_assoc]
  · rw [mirror_two hi hj h h2 _ hk, mirror_two hi hj h h1 _ hk, mirror_two hi hj h h1 _ hi, mirror_two hi hj h h1 _ hj, Real.cos_two_mul,
      Real.sin_two_mul]
    unfold two
    by_cases e1 : k = i
    · subst e1; simp [h.symm]; ring
    · by_cases e2 : k = j
      · subst e2; simp [e1]; linear_combination -2 * x[k]?.getD 0 * sq
      · simp [e1, e2]

variable [WedgeProduct A S] [LawfulWedge A S]

/-- The rotor of `pga_test`, src/pga.rs:74-79: `tr.rev() * (xᵢ.wedge(xⱼ) * θ.sin() + θ.cos()) * tr` for `tr = pga_translation(v)`. -/
noncomputable def turnAround (i j : Nat) (θ : ℝ) (v : List ℝ) : Res (MV A S) := do
  let x ← basisVec (T := ℝ) i
  let z ← basisVec (T := ℝ) j
  let w ← x.wedge z
  let s ← w.smul (Real.sin θ)
  let c ← fromScalar (Real.cos θ)
  let r ← s.add c
  let t ← pgaTranslation v
  let u ← t.rev
  let q ← u.naiveMulImpl r
  q.naiveMulImpl t

theorem is_basisVec' (hS : LawfulStorage.Supp (S := S) (T := ℝ) A.dim) {i : Nat} (hi : i < A.dim) :
    Is (basisVec (A := A) (S := S) (T := ℝ) i) (GA.e i) := is_of_denotes (basisVec_denotes hS hi)

theorem is_turnAround (hP : IsPga A d) (hS : LawfulStorage.Supp (S := S) (T := ℝ) A.dim) {i j : Nat} (hi : i < d) (hj : j < d) (h : i ≠ j)
    (θ : ℝ) {v : List ℝ} (hv : v.length = d) :
    Is (turnAround (A := A) (S := S) i j θ v) ((1 - GA.tb d (fun k => v.getD k 0 / 2)) * GA.rot i j θ * (1 + GA.tb d (fun k => v.getD k 0 / 2))) := by
  have hn : A.dim = d + 1 := hP.dim
  refine (is_basisVec' hS (by omega)).bind fun x hx gx => (is_basisVec' hS (by omega)).bind fun z hz gz =>
    (is_wedge hx hz).bind fun w hw gw => (is_smul hw _).bind fun s hs gs => (Is.fromScalar hS _).bind fun c hc gc =>
    (is_add hs hc).bind fun r hr gr => (is_translation hP hS (by omega)).bind fun t ht gt => (is_rev ht).bind fun u hu gu =>
    (is_mul hP.wf hu hr).bind fun q hq gq => (is_mul hP.wf hq ht).congr ?_
  rw [gq, gu, gt, gr, gs, gc, gw, gx, gz, map_add, GA.rev_one, GA.rev_tb' hP.dim hP.unit hP.null, ← sub_eq_add_neg,
    GA.wdg_eq_biv two_ne_zero (GA.isVec_e (by omega)) (GA.isVec_e (by omega)), Algebra.algebraMap_eq_smul_one, GA.rot]
  congr 2
  rw [add_comm]
  congr 2
  have := GA.dot_e (T := ℝ) (σ := A.sigma) (⟨i, by omega⟩ : Fin A.dim) ⟨j, by omega⟩
  rw [if_neg (by simpa using h)] at this
  rw [GA.biv, this, zero_smul, sub_zero]

theorem IsPga.tb_inv (hP : IsPga A d) (y : Nat → ℝ) : ((1 + GA.tb d y) * (1 - GA.tb d y) : GA A.sigma A.dim ℝ) = 1 := by
  have := GA.tb_mul_tb' (T := ℝ) hP.dim hP.unit hP.null y y
  simp only [add_mul, mul_sub, one_mul, mul_one, this]
  abel

theorem conj_pow {R : Type} [Ring R] {a b : R} (h : b * a = 1) (r : R) (k : Nat) (hab : a * b = 1) : (a * r * b) ^ k = a * r ^ k * b := by
  induction k with
  | zero => rw [pow_zero, pow_zero, mul_one, hab]
  | succ k ih =>
    rw [pow_succ, ih, pow_succ]
    calc a * r ^ k * b * (a * r * b) = a * r ^ k * (b * a) * r * b := by simp only [mul_assoc]
      _ = a * (r ^ k * r) * b := by rw [h, mul_one]; simp only [mul_assoc]

theorem IsPga.tb_inv' (hP : IsPga A d) (y : Nat → ℝ) : ((1 - GA.tb d y) * (1 + GA.tb d y) : GA A.sigma A.dim ℝ) = 1 := by
  have := GA.tb_mul_tb' (T := ℝ) hP.dim hP.unit hP.null y y
  simp only [sub_mul, mul_add, one_mul, mul_one, this]
  abel

theorem is_turnAround_pow (hP : IsPga A d) (hS : LawfulStorage.Supp (S := S) (T := ℝ) A.dim) {i j : Nat} (hi : i < d) (hj : j < d) (h : i ≠ j)
    (θ : ℝ) {v : List ℝ} (hv : v.length = d) (k : Nat) :
    Is (do let w ← turnAround (A := A) (S := S) i j θ v; w.pow k)
      ((1 - GA.tb d (fun k => v.getD k 0 / 2)) * GA.rot i j (k * θ) * (1 + GA.tb d (fun k => v.getD k 0 / 2))) := by
  refine (is_turnAround hP hS hi hj h θ hv).bind fun w hw gw => (is_pow hP.wf hw k).congr ?_
  have hn : A.dim = d + 1 := hP.dim
  rw [gw, conj_pow (hP.tb_inv _) _ _ (hP.tb_inv' _), GA.rot_pow (by omega) (by omega) h (hP.unit i hi) (hP.unit j hj)]

/-- **C89.** The powers of the rotor around a point are the rotors of the multiples of the angle. -/
theorem C89_rotor_pow (hA : declareAlgebra sig names = some A) (hp : implPga sig = some d)
    (hS : LawfulStorage.Supp (S := S) (T := ℝ) A.dim) {i j : Nat} (hi : i < d) (hj : j < d) (h : i ≠ j) (θ : ℝ) {v : List ℝ} (hv : v.length = d)
    (k : Nat) : (do let w ← turnAround (A := A) (S := S) i j θ v; w.pow k) ≈ᵣ turnAround i j (k * θ) v :=
  (is_turnAround_pow (isPga hA hp) hS hi hj h θ hv k).agree (is_turnAround (isPga hA hp) hS hi hj h _ hv) rfl

/-- **C89.** The `k`-th power of the rotor of the angle `π/k` is `-1`, around every point. -/
theorem C89_rotor_half (hA : declareAlgebra sig names = some A) (hp : implPga sig = some d)
    (hS : LawfulStorage.Supp (S := S) (T := ℝ) A.dim) {i j : Nat} (hi : i < d) (hj : j < d) (h : i ≠ j) {v : List ℝ} (hv : v.length = d)
    {k : Nat} (hk : 0 < k) : (do let w ← turnAround (A := A) (S := S) i j (Real.pi / k) v; w.pow k) ≈ᵣ (do let o ← MV.one (T := ℝ); o.neg) := by
  have hP := isPga hA hp
  refine (is_turnAround_pow hP hS hi hj h _ hv k).agree ((Is.one hS).bind fun o ho go => (is_neg ho).congr (by rw [go])) ?_
  have : (k : ℝ) * (Real.pi / k) = Real.pi := by
    have : (k : ℝ) ≠ 0 := by exact_mod_cast hk.ne'
    field_simp
  rw [this, GA.rot, Real.cos_pi, Real.sin_pi, zero_smul, add_zero, neg_smul, one_smul, mul_neg, mul_one, neg_mul, hP.tb_inv']

/-- **C89.** `w.pow(k).rev() * p * w.pow(k)` for the rotor `w` with the angle `θ` is the point turned by `2 k θ` around `v`. -/
theorem C89_rotor (hA : declareAlgebra sig names = some A) (hp : implPga sig = some d)
    (hS : LawfulStorage.Supp (S := S) (T := ℝ) A.dim) {i j : Nat} (hi : i < d) (hj : j < d) (h : i ≠ j) (θ : ℝ) {v x : List ℝ} (hv : v.length = d)
    (hx : x.length = d) (k : Nat) {p : MV A S} (hpt : PointOf x p) :
    (do let w ← turnAround i j θ v; let w ← w.pow k; let q ← w.rotate p; q.pgaExtractPoint d) = .ok (turned i j (2 * (k * θ)) v x) := by
  have hP := isPga hA hp
  obtain ⟨hpv, r, hr, hpg⟩ := hpt.ga hP hS hx
  obtain ⟨w, w1, w2, w3⟩ := (is_turnAround_pow (S := S) hP hS hi hj h θ hv k).ok
  obtain ⟨q, q1, q2, q3⟩ := (is_rotate' hP.wf w2 hpv).ok
  have e0 : (do let w ← turnAround i j θ v; let w ← w.pow k; let q ← w.rotate p; q.pgaExtractPoint d) =
      (do let w ← (do let w ← turnAround (A := A) (S := S) i j θ v; w.pow k); let q ← w.rotate p; q.pgaExtractPoint d) := by
    simp only [bind_assoc]
  rw [e0, w1]
  show (w.rotate p >>= fun q => _) = _
  rw [q1]
  refine IsPt.extract hP q2 ?_
  set y : Nat → ℝ := fun k => v.getD k 0 / 2 with hy
  have hneg : (GA.tb d (fun k => -y k) : GA A.sigma A.dim ℝ) = -GA.tb d y := by
    unfold GA.tb
    rw [← sum_neg_distrib]
    exact sum_congr rfl fun k _ => by rw [neg_smul]
  have hrev : GA.rev (GA.tb d y : GA A.sigma A.dim ℝ) = -GA.tb d y := GA.rev_tb' hP.dim hP.unit hP.null _
  have hz : ∀ k < d, (List.zipWith (· - ·) x v).getD k 0 = x.getD k 0 - v.getD k 0 := fun k hk => by
    rw [List.getD_eq_getElem _ _ (by simp [hx, hv]; exact hk), List.getElem_zipWith, List.getD_eq_getElem _ _ (by omega),
      List.getD_eq_getElem _ _ (by omega)]
  have e1 := IsPt.translate hP ⟨hx, r, hr, hpg⟩ (fun k => -y k) (z := List.zipWith (· - ·) x v) (by simp [hx, hv]) (fun k hk => by
    rw [hz k hk, hy]; ring)
  obtain ⟨z, e2, hz2⟩ := e1.turn hP hi hj h (k * θ)
  have e3 := IsPt.translate hP e2 y (z := turned i j (2 * (k * θ)) v x) (by rw [turned_length, hx]) (fun m hm => by
    rw [turned_getD _ _ (by omega), hz2 m hm, hz i hi, hz j hj, hz m hm, hy]
    split
    · subst_vars; ring
    · split
      · subst_vars; ring
      · ring)
  rw [hneg, sub_neg_eq_add, ← sub_eq_add_neg] at e3
  rw [q3, w3]
  refine Eq.mp (congrArg _ ?_) e3
  rw [GA.rev_mul, GA.rev_mul, map_add, GA.rev_one, hrev, map_sub, GA.rev_one, hrev, sub_neg_eq_add, ← sub_eq_add_neg]
  simp only [mul_assoc]

end

/-! ### `pga_test` -/

open Ex in
/-- **C87.** `pga_test`, src/pga.rs:69-114, with real numbers: what the test asserts up to `1e-12` holds exactly. -/
theorem C87_pga {p : MV P3 PD} (hp : pgaPoint [3, 3, 3] = .ok p) :
    (do let w ← turnAround (A := P3) (S := PD) 0 2 (Real.pi / 8) [4, 0, 3]; w.pow 8) ≈ᵣ (do let o ← MV.one (T := ℝ); o.neg) ∧
    (∀ c ∈ [(2, [4, 3, 2]), (4, [5, 3, 3]), (6, [4, 3, 4]), (8, ([3, 3, 3] : List ℝ))],
      (do let w ← turnAround 0 2 (Real.pi / 8) [4, 0, 3]; let w ← w.pow c.1; let q ← w.rotate p; q.pgaExtractPoint 3) = .ok c.2) ∧
    (do let h ← pgaHyperplane [1, 1, 1, -9]; h.wedge p) ≈ᵣ MV.default (T := ℝ) := by
  have hpt : PointOf [3, 3, 3] p := .inl hp
  refine ⟨?_, fun c hc => ?_, ?_⟩
  · have := C89_rotor_half (S := PD) P3_decl P3_pga P3_supp (i := 0) (j := 2) (by decide) (by decide) (by decide) (v := [4, 0, 3]) rfl (k := 8) (by decide)
    exact_mod_cast this
  · rw [C89_rotor P3_decl P3_pga P3_supp (by decide) (by decide) (by decide) _ rfl rfl _ hpt]
    simp only [List.mem_cons, List.not_mem_nil, or_false] at hc
    have c1 : Real.cos (2 * (((2 : Nat) : ℝ) * (Real.pi / 8))) = 0 := by rw [← Real.cos_pi_div_two]; congr 1; push_cast; ring
    have s1 : Real.sin (2 * (((2 : Nat) : ℝ) * (Real.pi / 8))) = 1 := by rw [← Real.sin_pi_div_two]; congr 1; push_cast; ring
    have c2 : Real.cos (2 * (((4 : Nat) : ℝ) * (Real.pi / 8))) = -1 := by rw [← Real.cos_pi]; congr 1; push_cast; ring
    have s2 : Real.sin (2 * (((4 : Nat) : ℝ) * (Real.pi / 8))) = 0 := by rw [← Real.sin_pi]; congr 1; push_cast; ring
    have c3 : Real.cos (2 * (((6 : Nat) : ℝ) * (Real.pi / 8))) = 0 := by
      rw [show (2 * (((6 : Nat) : ℝ) * (Real.pi / 8))) = Real.pi / 2 + Real.pi by push_cast; ring, Real.cos_add_pi, Real.cos_pi_div_two, neg_zero]
    have s3 : Real.sin (2 * (((6 : Nat) : ℝ) * (Real.pi / 8))) = -1 := by
      rw [show (2 * (((6 : Nat) : ℝ) * (Real.pi / 8))) = Real.pi / 2 + Real.pi by push_cast; ring, Real.sin_add_pi, Real.sin_pi_div_two]
    have c4 : Real.cos (2 * (((8 : Nat) : ℝ) * (Real.pi / 8))) = 1 := by rw [← Real.cos_two_pi]; congr 1; push_cast; ring
    have s4 : Real.sin (2 * (((8 : Nat) : ℝ) * (Real.pi / 8))) = 0 := by rw [← Real.sin_two_pi]; congr 1; push_cast; ring
    rcases hc with rfl | rfl | rfl | rfl <;> simp only [turned, c1, s1, c2, s2, c3, s3, c4, s4] <;> norm_num [List.range_succ]
  · refine (C48_hyperplane_partial P3_decl P3_pga P3_supp rfl ⟨1, by simp, one_ne_zero⟩ rfl hpt).mpr ?_
    norm_num [planeEq, sum_range_succ]

open Ex in
/-- The point exists. -/
example : ∃ p : MV P3 PD, pgaPoint [3, 3, 3] = .ok p := by
  obtain ⟨p, hp, -⟩ := C46_roundtrip_partial (S := PD) P3_decl P3_pga P3_supp (x := [3, 3, 3]) rfl ⟨3, by simp, by norm_num⟩
  exact ⟨p, hp⟩

open Ex in
/-- A third of a full turn of every point around every point, with the cube of a rotor. -/
example {x v : List ℝ} (hx : x.length = 3) (hv : v.length = 3) {p : MV P3 PD} (hp : PointOf x p) :=
  C89_rotor P3_decl P3_pga P3_supp (i := 1) (j := 0) (by decide) (by decide) (by decide) (Real.pi / 9) hv hx 3 hp

open Ex in
example : (do let w ← turnAround (A := P3) (S := PD) 1 0 (Real.pi / 9) [1, 2, 3]; w.pow 3) ≈ᵣ turnAround 1 0 ((3 : Nat) * (Real.pi / 9)) [1, 2, 3] :=
  C89_rotor_pow P3_decl P3_pga P3_supp (by decide) (by decide) (by decide) _ rfl 3

end TClifford
