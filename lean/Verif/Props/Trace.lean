import Verif.Props.Sandwich
import Verif.Proofs.Trace
/-
The scalar products: C74 (`vdot` is a symmetric invariant form), C75 (`mag2` and `vsdot` over ordered fields).
-/

set_option linter.unusedSectionVars false

namespace TClifford

open MV Finset

section
variable {A : ClAlg} {S T : Type} [CommRing T] [DecidableEq T] [CoeffStorage S T] [LawfulStorage S T]

theorem vdot_ga (hA : A.WF) {a b : MV A S} (ha : a.Valid) (hb : b.Valid) : a.vdot b = .ok ((a.ga * b.ga).fn 0) := by
  rw [vdot_ok hA ha hb, MV.ga, MV.ga, ← GA.of_mul, GA.fn_of _ (Nat.two_pow_pos _)]

theorem scalarPart_ga {a : MV A S} (ha : a.Valid) : a.scalarPart = .ok (a.ga.fn 0) := by
  rw [scalarPart_ok ha, ga_val (Nat.two_pow_pos _)]

/-- **C74.** `a.vdot(&b) == b.vdot(&a)`, i.e. `(a * b).scalar_part() == (b * a).scalar_part()`. -/
theorem C74_symmetric (hA : A.WF) {a b : MV A S} (ha : a.Valid) (hb : b.Valid) :
    ∃ t, a.vdot b = .ok t ∧ b.vdot a = .ok t ∧ (do let p ← a.naiveMulImpl b; p.scalarPart) = .ok t ∧
      (do let p ← b.naiveMulImpl a; p.scalarPart) = .ok t := by
  refine ⟨_, vdot_ok hA ha hb, ?_, (mul_denotes hA ha hb).scalarPart, ?_⟩
  · rw [vdot_ok hA hb ha, geo_scalar_comm]
  · rw [geo_scalar_comm]; exact (mul_denotes hA hb ha).scalarPart

/-- **C74.** The form is invariant: `(a * b).vdot(&c) == a.vdot(&(b * c)) == b.vdot(&(c * a))`. -/
theorem C74_cyclic (hA : A.WF) {a b c : MV A S} (ha : a.Valid) (hb : b.Valid) (hc : c.Valid) :
    ∃ t, (do let x ← a.naiveMulImpl b; x.vdot c) = .ok t ∧ (do let x ← b.naiveMulImpl c; a.vdot x) = .ok t ∧
      (do let x ← c.naiveMulImpl a; b.vdot x) = .ok t := by
  obtain ⟨x, x1, x2, x3⟩ := (is_mul hA ha hb).ok
  obtain ⟨y, y1, y2, y3⟩ := (is_mul hA hb hc).ok
  obtain ⟨z, z1, z2, z3⟩ := (is_mul hA hc ha).ok
  rw [x1, y1, z1]
  refine ⟨(a.ga * b.ga * c.ga).fn 0, ?_, ?_, ?_⟩
  · show x.vdot c = _
    rw [vdot_ga hA x2 hc, x3]
  · show a.vdot y = _
    rw [vdot_ga hA ha y2, y3, mul_assoc]
  · show b.vdot z = _
    rw [vdot_ga hA hb z2, z3, ← mul_assoc, GA.fn_mul_comm, mul_assoc]

/-- **C74.** The form is invariant under reversal. -/
theorem C74_rev (hA : A.WF) {a b : MV A S} (ha : a.Valid) (hb : b.Valid) :
    (do let x ← a.rev; let y ← b.rev; x.vdot y) = a.vdot b := by
  obtain ⟨x, x1, x2, x3⟩ := (is_rev ha).ok
  obtain ⟨y, y1, y2, y3⟩ := (is_rev hb).ok
  rw [x1, y1]
  show x.vdot y = _
  rw [vdot_ga hA x2 y2, x3, y3, ← GA.rev_mul, GA.fn_rev, GA.fn_mul_comm, vdot_ga hA ha hb]

/-- **C74.** The form is bilinear. -/
theorem C74_bilinear (hA : A.WF) {a b c : MV A S} (ha : a.Valid) (hb : b.Valid) (hc : c.Valid) (t : T) :
    (do let x ← a.add b; x.vdot c) = (do let u ← a.vdot c; let v ← b.vdot c; return u + v) ∧
    (do let x ← a.smul t; x.vdot c) = (do let u ← a.vdot c; return t * u) ∧
    (do let x ← b.add c; a.vdot x) = (do let u ← a.vdot b; let v ← a.vdot c; return u + v) ∧
    (do let x ← c.smul t; a.vdot x) = (do let u ← a.vdot c; return t * u) := by
  obtain ⟨x, x1, x2, x3⟩ := (is_add ha hb).ok
  obtain ⟨y, y1, y2, y3⟩ := (is_smul ha t).ok
  obtain ⟨z, z1, z2, z3⟩ := (is_add hb hc).ok
  obtain ⟨w, w1, w2, w3⟩ := (is_smul hc t).ok
  rw [x1, y1, z1, w1, vdot_ga hA ha hc, vdot_ga hA hb hc, vdot_ga hA ha hb]
  refine ⟨?_, ?_, ?_, ?_⟩
  · show x.vdot c = .ok _
    rw [vdot_ga hA x2 hc, x3, add_mul, GA.fn_add_apply]
  · show y.vdot c = .ok _
    rw [vdot_ga hA y2 hc, y3, smul_mul_assoc, GA.fn_smul_apply]
  · show a.vdot z = .ok _
    rw [vdot_ga hA ha z2, z3, mul_add, GA.fn_add_apply]
  · show a.vdot w = .ok _
    rw [vdot_ga hA ha w2, w3, mul_smul_comm, GA.fn_smul_apply]

/-- **C74.** Different grades are orthogonal. -/
theorem C74_grades (hA : A.WF) {j k : Nat} (hjk : j ≠ k) {a b : MV A S} (ha : a.Valid) (hb : b.Valid) (hj : IsGrade j a)
    (hk : IsGrade k b) : a.vdot b = .ok 0 := by
  rw [vdot_ok hA ha hb, geo_scalar]
  congr 1
  refine sum_eq_zero fun i hi => ?_
  have hi := mem_range.mp hi
  by_cases h : cnt A.dim i = j
  · rw [(hk.hom hb) i hi (by omega), mul_zero, smul_zero]
  · rw [(hj.hom ha) i hi h, zero_mul, smul_zero]

/-- The value of `vdot` with a basis blade. -/
theorem vdot_blade (hA : A.WF) {a : MV A S} (ha : a.Valid) {i : Nat} (hi : i < 2 ^ A.dim) :
    (do let b ← blade (A := A) (S := S) i; a.vdot b) = .ok ((rsg A.dim i * bprod A.sigma A.dim i) • a.val i) := by
  obtain ⟨b, b1, b2, b3⟩ := blade_denotes (A := A) (S := S) (T := T) ha.supp hi
  rw [b1]
  show a.vdot b = _
  rw [vdot_ok hA ha b2, geo_scalar]
  congr 1
  rw [sum_eq_single i]
  · rw [b3 i hi]; simp [single]
  · intro j hj hne
    rw [b3 j (mem_range.mp hj)]; simp [single, hne]
  · intro h; exact absurd (mem_range.mpr hi) h

/-- **C74.** Without null generators the form is non-degenerate: only zero is orthogonal to all basis blades. -/
theorem C74_nondegenerate (hA : A.WF) (hp : A.projMask = 0) {a : MV A S} (ha : a.Valid)
    (h : ∀ i < 2 ^ A.dim, (do let b ← blade (A := A) (S := S) i; a.vdot b) = .ok 0) : a.isZero = true := by
  rw [isZero_iff ha]
  intro i hi
  have h1 := h i hi
  rw [vdot_blade hA ha hi] at h1
  injection h1 with h1
  have h2 := bprod_unit (A := A) (n := A.dim) (fun i _ => by unfold ClAlg.sigma; rw [hp]; simp; split <;> norm_num) i
  have h3 := rsg_mul_self A.dim i
  have h4 : (rsg A.dim i * bprod A.sigma A.dim i) * (rsg A.dim i * bprod A.sigma A.dim i) = 1 := by
    rcases h2 with h2 | h2 <;> rw [h2] <;> linear_combination h3
  have h5 := congrArg (fun x => (rsg A.dim i * bprod A.sigma A.dim i) • x) h1
  simp only [smul_smul, h4, one_smul, smul_zero] at h5
  exact h5

/-- **C74.** With a null generator `e_k` it is degenerate: `e_k` is orthogonal to everything. -/
theorem C74_degenerate (hA : A.WF) {k : Nat} (hk : A.projMask.testBit k = true) {a : MV A S} (ha : a.Valid) :
    (do let e ← basisVec (T := T) k; a.vdot e) = .ok 0 := by
  have hkd : k < A.dim := by
    rw [hA.testBit_proj] at hk
    simp at hk; exact hk.2
  obtain ⟨e, e1, e2, e3⟩ := basisVec_denotes (A := A) (S := S) (T := T) ha.supp hkd
  rw [e1]
  show a.vdot e = _
  rw [vdot_ok hA ha e2, geo_scalar]
  congr 1
  refine sum_eq_zero fun i hi => ?_
  rw [e3 i (mem_range.mp hi)]
  by_cases h : i = 2 ^ k
  · subst h
    have hs : A.sigma k = 0 := by
      rw [hA.testBit_proj] at hk
      simp at hk
      exact hA.sigma_null hk.1 hk.2
    rw [bprod_two_pow hkd, hs, mul_zero, zero_smul]
  · simp [single, h]

end

/-! ### Ordered fields -/

section
variable {A : ClAlg} {S T : Type} [Field T] [LinearOrder T] [IsStrictOrderedRing T] [CoeffStorage S T] [LawfulStorage S T]

theorem mag2_sum (hA : A.WF) {a : MV A S} (ha : a.Valid) :
    a.mag2 = .ok (∑ i ∈ range (2 ^ A.dim), ((bprod A.sigma A.dim i : ℤ) : T) * a.val i ^ 2) := by
  rw [mag2_ok hA ha, geo_rev_scalar]
  congr 1
  exact sum_congr rfl fun i _ => by rw [zsmul_eq_mul, sq]

/-- **C75.** In a Euclidean algebra `mag2` is the sum of the squares of the coefficients; it is never negative and vanishes
only for the zero multivector. -/
theorem C75_euclidean (hA : A.WF) (hi : A.imagMask = 0) (hp : A.projMask = 0) {a : MV A S} (ha : a.Valid) :
    ∃ m, a.mag2 = .ok m ∧ a.vsdot a = .ok m ∧ 0 ≤ m ∧ (m = 0 ↔ a.isZero = true) := by
  refine ⟨_, mag2_sum hA ha, ?_, ?_, ?_⟩
  · rw [vsdot_ok ha ha]
    congr 1
    exact sum_congr rfl fun i _ => by rw [bprod_ones fun i _ => sigma_plus hi hp i]; push_cast; ring
  · refine sum_nonneg fun i _ => ?_
    rw [bprod_ones fun i _ => sigma_plus hi hp i]
    have := sq_nonneg (a.val i)
    simpa
  · rw [isZero_iff ha, sum_eq_zero_iff_of_nonneg]
    · refine ⟨fun h i hi' => ?_, fun h i hi' => by rw [h i (mem_range.mp hi')]; simp⟩
      have := h i (mem_range.mpr hi')
      rw [bprod_ones fun i _ => sigma_plus hi hp i] at this
      simpa using this
    · intro i _
      rw [bprod_ones fun i _ => sigma_plus hi hp i]
      have := sq_nonneg (a.val i)
      simpa

/-- The coefficient function of `x e_i + y e_j`. -/
theorem twoBlades (hS : LawfulStorage.Supp (S := S) (T := T) A.dim) {i j : Nat} (hi : i < 2 ^ A.dim) (hj : j < 2 ^ A.dim)
    (hij : i ≠ j) : ∃ a : MV A S, fromIndexedIter [(i, (1 : T)), (j, (1 : T))] = .ok a ∧ a.Valid ∧
      ∀ k < 2 ^ A.dim, a.val k = if k = i ∨ k = j then 1 else 0 := by
  obtain ⟨a, h1, h2, h3⟩ := fromIndexedIter_ok (A := A) hS [(i, (1 : T)), (j, (1 : T))] (by simp [hi, hj])
  refine ⟨a, h1, h2, fun k hk => (h3 k hk).trans ?_⟩
  simp only [lastWrite]
  by_cases e1 : k = i <;> by_cases e2 : k = j <;> simp_all

theorem mag2_blade (hA : A.WF) (hS : LawfulStorage.Supp (S := S) (T := T) A.dim) {k : Nat} (hk : k < A.dim) :
    ∃ a : MV A S, basisVec (T := T) k = .ok a ∧ a.Valid ∧ a.mag2 = .ok ((A.sigma k : ℤ) : T) ∧ a.isZero = false := by
  obtain ⟨e, e1, e2, e3⟩ := basisVec_denotes (A := A) (S := S) (T := T) hS hk
  have hlt : 2 ^ k < 2 ^ A.dim := Nat.pow_lt_pow_right (by norm_num) hk
  refine ⟨e, e1, e2, ?_, ?_⟩
  · rw [mag2_sum hA e2, sum_eq_single (2 ^ k)]
    · rw [e3 _ hlt, bprod_two_pow hk]; simp [single]
    · intro j hj hne
      rw [e3 j (mem_range.mp hj)]; simp [single, hne]
    · intro h; exact absurd (mem_range.mpr hlt) h
  · rw [Bool.eq_false_iff]
    intro h
    have := (isZero_iff e2).mp h _ hlt
    rw [e3 _ hlt] at this
    simp [single] at this

/-- **C75.** `mag2` is non-negative for all multivectors exactly when no generator squares to -1. -/
theorem C75_nonneg_iff (hA : A.WF) (hS : LawfulStorage.Supp (S := S) (T := T) A.dim) :
    (∀ (a : MV A S) (m : T), a.Valid → a.mag2 = .ok m → 0 ≤ m) ↔ A.imagMask = 0 := by
  constructor
  · intro h
    by_contra hne
    obtain ⟨k, hk⟩ := Nat.exists_testBit_of_ne_zero hne
    have hkd : k < A.dim := by
      by_contra hc
      rw [hA.testBit_imag_of_le (le_trans hA.nn_le (by omega))] at hk
      cases hk
    obtain ⟨a, -, h2, h3, -⟩ := mag2_blade (S := S) (T := T) hA hS hkd
    have := h a _ h2 h3
    have hs : A.sigma k = -1 := by unfold ClAlg.sigma; rw [hk]; rfl
    rw [hs] at this
    norm_num at this
  · intro h a m ha hm
    rw [mag2_sum hA ha] at hm
    injection hm with hm
    subst hm
    refine sum_nonneg fun i _ => mul_nonneg ?_ (sq_nonneg _)
    have : 0 ≤ bprod A.sigma A.dim i := bprod_nonneg (fun i _ => by unfold ClAlg.sigma; rw [h]; simp; split <;> norm_num) i
    exact_mod_cast this

/-- **C75.** `mag2() == 0` only for the zero multivector exactly when all generators square to +1. -/
theorem C75_definite_iff (hA : A.WF) (hS : LawfulStorage.Supp (S := S) (T := T) A.dim) :
    (∀ a : MV A S, a.Valid → a.mag2 = .ok 0 → a.isZero = true) ↔ A.imagMask = 0 ∧ A.projMask = 0 := by
  constructor
  · intro h
    constructor
    · by_contra hne
      obtain ⟨k, hk⟩ := Nat.exists_testBit_of_ne_zero hne
      have hkd : k < A.dim := by
        by_contra hc
        rw [hA.testBit_imag_of_le (le_trans hA.nn_le (by omega))] at hk
        cases hk
      have hlt : 2 ^ k < 2 ^ A.dim := Nat.pow_lt_pow_right (by norm_num) hkd
      have hne0 : (0 : Nat) ≠ 2 ^ k := (Nat.two_pow_pos k).ne
      obtain ⟨a, -, h2, h3⟩ := twoBlades (A := A) (S := S) (T := T) hS (Nat.two_pow_pos _) hlt hne0
      have hs : A.sigma k = -1 := by unfold ClAlg.sigma; rw [hk]; rfl
      have hz := h a h2 (by
        rw [mag2_sum hA h2]
        congr 1
        rw [← sum_subset (s₁ := {0, 2 ^ k})]
        · rw [sum_pair hne0, h3 _ (Nat.two_pow_pos _), h3 _ hlt, bprod_two_pow hkd, hs, bprod_zero]
          simp
        · intro i hi
          rw [mem_insert, mem_singleton] at hi
          rcases hi with rfl | rfl
          · exact mem_range.mpr (Nat.two_pow_pos _)
          · exact mem_range.mpr hlt
        · intro i hi hn
          rw [mem_insert, mem_singleton] at hn
          rw [h3 i (mem_range.mp hi), if_neg hn]; simp)
      have := (isZero_iff h2).mp hz 0 (Nat.two_pow_pos _)
      rw [h3 0 (Nat.two_pow_pos _)] at this
      simp at this
    · by_contra hne
      obtain ⟨k, hk⟩ := Nat.exists_testBit_of_ne_zero hne
      rw [hA.testBit_proj] at hk
      simp at hk
      obtain ⟨a, -, h2, h3, h4⟩ := mag2_blade (S := S) (T := T) hA hS hk.2
      rw [hA.sigma_null hk.1 hk.2] at h3
      have := h a h2 (by rw [h3]; simp)
      rw [h4] at this
      cases this
  · rintro ⟨hi, hp⟩ a ha hm
    obtain ⟨m, h1, -, -, h2⟩ := C75_euclidean hA hi hp ha
    rw [hm] at h1
    injection h1 with h1
    exact h2.mp h1.symm

/-- **C75.** Cauchy–Schwarz inequality for `vsdot`, in every algebra. -/
theorem C75_cauchy_schwarz {a b : MV A S} (ha : a.Valid) (hb : b.Valid) :
    ∃ x y z, a.vsdot b = .ok x ∧ a.vsdot a = .ok y ∧ b.vsdot b = .ok z ∧ x ^ 2 ≤ y * z := by
  refine ⟨_, _, _, vsdot_ok ha hb, vsdot_ok ha ha, vsdot_ok hb hb, ?_⟩
  simp only [← sq]
  exact sum_mul_sq_le_sq_mul_sq _ _ _

/-- **C75.** In a Euclidean algebra the reverse is the adjoint: `(a * b).vsdot(&c) == b.vsdot(&(a.rev() * c))`. -/
theorem C75_adjoint (hA : A.WF) (hi : A.imagMask = 0) (hp : A.projMask = 0) {a b c : MV A S} (ha : a.Valid) (hb : b.Valid)
    (hc : c.Valid) :
    ∃ t, (do let x ← a.naiveMulImpl b; x.vsdot c) = .ok t ∧ (do let r ← a.rev; let x ← r.naiveMulImpl c; b.vsdot x) = .ok t := by
  have key : ∀ {u v : MV A S}, u.Valid → v.Valid → u.vsdot v = .ok ((GA.rev u.ga * v.ga).fn 0) := by
    intro u v hu hv
    rw [vsdot_ok hu hv, MV.ga, GA.rev_of, MV.ga, ← GA.of_mul, GA.fn_of _ (Nat.two_pow_pos _), geo_rev_scalar]
    congr 1
    exact sum_congr rfl fun i _ => by rw [bprod_ones fun i _ => sigma_plus hi hp i, one_smul]
  obtain ⟨x, x1, x2, x3⟩ := (is_mul hA ha hb).ok
  obtain ⟨r, r1, r2, r3⟩ := (is_rev ha).ok
  obtain ⟨y, y1, y2, y3⟩ := (is_mul hA r2 hc).ok
  rw [x1, r1]
  refine ⟨_, key x2 hc, ?_⟩
  show (do let x ← r.naiveMulImpl c; b.vsdot x) = _
  rw [y1]
  show b.vsdot y = _
  rw [key hb y2, y3, r3, x3, GA.rev_mul, mul_assoc]

/-- **C75.** In a Euclidean algebra with `n` generators, `(a * b).mag2() <= 2^n a.mag2() b.mag2()`. -/
theorem C75_mul_bound (hA : A.WF) (hi : A.imagMask = 0) (hp : A.projMask = 0) {a b : MV A S} (ha : a.Valid) (hb : b.Valid) :
    ∃ x y z, (do let p ← a.naiveMulImpl b; p.mag2) = .ok x ∧ a.mag2 = .ok y ∧ b.mag2 = .ok z ∧
      x ≤ 2 ^ A.dim * (y * z) := by
  have e : ∀ {u : MV A S}, u.Valid → u.mag2 = .ok (∑ i ∈ range (2 ^ A.dim), u.val i ^ 2) := by
    intro u hu
    rw [mag2_sum hA hu]
    congr 1
    exact sum_congr rfl fun i _ => by rw [bprod_ones fun i _ => sigma_plus hi hp i]; simp
  obtain ⟨p, p1, p2, p3⟩ := mul_denotes hA ha hb
  rw [p1]
  refine ⟨_, _, _, e p2, e ha, e hb, ?_⟩
  rw [sum_congr rfl fun k hk => by rw [p3 k (mem_range.mp hk)], ← mul_assoc]
  refine geo_norm_le A.sigma A.dim (fun i j => ?_) _ _
  rw [ClAlg.bsgn_factor, bprod_ones fun i _ => sigma_plus hi hp i, mul_one, bsgn_ones]
  split <;> norm_num

/-- **C75.** In a Euclidean algebra `revm` succeeds for every non-zero multivector. -/
theorem C75_revm (hA : A.WF) (hi : A.imagMask = 0) (hp : A.projMask = 0) {a : MV A S} (ha : a.Valid) (h0 : a.isZero = false) :
    ∃ r, a.revm = .ok r ∧ r.Valid ∧ (do let p ← r.naiveMulImpl a; p.scalarPart) = .ok 1 := by
  obtain ⟨m, h1, -, -, h2⟩ := C75_euclidean hA hi hp ha
  have hm : m ≠ 0 := by
    intro h
    rw [h2.mp h] at h0
    cases h0
  obtain ⟨r, r1, r2, -⟩ := revm_denotes ha h1 hm
  have h := (C16_revm hA ha h1 hm).1
  rw [r1] at h
  exact ⟨r, r1, r2, h⟩

end

section
variable {A : ClAlg} {S T : Type} [CommRing T] [DecidableEq T] [CoeffStorage S T] [LawfulStorage S T]

/-- **C75.** Multiplication by a product `V` of vectors multiplies `mag2` by `V.mag2()`, on either side and in every metric. -/
theorem C75_versor_mul (hA : A.WF) (l : List (MV A S)) (hl : ∀ v ∈ l, v.Valid ∧ IsGrade 1 v) {V a : MV A S}
    (hV : versor l = .ok V) (ha : a.Valid) :
    ∃ m q, V.mag2 = .ok m ∧ a.mag2 = .ok q ∧ (do let p ← V.naiveMulImpl a; p.mag2) = .ok (m * q) ∧
      (do let p ← a.naiveMulImpl V; p.mag2) = .ok (m * q) := by
  obtain ⟨h1, h2, h3⟩ := versor_ok hA ha.supp l hl hV
  have hv := vecs_ga hl
  obtain ⟨x, x1, x2, x3⟩ := (is_mul hA h1 ha).ok
  obtain ⟨y, y1, y2, y3⟩ := (is_mul hA ha h1).ok
  rw [x1, y1]
  refine ⟨_, _, h3, mag2_ga hA ha, ?_, ?_⟩
  · show x.mag2 = _
    rw [mag2_ga hA x2, x3, h2, GA.rev_mul]
    have : GA.rev a.ga * GA.rev (l.map MV.ga).prod * ((l.map MV.ga).prod * a.ga) =
        GA.normOf (l.map MV.ga) • (GA.rev a.ga * a.ga) := by
      rw [mul_assoc, ← mul_assoc (GA.rev (l.map MV.ga).prod), GA.rev_mul_versor _ hv, smul_mul_assoc, one_mul, mul_smul_comm]
    rw [this, GA.fn_smul_apply]
  · show y.mag2 = _
    rw [mag2_ga hA y2, y3, h2, GA.rev_mul]
    have : (GA.rev (l.map MV.ga).prod * GA.rev a.ga * (a.ga * (l.map MV.ga).prod)).fn 0 =
        (GA.normOf (l.map MV.ga) • (GA.rev a.ga * a.ga)).fn 0 := by
      rw [GA.fn_mul_comm, ← mul_assoc, mul_assoc a.ga, GA.versor_mul_rev _ hv, mul_smul_comm, mul_one, smul_mul_assoc,
        GA.fn_smul_apply, GA.fn_smul_apply, GA.fn_mul_comm]
    rw [this, GA.fn_smul_apply]

end

/-! ### Examples -/

/-- The two products differ but have the same scalar part. -/
example : Ex.mA.vdot Ex.mB = .ok (-50) ∧ (do let p ← Ex.mA.naiveMulImpl Ex.mB; p.getByIdx 6) ≠
    (do let p ← Ex.mB.naiveMulImpl Ex.mA; p.getByIdx 6) := by
  refine ⟨by decide +kernel, by decide +kernel⟩

example : Ex.mB.vdot Ex.mA = Ex.mA.vdot Ex.mB := by
  obtain ⟨t, h1, h2, -⟩ := C74_symmetric Ex.M_wf Ex.mA_valid Ex.mB_valid
  rw [h1, h2]

example : ∃ t, (do let x ← Ex.a7A.naiveMulImpl Ex.a7B; x.vdot Ex.a7A) = .ok t ∧ (do let x ← Ex.a7B.naiveMulImpl Ex.a7A; Ex.a7A.vdot x) = .ok t ∧
    (do let x ← Ex.a7A.naiveMulImpl Ex.a7A; Ex.a7B.vdot x) = .ok t :=
  C74_cyclic Ex.A7_wf Ex.a7A_valid Ex.a7B_valid Ex.a7A_valid

example : (do let x ← Ex.a7A.rev; let y ← Ex.a7B.rev; x.vdot y) = Ex.a7A.vdot Ex.a7B := C74_rev Ex.A7_wf Ex.a7A_valid Ex.a7B_valid

example : (do let x ← Ex.mA.add Ex.mB; x.vdot Ex.mC) = (do let u ← Ex.mA.vdot Ex.mC; let v ← Ex.mB.vdot Ex.mC; return u + v) :=
  (C74_bilinear Ex.M_wf Ex.mA_valid Ex.mB_valid Ex.mC_valid 3).1

/-- A bivector. -/
def Ex.mBiv : MV Ex.M (ArrayStorage ℚ) := ⟨⟨3, ⟨8, fun i => if i = 3 then 2 else if i = 6 then -5 else 0⟩⟩⟩

example : Ex.vU.vdot Ex.mBiv = .ok 0 :=
  C74_grades Ex.M_wf (j := 1) (k := 2) (by decide) Ex.vU_valid ⟨by decide, rfl, rfl⟩ Ex.vU_grade
    (show ∀ i < 8, countOnes i ≠ 2 → Ex.mBiv.getByIdx i = .ok 0 by decide +kernel)

example : (do let b ← blade (A := Ex.E) (S := ArrayStorage ℚ) 5; Ex.eA.vdot b) ≠ .ok 0 := by decide +kernel

example (a : MV Ex.E (ArrayStorage ℚ)) (ha : a.Valid)
    (h : ∀ i < 2 ^ Ex.E.dim, (do let b ← blade (A := Ex.E) (S := ArrayStorage ℚ) i; a.vdot b) = .ok 0) : a.isZero = true :=
  C74_nondegenerate Ex.E_wf rfl ha h

example : (do let e ← basisVec (T := ℤ) 6; Ex.a7A.vdot e) = .ok 0 := C74_degenerate Ex.A7_wf (by decide) Ex.a7A_valid

example : Ex.eA.mag2 = .ok 51 ∧ Ex.eA.vsdot Ex.eA = .ok 51 := by
  refine ⟨by decide +kernel, by decide +kernel⟩

example : ∃ m, Ex.eA.mag2 = .ok m ∧ Ex.eA.vsdot Ex.eA = .ok m ∧ 0 ≤ m ∧ (m = 0 ↔ Ex.eA.isZero = true) :=
  C75_euclidean Ex.E_wf rfl rfl Ex.eA_valid

/-- The algebra `+ - 0` has multivectors with negative `mag2`, and non-zero ones with `mag2 = 0`. -/
example : ¬ (∀ (a : MV Ex.M (ArrayStorage ℚ)) (m : ℚ), a.Valid → a.mag2 = .ok m → 0 ≤ m) ∧
    ¬ (∀ a : MV Ex.M (ArrayStorage ℚ), a.Valid → a.mag2 = .ok 0 → a.isZero = true) := by
  refine ⟨fun h => ?_, fun h => ?_⟩
  · exact absurd ((C75_nonneg_iff Ex.M_wf (show Ex.M.dim ≤ 63 by decide)).mp h) (by decide)
  · exact absurd ((C75_definite_iff Ex.M_wf (show Ex.M.dim ≤ 63 by decide)).mp h).1 (by decide)

example : ∃ x y z, Ex.eA.vsdot Ex.eB = .ok x ∧ Ex.eA.vsdot Ex.eA = .ok y ∧ Ex.eB.vsdot Ex.eB = .ok z ∧ x ^ 2 ≤ y * z :=
  C75_cauchy_schwarz Ex.eA_valid Ex.eB_valid

/-- Without the reversal the identity is false. -/
example : (do let x ← Ex.eA.naiveMulImpl Ex.eB; x.vsdot Ex.eA) = (do let r ← Ex.eA.rev; let x ← r.naiveMulImpl Ex.eA; Ex.eB.vsdot x) ∧
    (do let x ← Ex.eA.naiveMulImpl Ex.eB; x.vsdot Ex.eA) ≠ (do let x ← Ex.eA.naiveMulImpl Ex.eA; Ex.eB.vsdot x) := by
  refine ⟨?_, by decide +kernel⟩
  obtain ⟨t, h1, h2⟩ := C75_adjoint Ex.E_wf rfl rfl Ex.eA_valid Ex.eB_valid Ex.eA_valid
  rw [h1, h2]

example : ∃ x y z, (do let p ← Ex.eA.naiveMulImpl Ex.eB; p.mag2) = .ok x ∧ Ex.eA.mag2 = .ok y ∧ Ex.eB.mag2 = .ok z ∧
    x ≤ 2 ^ 3 * (y * z) := C75_mul_bound Ex.E_wf rfl rfl Ex.eA_valid Ex.eB_valid

/-- In the Euclidean algebra `mag2` is not multiplicative. -/
example : (do let p ← Ex.eA.naiveMulImpl Ex.eB; p.mag2) ≠ (do let y ← Ex.eA.mag2; let z ← Ex.eB.mag2; return y * z) := by decide +kernel

example : ∃ r, Ex.eA.revm = .ok r ∧ r.Valid ∧ (do let p ← r.naiveMulImpl Ex.eA; p.scalarPart) = .ok 1 :=
  C75_revm Ex.E_wf rfl rfl Ex.eA_valid (by decide +kernel)

example : ∃ V m q, versor [Ex.vU, Ex.vV, Ex.vU] = .ok V ∧ V.mag2 = .ok m ∧ Ex.mQ.mag2 = .ok q ∧
    (do let p ← V.naiveMulImpl Ex.mQ; p.mag2) = .ok (m * q) ∧ (do let p ← Ex.mQ.naiveMulImpl V; p.mag2) = .ok (m * q) := by
  obtain ⟨V, hV⟩ := Ex.vs_versor
  obtain ⟨m, q, h⟩ := C75_versor_mul Ex.M_wf _ Ex.vs hV Ex.mQ_valid
  exact ⟨V, m, q, hV, h⟩

end TClifford
