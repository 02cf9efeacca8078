import Verif.Proofs.Blades
import Verif.Props.Even
/-
The dual as a product (C63), the laws of `meet` (C64), the pseudoscalar (C65).
-/

set_option linter.unusedSectionVars false

namespace TClifford

open MV Finset

/-! ### C61: a vector times a multivector -/

section
variable {A : ClAlg} {S T : Type} [CommRing T] [DecidableEq T] [CoeffStorage S T] [LawfulStorage S T]

/-- **C61.** `2 (v ∧ b) == v * b + b.flip() * v` for every vector `v` and multivector `b`, whatever the metric is. -/
theorem C61_vector_wedge [WedgeProduct A S] [LawfulWedge A S] (hA : A.WF) {v b : MV A S} (hv : v.Valid) (hb : b.Valid)
    (h1 : IsGrade 1 v) :
    (do let w ← v.wedge b; w.smul 2) ≈ᵣ (do let p ← v.naiveMulImpl b; let q ← (do let f ← b.flip; f.naiveMulImpl v); p.add q) := by
  refine Agree.of_denotes ((LawfulWedge.wedge hv hb).smul 2)
    ((mul_denotes hA hv hb).add ((flip_denotes hb).mul hA (.of_valid hv))) fun k hk => ?_
  rw [mul_comm]
  exact geo_vec_wedge A.sigma (h1.hom hv) hk

/-! ### C63 -/

/-- **C63.** For a basis blade `b`, `b.dual() * b` and `b * b.undual()` are the unit pseudoscalar, whatever the metric is. -/
theorem C63_basis_blades (hA : A.WF) (hS : LawfulStorage.Supp (S := S) (T := T) A.dim) {i : Nat} (hi : i < 2 ^ A.dim) :
    (do let b ← blade (A := A) (S := S) i; let d ← b.dual; d.naiveMulImpl b) ≈ᵣ blade (2 ^ A.dim - 1) ∧
    (do let b ← blade (A := A) (S := S) i; let d ← b.undual; b.naiveMulImpl d) ≈ᵣ blade (2 ^ A.dim - 1) := by
  have hm : (2 ^ A.dim - 1 : Nat) < 2 ^ A.dim := by have := Nat.two_pow_pos A.dim; omega
  have hi' := xor_mask_lt hi
  have e1 : i ^^^ (2 ^ A.dim - 1) ^^^ i = 2 ^ A.dim - 1 := by rw [Nat.xor_comm i]; simp
  have e2 : i ^^^ (i ^^^ (2 ^ A.dim - 1)) = 2 ^ A.dim - 1 := xor_xor_cancel _ _
  have hiff : ∀ j, (j ^^^ (2 ^ A.dim - 1) = i ↔ j = i ^^^ (2 ^ A.dim - 1)) := by
    intro j
    constructor
    · rintro rfl; rw [xor_mask_xor_mask]
    · rintro rfl; rw [xor_mask_xor_mask]
  have hdis : ∀ j < A.dim, (i.testBit j && (i ^^^ (2 ^ A.dim - 1)).testBit j) = false := by
    rw [← and_eq_zero_iff_testBit hi, Nat.and_comm]; exact disjoint_compl hi
  have hdis' : ∀ j < A.dim, ((i ^^^ (2 ^ A.dim - 1)).testBit j && i.testBit j) = false :=
    fun j hj => by rw [Bool.and_comm]; exact hdis j hj
  constructor
  · refine Agree.of_denotes (f := single (2 ^ A.dim - 1) 1) ?_ (blade_denotes hS hm) (fun _ _ => rfl)
    refine (blade_denotes hS hi).bind ?_
    intro b hb hbv
    refine ((dual_denotes hA hb).mul hA (.of_valid hb)).congr ?_
    intro k hk
    have hd : ∀ j < 2 ^ A.dim, bsgn (fun _ => 0) A.dim j (j ^^^ (2 ^ A.dim - 1)) • b.val (j ^^^ (2 ^ A.dim - 1)) =
        single (i ^^^ (2 ^ A.dim - 1)) ((bsgn (fun _ => 0) A.dim (i ^^^ (2 ^ A.dim - 1)) i : ℤ) : T) j := by
      intro j hj
      rw [hbv _ (xor_mask_lt hj)]
      unfold single
      simp only [hiff]
      split
      · rename_i h; rw [h, xor_mask_xor_mask]; simp
      · simp
    rw [geo_congr (fun _ _ => rfl) hd hbv hk, geo_single_single _ hi', e1, bsgn_disjoint A.sigma (fun _ => 0) hdis']
    congr 1
    rw [mul_one, ← Int.cast_smul_eq_zsmul T, smul_eq_mul, ← Int.cast_mul, bsgn_compl_sq' hi, Int.cast_one]
  · refine Agree.of_denotes (f := single (2 ^ A.dim - 1) 1) ?_ (blade_denotes hS hm) (fun _ _ => rfl)
    refine (blade_denotes hS hi).bind ?_
    intro b hb hbv
    refine (Denotes.mul hA (.of_valid hb) (undual_denotes hA hb)).congr ?_
    intro k hk
    have hd : ∀ j < 2 ^ A.dim, bsgn (fun _ => 0) A.dim (j ^^^ (2 ^ A.dim - 1)) j • b.val (j ^^^ (2 ^ A.dim - 1)) =
        single (i ^^^ (2 ^ A.dim - 1)) ((bsgn (fun _ => 0) A.dim i (i ^^^ (2 ^ A.dim - 1)) : ℤ) : T) j := by
      intro j hj
      rw [hbv _ (xor_mask_lt hj)]
      unfold single
      simp only [hiff]
      split
      · rename_i h; rw [h, xor_mask_xor_mask]; simp
      · simp
    rw [geo_congr (fun _ _ => rfl) hbv hd hk, geo_single_single _ hi, e2, bsgn_disjoint A.sigma (fun _ => 0) hdis]
    congr 1
    rw [one_mul, ← Int.cast_smul_eq_zsmul T, smul_eq_mul, ← Int.cast_mul, bsgn_compl_sq hi, Int.cast_one]

theorem sigma_plus (hi : A.imagMask = 0) (hp : A.projMask = 0) (i : Nat) : A.sigma i = 1 := by
  unfold ClAlg.sigma
  rw [hi, hp]
  simp

theorem is_dual (hA : A.WF) (h : ∀ i < A.dim, A.sigma i = 1) {a : MV A S} (ha : a.Valid) : Is a.dual (GA.psc * GA.rev a.ga) := by
  rw [MV.ga, ← GA.dual_eq h]; exact is_of_denotes (dual_denotes hA ha)

theorem is_undual (hA : A.WF) (h : ∀ i < A.dim, A.sigma i = 1) {a : MV A S} (ha : a.Valid) : Is a.undual (GA.rev a.ga * GA.psc) := by
  rw [MV.ga, ← GA.undual_eq h]; exact is_of_denotes (undual_denotes hA ha)

theorem is_ps (hS : LawfulStorage.Supp (S := S) (T := T) A.dim) : Is (blade (A := A) (S := S) (T := T) (2 ^ A.dim - 1)) GA.psc :=
  is_of_denotes (blade_denotes hS (by have := Nat.two_pow_pos A.dim; omega))

/-- **C63.** In an algebra with only `+` generators, the dual is the product of the unit pseudoscalar and the reverse. -/
theorem C63_dual_is_product (hA : A.WF) (hi : A.imagMask = 0) (hp : A.projMask = 0) {a : MV A S} (ha : a.Valid) :
    a.dual ≈ᵣ (do let I ← blade (2 ^ A.dim - 1); let r ← a.rev; I.naiveMulImpl r) ∧
    a.undual ≈ᵣ (do let I ← blade (2 ^ A.dim - 1); let r ← a.rev; r.naiveMulImpl I) := by
  have h : ∀ i < A.dim, A.sigma i = 1 := fun i _ => sigma_plus hi hp i
  constructor
  · exact (is_dual hA h ha).agree ((is_ps ha.supp).bind fun I hI hIg => (is_rev ha).bind fun r hr hrg =>
      (is_mul hA hI hr).congr (by rw [hIg, hrg])) rfl
  · exact (is_undual hA h ha).agree ((is_ps ha.supp).bind fun I hI hIg => (is_rev ha).bind fun r hr hrg =>
      (is_mul hA hr hI).congr (by rw [hIg, hrg])) rfl

/-- The wedge `v1 ∧ (v2 ∧ (… ∧ 1))` of a list of multivectors. -/
def wedgeAll [WedgeProduct A S] : List (MV A S) → Res (MV A S)
  | [] => MV.one
  | v :: l => do let r ← wedgeAll l; v.wedge r

theorem is_wedge [WedgeProduct A S] [LawfulWedge A S] {a b : MV A S} (ha : a.Valid) (hb : b.Valid) :
    Is (a.wedge b) (GA.wdg a.ga b.ga) := by
  rw [MV.ga, MV.ga, ← GA.of_wdg]; exact is_of_denotes (LawfulWedge.wedge ha hb)

end

section
variable {A : ClAlg} {S T : Type} [Field T] [LinearOrder T] [IsStrictOrderedRing T] [DecidableEq T] [CoeffStorage S T]
  [LawfulStorage S T] [WedgeProduct A S] [LawfulWedge A S]

theorem is_wedgeAll (hS : LawfulStorage.Supp (S := S) (T := T) A.dim) (l : List (MV A S)) (hl : ∀ v ∈ l, v.Valid) :
    Is (wedgeAll l) (GA.wdgs (l.map MV.ga)) := by
  induction l with
  | nil => exact Is.one hS
  | cons v l ih =>
    refine (ih fun w hw => hl w (by simp [hw])).bind fun u hu hug => ?_
    show Is _ (GA.wdg v.ga (GA.wdgs (l.map MV.ga)))
    rw [← hug]
    exact is_wedge (hl v (by simp)) hu

/-- **C63, for `+` generators.** For a blade `b = v1 ∧ … ∧ vk`, `b.dual() * b` and `b * b.undual()` are the pseudoscalar
with the coefficient `b.mag2()`, and `b.rev() * b` is the scalar `b.mag2()`, which is zero only if `b` is zero.
Missing for the full claim: algebras with other generators, for which it is false, see `C63_other_metric_false`. -/
theorem C63_blades_partial (hA : A.WF) (hi : A.imagMask = 0) (hp : A.projMask = 0) (hS : LawfulStorage.Supp (S := S) (T := T) A.dim)
    (l : List (MV A S)) (hl : ∀ v ∈ l, v.Valid ∧ IsGrade 1 v) :
    ∃ b m, wedgeAll l = .ok b ∧ b.Valid ∧ b.mag2 = .ok m ∧ (m = 0 ↔ b.isZero = true) ∧
      (do let d ← b.dual; d.naiveMulImpl b) ≈ᵣ (do let I ← blade (2 ^ A.dim - 1); I.smul m) ∧
      (do let d ← b.undual; b.naiveMulImpl d) ≈ᵣ (do let I ← blade (2 ^ A.dim - 1); I.smul m) ∧
      (do let r ← b.rev; r.naiveMulImpl b) ≈ᵣ fromScalar m := by
  have h : ∀ i < A.dim, A.sigma i = 1 := fun i _ => sigma_plus hi hp i
  obtain ⟨b, b1, b2, b3⟩ := (is_wedgeAll hS l fun v hv => (hl v hv).1).ok
  obtain ⟨ws, w1, -, w3⟩ := GA.wdgs_versor h (l.map MV.ga) (vecs_ga hl)
  rw [w3] at b3
  have hr := GA.rev_mul_versor ws w1
  have hr' := GA.versor_mul_rev ws w1
  rw [← b3] at hr hr'
  have hI : Is (do let I ← blade (A := A) (S := S) (2 ^ A.dim - 1); I.smul (GA.normOf ws)) (GA.normOf ws • GA.psc) :=
    (is_ps hS).bind fun I hI hIg => (is_smul hI _).congr (by rw [hIg])
  refine ⟨b, GA.normOf ws, b1, b2, ?_, ?_, ?_, ?_, ?_⟩
  · rw [mag2_ga hA b2, hr, GA.fn_zero_smul_one]
  · rw [isZero_iff b2]
    constructor
    · intro h0
      have := GA.mag2_eq_zero h b.ga (by rw [hr, GA.fn_zero_smul_one, h0])
      intro i hi
      rw [← ga_val hi, this, ← GA.of_zero, GA.fn_of _ hi]
    · intro h0
      have hb0 : b.ga = 0 := by rw [← GA.of_zero]; exact GA.of_congr h0
      have := congrArg (fun z => z.fn 0) hr
      simp only [hb0, mul_zero, GA.fn_zero_smul_one] at this
      rw [← this, ← GA.of_zero, GA.fn_of _ (Nat.two_pow_pos _)]
  · refine Is.agree (g := GA.psc * GA.rev b.ga * b.ga) ((is_dual hA h b2).bind fun d hd hdg => hdg ▸ is_mul hA hd b2) hI ?_
    rw [mul_assoc, hr, mul_smul_comm, mul_one]
  · refine Is.agree (g := b.ga * (GA.rev b.ga * GA.psc)) ((is_undual hA h b2).bind fun d hd hdg => hdg ▸ is_mul hA b2 hd) hI ?_
    rw [← mul_assoc, hr', smul_mul_assoc, one_mul]
  · refine Is.agree (g := GA.rev b.ga * b.ga) ((is_rev b2).bind fun r hr hrg => hrg ▸ is_mul hA hr b2) (Is.fromScalar hS _) ?_
    rw [hr, Algebra.algebraMap_eq_smul_one]

end

namespace Ex

def Pm : ClAlg := (declareAlgebra [.plus, .minus] []).get rfl
def P0 : ClAlg := (declareAlgebra [.plus, .null] []).get rfl
def pmV : MV Pm (ArrayStorage ℤ) := ⟨⟨2, ⟨4, fun i => if i = 1 then 1 else if i = 2 then 1 else 0⟩⟩⟩
def p0V : MV P0 (ArrayStorage ℤ) := ⟨⟨2, ⟨4, fun i => if i = 1 then 1 else if i = 2 then 1 else 0⟩⟩⟩

end Ex

/-- **C63 does not hold in other metrics.** In the algebras `[+,-]` and `[+,0]`, `b.dual() * b` and `b * b.undual()` have a
scalar part for the vector `b = e0 + e1`. -/
theorem C63_other_metric_false :
    (Ex.pmV.Valid ∧ IsGrade 1 Ex.pmV ∧ (do let d ← Ex.pmV.dual; let p ← d.naiveMulImpl Ex.pmV; p.scalarPart) = .ok (-2) ∧
      (do let d ← Ex.pmV.undual; let p ← Ex.pmV.naiveMulImpl d; p.scalarPart) = .ok 2) ∧
    (Ex.p0V.Valid ∧ IsGrade 1 Ex.p0V ∧ (do let d ← Ex.p0V.dual; let p ← d.naiveMulImpl Ex.p0V; p.scalarPart) = .ok (-1) ∧
      (do let d ← Ex.p0V.undual; let p ← Ex.p0V.naiveMulImpl d; p.scalarPart) = .ok 1) := by
  have g : ∀ (i : Nat), i < 4 → countOnes i ≠ 1 → i = 0 ∨ i = 3 := by
    intro i hi
    interval_cases i <;> decide
  refine ⟨⟨⟨by decide, rfl, rfl⟩, ?_, by decide +kernel, by decide +kernel⟩, ⟨⟨by decide, rfl, rfl⟩, ?_, by decide +kernel, by decide +kernel⟩⟩
  · intro i hi hne
    rcases g i hi hne with rfl | rfl <;> decide +kernel
  · intro i hi hne
    rcases g i hi hne with rfl | rfl <;> decide +kernel

namespace Ex

/-- Vectors in the Euclidean algebra `E`. -/
def wU : MV E (ArrayStorage ℚ) := ⟨⟨3, ⟨8, fun i => if countOnes i = 1 then i + 1 else 0⟩⟩⟩
def wV : MV E (ArrayStorage ℚ) := ⟨⟨3, ⟨8, fun i => if countOnes i = 1 then 2 * i - 5 else 0⟩⟩⟩

theorem wU_valid : wU.Valid := ⟨by decide, rfl, rfl⟩
theorem wV_valid : wV.Valid := ⟨by decide, rfl, rfl⟩

theorem wU_grade : IsGrade 1 wU := by
  intro i hi hne
  rw [wU_valid.get hi, MV.arr_val wU_valid hi]
  show Except.ok (if countOnes i = 1 then (i : ℚ) + 1 else 0) = _
  rw [if_neg hne]

theorem wV_grade : IsGrade 1 wV := by
  intro i hi hne
  rw [wV_valid.get hi, MV.arr_val wV_valid hi]
  show Except.ok (if countOnes i = 1 then 2 * (i : ℚ) - 5 else 0) = _
  rw [if_neg hne]

theorem ws : ∀ v ∈ [wU, wV], v.Valid ∧ IsGrade 1 v := by
  intro v hv
  simp only [List.mem_cons, List.not_mem_nil, or_false] at hv
  rcases hv with rfl | rfl
  exacts [⟨wU_valid, wU_grade⟩, ⟨wV_valid, wV_grade⟩]

end Ex

example : (do let w ← Ex.vU.wedge Ex.vV; w.smul 2) ≈ᵣ
    (do let p ← Ex.vU.naiveMulImpl Ex.vV; let q ← (do let f ← Ex.vV.flip; f.naiveMulImpl Ex.vU); p.add q) :=
  C61_vector_wedge Ex.M_wf Ex.vU_valid Ex.vV_valid Ex.vU_grade

/-- The blade `e1 ∧ e0` of the algebra `+ - 0`. -/
example : (do let b ← blade (A := Ex.M) (S := ArrayStorage ℤ) 3; let d ← b.dual; d.naiveMulImpl b) ≈ᵣ blade (2 ^ 3 - 1) :=
  (C63_basis_blades Ex.M_wf (show Ex.M.dim ≤ 63 by decide) (show 3 < 2 ^ Ex.M.dim by decide)).1

example : Ex.eA.dual ≈ᵣ (do let I ← blade (2 ^ 3 - 1); let r ← Ex.eA.rev; I.naiveMulImpl r) :=
  (C63_dual_is_product Ex.E_wf rfl rfl Ex.eA_valid).1

example : ∃ b m, wedgeAll [Ex.wU, Ex.wV] = .ok b ∧ b.mag2 = .ok m ∧ (m = 0 ↔ b.isZero = true) ∧
    (do let d ← b.dual; d.naiveMulImpl b) ≈ᵣ (do let I ← blade (2 ^ 3 - 1); I.smul m) := by
  obtain ⟨b, m, h1, -, h2, h3, h4, -⟩ := C63_blades_partial Ex.E_wf rfl rfl (show Ex.E.dim ≤ 63 by decide) _ Ex.ws
  exact ⟨b, m, h1, h2, h3, h4⟩

/-- The blade of this example is not zero. -/
example : (do let b ← wedgeAll [Ex.wU, Ex.wV]; b.mag2) = .ok 686 := by decide +kernel

/-! ### C64 -/

section
variable {T : Type} [Ring T]

theorem meetF_eq (n : Nat) (f g : Nat → T) : meetF n f g = undualF n (geo (fun _ => 0) n (dualF n f) (dualF n g)) := rfl

theorem undualF_congr {n : Nat} {f g : Nat → T} (h : ∀ i < 2 ^ n, f i = g i) {i : Nat} (hi : i < 2 ^ n) : undualF n f i = undualF n g i := by
  unfold undualF; rw [h _ (xor_mask_lt hi)]

theorem dualF_add (n : Nat) (f g : Nat → T) (i : Nat) : dualF n (fun k => f k + g k) i = dualF n f i + dualF n g i := smul_add _ _ _
theorem undualF_add (n : Nat) (f g : Nat → T) (i : Nat) : undualF n (fun k => f k + g k) i = undualF n f i + undualF n g i := smul_add _ _ _

theorem dualF_ps {n i : Nat} (hi : i < 2 ^ n) : dualF n (single (2 ^ n - 1) (1 : T)) i = single 0 1 i := by
  unfold dualF single
  by_cases h : i = 0
  · subst h; simp
  · rw [if_neg h, if_neg, smul_zero]
    intro h'
    apply h
    have := congrArg (· ^^^ (2 ^ n - 1)) h'
    simpa using this

theorem cnt_compl {n i : Nat} (hi : i < 2 ^ n) : cnt n (i ^^^ (2 ^ n - 1)) + cnt n i = n := by
  have h := cnt_and_or n (i ^^^ (2 ^ n - 1)) i
  have hf : i ^^^ (2 ^ n - 1) ||| i = 2 ^ n - 1 := by
    apply Nat.eq_of_testBit_eq
    intro j
    rw [Nat.testBit_or, Nat.testBit_xor, Nat.testBit_two_pow_sub_one]
    by_cases hj : j < n
    · cases i.testBit j <;> simp [hj]
    · rw [testBit_eq_false_of_lt hi (by omega)]; simp [hj]
  rw [disjoint_compl hi, cnt_zero, hf] at h
  have : cnt n (2 ^ n - 1) = n := by
    rw [cnt_eq_sum]
    rw [sum_congr rfl (g := fun _ => 1)]
    · simp
    · intro j hj
      rw [mem_range] at hj
      rw [Nat.testBit_two_pow_sub_one]; simp [hj]
  omega

theorem HomF.dual {n p : Nat} {f : Nat → T} (hp : p ≤ n) (hf : HomF n p f) : HomF n (n - p) (dualF n f) := fun i hi hne => by
  unfold dualF
  have := cnt_compl hi
  rw [hf _ (xor_mask_lt hi) (by omega), smul_zero]

theorem HomF.undual {n p : Nat} {f : Nat → T} (hp : p ≤ n) (hf : HomF n p f) : HomF n (n - p) (undualF n f) := fun i hi hne => by
  unfold undualF
  have := cnt_compl hi
  rw [hf _ (xor_mask_lt hi) (by omega), smul_zero]

end

section
variable {T : Type} [Ring T]

theorem geo_dualF_full (n : Nat) (f g : Nat → T) :
    geo (fun _ => 0) n (dualF n f) g (2 ^ n - 1) = ∑ i ∈ range (2 ^ n), f i * g i := by
  have hm : (2 ^ n - 1 : Nat) < 2 ^ n := by have := Nat.two_pow_pos n; omega
  rw [← sum_xor hm]
  unfold geo dualF
  refine sum_congr rfl fun i hi => ?_
  rw [mem_range] at hi
  rw [smul_mul_assoc, smul_smul, bsgn_compl_sq hi, one_smul]

theorem geo_undualF_full (n : Nat) (f g : Nat → T) :
    geo (fun _ => 0) n f (undualF n g) (2 ^ n - 1) = ∑ i ∈ range (2 ^ n), f i * g i := by
  unfold geo undualF
  refine sum_congr rfl fun i hi => ?_
  rw [mem_range] at hi
  rw [xor_mask_xor_mask, mul_smul_comm, smul_smul, bsgn_compl_sq hi, one_smul]

end

section
variable {A : ClAlg} {S T : Type} [Ring T] [DecidableEq T] [CoeffStorage S T] [LawfulStorage S T] [WedgeProduct A S] [LawfulWedge A S]

/-- **C63.** The pseudoscalar coefficient of `b.dual().wedge(&a)` is `b.vsdot(&a)` and that of `a.wedge(&b.undual())` is
`a.vsdot(&b)`, for all multivectors and whatever the metric is. -/
theorem C63_vsdot (hA : A.WF) {a b : MV A S} (ha : a.Valid) (hb : b.Valid) :
    (do let d ← b.dual; let w ← d.wedge a; w.getByIdx (2 ^ A.dim - 1)) = b.vsdot a ∧
    (do let d ← b.undual; let w ← a.wedge d; w.getByIdx (2 ^ A.dim - 1)) = a.vsdot b := by
  have hm : (2 ^ A.dim - 1 : Nat) < 2 ^ A.dim := by have := Nat.two_pow_pos A.dim; omega
  constructor
  · obtain ⟨d, d1, d2, d3⟩ := dual_denotes hA hb
    obtain ⟨w, h1, h2, h3⟩ := LawfulWedge.wedge (A := A) (S := S) d2 ha
    rw [d1, vsdot_ok hb ha, ← geo_dualF_full]
    show (do let w ← d.wedge a; w.getByIdx (2 ^ A.dim - 1)) = _
    rw [h1]
    show w.getByIdx _ = _
    rw [h2.get hm, h3 _ hm, geo_congr (fun _ _ => rfl) d3 (fun _ _ => rfl) hm]
    rfl
  · obtain ⟨d, d1, d2, d3⟩ := undual_denotes hA hb
    obtain ⟨w, h1, h2, h3⟩ := LawfulWedge.wedge (A := A) (S := S) ha d2
    rw [d1, vsdot_ok ha hb, ← geo_undualF_full]
    show (do let w ← a.wedge d; w.getByIdx (2 ^ A.dim - 1)) = _
    rw [h1]
    show w.getByIdx _ = _
    rw [h2.get hm, h3 _ hm, geo_congr (fun _ _ => rfl) (fun _ _ => rfl) d3 hm]
    rfl

/-- **C63.** For `a` and `b` of the same grade, `b.dual().wedge(&a)` is the pseudoscalar with the coefficient `b.vsdot(&a)`,
and `a.wedge(&b.undual())` the one with the coefficient `a.vsdot(&b)`. -/
theorem C63_hodge (hA : A.WF) {p : Nat} (hpn : p ≤ A.dim) {a b : MV A S} (ha : a.Valid) (hb : b.Valid)
    (hap : IsGrade p a) (hbp : IsGrade p b) :
    (do let d ← b.dual; d.wedge a) ≈ᵣ (do let c ← b.vsdot a; let I ← blade (2 ^ A.dim - 1); I.smul c) ∧
    (do let d ← b.undual; a.wedge d) ≈ᵣ (do let c ← a.vsdot b; let I ← blade (2 ^ A.dim - 1); I.smul c) := by
  have hm : (2 ^ A.dim - 1 : Nat) < 2 ^ A.dim := by have := Nat.two_pow_pos A.dim; omega
  have hI : Denotes (blade (A := A) (S := S) (2 ^ A.dim - 1)) (single (2 ^ A.dim - 1) (1 : T)) := blade_denotes ha.supp hm
  have hfull : ∀ k < 2 ^ A.dim, k ≠ 2 ^ A.dim - 1 → cnt A.dim k ≠ A.dim := by
    intro k hk hne h
    have := cnt_compl hk
    have := eq_zero_of_cnt (xor_mask_lt hk) (by omega)
    apply hne
    rw [← Nat.xor_eq_zero_iff]
    exact this
  constructor
  · rw [vsdot_ok hb ha]
    refine Agree.of_denotes ((dual_denotes hA hb).wedge (.of_valid ha)) (hI.smul _) fun k hk => ?_
    have hg := geo_hom ((hbp.hom hb).dual hpn) (hap.hom ha)
    by_cases h : k = 2 ^ A.dim - 1
    · subst h
      rw [single, if_pos rfl, one_mul, ← geo_dualF_full]
      rfl
    · rw [single, if_neg h, zero_mul]
      exact hg k hk (by have := hfull k hk h; omega)
  · rw [vsdot_ok ha hb]
    refine Agree.of_denotes (f := geo (fun _ => 0) A.dim a.val (undualF A.dim b.val)) ((undual_denotes hA hb).bind fun d hd hdf =>
      (LawfulWedge.wedge ha hd).congr fun k hk => geo_congr (fun _ _ => rfl) (fun _ _ => rfl) hdf hk) (hI.smul _) fun k hk => ?_
    have hg := geo_hom (hap.hom ha) ((hbp.hom hb).undual hpn)
    by_cases h : k = 2 ^ A.dim - 1
    · subst h
      rw [single, if_pos rfl, one_mul, ← geo_undualF_full]
    · rw [single, if_neg h, zero_mul]
      exact hg k hk (by have := hfull k hk h; omega)

end

example : (do let d ← Ex.mB.dual; let w ← d.wedge Ex.mA; w.getByIdx 7) = Ex.mB.vsdot Ex.mA := (C63_vsdot Ex.M_wf Ex.mA_valid Ex.mB_valid).1
example : (do let d ← Ex.vU.dual; d.wedge Ex.vV) ≈ᵣ (do let c ← Ex.vU.vsdot Ex.vV; let I ← blade (2 ^ 3 - 1); I.smul c) :=
  (C63_hodge Ex.M_wf (show 1 ≤ Ex.M.dim by decide) Ex.vV_valid Ex.vU_valid Ex.vV_grade Ex.vU_grade).1

section
variable {A : ClAlg} {S T : Type} [Ring T] [DecidableEq T] [CoeffStorage S T] [LawfulStorage S T] [WedgeProduct A S] [LawfulWedge A S]

/-- **C64.** `meet` is associative. -/
theorem C64_assoc (hA : A.WF) {a b c : MV A S} (ha : a.Valid) (hb : b.Valid) (hc : c.Valid) :
    (do let m ← a.meet b; m.meet c) ≈ᵣ (do let m ← b.meet c; a.meet m) := by
  refine Agree.of_denotes ((LawfulWedge.meet hA ha hb).meet hA (.of_valid hc))
    (Denotes.meet hA (.of_valid ha) (LawfulWedge.meet hA hb hc)) fun k hk => ?_
  rw [meetF_eq, meetF_eq, meetF_eq, meetF_eq]
  refine undualF_congr (fun i hi => ?_) hk
  rw [geo_congr (fun _ _ => rfl) (fun j hj => undual_dual_F _ hj) (fun _ _ => rfl) hi,
    geo_congr (f := dualF A.dim a.val) (fun _ _ => rfl) (fun _ _ => rfl) (fun j hj => undual_dual_F _ hj) hi, geo_assoc]

/-- **C64.** The unit pseudoscalar is neutral for `meet`. -/
theorem C64_unit (hA : A.WF) {a : MV A S} (ha : a.Valid) :
    (do let I ← blade (2 ^ A.dim - 1); I.meet a) ≈ᵣ .ok a ∧ (do let I ← blade (2 ^ A.dim - 1); a.meet I) ≈ᵣ .ok a := by
  have hI : Denotes (blade (A := A) (S := S) (2 ^ A.dim - 1)) (single (2 ^ A.dim - 1) (1 : T)) :=
    blade_denotes ha.supp (by have := Nat.two_pow_pos A.dim; omega)
  constructor
  · refine Agree.of_denotes (hI.meet hA (.of_valid ha)) (.of_valid ha) fun k hk => ?_
    rw [meetF_eq, ← dual_undual_F a.val hk]
    refine undualF_congr (fun i hi => ?_) hk
    rw [geo_congr (fun _ _ => rfl) (fun j hj => dualF_ps hj) (fun _ _ => rfl) hi, geo_one_left]
  · refine Agree.of_denotes (f := meetF A.dim a.val (single (2 ^ A.dim - 1) 1)) (hI.bind fun I hIv hIf =>
      (LawfulWedge.meet hA ha hIv).congr fun k hk => meetF_congr (fun _ _ => rfl) hIf hk) (.of_valid ha) fun k hk => ?_
    rw [meetF_eq, ← dual_undual_F a.val hk]
    refine undualF_congr (fun i hi => ?_) hk
    rw [geo_congr (fun _ _ => rfl) (fun _ _ => rfl) (fun j hj => dualF_ps hj) hi, geo_one_right _ _ _ hi]

/-- **C64.** `meet` is additive in both arguments. -/
theorem C64_add (hA : A.WF) {a b c : MV A S} (ha : a.Valid) (hb : b.Valid) (hc : c.Valid) :
    (do let s ← a.add b; s.meet c) ≈ᵣ (do let x ← a.meet c; let y ← b.meet c; x.add y) ∧
    (do let s ← a.add b; c.meet s) ≈ᵣ (do let x ← c.meet a; let y ← c.meet b; x.add y) := by
  constructor
  · refine Agree.of_denotes ((add_denotes ha hb).meet hA (.of_valid hc))
      ((LawfulWedge.meet hA ha hc).add (LawfulWedge.meet hA hb hc)) fun k hk => ?_
    rw [meetF_eq, meetF_eq, meetF_eq, ← undualF_add]
    refine undualF_congr (fun i hi => ?_) hk
    rw [← geo_add_left]
    exact geo_congr (fun _ _ => rfl) (fun j _ => dualF_add _ _ _ j) (fun _ _ => rfl) hi
  · refine Agree.of_denotes (f := meetF A.dim c.val (fun i => a.val i + b.val i)) ((add_denotes ha hb).bind fun s hs hsf =>
      (LawfulWedge.meet hA hc hs).congr fun k hk => meetF_congr (fun _ _ => rfl) hsf hk)
      ((LawfulWedge.meet hA hc ha).add (LawfulWedge.meet hA hc hb)) fun k hk => ?_
    rw [meetF_eq, meetF_eq, meetF_eq, ← undualF_add]
    refine undualF_congr (fun i hi => ?_) hk
    rw [← geo_add_right]
    exact geo_congr (fun _ _ => rfl) (fun _ _ => rfl) (fun j _ => dualF_add _ _ _ j) hi

/-- **C64.** The meet of a grade-`p` and a grade-`q` multivector has grade `p + q - n`, and is zero if `p + q < n`. -/
theorem C64_grade (hA : A.WF) {p q : Nat} (hpn : p ≤ A.dim) (hqn : q ≤ A.dim) {a b : MV A S} (ha : a.Valid) (hb : b.Valid)
    (hp : IsGrade p a) (hq : IsGrade q b) :
    ∃ m, a.meet b = .ok m ∧ m.Valid ∧ (A.dim ≤ p + q → IsGrade (p + q - A.dim) m) ∧ (p + q < A.dim → m.isZero = true) := by
  obtain ⟨m, h1, h2, h3⟩ := LawfulWedge.meet hA ha hb
  have hg := geo_hom ((hp.hom ha).dual hpn) ((hq.hom hb).dual hqn)
  refine ⟨m, h1, h2, fun hn i hi hne => ?_, fun hn => ?_⟩
  · rw [countOnes_eq_cnt hi] at hne
    have hg' := HomF.undual (by omega) hg
    rw [h2.get hi, h3 i hi, meetF_eq, hg' i hi (by omega)]
  · rw [isZero_iff h2]
    intro i hi
    rw [h3 i hi, meetF_eq]
    unfold undualF
    rw [hg _ (xor_mask_lt hi), smul_zero]
    have := cnt_le A.dim (i ^^^ (2 ^ A.dim - 1))
    omega

end

section
variable {A : ClAlg} {S T : Type} [CommRing T] [DecidableEq T] [CoeffStorage S T] [LawfulStorage S T] [WedgeProduct A S] [LawfulWedge A S]

/-- **C64.** `a.meet(&b) == (-1)^((n-p)(n-q)) b.meet(&a)` for grades `p` and `q`. -/
theorem C64_graded_comm (hA : A.WF) {p q : Nat} (hpn : p ≤ A.dim) (hqn : q ≤ A.dim) {a b : MV A S} (ha : a.Valid) (hb : b.Valid)
    (hp : IsGrade p a) (hq : IsGrade q b) :
    a.meet b ≈ᵣ (do let m ← b.meet a; m.smul ((-1) ^ ((A.dim - p) * (A.dim - q)))) := by
  refine Agree.of_denotes (LawfulWedge.meet hA ha hb) ((LawfulWedge.meet hA hb ha).smul _) fun k hk => ?_
  rw [meetF_eq, meetF_eq]
  unfold undualF
  rw [geo_graded_comm ((hp.hom ha).dual hpn) ((hq.hom hb).dual hqn) (xor_mask_lt hk)]
  have : ((-1 : T) ^ ((A.dim - p) * (A.dim - q))) = (((if (A.dim - p) % 2 = 1 ∧ (A.dim - q) % 2 = 1 then (-1 : ℤ) else 1) : ℤ) : T) := by
    split
    · rename_i h
      rw [Odd.neg_one_pow (Nat.odd_mul.mpr ⟨Nat.odd_iff.mpr h.1, Nat.odd_iff.mpr h.2⟩)]; simp
    · rename_i h
      rw [Even.neg_one_pow]
      · simp
      · rw [Nat.even_mul, Nat.even_iff, Nat.even_iff]; omega
  rw [this, mul_comm, ← smul_eq_mul, Int.cast_smul_eq_zsmul, smul_comm]

end

example : (do let m ← Ex.a7A.meet Ex.a7B; m.meet Ex.g2) ≈ᵣ (do let m ← Ex.a7B.meet Ex.g2; Ex.a7A.meet m) :=
  C64_assoc Ex.A7_wf Ex.a7A_valid Ex.a7B_valid Ex.g2_valid
example : (do let I ← blade (2 ^ 3 - 1); I.meet Ex.mA) ≈ᵣ .ok Ex.mA := (C64_unit Ex.M_wf Ex.mA_valid).1
example : (do let s ← Ex.mA.add Ex.mB; s.meet Ex.mA) ≈ᵣ (do let x ← Ex.mA.meet Ex.mA; let y ← Ex.mB.meet Ex.mA; x.add y) :=
  (C64_add Ex.M_wf Ex.mA_valid Ex.mB_valid Ex.mA_valid).1

namespace Ex

/-- Grade 2 in the three-dimensional degenerate algebra: two planes. -/
def m2 : MV M (ArrayStorage ℤ) := ⟨⟨3, ⟨8, fun i => if countOnes i = 2 then i + 1 else 0⟩⟩⟩
def m2' : MV M (ArrayStorage ℤ) := ⟨⟨3, ⟨8, fun i => if countOnes i = 2 then 2 * i - 5 else 0⟩⟩⟩

theorem m2_valid : m2.Valid := ⟨by decide, rfl, rfl⟩
theorem m2'_valid : m2'.Valid := ⟨by decide, rfl, rfl⟩

theorem m2_grade : IsGrade 2 m2 := by
  intro i hi hne
  rw [m2_valid.get hi, MV.arr_val m2_valid hi]
  show Except.ok (if countOnes i = 2 then (i : ℤ) + 1 else 0) = _
  rw [if_neg hne]

theorem m2'_grade : IsGrade 2 m2' := by
  intro i hi hne
  rw [m2'_valid.get hi, MV.arr_val m2'_valid hi]
  show Except.ok (if countOnes i = 2 then 2 * (i : ℤ) - 5 else 0) = _
  rw [if_neg hne]

end Ex

/-- Two planes meet in a line. -/
example : ∃ m, Ex.m2.meet Ex.m2' = .ok m ∧ IsGrade 1 m := by
  obtain ⟨m, h1, -, h2, -⟩ := C64_grade Ex.M_wf (show 2 ≤ Ex.M.dim by decide) (show 2 ≤ Ex.M.dim by decide) Ex.m2_valid Ex.m2'_valid
    Ex.m2_grade Ex.m2'_grade
  exact ⟨m, h1, h2 (by decide)⟩
example : (do let m ← Ex.m2.meet Ex.m2'; (pure m.isZero : Res Bool)) = .ok false := by decide +kernel
example : Ex.m2.meet Ex.m2' ≈ᵣ (do let m ← Ex.m2'.meet Ex.m2; m.smul ((-1) ^ ((3 - 2) * (3 - 2)))) :=
  C64_graded_comm Ex.M_wf (show 2 ≤ Ex.M.dim by decide) (show 2 ≤ Ex.M.dim by decide) Ex.m2_valid Ex.m2'_valid Ex.m2_grade Ex.m2'_grade

/-! ### C65 -/

section
variable {A : ClAlg} {S T : Type} [CommRing T] [DecidableEq T] [CoeffStorage S T] [LawfulStorage S T]

theorem ps_sign (σ : Nat → ℤ) {n c : Nat} (hc : c < 2 ^ n) :
    bsgn σ n c (2 ^ n - 1) = (if n % 2 = 1 then 1 else sg (par n c)) * bsgn σ n (2 ^ n - 1) c := by
  have hm : (2 ^ n - 1 : Nat) < 2 ^ n := by have := Nat.two_pow_pos n; omega
  have h := bsgn_rev σ n c (2 ^ n - 1)
  have hcm := cnt_compl hc
  have hfull := cnt_compl (Nat.two_pow_pos n)
  rw [Nat.zero_xor, cnt_zero, add_zero] at hfull
  have hg := rsg_grades n c (c ^^^ (2 ^ n - 1)) (2 ^ n - 1) _ _ rfl rfl (by rw [hfull]; omega)
  have hs := rsg_mul_self n (c ^^^ (2 ^ n - 1))
  have key : bsgn σ n c (2 ^ n - 1) = (rsg n c * rsg n (c ^^^ (2 ^ n - 1)) * rsg n (2 ^ n - 1)) * bsgn σ n (2 ^ n - 1) c := by
    calc bsgn σ n c (2 ^ n - 1)
        = bsgn σ n c (2 ^ n - 1) * rsg n (c ^^^ (2 ^ n - 1)) * rsg n (c ^^^ (2 ^ n - 1)) := by rw [mul_assoc, hs, mul_one]
      _ = _ := by rw [h]; ring
  rw [key, hg, par_eq]
  congr 1
  by_cases h1 : n % 2 = 1
  · rw [if_pos h1, if_neg]; omega
  · rw [if_neg h1]
    by_cases h2 : cnt n c % 2 = 1
    · rw [if_pos (by omega), decide_eq_true h2]; rfl
    · rw [if_neg (by omega), decide_eq_false h2]; rfl

/-- **C65.** With an odd number of generators the unit pseudoscalar commutes with everything; with an even number
`a * I == I * a.flip()`. -/
theorem C65_commute (hA : A.WF) {a : MV A S} (ha : a.Valid) :
    (do let I ← blade (2 ^ A.dim - 1); a.naiveMulImpl I) ≈ᵣ
      (do let I ← blade (2 ^ A.dim - 1); let f ← (if A.dim % 2 = 1 then .ok a else a.flip); I.naiveMulImpl f) := by
  have hm : (2 ^ A.dim - 1 : Nat) < 2 ^ A.dim := by have := Nat.two_pow_pos A.dim; omega
  have hI : Denotes (blade (A := A) (S := S) (2 ^ A.dim - 1)) (single (2 ^ A.dim - 1) (1 : T)) := blade_denotes ha.supp hm
  have hf : Denotes (if A.dim % 2 = 1 then .ok a else a.flip) (fun i => (if A.dim % 2 = 1 then 1 else sg (par A.dim i)) • a.val i) := by
    split
    · exact (Denotes.of_valid ha).congr fun i _ => (one_smul _ _).symm
    · exact flip_denotes ha
  refine Agree.of_denotes (f := geo A.sigma A.dim a.val (single (2 ^ A.dim - 1) 1)) (hI.bind fun I hIv hIf =>
    (mul_denotes hA ha hIv).congr fun k hk => geo_congr (fun _ _ => rfl) (fun _ _ => rfl) hIf hk) (hI.mul hA hf) fun k hk => ?_
  have hc : (2 ^ A.dim - 1) ^^^ k < 2 ^ A.dim := Nat.xor_lt_two_pow hm hk
  rw [geo_single_right _ hm _ _ hk, geo_single_left _ hm, ps_sign _ hc, mul_one, one_mul, smul_smul, mul_comm]

theorem bprod_full (σ : Nat → ℤ) (n : Nat) : bprod σ n (2 ^ n - 1) = ((List.range n).map σ).prod := by
  have : ∀ m ≤ n, bprod σ m (2 ^ n - 1) = ((List.range m).map σ).prod := by
    intro m hm
    induction m with
    | zero => rfl
    | succ m ih =>
      rw [bprod_succ, ih (by omega), List.range_succ, List.map_append, List.prod_append, Nat.testBit_two_pow_sub_one,
        decide_eq_true (by omega : m < n)]
      simp
  exact this n le_rfl

/-- **C65.** The square of the unit pseudoscalar is `(-1)^(n(n-1)/2)` times the product of the signature. -/
theorem C65_square (hA : A.WF) (hS : LawfulStorage.Supp (S := S) (T := T) A.dim) :
    (do let I ← blade (A := A) (S := S) (2 ^ A.dim - 1); I.naiveMulImpl I) ≈ᵣ
      fromScalar (((-1) ^ (A.dim * (A.dim - 1) / 2) * A.signature.prod : ℤ) : T) := by
  have hm : (2 ^ A.dim - 1 : Nat) < 2 ^ A.dim := by have := Nat.two_pow_pos A.dim; omega
  have hI : Denotes (blade (A := A) (S := S) (2 ^ A.dim - 1)) (single (2 ^ A.dim - 1) (1 : T)) := blade_denotes hS hm
  refine Agree.of_denotes (f := geo A.sigma A.dim (single (2 ^ A.dim - 1) 1) (single (2 ^ A.dim - 1) 1)) (hI.bind fun I hIv hIf =>
    (mul_denotes hA hIv hIv).congr fun k hk => geo_congr (fun _ _ => rfl) hIf hIf hk) (fromScalar_denotes hS _) fun k hk => ?_
  rw [geo_single_single _ hm, Nat.xor_self, bsgn_split, Nat.and_self, bsgn_self_plus, bprod_full, signature_eq hA]
  congr 1
  have hfull := cnt_compl (Nat.two_pow_pos A.dim)
  rw [Nat.zero_xor, cnt_zero, add_zero] at hfull
  rw [rsg_eq, hfull, mul_one, ← Int.cast_smul_eq_zsmul T, smul_eq_mul, mul_one]
  congr 2
  obtain ⟨q, r, hr, hn⟩ : ∃ q r, r < 4 ∧ A.dim = 4 * q + r := ⟨A.dim / 4, A.dim % 4, by omega, by omega⟩
  have h4 : A.dim % 4 = r := by omega
  rw [h4]
  interval_cases r
  · rw [if_pos (by omega), Even.neg_one_pow]
    rw [hn, Nat.even_iff]
    have : (4 * q + 0) * (4 * q + 0 - 1) = 2 * (2 * (q * (4 * q - 1))) := by simp; ring
    omega
  · rw [if_pos (by omega), Even.neg_one_pow]
    rw [hn, Nat.even_iff]
    have : (4 * q + 1) * (4 * q + 1 - 1) = 2 * (2 * (q * (4 * q + 1))) := by simp; ring
    omega
  · rw [if_neg (by omega), Odd.neg_one_pow]
    rw [hn, Nat.odd_iff]
    have : (4 * q + 2) * (4 * q + 2 - 1) = 2 * (2 * (4 * q * q + 3 * q) + 1) := by
      rw [show 4 * q + 2 - 1 = 4 * q + 1 by omega]; ring
    omega
  · rw [if_neg (by omega), Odd.neg_one_pow]
    rw [hn, Nat.odd_iff]
    have : (4 * q + 3) * (4 * q + 3 - 1) = 2 * (2 * (4 * q * q + 5 * q + 1) + 1) := by
      rw [show 4 * q + 3 - 1 = 4 * q + 2 by omega]; ring
    omega

end

example : (do let I ← blade (2 ^ 3 - 1); Ex.mA.naiveMulImpl I) ≈ᵣ (do let I ← blade (2 ^ 3 - 1); I.naiveMulImpl Ex.mA) :=
  C65_commute Ex.M_wf Ex.mA_valid

/-- In the plane `[+,-]` a vector anticommutes with the pseudoscalar. -/
example : (do let I ← blade (2 ^ 2 - 1); Ex.pmV.naiveMulImpl I) ≈ᵣ
    (do let I ← blade (2 ^ 2 - 1); let f ← Ex.pmV.flip; I.naiveMulImpl f) :=
  C65_commute (A := Ex.Pm) (declareAlgebra_wf (sig := [.plus, .minus]) (names := []) rfl) ⟨by decide, rfl, rfl⟩

example : (do let I ← blade (A := Ex.E) (S := ArrayStorage ℤ) (2 ^ 3 - 1); I.naiveMulImpl I) ≈ᵣ
    fromScalar (((-1) ^ (3 * (3 - 1) / 2) * Ex.E.signature.prod : ℤ) : ℤ) :=
  C65_square Ex.E_wf (show Ex.E.dim ≤ 63 by decide)

end TClifford
