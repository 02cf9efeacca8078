import Verif.Props.Examples
import Verif.Proofs.Exterior
/-
Exterior product, duals and meet: C07 (coefficient formula), C08, C09, C10, C11, C12.
The connection of C07 with Mathlib's exterior algebra is in `Verif/Props/CliffordAlgebra.lean`.
-/

set_option linter.unusedSectionVars false

namespace TClifford

open MV Finset

section ring
variable {T : Type} [Ring T] [DecidableEq T] {S : Type} [CoeffStorage S T] [LawfulStorage S T] {A : ClAlg}
  [WedgeProduct A S] [LawfulWedge A S]

/-! ### C07, C08 -/

/-- **C07.** Every coefficient of `a.wedge(&b)` is the sum over the splittings of its blade into two disjoint blades, with
the sign of the reordering.  Holds for the naive path, the sparse path and the recursive path alike, and whatever the metric
is. -/
theorem C07_wedge {a b : MV A S} (ha : a.Valid) (hb : b.Valid) {x y : Nat → T}
    (hx : ∀ i < 2 ^ A.dim, a.getByIdx i = .ok (x i)) (hy : ∀ i < 2 ^ A.dim, b.getByIdx i = .ok (y i)) :
    ∃ w, a.wedge b = .ok w ∧ w.Valid ∧ ∀ k < 2 ^ A.dim, w.getByIdx k = .ok (Spec.wedgeCoeff A.dim x y k) := by
  obtain ⟨w, h1, h2, h3⟩ := LawfulWedge.wedge ha hb
  refine ⟨w, h1, h2, ?_⟩
  intro k hk
  rw [h2.get hk, h3 k hk, ← wedgeCoeff_eq]
  congr 1
  refine geo_congr (fun _ _ => rfl) ?_ ?_ hk
  · intro i hi
    have := hx i hi
    rw [ha.get hi] at this
    simpa using this
  · intro i hi
    have := hy i hi
    rw [hb.get hi] at this
    simpa using this

example : ∃ w, Ex.a7A.wedge Ex.a7B = .ok w ∧ w.Valid ∧ ∀ k < 2 ^ Ex.A7.dim, w.getByIdx k =
    .ok (Spec.wedgeCoeff 7 (fun i => 3 * i - 100) (fun i => i * i - 50) k) := by
  refine C07_wedge Ex.a7A_valid Ex.a7B_valid ?_ ?_
  · intro i hi; exact Ex.a7A_valid.get hi |>.trans (by congr 1; exact MV.arr_val Ex.a7A_valid hi)
  · intro i hi; exact Ex.a7B_valid.get hi |>.trans (by congr 1; exact MV.arr_val Ex.a7B_valid hi)

/-- The specification itself on a small case: `(e0 + 2 e1) ^ (3 e0 + 5 e1)`, coefficient of `e1^e0`. -/
example : Spec.wedgeCoeff 2 (fun i => [0, 1, 2, 0].getD i (0 : ℤ)) (fun i => [0, 3, 5, 0].getD i 0) 3 = 1 := by decide

/-- **C08.** After `wedge_impl` on buffers of length `2^n` the left operand's buffer is unchanged, and the destination does
not depend on its previous contents: it is the exterior product. -/
theorem C08_wedge_impl {n : Nat} {a b dest : Arr1 T} (ha : a.len = 2 ^ n) (hb : b.len = 2 ^ n) (hd : dest.len = 2 ^ n) :
    (wedgeImpl a b dest).1.beq a = true ∧ (wedgeImpl a b dest).2.len = 2 ^ n ∧
    ∀ i < 2 ^ n, (wedgeImpl a b dest).2.get i = Spec.wedgeCoeff n a.get b.get i := by
  obtain ⟨h1, h2, h3⟩ := wedgeImpl_spec n a b dest ha hb hd
  refine ⟨?_, h2, ?_⟩
  · unfold Arr1.beq
    rw [h1, ha, Bool.and_eq_true]
    refine ⟨by simp, ?_⟩
    rw [List.all_eq_true]
    intro i hi
    rw [List.mem_range] at hi
    rw [decide_eq_true_eq]
    exact (h3 i hi).1
  · intro i hi
    rw [(h3 i hi).2, wedgeCoeff_eq]

/-- **C08.** Two destinations with different contents end up equal. -/
theorem C08_dest_irrelevant {n : Nat} {a b dest dest' : Arr1 T} (ha : a.len = 2 ^ n) (hb : b.len = 2 ^ n)
    (hd : dest.len = 2 ^ n) (hd' : dest'.len = 2 ^ n) : (wedgeImpl a b dest).2.beq (wedgeImpl a b dest').2 = true := by
  obtain ⟨-, h2, h3⟩ := C08_wedge_impl ha hb hd
  obtain ⟨-, g2, g3⟩ := C08_wedge_impl ha hb hd'
  unfold Arr1.beq
  rw [h2, g2, Bool.and_eq_true]
  refine ⟨by simp, ?_⟩
  rw [List.all_eq_true]
  intro i hi
  rw [List.mem_range] at hi
  rw [decide_eq_true_eq, h3 i hi, g3 i hi]

example := C08_dest_irrelevant (n := 2) (a := (⟨4, fun i => i + 1⟩ : Arr1 ℤ)) (b := ⟨4, fun i => 7 * i - 3⟩) (dest := ⟨4, fun _ => 99⟩)
  (dest' := ⟨4, fun i => -i⟩) rfl rfl rfl rfl

example : let a : Arr1 ℤ := ⟨4, fun i => i + 1⟩
    (wedgeImpl a ⟨4, fun i => 7 * i - 3⟩ ⟨4, fun _ => 99⟩).1.beq a = true ∧
    (wedgeImpl a ⟨4, fun i => 7 * i - 3⟩ ⟨4, fun _ => 99⟩).2.get 3 = Spec.wedgeCoeff 2 (fun i => (i : ℤ) + 1) (fun i => 7 * i - 3) 3 :=
  have h := C08_wedge_impl (n := 2) (a := (⟨4, fun i => i + 1⟩ : Arr1 ℤ)) (b := ⟨4, fun i => 7 * i - 3⟩)
    (dest := ⟨4, fun _ => 99⟩) rfl rfl rfl
  ⟨h.1, h.2.2 3 (by decide)⟩

/-! ### C09 -/

/-- **C09.** The wedge is associative. -/
theorem C09_wedge_assoc {a b c : MV A S} (ha : a.Valid) (hb : b.Valid) (hc : c.Valid) :
    (do let ab ← a.wedge b; ab.wedge c) ≈ᵣ (do let bc ← b.wedge c; a.wedge bc) :=
  Agree.of_denotes (Denotes.wedge (LawfulWedge.wedge ha hb) (.of_valid hc))
    (Denotes.wedge (.of_valid ha) (LawfulWedge.wedge hb hc)) (fun k _ => geo_assoc _ _ _ _ _ k)

/-- **C09.** The wedge is distributive on both sides. -/
theorem C09_wedge_add {a b c : MV A S} (ha : a.Valid) (hb : b.Valid) (hc : c.Valid) :
    (do let s ← a.add b; s.wedge c) ≈ᵣ (do let x ← a.wedge c; let y ← b.wedge c; x.add y) ∧
    (do let s ← b.add c; a.wedge s) ≈ᵣ (do let x ← a.wedge b; let y ← a.wedge c; x.add y) :=
  ⟨Agree.of_denotes ((add_denotes ha hb).wedge (.of_valid hc)) ((LawfulWedge.wedge ha hc).add (LawfulWedge.wedge hb hc))
      (fun k _ => geo_add_left _ _ _ _ _ k),
    Agree.of_denotes (Denotes.wedge (.of_valid ha) (add_denotes hb hc))
      ((LawfulWedge.wedge ha hb).add (LawfulWedge.wedge ha hc)) (fun k _ => geo_add_right _ _ _ _ _ k)⟩

example := C09_wedge_add Ex.a7A_valid Ex.a7B_valid Ex.a7A_valid

/-- All coefficients outside of grade `p` are zero. -/
def IsGrade (p : Nat) (a : MV A S) : Prop := ∀ i < 2 ^ A.dim, countOnes i ≠ p → a.getByIdx i = .ok 0

omit [WedgeProduct A S] [LawfulWedge A S] in
theorem IsGrade.hom {p : Nat} {a : MV A S} (ha : a.Valid) (h : IsGrade p a) : HomF A.dim p a.val := by
  intro i hi hne
  have := h i hi (by rw [countOnes_eq_cnt hi]; exact hne)
  rw [ha.get hi] at this
  simpa using this

/-- **C09.** The wedge of a grade-`p` and a grade-`q` multivector is of grade `p + q`. -/
theorem C09_wedge_grade {p q : Nat} {a b : MV A S} (ha : a.Valid) (hb : b.Valid) (hp : IsGrade p a) (hq : IsGrade q b) :
    ∃ w, a.wedge b = .ok w ∧ w.Valid ∧ IsGrade (p + q) w := by
  obtain ⟨w, h1, h2, h3⟩ := LawfulWedge.wedge ha hb
  refine ⟨w, h1, h2, ?_⟩
  intro i hi hne
  rw [h2.get hi, h3 i hi, geo_hom (hp.hom ha) (hq.hom hb) i hi]
  rw [← countOnes_eq_cnt hi]; exact hne

/-- Grades 2 and 2 of `a7A` and `a7B`, so that the hypotheses hold for a dense multivector in the recursive range. -/
def Ex.g2 : MV Ex.A7 (ArrayStorage ℤ) := ⟨⟨7, ⟨128, fun i => if countOnes i = 2 then i + 1 else 0⟩⟩⟩

theorem Ex.g2_valid : Ex.g2.Valid := ⟨by decide, rfl, rfl⟩

theorem Ex.g2_grade : IsGrade 2 Ex.g2 := by
  intro i hi hne
  rw [Ex.g2_valid.get hi, MV.arr_val Ex.g2_valid hi]
  show Except.ok (if countOnes i = 2 then (i : ℤ) + 1 else 0) = _
  rw [if_neg hne]

example : ∃ w, Ex.g2.wedge Ex.g2 = .ok w ∧ w.Valid ∧ IsGrade 4 w :=
  C09_wedge_grade Ex.g2_valid Ex.g2_valid Ex.g2_grade Ex.g2_grade

example : (do let ab ← Ex.a7A.wedge Ex.a7B; ab.wedge Ex.g2) ≈ᵣ (do let bc ← Ex.a7B.wedge Ex.g2; Ex.a7A.wedge bc) :=
  C09_wedge_assoc Ex.a7A_valid Ex.a7B_valid Ex.g2_valid

end ring

section comm
variable {T : Type} [CommRing T] [DecidableEq T] {S : Type} [CoeffStorage S T] [LawfulStorage S T] {A : ClAlg}
  [WedgeProduct A S] [LawfulWedge A S]

/-- **C09.** Graded commutativity: `a ^ b == -(b ^ a)` when both grades are odd, `a ^ b == b ^ a` when one is even. -/
theorem C09_graded_comm {p q : Nat} {a b : MV A S} (ha : a.Valid) (hb : b.Valid) (hp : IsGrade p a) (hq : IsGrade q b) :
    a.wedge b ≈ᵣ (if p % 2 = 1 ∧ q % 2 = 1 then (do let x ← b.wedge a; x.neg) else b.wedge a) := by
  have h : ∀ k < 2 ^ A.dim, _ := fun k hk => geo_graded_comm (hp.hom ha) (hq.hom hb) hk
  split
  · rename_i hc
    refine Agree.of_denotes (LawfulWedge.wedge ha hb) ((LawfulWedge.wedge hb ha).neg) ?_
    intro k hk
    rw [h k hk, if_pos hc, neg_one_smul]
  · rename_i hc
    refine Agree.of_denotes (LawfulWedge.wedge ha hb) (LawfulWedge.wedge hb ha) ?_
    intro k hk
    rw [h k hk, if_neg hc, one_smul]

/-- Grade 3. -/
def Ex.g3 : MV Ex.A7 (ArrayStorage ℤ) := ⟨⟨7, ⟨128, fun i => if countOnes i = 3 then 2 * i - 7 else 0⟩⟩⟩

theorem Ex.g3_valid : Ex.g3.Valid := ⟨by decide, rfl, rfl⟩

theorem Ex.g3_grade : IsGrade 3 Ex.g3 := by
  intro i hi hne
  rw [Ex.g3_valid.get hi, MV.arr_val Ex.g3_valid hi]
  show Except.ok (if countOnes i = 3 then 2 * (i : ℤ) - 7 else 0) = _
  rw [if_neg hne]

example : Ex.g2.wedge Ex.g3 ≈ᵣ Ex.g3.wedge Ex.g2 := C09_graded_comm Ex.g2_valid Ex.g3_valid Ex.g2_grade Ex.g3_grade
example : Ex.g3.wedge Ex.g3 ≈ᵣ (do let x ← Ex.g3.wedge Ex.g3; x.neg) := C09_graded_comm Ex.g3_valid Ex.g3_valid Ex.g3_grade Ex.g3_grade

/-- **C09.** Vectors anticommute. -/
theorem C09_vectors_anticomm {u v : MV A S} (hu : u.Valid) (hv : v.Valid) (h1 : IsGrade 1 u) (h2 : IsGrade 1 v) :
    u.wedge v ≈ᵣ (do let x ← v.wedge u; x.neg) := C09_graded_comm hu hv h1 h2

/-- Vectors. -/
def Ex.g1 (t : ℤ) : MV Ex.A7 (ArrayStorage ℤ) := ⟨⟨7, ⟨128, fun i => if countOnes i = 1 then 2 * i - t else 0⟩⟩⟩

theorem Ex.g1_valid (t : ℤ) : (Ex.g1 t).Valid := ⟨by decide, rfl, rfl⟩

theorem Ex.g1_grade (t : ℤ) : IsGrade 1 (Ex.g1 t) := by
  intro i hi hne
  rw [(Ex.g1_valid t).get hi, MV.arr_val (Ex.g1_valid t) hi]
  show Except.ok (if countOnes i = 1 then 2 * (i : ℤ) - t else 0) = _
  rw [if_neg hne]

example := C09_vectors_anticomm (Ex.g1_valid 4) (Ex.g1_valid 9) (Ex.g1_grade 4) (Ex.g1_grade 9)

/-- **C09.** `v ^ v == 0` for vectors (in every characteristic). -/
theorem C09_vector_self {v : MV A S} (hv : v.Valid) (h : IsGrade 1 v) : v.wedge v ≈ᵣ MV.default (T := T) :=
  Agree.of_denotes (LawfulWedge.wedge hv hv) (default_denotes hv.supp) (fun _ hk => geo_vector_self (h.hom hv) hk)

/-- A vector of `M`, sparse. -/
def Ex.sV : MV Ex.M (SparseStorage ℤ) := ⟨⟨3, 8, ⟨[(1, 4), (4, -3), (2, 7)]⟩⟩⟩

theorem Ex.sV_valid : @MV.Valid Ex.M (SparseStorage ℤ) ℤ _ _ _ _ (@SparseStorage.instCoeffStorage ℤ _ _ _ _ Ex.revOrder)
    (@SparseStorage.instLawfulStorage ℤ _ _ _ _ _ Ex.revOrder) Ex.sV := by
  refine ⟨by decide, rfl, rfl, by decide, ?_⟩
  decide

example :
    letI : HashOrder ℤ := Ex.revOrder
    Ex.sV.wedge Ex.sV ≈ᵣ MV.default (T := ℤ) :=
  letI : HashOrder ℤ := Ex.revOrder
  C09_vector_self Ex.sV_valid (by
    have : ∀ i < 8, countOnes i ≠ 1 → SparseStorage.getByIdx Ex.sV.coeffs i = 0 := by decide +kernel
    intro i hi hne
    show Except.ok (SparseStorage.getByIdx Ex.sV.coeffs i) = _
    rw [this i hi hne])

end comm

section dual
variable {T : Type} [Ring T] [DecidableEq T] {S : Type} [CoeffStorage S T] [LawfulStorage S T] {A : ClAlg}

/-! ### C10, C11, C12 -/

/-- **C10.** `a.meet(&b) == a.dual().wedge(&b.dual()).undual()`. -/
theorem C10_meet [WedgeProduct A S] [LawfulWedge A S] (hA : A.WF) {a b : MV A S} (ha : a.Valid) (hb : b.Valid) :
    a.meet b ≈ᵣ (do let x ← a.dual; let y ← b.dual; let z ← x.wedge y; z.undual) :=
  Agree.of_denotes (LawfulWedge.meet hA ha hb)
    (meet_denotes_of_wedge hA ha hb (fun x y => x.wedge y) (fun _ _ hx hy => LawfulWedge.wedge hx hy)) (fun _ _ => rfl)

theorem dual_undual_F {n : Nat} (f : Nat → T) {i : Nat} (hi : i < 2 ^ n) : undualF n (dualF n f) i = f i := by
  unfold undualF dualF
  rw [xor_mask_xor_mask, smul_smul, bsgn_compl_sq' hi, one_smul]

theorem undual_dual_F {n : Nat} (f : Nat → T) {i : Nat} (hi : i < 2 ^ n) : dualF n (undualF n f) i = f i := by
  unfold undualF dualF
  beta_reduce
  rw [xor_mask_xor_mask, smul_smul, bsgn_compl_sq hi, one_smul]

/-- **C10.** De Morgan law the other way round: `a.meet(&b).dual() == a.dual().wedge(&b.dual())`. -/
theorem C10_meet_dual [WedgeProduct A S] [LawfulWedge A S] (hA : A.WF) {a b : MV A S} (ha : a.Valid) (hb : b.Valid) :
    (do let m ← a.meet b; m.dual) ≈ᵣ (do let x ← a.dual; let y ← b.dual; x.wedge y) := by
  refine Agree.of_denotes ((LawfulWedge.meet hA ha hb).dual hA) ((dual_denotes hA ha).wedge (dual_denotes hA hb)) ?_
  intro k hk
  exact undual_dual_F _ hk

example := C10_meet_dual Ex.M_wf Ex.mA_valid Ex.mB_valid

/-- **C11.** `a.dual().undual() == a`, without panic. -/
theorem C11_dual_undual (hA : A.WF) {a : MV A S} (ha : a.Valid) : (do let d ← a.dual; d.undual) ≈ᵣ .ok a :=
  Agree.of_denotes ((dual_denotes hA ha).undual hA) (.of_valid ha) (fun _ hi => dual_undual_F _ hi)

/-- **C11.** `a.undual().dual() == a`, without panic. -/
theorem C11_undual_dual (hA : A.WF) {a : MV A S} (ha : a.Valid) : (do let d ← a.undual; d.dual) ≈ᵣ .ok a :=
  Agree.of_denotes ((undual_denotes hA ha).dual hA) (.of_valid ha) (fun _ hi => undual_dual_F _ hi)

example := C11_undual_dual Ex.M_wf Ex.mA_valid

/-- **C12.** The pseudoscalar coefficient of `a.dual().wedge(&b)` is `a.vsdot(&b)`. -/
theorem C12_hodge [WedgeProduct A S] [LawfulWedge A S] (hA : A.WF) {a b : MV A S} (ha : a.Valid) (hb : b.Valid) :
    ∃ t, a.vsdot b = .ok t ∧ (do let d ← a.dual; let w ← d.wedge b; w.getByIdx (2 ^ A.dim - 1)) = .ok t := by
  have hm : (2 ^ A.dim - 1 : Nat) < 2 ^ A.dim := by have := Nat.two_pow_pos A.dim; omega
  refine ⟨_, vsdot_ok ha hb, ?_⟩
  have h := ((dual_denotes hA ha).wedge (.of_valid hb)).bind_res
    (k := fun w : MV A S => w.getByIdx (2 ^ A.dim - 1)) (fun w hw hwv => by rw [hw.get hm, hwv _ hm])
  rw [bind_assoc] at h
  refine Eq.trans h ?_
  congr 1
  unfold geo
  rw [← sum_xor hm (fun i => a.val i * b.val i)]
  apply sum_congr rfl
  intro i hi
  rw [mem_range] at hi
  rw [smul_mul_assoc, smul_smul, bsgn_compl_sq hi, one_smul]

/-- A basis blade. -/
def blade (i : Nat) : Res (MV A S) := fromIndexedIter [(i, (1 : T))]

theorem blade_denotes (hS : LawfulStorage.Supp (S := S) (T := T) A.dim) {i : Nat} (hi : i < 2 ^ A.dim) :
    Denotes (blade (A := A) (S := S) i) (single i 1) := by
  refine fromIndexedIter_enum hS ⟨by simp, ?_, ?_⟩
  · intro p hp
    rw [List.mem_singleton] at hp
    subst hp
    exact ⟨hi, by simp [single]⟩
  · intro j hj hne
    by_cases h : j = i
    · subst h; simp [single]
    · simp [single, h] at hne

/-- **C12.** For a basis blade `B`, `B.dual().wedge(&B)` and `B.wedge(&B.undual())` are the unit pseudoscalar. -/
theorem C12_blades [WedgeProduct A S] [LawfulWedge A S] (hA : A.WF) (hS : LawfulStorage.Supp (S := S) (T := T) A.dim)
    {i : Nat} (hi : i < 2 ^ A.dim) :
    (do let b ← blade (A := A) (S := S) i; let d ← b.dual; d.wedge b) ≈ᵣ blade (2 ^ A.dim - 1) ∧
    (do let b ← blade (A := A) (S := S) i; let d ← b.undual; b.wedge d) ≈ᵣ blade (2 ^ A.dim - 1) := by
  have hm : (2 ^ A.dim - 1 : Nat) < 2 ^ A.dim := by have := Nat.two_pow_pos A.dim; omega
  have hi' := xor_mask_lt hi
  have e1 : i ^^^ (2 ^ A.dim - 1) ^^^ i = 2 ^ A.dim - 1 := by rw [Nat.xor_comm i]; simp [Nat.xor_assoc]
  have e2 : i ^^^ (i ^^^ (2 ^ A.dim - 1)) = 2 ^ A.dim - 1 := xor_xor_cancel _ _
  have hiff : ∀ j, (j ^^^ (2 ^ A.dim - 1) = i ↔ j = i ^^^ (2 ^ A.dim - 1)) := by
    intro j
    constructor
    · rintro rfl; rw [xor_mask_xor_mask]
    · rintro rfl; rw [xor_mask_xor_mask]
  constructor
  · refine Agree.of_denotes (f := single (2 ^ A.dim - 1) 1) ?_ (blade_denotes hS hm) (fun _ _ => rfl)
    refine (blade_denotes hS hi).bind ?_
    intro b hb hbv
    refine ((dual_denotes hA hb).wedge (.of_valid hb)).congr ?_
    intro k hk
    have hd : ∀ j < 2 ^ A.dim, bsgn (fun _ => 0) A.dim j (j ^^^ (2 ^ A.dim - 1)) • b.val (j ^^^ (2 ^ A.dim - 1)) =
        single (i ^^^ (2 ^ A.dim - 1)) ((bsgn (fun _ => 0) A.dim (i ^^^ (2 ^ A.dim - 1)) i : ℤ) : T) j := by
      intro j hj
      rw [hbv _ (xor_mask_lt hj)]
      unfold single
      simp only [hiff]
      split
      · rename_i h; rw [h, xor_mask_xor_mask]; simp
      · simp
    rw [geo_congr (fun _ _ => rfl) hd hbv hk, geo_single_single _ hi', e1]
    congr 1
    rw [mul_one, ← Int.cast_smul_eq_zsmul T, smul_eq_mul, ← Int.cast_mul, bsgn_compl_sq' hi, Int.cast_one]
  · refine Agree.of_denotes (f := single (2 ^ A.dim - 1) 1) ?_ (blade_denotes hS hm) (fun _ _ => rfl)
    refine (blade_denotes hS hi).bind ?_
    intro b hb hbv
    refine (Denotes.wedge (.of_valid hb) (undual_denotes hA hb)).congr ?_
    intro k hk
    have hd : ∀ j < 2 ^ A.dim, bsgn (fun _ => 0) A.dim (j ^^^ (2 ^ A.dim - 1)) j • b.val (j ^^^ (2 ^ A.dim - 1)) =
        single (i ^^^ (2 ^ A.dim - 1)) ((bsgn (fun _ => 0) A.dim i (i ^^^ (2 ^ A.dim - 1)) : ℤ) : T) j := by
      intro j hj
      rw [hbv _ (xor_mask_lt hj)]
      unfold single
      simp only [hiff]
      split
      · rename_i h; rw [h, xor_mask_xor_mask]; simp
      · simp
    rw [geo_congr (fun _ _ => rfl) hbv hd hk, geo_single_single _ hi, e2]
    congr 1
    rw [one_mul, ← Int.cast_smul_eq_zsmul T, smul_eq_mul, ← Int.cast_mul, bsgn_compl_sq hi, Int.cast_one]

example : Ex.a7A.meet Ex.a7B ≈ᵣ (do let x ← Ex.a7A.dual; let y ← Ex.a7B.dual; let z ← x.wedge y; z.undual) :=
  C10_meet Ex.A7_wf Ex.a7A_valid Ex.a7B_valid
example : Ex.mA.meet Ex.mB ≈ᵣ (do let x ← Ex.mA.dual; let y ← Ex.mB.dual; let z ← x.wedge y; z.undual) :=
  C10_meet Ex.M_wf Ex.mA_valid Ex.mB_valid
example : (do let d ← Ex.mB.dual; d.undual) ≈ᵣ .ok Ex.mB := C11_dual_undual Ex.M_wf Ex.mB_valid
example : ∃ t, Ex.mA.vsdot Ex.mB = .ok t ∧ (do let d ← Ex.mA.dual; let w ← d.wedge Ex.mB; w.getByIdx 7) = .ok t :=
  C12_hodge Ex.M_wf Ex.mA_valid Ex.mB_valid
example : (do let b ← blade (A := Ex.A7) (S := ArrayStorage ℤ) 0b1010011; let d ← b.dual; d.wedge b) ≈ᵣ blade 127 :=
  (C12_blades Ex.A7_wf (show Ex.A7.dim ≤ 63 by decide) (by decide)).1
/-- The dual in `[+,-,0]` of `e2^e0` (index 5) is `-e1` (index 2). -/
example : (do let b ← blade (A := Ex.M) (S := ArrayStorage ℤ) 5; let d ← b.dual; d.getByIdx 2) = .ok (-1) := by
  decide +kernel

end dual

end TClifford
