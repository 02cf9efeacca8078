import Verif.Props.Quaternion
import Verif.Props.Trace
import Verif.Props.Center
import Verif.Props.Signs
import Verif.Props.Examples
/-
C94: `DivisionAlgebra` and `NonDegenerate` are implemented for exactly the algebras that have these properties.
-/

set_option linter.unusedSectionVars false

namespace TClifford

open MV Finset

section
variable {A : ClAlg} {S T : Type} [CommRing T] [DecidableEq T] [CoeffStorage S T] [LawfulStorage S T]

/-- Every element of the ring is a multivector. -/
theorem exists_ga (hS : LawfulStorage.Supp (S := S) (T := T) A.dim) (g : GA A.sigma A.dim T) : ∃ u : MV A S, u.Valid ∧ u.ga = g := by
  have hd : Denotes (fromIndexedIter (A := A) (S := S) ((List.range (2 ^ A.dim)).map fun i => (i, g.fn i))) g.fn := by
    refine fromIndexedIter_enum hS ⟨?_, fun p hp => ?_, fun i hi _ => ?_⟩
    · rw [List.map_map]
      exact (List.map_id (List.range (2 ^ A.dim))).symm ▸ List.nodup_range
    · obtain ⟨i, hi, rfl⟩ := List.mem_map.mp hp
      exact ⟨List.mem_range.mp hi, rfl⟩
    · exact List.mem_map.mpr ⟨i, List.mem_range.mpr hi, rfl⟩
  obtain ⟨R, -, hR, hRg⟩ := Is.ok (g := g) hd
  exact ⟨R, hR, hRg⟩

theorem isZero_false_iff {a : MV A S} (ha : a.Valid) : a.isZero = false ↔ a.ga ≠ 0 := by
  rw [← Bool.not_eq_true, isZero_iff ha, not_iff_not]
  constructor
  · intro h
    refine GA.vext_fn fun i hi => ?_
    rw [ga_val hi, h i hi, GA.fn_zero]
  · intro h i hi
    rw [← ga_val hi, h, GA.fn_zero]

theorem GA.fn_bl' {σ : Nat → ℤ} {n a i : Nat} (hi : i < 2 ^ n) : (GA.bl a : GA σ n T).fn i = if i = a then 1 else 0 := GA.fn_of _ hi

end

/-- The square of the blade of the first three generators. -/
theorem bsgn_seven {σ : Nat → ℤ} {n : Nat} (hn : 3 ≤ n) : bsgn σ n 7 7 = -(σ 0 * σ 1 * σ 2) := by
  induction n, hn using Nat.le_induction with
  | base =>
    have h0 : (7 : Nat).testBit 0 = true := rfl
    have h1 : (7 : Nat).testBit 1 = true := rfl
    have h2 : (7 : Nat).testBit 2 = true := rfl
    simp [bsgn_succ, par, h0, h1, h2, sg]
  | succ n hn ih =>
    rw [bsgn_succ, ih, Nat.testBit_lt_two_pow (x := 7) (i := n) (lt_of_lt_of_le (by norm_num) (Nat.pow_le_pow_right (n := 2) (by norm_num) hn))]
    simp [sg]

/-- An algebra that is not one of the division algebras has a blade, not the scalar, that squares to 0 or 1. -/
theorem blade_square {sig : List Sym} {names : List String} {A : ClAlg} (hA : declareAlgebra sig names = some A) (hd : implDivision sig = false) :
    ∃ c, c ≠ 0 ∧ c < 2 ^ A.dim ∧ (bsgn A.sigma A.dim c c = 1 ∨ bsgn A.sigma A.dim c c = 0) := by
  have hdim : A.dim = sig.length := (declareAlgebra_eq hA).2.2.1
  by_cases h : ∀ i < A.dim, A.sigma i = -1
  · have h3 : 3 ≤ A.dim := by
      by_contra hlt
      have hall : ∀ x ∈ sig, x = Sym.minus := by
        intro x hx
        obtain ⟨i, hi, rfl⟩ := List.getElem_of_mem hx
        have := h i (by omega)
        rw [declareAlgebra_sigma hA hi] at this
        cases hs : sig[i] <;> rw [hs] at this <;> simp_all [Sym.square]
      have hne : sig ≠ [] := by
        rintro rfl
        simp [declareAlgebra, orderCheck] at hA
      match sig, hne with
      | [a], _ =>
        rw [hall a (by simp)] at hd
        revert hd; decide
      | [a, b], _ =>
        rw [hall a (by simp), hall b (by simp)] at hd
        revert hd; decide
      | a :: b :: c :: l, _ => simp at hdim; omega
    refine ⟨7, by norm_num, lt_of_lt_of_le (by norm_num) (Nat.pow_le_pow_right (n := 2) (by norm_num) h3), .inl ?_⟩
    rw [bsgn_seven h3, h 0 (by omega), h 1 (by omega), h 2 (by omega)]
    rfl
  · simp only [not_forall] at h
    obtain ⟨i, hi, hne⟩ := h
    refine ⟨2 ^ i, by positivity, Nat.pow_lt_pow_right (by norm_num) hi, ?_⟩
    rw [bsgn_two_pow_eq _ hi]
    rcases A.sigma_cases i with h | h | h
    · exact .inl h
    · exact absurd h hne
    · exact .inr h

section
variable {sig : List Sym} {names : List String} {A : ClAlg} {S T : Type} [CommRing T] [Nontrivial T] [DecidableEq T] [CoeffStorage S T]
  [LawfulStorage S T]

/-- **C94.** An algebra that does not implement `DivisionAlgebra` has zero divisors. -/
theorem C94_zero_divisors (hA : declareAlgebra sig names = some A) (hd : implDivision sig = false)
    (hS : LawfulStorage.Supp (S := S) (T := T) A.dim) :
    ∃ x y : MV A S, x.Valid ∧ y.Valid ∧ x.isZero = false ∧ y.isZero = false ∧ x.naiveMulImpl y ≈ᵣ MV.default (T := T) := by
  obtain ⟨c, hc0, hc, h⟩ := blade_square hA hd
  have hsq : (GA.bl c * GA.bl c : GA A.sigma A.dim T) = (bsgn A.sigma A.dim c c : T) • (1 : GA A.sigma A.dim T) := by
    rw [GA.bl_mul_bl hc, Nat.xor_self, GA.bl_zero]
  have hfin : ∀ g g' : GA A.sigma A.dim T, g ≠ 0 → g' ≠ 0 → g * g' = 0 →
      ∃ x y : MV A S, x.Valid ∧ y.Valid ∧ x.isZero = false ∧ y.isZero = false ∧ x.naiveMulImpl y ≈ᵣ MV.default (T := T) := by
    intro g g' hg hg' hgg
    obtain ⟨x, hx, rfl⟩ := exists_ga hS g
    obtain ⟨y, hy, rfl⟩ := exists_ga hS g'
    exact ⟨x, y, hx, hy, (isZero_false_iff hx).mpr hg, (isZero_false_iff hy).mpr hg', (is_mul (declareAlgebra_wf hA) hx hy).agree (Is.zero hS) hgg⟩
  rcases h with h | h
  · rw [h, Int.cast_one, one_smul] at hsq
    have h1 : ∀ s : T, (1 + s • GA.bl c : GA A.sigma A.dim T) ≠ 0 := by
      intro s h0
      have := congrArg (fun z => z.fn 0) h0
      simp only [GA.vfn_add, GA.vfn_smul, GA.fn_zero] at this
      rw [← GA.bl_zero, GA.fn_bl' (Nat.two_pow_pos _), GA.fn_bl' (Nat.two_pow_pos _), if_pos rfl, if_neg (Ne.symm hc0)] at this
      simp at this
    refine hfin _ _ (h1 1) (h1 (-1)) ?_
    rw [one_smul, neg_smul, one_smul, add_mul, one_mul, mul_add, mul_one, mul_neg, hsq]
    abel
  · rw [h, Int.cast_zero, zero_smul] at hsq
    have h1 : (GA.bl c : GA A.sigma A.dim T) ≠ 0 := by
      intro h0
      have := congrArg (fun z => z.fn c) h0
      simp only [GA.fn_zero] at this
      rw [GA.fn_bl' hc, if_pos rfl] at this
      exact one_ne_zero this
    exact hfin _ _ h1 h1 hsq

/-- **C94.** `NonDegenerate` is implemented exactly for the algebras whose unit pseudoscalar has an inverse. -/
theorem C94_nondegenerate_iff (hA : declareAlgebra sig names = some A) {J : MV A S} (hJ : J.Valid)
    (hJm : Coefs (.ok J) (fun i => if i = 2 ^ A.dim - 1 then (1 : T) else 0)) :
    implNonDegenerate sig = true ↔ ∃ K : MV A S, K.Valid ∧ J.naiveMulImpl K ≈ᵣ MV.one := by
  have hw := declareAlgebra_wf hA
  have hdim : A.dim = sig.length := (declareAlgebra_eq hA).2.2.1
  have hm : 2 ^ A.dim - 1 < 2 ^ A.dim := Nat.sub_lt (Nat.two_pow_pos _) one_pos
  have hJg : J.ga = GA.bl (2 ^ A.dim - 1) := GA.vext_fn fun i hi => by
    rw [GA.fn_bl' hi]
    exact (Is.of_valid hJ).coefs.unique hJm i hi
  have hne : sig ≠ [] := by
    rintro rfl
    simp [declareAlgebra, orderCheck] at hA
  rw [C42_nonDegenerate_iff]
  constructor
  · rintro ⟨-, hn⟩
    have h0 : ∀ i < A.dim, A.sigma i ≠ 0 := by
      intro i hi h
      rw [declareAlgebra_sigma hA (by omega)] at h
      have hmem := List.getElem_mem (l := sig) (n := i) (by omega)
      cases hs : sig[i] <;> rw [hs] at h hmem <;> simp_all [Sym.square]
    have hu : bsgn A.sigma A.dim (2 ^ A.dim - 1) (2 ^ A.dim - 1) * bsgn A.sigma A.dim (2 ^ A.dim - 1) (2 ^ A.dim - 1) = 1 := by
      rw [bsgn_self]
      have h1 := rsg_mul_self A.dim (2 ^ A.dim - 1)
      rcases bprod_unit h0 (2 ^ A.dim - 1) with h | h <;> rw [h] <;> linarith
    obtain ⟨K, hK, hKg⟩ := exists_ga (S := S) hJ.supp ((bsgn A.sigma A.dim (2 ^ A.dim - 1) (2 ^ A.dim - 1) : T) • GA.bl (2 ^ A.dim - 1))
    refine ⟨K, hK, (is_mul hw hJ hK).agree (Is.one hJ.supp) ?_⟩
    rw [hJg, hKg, mul_smul_comm, GA.bl_mul_bl hm, Nat.xor_self, GA.bl_zero, smul_smul]
    norm_cast
    rw [hu]
    simp
  · rintro ⟨K, hK, h⟩
    refine ⟨hne, fun hmem => ?_⟩
    obtain ⟨p, hp, hs⟩ := List.getElem_of_mem hmem
    have hσ : A.sigma p = 0 := by rw [declareAlgebra_sigma hA hp, hs]; rfl
    have h1 := (Is.iff_agree (is_mul hw hJ hK) (Is.one hJ.supp)).mp h
    have h2 := congrArg (fun z => z.fn 0) h1
    change (J.ga * K.ga).fn 0 = (1 : GA A.sigma A.dim T).fn 0 at h2
    rw [GA.fn_mul_comm, hJg, ← GA.bl_zero, GA.fn_bl' (Nat.two_pow_pos _), if_pos rfl] at h2
    have h3 : bprod A.sigma A.dim (2 ^ A.dim - 1) = 0 := bprod_zero_of_mem _ (p := p) (by omega) (by rw [Nat.testBit_two_pow_sub_one]; simp; omega) hσ
    rw [GA.vmul_fn _ _ (Nat.two_pow_pos _), geo_scalar, sum_eq_single (2 ^ A.dim - 1)] at h2
    · rw [h3, mul_zero, zero_smul] at h2
      exact zero_ne_one h2
    · intro i hi hne'
      rw [GA.fn_bl' (mem_range.mp hi), if_neg hne', mul_zero, smul_zero]
    · intro h'; exact absurd (mem_range.mpr hm) h'

end

section
variable {sig : List Sym} {names : List String} {A : ClAlg} {S T : Type} [Field T] [LinearOrder T] [IsStrictOrderedRing T] [CoeffStorage S T]
  [LawfulStorage S T]

/-- **C94.** Over an ordered field, `DivisionAlgebra` is implemented exactly for the algebras in which every multivector other than
zero has an inverse. -/
theorem C94_division_iff (hA : declareAlgebra sig names = some A) (hS : LawfulStorage.Supp (S := S) (T := T) A.dim) :
    implDivision sig = true ↔ ∀ b : MV A S, b.Valid → b.isZero = false →
      ∃ c : MV A S, c.Valid ∧ b.naiveMulImpl c ≈ᵣ MV.one ∧ c.naiveMulImpl b ≈ᵣ MV.one := by
  constructor
  · intro hd b hb h0
    obtain ⟨hw, hdim, hσ⟩ := division_cases hA hd
    set N : T := ∑ i ∈ range (2 ^ A.dim), b.val i * b.val i with hN
    have hN0 : N ≠ 0 := by
      intro hz
      rw [hN, Finset.sum_eq_zero_iff_of_nonneg (fun _ _ => mul_self_nonneg _)] at hz
      have : b.isZero = true := (isZero_iff hb).mpr fun i hi => mul_self_eq_zero.mp (hz i (mem_range.mpr hi))
      rw [this] at h0
      cases h0
    have h1 : b.ga * GA.of (cj A.dim b.val) = N • (1 : GA A.sigma A.dim T) := by
      rw [MV.ga, ← GA.of_mul, ← GA.bl_zero, ← GA.of_single]
      exact GA.of_congr fun k hk => (geo_cj hdim hσ b.val hk).1
    have h2 : GA.of (cj A.dim b.val) * b.ga = N • (1 : GA A.sigma A.dim T) := by
      rw [MV.ga, ← GA.of_mul, ← GA.bl_zero, ← GA.of_single]
      exact GA.of_congr fun k hk => (geo_cj hdim hσ b.val hk).2
    obtain ⟨c, hc, hcg⟩ := exists_ga (S := S) hS (N⁻¹ • GA.of (cj A.dim b.val))
    refine ⟨c, hc, (is_mul hw hb hc).agree (Is.one hS) ?_, (is_mul hw hc hb).agree (Is.one hS) ?_⟩
    · rw [hcg, mul_smul_comm, h1, smul_smul, inv_mul_cancel₀ hN0, one_smul]
    · rw [hcg, smul_mul_assoc, h2, smul_smul, inv_mul_cancel₀ hN0, one_smul]
  · intro h
    by_contra hd
    rw [Bool.not_eq_true] at hd
    obtain ⟨x, y, hx, hy, hx0, hy0, hxy⟩ := C94_zero_divisors (S := S) (T := T) hA hd hS
    obtain ⟨c, hc, -, hc1⟩ := h x hx hx0
    have hw := declareAlgebra_wf hA
    have h1 := (Is.iff_agree (is_mul hw hc hx) (Is.one hS)).mp hc1
    have h2 := (Is.iff_agree (is_mul hw hx hy) (Is.zero hS)).mp hxy
    refine (isZero_false_iff hy).mp hy0 ?_
    rw [← one_mul y.ga, ← h1, mul_assoc, h2, mul_zero]

end

/-- `[+,-,0]` has zero divisors: `(1 + e0)(1 - e0) = 0`. -/
example : ∃ x y : MV Ex.M (ArrayStorage ℤ), x.Valid ∧ y.Valid ∧ x.isZero = false ∧ y.isZero = false ∧
    x.naiveMulImpl y ≈ᵣ MV.default (T := ℤ) :=
  C94_zero_divisors (sig := [.plus, .minus, .null]) (names := []) rfl rfl (show (3 : Nat) ≤ 63 by omega)

/-- Three generators that square to -1: the pseudoscalar squares to 1. -/
example [HashOrder ℤ] : ∃ A, declareAlgebra [.minus, .minus, .minus] [] = some A ∧ ∃ x y : MV A (SparseStorage ℤ), x.Valid ∧ y.Valid ∧ x.isZero = false ∧
    y.isZero = false ∧ x.naiveMulImpl y ≈ᵣ MV.default (T := ℤ) :=
  ⟨_, rfl, C94_zero_divisors (sig := [.minus, .minus, .minus]) (names := []) rfl rfl (show (3 : Nat) ≤ 63 by omega)⟩

example : ∃ A, declareAlgebra [.minus, .minus] [] = some A ∧ ∀ b : MV A (ArrayStorage ℚ), b.Valid → b.isZero = false →
    ∃ c : MV A (ArrayStorage ℚ), c.Valid ∧ b.naiveMulImpl c ≈ᵣ MV.one ∧ c.naiveMulImpl b ≈ᵣ MV.one :=
  ⟨_, rfl, (C94_division_iff (sig := [.minus, .minus]) (names := []) rfl (show (2 : Nat) ≤ 63 by omega)).mp rfl⟩

namespace Ex
def psM : MV M (ArrayStorage ℤ) := ⟨⟨3, ⟨8, fun i => if i = 7 then 1 else 0⟩⟩⟩
theorem psM_valid : psM.Valid := ⟨by decide, rfl, rfl⟩
end Ex

/-- The pseudoscalar of `[+,-,0]` has no inverse. -/
example : ¬ ∃ K : MV Ex.M (ArrayStorage ℤ), K.Valid ∧ Ex.psM.naiveMulImpl K ≈ᵣ MV.one := fun h =>
  absurd ((C94_nondegenerate_iff (sig := [.plus, .minus, .null]) (names := []) rfl Ex.psM_valid
    ((Is.of_valid Ex.psM_valid).coefs.congr fun i hi => by rw [ga_val hi, MV.arr_val Ex.psM_valid hi]; rfl)).mpr h) (by decide)

end TClifford
