import Verif.Props.FloatIEEE
import Verif.Props.Tests
/-
C71: the recursive wedge and the plain one agree exactly on integers; `fast_wedge_test` of the crate.
-/

set_option linter.unusedSectionVars false

namespace TClifford

open Finset FloatModel MV

section
variable {F : Type} [Zero F] [One F] [Add F] [Sub F] [Neg F] [Mul F] [Div F] [FloatModel F] [DecidableEq F]
variable {A : ClAlg} {S : Type} [CoeffStorage S F] [LawfulStorage S F] {S' : Type} [CoeffStorage S' ℝ] [LawfulStorage S' ℝ]
  [WedgeProduct A S] [FloatWedge A S] [WedgeProduct A S'] [LawfulWedge A S']
variable {a b : MV A S} {a' b' : MV A S'} {x y : Nat → F}

/-- **C71.** The plain wedge product of integer multivectors is exact if `‖a‖₁ ‖b‖₁ ≤ M` (`2^53` for `f64`). -/
theorem C71_naive_wedge (ha : SameValues a a' x) (hb : SameValues b b' y) (zx : ∀ i < 2 ^ A.dim, ∃ m : ℤ, re (x i) = m)
    (zy : ∀ i < 2 ^ A.dim, ∃ m : ℤ, re (y i) = m) (hM : normOne A.dim x * normOne A.dim y ≤ FloatModel.M F) :
    ExactZ (a.naiveWedgeImpl b) (a'.naiveWedgeImpl b') (normOne A.dim x * normOne A.dim y) := by
  obtain ⟨gx, gy, ga, gb⟩ := goodZ_vals ha hb zx zy
  refine exactZ_core (m := 0) (Nat.two_pow_pos _) (c := fun i k => bsgn (fun _ => 0) A.dim i (i ^^^ k)) gx gy
    (fun i hi k hk => bsgn_wedge_abs) ?_ ?_ hM
  · obtain ⟨r, h1, h2, h3⟩ := naiveWedge_inv sumInv_accZ ha.valid hb.valid ga gb
    refine ⟨r, h1, h2, fun k hk => ?_⟩
    refine (congrArg (AccZ (r.val k)) (sum_congr rfl ?_)).mp (h3 k hk)
    intro i hi
    rw [Nat.xor_zero, ha.val (mem_range.mp hi), hb.val (Nat.xor_lt_two_pow (mem_range.mp hi) hk)]
  · refine (naiveWedge_denotes ha.valid' hb.valid').congr fun k hk => sum_congr rfl fun i hi => ?_
    rw [Nat.xor_zero, ha.val' (mem_range.mp hi), hb.val' (Nat.xor_lt_two_pow (mem_range.mp hi) hk)]

/-- **C71.** On integer multivectors with `‖a‖₁ ‖b‖₁ ≤ M` the recursive wedge product of dense multivectors and the plain one return the same. -/
theorem C71_wedge_agree (ha : SameValues a a' x) (hb : SameValues b b' y) (zx : ∀ i < 2 ^ A.dim, ∃ m : ℤ, re (x i) = m)
    (zy : ∀ i < 2 ^ A.dim, ∃ m : ℤ, re (y i) = m) (hM : normOne A.dim x * normOne A.dim y ≤ FloatModel.M F) :
    a.wedge b ≈ᵣ a.naiveWedgeImpl b := by
  obtain ⟨u, v, z, p1, p2, p3, -, -⟩ := C71_wedge ha hb zx zy hM
  obtain ⟨u', v', z', q1, q2, q3, -, -⟩ := C71_naive_wedge ha hb zx zy hM
  obtain ⟨w, w', e1, e2, hw, hw', h⟩ := Agree.of_denotes (LawfulWedge.wedge ha.valid' hb.valid') (naiveWedge_denotes ha.valid' hb.valid') fun _ _ => rfl
  rw [p2] at e1
  rw [q2] at e2
  injection e1 with e1
  injection e2 with e2
  subst e1 e2
  refine ⟨u, u', p1, q1, p3.valid, q3.valid, (beq_iff p3.valid q3.valid).mpr fun i hi => ?_⟩
  rw [p3.val hi, q3.val hi]
  apply re_inj (p3.finite i hi) (q3.finite i hi)
  rw [← p3.val' hi, ← q3.val' hi]
  exact (beq_iff hw hw').mp h i hi

end

/-! ### `fast_wedge_test`, src/mv_dense.rs:195-221 -/

namespace Ex

/-- `declare_algebra!(Gr6, [0, 0, 0, 0, 0, 0])`. -/
def Gr6 : ClAlg := (declareAlgebra (List.replicate 6 .null) []).get rfl

/-- The coefficients of `e0 + e1 * e2 + e1 * e3`. -/
def fwA (i : Nat) : F64 := if i = 1 then 1 else if i = 6 ∨ i = 10 then -1 else 0

/-- The coefficients of `e0 + e1 * e2 + e5 * e4`. -/
def fwB (i : Nat) : F64 := if i = 1 ∨ i = 48 then 1 else if i = 6 then -1 else 0

/-- The dense multivector with the coefficients `x`. -/
def gr6 (x : Nat → F64) : MV Gr6 (ArrayStorage F64) := ⟨⟨6, ⟨64, x⟩⟩⟩

/-- The same with real coefficients. -/
noncomputable def gr6R (x : Nat → F64) : MV Gr6 (ArrayStorage ℝ) := ⟨⟨6, ⟨64, fun i => ((x i).toRat : ℝ)⟩⟩⟩

theorem same_gr6 {x : Nat → F64} (h : ∀ i < 64, x i ≠ .nonFinite) : SameValues (gr6 x) (gr6R x) x := by
  have h1 : (gr6 x).Valid := ⟨by decide, rfl, rfl⟩
  have h2 : (gr6R x).Valid := ⟨by decide, rfl, rfl⟩
  refine ⟨h1, h2, ⟨_, rfl, fun i hi => ?_⟩, ⟨_, rfl, fun i hi => ?_⟩, h⟩
  · rw [h1.get hi, arr_val' h1 hi]; rfl
  · rw [h2.get hi]
    congr 1
    show (if i < 64 then _ else _) = _
    rw [if_pos (show i < 64 from hi)]
    rfl

theorem fw_int {x : Nat → F64} (h : ∀ i < 64, (x i).toRat = (x i).toRat.num) : ∀ i < 2 ^ Gr6.dim, ∃ m : ℤ, re (x i) = m := by
  intro i hi
  refine ⟨(x i).toRat.num, ?_⟩
  show ((x i).toRat : ℝ) = _
  rw [h i hi, Rat.cast_intCast, Rat.num_intCast]

theorem fw_norm {x : Nat → F64} (h : ∑ i ∈ range 64, |(x i).toRat| ≤ 3) : normOne Gr6.dim x ≤ 3 := by
  show ∑ i ∈ range 64, |((x i).toRat : ℝ)| ≤ 3
  have h' : ((∑ i ∈ range 64, |(x i).toRat| : ℚ) : ℝ) ≤ 3 := by exact_mod_cast h
  rw [show ((∑ i ∈ range 64, |(x i).toRat| : ℚ) : ℝ) = Rat.castHom ℝ _ from rfl, map_sum] at h'
  simpa using h'

/-- The coefficients are those of the expressions in the test. -/
example : (do
      let e0 ← MV.basisVec (A := Gr6) (S := ArrayStorage F64) 0; let e1 ← MV.basisVec (A := Gr6) (S := ArrayStorage F64) 1
      let e2 ← MV.basisVec (A := Gr6) (S := ArrayStorage F64) 2; let e3 ← MV.basisVec (A := Gr6) (S := ArrayStorage F64) 3
      let e4 ← MV.basisVec (A := Gr6) (S := ArrayStorage F64) 4; let e5 ← MV.basisVec (A := Gr6) (S := ArrayStorage F64) 5
      let a ← (← e0.add (← e1.naiveMulImpl e2)).add (← e1.naiveMulImpl e3)
      let b ← (← e0.add (← e1.naiveMulImpl e2)).add (← e5.naiveMulImpl e4)
      return (a.beq (gr6 fwA), b.beq (gr6 fwB))) = (.ok (true, true) : Res (Bool × Bool)) := by decide +kernel

theorem fw_le : normOne Gr6.dim fwA * normOne Gr6.dim fwB ≤ FloatModel.M F64 := by
  refine (mul_le_mul (fw_norm (x := fwA) (by decide +kernel)) (fw_norm (x := fwB) (by decide +kernel)) (normOne_nonneg _ _) (by norm_num)).trans ?_
  rw [C69_f64.2.2.1]
  norm_num

end Ex

/-- **C87.** The first part of `fast_wedge_test`, src/mv_dense.rs:195-221. -/
theorem C87_fast_wedge : (Ex.gr6 Ex.fwA).wedge (Ex.gr6 Ex.fwB) ≈ᵣ (Ex.gr6 Ex.fwA).naiveWedgeImpl (Ex.gr6 Ex.fwB) :=
  C71_wedge_agree (Ex.same_gr6 (by decide +kernel)) (Ex.same_gr6 (by decide +kernel)) (Ex.fw_int (by decide +kernel)) (Ex.fw_int (by decide +kernel)) Ex.fw_le

/-- The plain product is that of the real multivectors. -/
example := C71_naive_wedge (Ex.same_gr6 (x := Ex.fwA) (by decide +kernel)) (Ex.same_gr6 (x := Ex.fwB) (by decide +kernel)) (Ex.fw_int (by decide +kernel))
  (Ex.fw_int (by decide +kernel)) Ex.fw_le

example : (do let w ← (Ex.gr6 Ex.fwA).naiveWedgeImpl (Ex.gr6 Ex.fwB); return (w.coeffs.array.get 7, w.coeffs.array.get 49, w.coeffs.array.get 54)) =
    (.ok (-1 + -1, 1, -1) : Res (F64 × F64 × F64)) := by decide +kernel

end TClifford
