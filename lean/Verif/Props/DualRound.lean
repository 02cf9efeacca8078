import Verif.Props.Exterior
import Verif.Props.FFTRound
import Verif.Props.FloatComplex
/-
C10, C11 under rounding: duals only move and negate coefficients.
-/

namespace TClifford

open MV FloatModel

section
variable {T : Type} [Add T] [Sub T] [Neg T] [SignLaws T]

theorem sgnC_sgnC' {s t : ℤ} (h : s * t = 1) (x : T) : sgnC s (sgnC t x) = x := by
  rcases Int.mul_eq_one_iff_eq_one_or_neg_one.mp h with ⟨rfl, rfl⟩ | ⟨rfl, rfl⟩
  · simp [sgnC]
  · simp [sgnC, SignLaws.neg_neg]

theorem sgnC_add' (s : ℤ) (x y : T) : sgnC s (x + y) = sgnC s x + sgnC s y := by
  unfold sgnC
  split
  · exact SignLaws.neg_add x y
  · rfl

theorem sgnC_sub' (s : ℤ) (x y : T) : sgnC s (x - y) = sgnC s x - sgnC s y := by
  unfold sgnC
  split
  · exact SignLaws.neg_sub x y
  · rfl

end

section
variable {T : Type} [Zero T] [One T] [Add T] [Sub T] [Neg T] [Mul T] [Div T] [CoeffLaws T] [SumLaws T] [SignLaws T] [DecidableEq T]
  {A : ClAlg} {S : Type} [CoeffStorage S T] [LawfulStorage S T]

/-- **C11 under rounding.** `a.dual().undual() == a` and `a.undual().dual() == a` coefficient by coefficient for floating point numbers (an
infinity or NaN where there was one), and duals commute exactly with `+` and `-`. -/
theorem C11_rounded (hA : A.WF) {a b : MV A S} (ha : a.Valid) (hb : b.Valid) :
    (do let d ← a.dual; d.undual) ≈ᵣ .ok a ∧ (do let d ← a.undual; d.dual) ≈ᵣ .ok a ∧
    (do let s ← a.add b; s.dual) ≈ᵣ (do let x ← a.dual; let y ← b.dual; x.add y) ∧
    (do let s ← a.sub b; s.dual) ≈ᵣ (do let x ← a.dual; let y ← b.dual; x.sub y) ∧
    (do let s ← a.add b; s.undual) ≈ᵣ (do let x ← a.undual; let y ← b.undual; x.add y) ∧
    (do let s ← a.sub b; s.undual) ≈ᵣ (do let x ← a.undual; let y ← b.undual; x.sub y) := by
  obtain ⟨d, d1, d2, d3⟩ := dual_fl hA ha
  obtain ⟨e, e1, e2, e3⟩ := undual_fl hA ha
  obtain ⟨d', d1', d2', d3'⟩ := dual_fl hA hb
  obtain ⟨e', e1', e2', e3'⟩ := undual_fl hA hb
  obtain ⟨s, s1, s2, s3⟩ := add_denotes ha hb
  obtain ⟨t, t1, t2, t3⟩ := sub_denotes ha hb
  have hm : ∀ {i}, i < 2 ^ A.dim → i ^^^ (2 ^ A.dim - 1) < 2 ^ A.dim := fun hi => xor_mask_lt hi
  beta_reduce at d3 e3 d3' e3' s3 t3
  rw [d1, e1, d1', e1', s1, t1]
  refine ⟨?_, ?_, ?_, ?_, ?_, ?_⟩
  · refine Agree.of_denotes (undual_fl hA d2) (.of_valid ha) fun k hk => ?_
    rw [d3 _ (hm hk), xor_mask_xor_mask]
    exact sgnC_sgnC' (mul_self_eq_one_iff.mpr (by have := dualSign_unit (n := A.dim) (i := k ^^^ (2 ^ A.dim - 1)); rwa [xor_mask_xor_mask] at this)) _
  · refine Agree.of_denotes (dual_fl hA e2) (.of_valid ha) fun k hk => ?_
    rw [e3 _ (hm hk), xor_mask_xor_mask]
    exact sgnC_sgnC' (mul_self_eq_one_iff.mpr dualSign_unit) _
  · refine Agree.of_denotes (dual_fl hA s2) (add_denotes d2 d2') fun k hk => ?_
    rw [s3 _ (hm hk), d3 _ hk, d3' _ hk, sgnC_add']
  · refine Agree.of_denotes (dual_fl hA t2) (sub_denotes d2 d2') fun k hk => ?_
    rw [t3 _ (hm hk), d3 _ hk, d3' _ hk, sgnC_sub']
  · refine Agree.of_denotes (undual_fl hA s2) (add_denotes e2 e2') fun k hk => ?_
    rw [s3 _ (hm hk), e3 _ hk, e3' _ hk, sgnC_add']
  · refine Agree.of_denotes (undual_fl hA t2) (sub_denotes e2 e2') fun k hk => ?_
    rw [t3 _ (hm hk), e3 _ hk, e3' _ hk, sgnC_sub']

end

namespace Ex

example := C11_rounded E_wf sameF.valid sameF.valid
example := C11_rounded E_wf sameFC.valid sameFC.valid

/-- `2⁵³ e2∧e1∧e0 + e2∧e1 + e2∧e0` and `1 + e0 + e1` -/
def meetA : MV E (ArrayStorage F64) := ⟨⟨3, ⟨8, fun i => if i = 7 then Flt.ofRat (2 ^ 53) else if 5 ≤ i then 1 else 0⟩⟩⟩
def meetB : MV E (ArrayStorage F64) := ⟨⟨3, ⟨8, fun i => if i < 3 then 1 else 0⟩⟩⟩

end Ex

/-- **C10 under rounding.** In fewer than six dimensions `meet` sums in another order than the wedge product of the duals, so the
results can differ by rounding errors. -/
theorem C10_rounded_false : ∃ (A : ClAlg) (a b : MV A (ArrayStorage F64)), A.WF ∧ a.Valid ∧ b.Valid ∧
    ¬ (a.meet b ≈ᵣ (do let x ← a.dual; let y ← b.dual; let z ← x.wedge y; z.undual)) := by
  refine ⟨Ex.E, Ex.meetA, Ex.meetB, Ex.E_wf, ⟨by decide, rfl, rfl⟩, ⟨by decide, rfl, rfl⟩, ?_⟩
  rintro ⟨r, s, h1, h2, h3⟩
  have g1 : (do let m ← Ex.meetA.meet Ex.meetB; m.getByIdx 0) = (.ok (Flt.ofRat (2 ^ 53)) : Res F64) := by decide +kernel
  have g2 : (do let m ← (do let x ← Ex.meetA.dual; let y ← Ex.meetB.dual; let z ← x.wedge y; z.undual); m.getByIdx 0) =
    (.ok (Flt.ofRat (2 ^ 53 - 1)) : Res F64) := by decide +kernel
  rw [h1] at g1
  rw [h2] at g2
  obtain ⟨h4, h5, h6⟩ := h3
  have hb := (MV.beq_iff h4 h5).mp h6 0 (by decide)
  have a1 : (.ok (r.val 0) : Res F64) = .ok (Flt.ofRat (2 ^ 53)) := (h4.get (by decide)).symm.trans g1
  have a2 : (.ok (s.val 0) : Res F64) = .ok (Flt.ofRat (2 ^ 53 - 1)) := (h5.get (by decide)).symm.trans g2
  rw [hb, a2] at a1
  exact absurd a1 (by decide +kernel)

end TClifford
