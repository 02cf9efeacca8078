import Verif.Props.StorageDiv
import Verif.Props.Exp
/-
C18, C19 for `exp` (exact arithmetic).
-/

namespace TClifford
open Finset MV

section general
variable {T : Type} [CommRing T] [DecidableEq T] {S S' : Type} [CoeffStorage S T] [LawfulStorage S T] [CoeffStorage S' T]
  [LawfulStorage S' T] {A : ClAlg} {a : MV A S} {a' : MV A S'}

theorem corr_mag2 (hA : A.WF) (ha : Corr a a') : a.mag2 = a'.mag2 := by
  rw [mag2_ok hA ha.1, mag2_ok hA ha.2.1]
  congr 1
  exact geo_congr (fun _ _ => rfl) (fun i hi => by rw [ha.val hi]) (fun i hi => ha.val hi) (Nat.two_pow_pos _)

theorem corr_ga (ha : Corr a a') : a.ga = a'.ga := GA.of_congr fun _ hi => ha.val hi

theorem corr_exp (hA : A.WF) {norm : T → ℝ} (h0 : norm 0 = 0) (ofReal : ℝ →+* T) (ha : Corr a a') {fuel : Nat} (hf : 18 ≤ fuel) :
    ∃ r r', a.exp norm ofReal fuel = some r ∧ a'.exp norm ofReal fuel = some r' ∧ CorrR r r' := by
  obtain ⟨m, -, hm⟩ := expIntPow_ok hA norm ha.1
  have hm' : a'.expIntPow norm = .ok m := by
    rw [expIntPow_isMaxC hA h0 ha.2.1]
    have := (expIntPow_isMaxC hA h0 ha.1).mp hm
    unfold MV.IsMaxC at this ⊢
    rw [corr_mag2 hA ha] at this
    convert this using 5 with x
    exact forall₂_congr fun i hi => by rw [ha.2.2 i hi]
  obtain ⟨r, hr, hrI⟩ := (exp_is ofReal hA norm ha.1 hm fuel).2 hf
  obtain ⟨r', hr', hrI'⟩ := (exp_is ofReal hA norm ha.2.1 hm' fuel).2 hf
  rw [← corr_ga ha] at hrI'
  exact ⟨r, r', hr, hr', .of_denotes hrI hrI' fun _ _ => rfl⟩

end general

section c18
variable {T : Type} [CommRing T] [DecidableEq T] [HashOrder T] {A : ClAlg}

/-- **C18, exp.** `exp` gives the same coefficients on dense and sparse multivectors. -/
theorem C18_exp (hA : A.WF) {norm : T → ℝ} (h0 : norm 0 = 0) (ofReal : ℝ →+* T) {a : MV A (ArrayStorage T)}
    {s : MV A (SparseStorage T)} (ha : Corr a s) {fuel : Nat} (hf : 18 ≤ fuel) :
    ∃ r r', a.exp norm ofReal fuel = some r ∧ s.exp norm ofReal fuel = some r' ∧ CorrR r r' :=
  corr_exp hA h0 ofReal ha hf

end c18

section c19
variable {T : Type} [CommRing T] [DecidableEq T] {A : ClAlg}

/-- **C19, exp.** `exp` of a sparse multivector does not depend on the iteration order of the hash maps. -/
theorem C19_exp (hA : A.WF) {norm : T → ℝ} (h0 : norm 0 = 0) (ofReal : ℝ →+* T) (o o' : HashOrder T) {a a' : MV A (SparseStorage T)}
    (ha : ValidO o a) (ha' : ValidO o' a') (haa : SameCoeffs a a') {fuel : Nat} (hf : 18 ≤ fuel) :
    ∃ r r', (letI := o; a.exp norm ofReal fuel) = some r ∧ (letI := o'; a'.exp norm ofReal fuel) = some r' ∧ SameR r r' := by
  have c1 : CorrO o o' a a' := .mk' ha ha' haa
  obtain ⟨r, r', h1, h2, h3⟩ := @corr_exp T _ _ _ _ (@SparseStorage.instCoeffStorage T _ _ _ _ o)
    (@SparseStorage.instLawfulStorage T _ _ _ _ _ o) (@SparseStorage.instCoeffStorage T _ _ _ _ o')
    (@SparseStorage.instLawfulStorage T _ _ _ _ _ o') A _ _ hA norm h0 ofReal c1 fuel hf
  exact ⟨r, r', h1, h2, CorrRO.same h3⟩

end c19

section examples
open Classical

/-- `1 + 2 e1 e0` as a sparse multivector, and as a dense one. -/
noncomputable def Ex.expS : MV Ex.E (SparseStorage ℝ) := ⟨⟨3, 8, ⟨[(3, 2), (0, 1)]⟩⟩⟩
noncomputable def Ex.expD : MV Ex.E (ArrayStorage ℝ) := ⟨⟨3, ⟨8, fun i => if i = 0 then 1 else if i = 3 then 2 else 0⟩⟩⟩

theorem Ex.expS_valid (o : HashOrder ℝ) : ValidO o Ex.expS :=
  ⟨by decide, rfl, rfl, by simp [Ex.expS], by simp [Ex.expS]; decide⟩

example : letI : HashOrder ℝ := Ex.revOrder
    ∃ r r', Ex.expD.exp (fun x => |x|) (RingHom.id ℝ) 18 = some r ∧ Ex.expS.exp (fun x => |x|) (RingHom.id ℝ) 18 = some r' ∧ CorrR r r' :=
  letI : HashOrder ℝ := Ex.revOrder
  C18_exp Ex.E_wf (abs_zero) _ ⟨⟨by decide, rfl, rfl⟩, Ex.expS_valid _, fun i hi => by
    have hi : i < 8 := hi
    interval_cases i <;> rfl⟩ le_rfl

example := C19_exp Ex.E_wf (norm := fun x : ℝ => |x|) (abs_zero) (RingHom.id ℝ) Ex.revOrder Ex.idOrder (Ex.expS_valid _)
  (Ex.expS_valid _) (fun _ _ => rfl) (le_refl 18)

end examples

end TClifford
