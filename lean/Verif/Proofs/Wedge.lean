import Verif.Model.Dense
import Verif.Proofs.MV
/-
The recursive in-place wedge of src/mv_dense.rs and the `WedgeProduct` implementations.
-/

set_option linter.unusedSectionVars false

namespace TClifford

open Finset

variable {T : Type} [Ring T] [DecidableEq T]

theorem countOnes_and_one {n i : Nat} (hi : i < 2 ^ n) : (countOnes i &&& 1 ≠ 0) ↔ par n i = true := by
  rw [Nat.and_one_is_mod, Ne, countOnes_mod_two' hi, Bool.not_eq_false]

theorem flip_if {n i : Nat} (hi : i < 2 ^ n) (x : T) :
    (if countOnes i &&& 1 ≠ 0 then -x else x) = sg (par n i) • x := by
  by_cases h : par n i = true
  · rw [if_pos ((countOnes_and_one hi).mpr h), h]; simp [sg]
  · rw [if_neg (fun hc => h ((countOnes_and_one hi).mp hc)), Bool.eq_false_iff.mpr h]; simp [sg]

/-- The recursive wedge of buffers of length `2^n`. -/
theorem wedgeImpl_spec (n : Nat) (a b dest : Arr1 T) (ha : a.len = 2 ^ n) (hb : b.len = 2 ^ n) (hd : dest.len = 2 ^ n) :
    (wedgeImpl a b dest).1.len = 2 ^ n ∧ (wedgeImpl a b dest).2.len = 2 ^ n ∧
    ∀ i < 2 ^ n, (wedgeImpl a b dest).1.get i = a.get i ∧
      (wedgeImpl a b dest).2.get i = geo (fun _ => 0) n a.get b.get i := by
  induction n generalizing a b dest with
  | zero =>
    unfold wedgeImpl
    rw [if_neg (by rw [ha]; decide), dif_pos (by rw [ha]; rfl)]
    refine ⟨ha, hd, ?_⟩
    intro i hi
    have : i = 0 := by simpa using hi
    subst this
    refine ⟨rfl, ?_⟩
    simp [Arr1.set, geo, bsgn]
  | succ n ih =>
    have h2 : 0 < 2 ^ n := Nat.two_pow_pos n
    have hp : 2 ^ (n + 1) = 2 ^ n + 2 ^ n := by rw [Nat.pow_succ]; omega
    have hhalf : a.len / 2 = 2 ^ n := by rw [ha, hp]; omega
    unfold wedgeImpl
    rw [if_neg (by omega), dif_neg (by omega)]
    simp only [hhalf]
    set a01 := a.splitAt (2 ^ n) with ha01
    set b01 := b.splitAt (2 ^ n) with hb01
    set d01 := dest.splitAt (2 ^ n) with hd01
    have hla : a.len - 2 ^ n = 2 ^ n := by omega
    have hlb : b.len - 2 ^ n = 2 ^ n := by omega
    have hld : dest.len - 2 ^ n = 2 ^ n := by omega
    obtain ⟨-, -, r1⟩ := ih a01.2 b01.1 d01.2 hla rfl hld
    set r1v := wedgeImpl a01.2 b01.1 d01.2
    obtain ⟨-, -, r2⟩ := ih (alphaInplace ⟨2 ^ n, a.get⟩) b01.2 d01.1 rfl hlb rfl
    set r2v := wedgeImpl (alphaInplace ⟨2 ^ n, a.get⟩) b01.2 d01.1
    have hd1 : d01.1.len = 2 ^ n := rfl
    have hd2 : d01.2.len = 2 ^ n := hld
    simp only [hd1, hd2]
    set a0' : Arr1 T := ⟨2 ^ n, fun idx =>
      if idx < 2 ^ n ∧ countOnes idx &&& 1 ≠ 0 then -r2v.1.get idx else r2v.1.get idx⟩ with ha0'
    obtain ⟨-, -, r3⟩ := ih a0' b01.1 ⟨2 ^ n, r2v.2.get⟩ rfl rfl rfl
    set r3v := wedgeImpl a0' b01.1 ⟨2 ^ n, r2v.2.get⟩
    have ha0 : ∀ i < 2 ^ n, a0'.get i = a.get i := by
      intro i hi
      show (if i < 2 ^ n ∧ countOnes i &&& 1 ≠ 0 then -r2v.1.get i else r2v.1.get i) = _
      rw [(r2 i hi).1]
      show (if i < 2 ^ n ∧ countOnes i &&& 1 ≠ 0 then -(if countOnes i &&& 1 ≠ 0 then -a.get i else a.get i)
        else (if countOnes i &&& 1 ≠ 0 then -a.get i else a.get i)) = _
      by_cases hc : countOnes i &&& 1 ≠ 0
      · rw [if_pos ⟨hi, hc⟩, if_pos hc, neg_neg]
      · rw [if_neg (by tauto), if_neg hc]
    refine ⟨by simp only [Arr1.join]; omega, by simp only [Arr1.join]; omega, ?_⟩
    intro i hi
    simp only [Arr1.join]
    by_cases hlt : i < 2 ^ n
    · rw [if_pos hlt, if_pos hlt]
      refine ⟨by rw [(r3 i hlt).1, ha0 i hlt], ?_⟩
      rw [(r3 i hlt).2, geo_lo _ _ _ _ hlt, zero_smul, add_zero]
      exact geo_congr (fun _ _ => rfl) ha0 (fun _ _ => rfl) hlt
    · obtain ⟨k, rfl⟩ : ∃ k, i = k + 2 ^ n := ⟨i - 2 ^ n, by omega⟩
      have hk : k < 2 ^ n := by omega
      rw [if_neg hlt, if_neg hlt, Nat.add_sub_cancel, if_pos hk, geo_hi _ _ _ _ hk, (r1 k hk).1, (r1 k hk).2, (r2 k hk).2]
      refine ⟨rfl, ?_⟩
      congr 1
      refine geo_congr (fun _ _ => rfl) ?_ (fun _ _ => rfl) hk
      intro j hj
      exact flip_if hj _

namespace MV
variable {A : ClAlg}

theorem arr_val {a : MV A (ArrayStorage T)} (ha : a.Valid) {i : Nat} (hi : i < 2 ^ A.dim) :
    a.val i = a.coeffs.array.get i := by
  show (if i < a.coeffs.array.len then _ else _) = _
  rw [if_pos]
  rw [ha.2.2]; exact hi

theorem wedgeImpl_denotes {a b d : MV A (ArrayStorage T)} (ha : a.Valid) (hb : b.Valid) (hd : d.Valid) :
    Denotes (.ok (⟨⟨d.coeffs.dim, (wedgeImpl a.coeffs.array b.coeffs.array d.coeffs.array).2⟩⟩ : MV A (ArrayStorage T)))
      (geo (fun _ => 0) A.dim a.val b.val) := by
  obtain ⟨-, h2, h3⟩ := wedgeImpl_spec A.dim a.coeffs.array b.coeffs.array d.coeffs.array ha.2.2 hb.2.2 hd.2.2
  refine ⟨_, rfl, ⟨hd.1, hd.2.1, h2⟩, ?_⟩
  intro i hi
  have hv : (⟨⟨d.coeffs.dim, (wedgeImpl a.coeffs.array b.coeffs.array d.coeffs.array).2⟩⟩ : MV A (ArrayStorage T)).Valid :=
    ⟨hd.1, hd.2.1, h2⟩
  rw [arr_val hv hi, (h3 i hi).2]
  exact geo_congr (fun _ _ => rfl) (fun j hj => (arr_val ha hj).symm) (fun j hj => (arr_val hb hj).symm) hi

theorem wedgeDense_denotes {a b : MV A (ArrayStorage T)} (ha : a.Valid) (hb : b.Valid) :
    Denotes (a.wedgeDense b) (geo (fun _ => 0) A.dim a.val b.val) := by
  unfold wedgeDense
  split
  · exact naiveWedge_denotes ha hb
  · exact (default_denotes ha.supp).map (fun u hu _ => wedgeImpl_denotes ha hb hu)

/-- `dual().wedge(dual()).undual()` is the function of the direct formula. -/
theorem meet_denotes_of_wedge {S : Type} [CoeffStorage S T] [LawfulStorage S T] (hA : A.WF) {a b : MV A S}
    (ha : a.Valid) (hb : b.Valid) (w : MV A S → MV A S → Res (MV A S))
    (hw : ∀ x y : MV A S, x.Valid → y.Valid → Denotes (w x y) (geo (fun _ => 0) A.dim x.val y.val)) :
    Denotes (do
      let x ← a.dual
      let y ← b.dual
      let z ← w x y
      z.undual) (meetF A.dim a.val b.val) := by
  refine (dual_denotes hA ha).bind ?_
  intro x hx hxv
  refine (dual_denotes hA hb).bind ?_
  intro y hy hyv
  refine (hw x y hx hy).bind ?_
  intro z hz hzv
  refine (undual_denotes hA hz).congr ?_
  intro k hk
  have hk' : k ^^^ (2 ^ A.dim - 1) < 2 ^ A.dim := xor_mask_lt hk
  rw [hzv _ hk', geo_congr (fun _ _ => rfl) hxv hyv hk']
  rfl

theorem meetDense_denotes (hA : A.WF) {a b : MV A (ArrayStorage T)} (ha : a.Valid) (hb : b.Valid) :
    Denotes (a.meetDense b) (meetF A.dim a.val b.val) := by
  unfold meetDense
  split
  · exact naiveMeet_denotes hA ha hb
  · obtain ⟨r, hr, hrv, -⟩ := default_denotes (A := A) ha.supp
    rw [hr]
    refine meet_denotes_of_wedge hA ha hb
      (fun x y => .ok ⟨⟨r.coeffs.dim, (wedgeImpl x.coeffs.array y.coeffs.array r.coeffs.array).2⟩⟩) ?_
    intro x y hx hy
    exact wedgeImpl_denotes hx hy hrv

end MV

/-- What every implementation of `WedgeProduct` has to compute. -/
class LawfulWedge (A : ClAlg) (S : Type) {T : outParam Type} [Ring T] [DecidableEq T] [CoeffStorage S T]
    [LawfulStorage S T] [WedgeProduct A S] : Prop where
  wedge : ∀ {a b : MV A S}, a.Valid → b.Valid → MV.Denotes (a.wedge b) (geo (fun _ => 0) A.dim a.val b.val)
  meet : A.WF → ∀ {a b : MV A S}, a.Valid → b.Valid → MV.Denotes (a.meet b) (MV.meetF A.dim a.val b.val)

instance {A : ClAlg} : LawfulWedge A (ArrayStorage T) := ⟨MV.wedgeDense_denotes, MV.meetDense_denotes⟩

instance {A : ClAlg} [HashOrder T] : LawfulWedge A (SparseStorage T) := ⟨MV.naiveWedge_denotes, MV.naiveMeet_denotes⟩

end TClifford
