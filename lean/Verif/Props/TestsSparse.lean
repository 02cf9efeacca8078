import Verif.Props.TestsAll
import Verif.Props.FloatIEEE
import Verif.Props.Examples
/-
C87, `sparse_test` (tests/unit.rs:662-671) with the coefficients the test uses: the assertion holds exactly, for floating point
numbers and for machine integers, as long as the binomial coefficient does not exceed `2^53` (the largest range of exact integers).
-/

set_option linter.unusedSectionVars false

namespace TClifford
open MV Finset FloatModel

section
variable {F : Type} [Zero F] [One F] [Add F] [Sub F] [Neg F] [Mul F] [Div F] [FloatModel F] [DecidableEq F]
variable {A : ClAlg} {S : Type} [CoeffStorage S F] [LawfulStorage S F]

/-- **C87** (`sparse_test`, tests/unit.rs:662-671), with rounding. In an algebra with only `+` generators, for the sum `b` of all
basis blades of grade `k`, `(b.rev() * b).grade_extract(0) == from_scalar(t)` where `t` is the float of value `binomial(dim, k)`. -/
theorem C87_binomial_float (hA : A.WF) (hi : A.imagMask = 0) (hp : A.projMask = 0) (hS : LawfulStorage.Supp (S := S) (T := F) A.dim)
    {k : Nat} (hk : (A.dim.choose k : ℝ) ≤ FloatModel.M F) {t : F} (ht : fin t) (ht' : re t = A.dim.choose k) :
    (do let b ← fromIndexedIter (A := A) (S := S) ((gradeIterList A.dim k).map fun idx => (idx, (1 : F)))
        let r ← b.rev; let p ← r.naiveMulImpl b; p.gradeExtract 0) ≈ᵣ fromScalar t := by
  have hd := LawfulStorage.supp_le hS
  have h0 := Nat.two_pow_pos A.dim
  have h1Z : GoodZ (1 : F) := ⟨fin_one, 1, by rw [re_one]; simp⟩
  have h0Z : GoodZ (0 : F) := ⟨fin_zero, 0, by rw [re_zero]; simp⟩
  have z1 : toZ (1 : F) = 1 := by have := h1Z.re; rw [re_one] at this; exact_mod_cast this.symm
  rw [gradeIterList_eq (by omega)]
  have hen : Enumerates A.dim ((comb k A.dim).map fun idx => (idx, (1 : F))) (fun i => if cnt A.dim i = k then 1 else 0) := by
    refine ⟨?_, ?_, ?_⟩
    · rw [List.map_map, show (Prod.fst ∘ fun idx : Nat => (idx, (1 : F))) = id from rfl, List.map_id]
      exact comb_nodup k A.dim
    · intro p hp
      obtain ⟨x, hx, rfl⟩ := List.mem_map.mp hp
      rw [mem_comb] at hx
      exact ⟨hx.1, (if_pos hx.2).symm⟩
    · intro i hi h
      by_cases h' : cnt A.dim i = k
      · rw [if_pos h']
        exact List.mem_map.mpr ⟨i, mem_comb.mpr ⟨hi, h'⟩, rfl⟩
      · rw [if_neg h'] at h
        exact absurd rfl h
  obtain ⟨b, b1, b2, b3⟩ := fromIndexedIter_enum (A := A) (S := S) hS hen
  obtain ⟨r, r1, r2, r3⟩ := rev_fl b2
  have gb : ∀ i < 2 ^ A.dim, GoodZ (b.val i) := fun i hi => by
    rw [b3 i hi]; beta_reduce; split
    exacts [h1Z, h0Z]
  have gr : ∀ i < 2 ^ A.dim, GoodZ (r.val i) := fun i hi => by
    rw [r3 i hi]; beta_reduce; unfold sgnC; split
    exacts [(gb i hi).neg, gb i hi]
  obtain ⟨p, p1, p2, p3⟩ := mul_inv sumInv_accZ hA r2 b2 gr gb
  rw [b1]; show (do let r ← b.rev; let p ← r.naiveMulImpl b; p.gradeExtract 0) ≈ᵣ _
  rw [r1]; show (do let p ← r.naiveMulImpl b; p.gradeExtract 0) ≈ᵣ _
  rw [p1]; show p.gradeExtract 0 ≈ᵣ _
  have key : p.val 0 = t := by
    have h := p3 0 h0
    have e : ∀ i ∈ range (2 ^ A.dim), (bsgn A.sigma A.dim i (i ^^^ 0) * (toZ (r.val i) * toZ (b.val (i ^^^ 0))) : ℤ) =
        if cnt A.dim i = k then 1 else 0 := by
      intro i hi'
      rw [mem_range] at hi'
      have hs : bsgn A.sigma A.dim i i = rsg A.dim i := by
        rw [← bsgn_self_plus]; exact bsgn_congr (fun i _ => sigma_plus hi hp i) (fun _ _ => rfl) (fun _ _ => rfl)
      rw [Nat.xor_zero, hs, r3 i hi']
      beta_reduce
      rw [b3 i hi']
      beta_reduce
      split
      · rcases rsg_unit A.dim i with hr | hr <;> rw [hr, sgnC]
        · simp [z1]
        · rw [if_pos rfl, toZ_neg h1Z, z1]; simp
      · simp [toZ_zero]
    have e' : ∑ i ∈ range (2 ^ A.dim), (if cnt A.dim i = k then 1 else 0 : ℤ) = A.dim.choose k := by
      rw [sum_boole]
      congr 1
      rw [← comb_length, ← List.toFinset_card_of_nodup (comb_nodup k A.dim)]
      congr 1
      ext i
      rw [mem_filter, mem_range, List.mem_toFinset, mem_comb]
    have e2 : ∑ i ∈ range (2 ^ A.dim), ((bsgn A.sigma A.dim i (i ^^^ 0) * (toZ (r.val i) * toZ (b.val (i ^^^ 0))),
        |bsgn A.sigma A.dim i (i ^^^ 0) * (toZ (r.val i) * toZ (b.val (i ^^^ 0)))|) : ℤ × ℤ) =
        ((A.dim.choose k : ℤ), (A.dim.choose k : ℤ)) := by
      refine Prod.ext ?_ ?_
      · rw [Prod.fst_sum, sum_congr rfl e, e']
      · rw [Prod.snd_sum, ← e']
        refine sum_congr rfl fun i hi' => ?_
        show |_| = _
        rw [e i hi']
        split <;> rfl
    rw [e2] at h
    obtain ⟨q1, q2⟩ := h.2 (by simpa using hk)
    refine re_inj q1 ht ?_
    rw [q2, ht']
    simp
  refine Agree.of_denotes (gradeExtractAs_denotes p2 hS (by norm_num)) (fromScalar_denotes hS _) fun i hi' => ?_
  by_cases h : i = 0
  · subst h
    show (if countOnes 0 = 0 then p.val 0 else 0) = single 0 _ 0
    rw [if_pos (by decide), key, single, if_pos rfl]
  · show (if countOnes i = 0 then p.val i else 0) = single 0 _ i
    rw [single, if_neg h, if_neg]
    rw [countOnes_eq_cnt hi']
    intro hc
    have : i ∈ comb 0 A.dim := mem_comb.mpr ⟨hi', hc⟩
    rw [comb] at this
    exact h (by simpa using this)

end

/-- The same for `f64` as the test writes it: `binomial(dim, k) as f64` on the right, any `dim ≤ 56`. -/
theorem C87_binomial_f64 {A : ClAlg} {S : Type} [CoeffStorage S F64] [LawfulStorage S F64] (hA : A.WF) (hi : A.imagMask = 0)
    (hp : A.projMask = 0) (hS : LawfulStorage.Supp (S := S) (T := F64) A.dim) (hd : A.dim ≤ 56) (k : Nat) :
    (do let b ← fromIndexedIter (A := A) (S := S) ((gradeIterList A.dim k).map fun idx => (idx, (1 : F64)))
        let r ← b.rev; let p ← r.naiveMulImpl b; p.gradeExtract 0) ≈ᵣ fromScalar (Flt.ofRat (A.dim.choose k : ℚ) : F64) := by
  have h1 : A.dim.choose k ≤ 2 ^ 53 := by
    have h : A.dim.choose k ≤ Nat.choose 56 28 :=
      (Nat.choose_mono k hd).trans (Nat.choose_le_middle k 56)
    exact h.trans (by decide +kernel)
  have h2 := Flt.ofRat_int (f := .f64) (m := (A.dim.choose k : ℤ)) (by
    rw [Nat.abs_cast]
    show (A.dim.choose k : ℤ) ≤ 2 ^ 53
    exact_mod_cast h1)
  rw [Int.cast_natCast] at h2
  refine C87_binomial_float hA hi hp hS ?_ h2.1 ?_
  · rw [C69_f64.2.2.1]; exact_mod_cast h1
  · show (((Flt.ofRat (A.dim.choose k : ℚ) : F64).toRat : ℚ) : ℝ) = _
    rw [h2.2]; simp

/-- The test itself. -/
example [HashOrder F64] := C87_binomial_f64 (A := Ex.Cl20) (S := SparseStorage F64) Ex.Cl20_wf (by decide) (by decide)
  (by show (20 : Nat) ≤ 63; omega) (by decide) 2

/-- Dense storage in three dimensions. -/
example := C87_binomial_f64 (A := Ex.E) (S := ArrayStorage F64) Ex.E_wf (by decide) (by decide) (by show (3 : Nat) ≤ 63; omega) (by decide) 2

end TClifford
