import Verif.Props.PgaMotion
import Verif.Props.Center
/-
C89, the excluded case: the plane at infinity is not a mirror, `h * p * h` is zero.
-/

set_option linter.unusedSectionVars false

namespace TClifford

open MV Finset

namespace GA
variable {σ : Nat → ℤ} {n : Nat} {T : Type} [CommRing T]

/-- A generator that squares to zero annihilates everything when it stands on both sides. -/
theorem null_sandwich {p : Nat} (hp : p < n) (h0 : σ p = 0) (g : GA σ n T) : e p * g * e p = 0 := by
  have h2 : (2 ^ p : Nat) < 2 ^ n := Nat.pow_lt_pow_right (by norm_num) hp
  have key : ∀ i < 2 ^ n, (e p * bl i * e p : GA σ n T) = 0 := by
    intro i hi
    have h1 : (bl i * e p : GA σ n T) = ((sg (par n (2 ^ p) && par n i) : ℤ) : T) • (e p * bl i) := by
      have ht := bsgn_null_twist σ (n := n) (K := 2 ^ p) (fun q hq hb => by
        rw [Nat.testBit_two_pow, decide_eq_true_eq] at hb
        exact hb ▸ h0) i
      have hs : sg (par n (2 ^ p) && par n i) * sg (par n (2 ^ p) && par n i) = 1 := by
        rcases sg_cases (par n (2 ^ p) && par n i) with h | h <;> rw [h] <;> norm_num
      show (bl i * bl (2 ^ p) : GA σ n T) = _ • (bl (2 ^ p) * bl i)
      rw [bl_mul_bl hi, bl_mul_bl h2, smul_smul, ← Int.cast_mul, ht, ← mul_assoc, hs, one_mul, Nat.xor_comm]
    rw [mul_assoc, h1, mul_smul_comm, ← mul_assoc, e_sq hp, h0, Int.cast_zero, zero_smul, zero_mul, smul_zero]
  have hg : g = ∑ i ∈ range (2 ^ n), g.fn i • bl i := (of_fn g).symm.trans (of_eq_sum g.fn)
  conv_lhs => rw [hg, mul_sum, sum_mul]
  refine sum_eq_zero fun i hi => ?_
  rw [mul_smul_comm, smul_mul_assoc, key i (mem_range.mp hi), smul_zero]

end GA

section
variable {sig : List Sym} {names : List String} {A : ClAlg} {d : Nat} {S : Type} [DecidableEq ℝ] [CoeffStorage S ℝ]
  [LawfulStorage S ℝ]

/-- **C89, the plane at infinity.** If only the last coefficient of the equation is not zero, `h * p * h` is zero for every
multivector `p`, and no point can be extracted from it. -/
theorem C89_infinity (hA : declareAlgebra sig names = some A) (hp : implPga sig = some d) (hd : 0 < d)
    (hS : LawfulStorage.Supp (S := S) (T := ℝ) A.dim) {c : List ℝ} (hl : c.length = d + 1) (h0 : ∀ k < d, c.getD k 0 = 0) (h1 : c.getD d 0 ≠ 0)
    {p : MV A S} (hpv : p.Valid) :
    ∃ q, (do let h ← pgaHyperplane c; let q ← h.naiveMulImpl p; q.naiveMulImpl h) = .ok q ∧ (∀ i < 2 ^ A.dim, q.getByIdx i = .ok 0) ∧
      q.pgaExtractPoint d = .error .nonFinite := by
  have hP := isPga hA hp
  have hdn : d < A.dim := by rw [hP.dim]; omega
  have hne : ∃ t ∈ c, t ≠ 0 := by
    rw [List.getD_eq_getElem _ _ (by omega)] at h1
    exact ⟨_, List.getElem_mem _, h1⟩
  obtain ⟨h, hh, hhv, hhg⟩ := (is_hyperplane (S := S) hP hS hl hne).ok
  obtain ⟨q, hq, hqv, hqg⟩ := (is_mul hP.wf hhv hpv).ok
  obtain ⟨w, hw, hwv, hwg⟩ := (is_mul hP.wf hqv hhv).ok
  have hv : (GA.vec (fun k => c.getD k 0) : GA A.sigma A.dim ℝ) = c.getD d 0 • GA.e d := by
    unfold GA.vec
    refine sum_eq_single_of_mem d (mem_range.mpr hdn) fun k hk hkd => ?_
    rw [mem_range, hP.dim] at hk
    beta_reduce
    rw [h0 k (by omega), zero_smul]
  have hz : w.ga = 0 := by
    rw [hwg, hqg, hhg, hv]
    simp only [smul_mul_assoc, mul_smul_comm, GA.null_sandwich hdn hP.null, smul_zero]
  refine ⟨w, ?_, fun i hi => ?_, ?_⟩
  · rw [hh]
    show (h.naiveMulImpl p >>= fun q => _) = _
    rw [hq]
    exact hw
  · rw [hwv.get hi, ← MV.ga_val hi, hz, GA.fn_zero]
  · obtain ⟨s, hs, hsv, hsg⟩ := (MV.is_dual hP.wf hwv).ok
    have hval : ∀ k ≤ d, s.getByIdx (2 ^ k) = .ok 0 := by
      intro k hk
      have hlt : 2 ^ k < 2 ^ A.dim := GA.two_pow_lt (by rw [hP.dim]; omega)
      rw [hsv.get hlt, ← MV.ga_val hlt, hsg, hz, map_zero, GA.fn_zero]
    have hd6 := LawfulStorage.supp_le hwv.supp
    rw [hP.dim] at hd6
    unfold pgaExtractPoint
    rw [hs]
    show (s.getByIdx A.projMask >>= fun scale => _) = _
    rw [hP.mask, hval d le_rfl]
    show (List.range d).mapM (m := Res) _ = _
    obtain ⟨m, rfl⟩ : ∃ m, d = m + 1 := ⟨d - 1, by omega⟩
    rw [List.range_succ_eq_map, List.mapM_cons]
    have : ushl 1 0 = 2 ^ 0 := by decide
    rw [this, hval 0 (by omega)]
    show (fdiv (0 : ℝ) 0 >>= _) = _
    unfold fdiv
    rw [if_pos rfl]
    rfl

end

open Ex in
example : ∃ p q : MV P3 PD, PointOf [3, 3, 3] p ∧ (do let h ← pgaHyperplane [0, 0, 0, 2]; let q ← h.naiveMulImpl p; q.naiveMulImpl h) = .ok q ∧
    q.pgaExtractPoint 3 = .error .nonFinite := by
  obtain ⟨p, hp⟩ := P3_point [3, 3, 3] rfl ⟨3, by simp, by norm_num⟩
  obtain ⟨q, h1, -, h2⟩ := C89_infinity P3_decl P3_pga (by norm_num) P3_supp (c := [0, 0, 0, 2]) rfl
    (fun k hk => by interval_cases k <;> rfl) (by norm_num) (hp.ga (isPga P3_decl P3_pga) P3_supp rfl).1
  exact ⟨p, q, hp, h1, h2⟩

end TClifford
