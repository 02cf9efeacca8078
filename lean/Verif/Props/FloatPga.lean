import Verif.Proofs.FloatPgaMV
import Verif.Props.PgaIncidence
import Mathlib.Algebra.BigOperators.Field
/-
C97: points, hyperplanes and translations of src/pga.rs with doubles.
-/

set_option linter.unusedSectionVars false

namespace TClifford

open Finset FloatModel MV

section
variable {sig : List Sym} {names : List String} {A : ClAlg} {d : Nat} {S : Type} [CoeffStorage S F64] [LawfulStorage S F64]

/-! ### The multivectors -/

theorem f64_one : FloatModel.fin (1 : F64) ∧ re (1 : F64) = 1 := ⟨fin_one, re_one⟩

theorem sdivG_fl {a : MV A S} (ha : a.Valid) {t : F64} (ht : fin t) (h0 : re t ≠ 0) : Denotes (a.sdivG t) (fun i => a.val i / t) := by
  have h : t ≠ 0 := fun h => h0 (by rw [h, re_zero])
  rw [sdivG_eq h]
  exact sdiv_fl ha ht h

theorem pgaPointG_fl (hP : IsPga A d) (hS : LawfulStorage.Supp (S := S) (T := F64) A.dim) {x : List F64} (hx : x.length = d)
    (hm : fin (euclMagG Flt.sqrt x)) (h0 : re (euclMagG Flt.sqrt x) ≠ 0) :
    ∃ p : MV A S, pgaPointG Flt.sqrt x = .ok p ∧ p.Valid ∧
      (∀ i < 2 ^ A.dim, (∀ k ≤ d, i ≠ 2 ^ k ^^^ (2 ^ A.dim - 1)) → p.val i = 0) ∧
      ∀ k ≤ d, pc p k = sgnC (dsg A.dim k) ((x ++ [1]).getD k 0) / euclMagG Flt.sqrt x := by
  have hd := LawfulStorage.supp_le hS
  have hdim := hP.dim
  obtain ⟨v, hv, hvv, hvf⟩ := fromVector_denotes (A := A) (S := S) hS (l := x ++ [1]) (by simp [hx, hdim])
  obtain ⟨q, hq, hqv, hqf⟩ := dual_fl hP.wf hvv
  obtain ⟨p, hp, hpv, hpf⟩ := sdivG_fl hqv hm h0
  beta_reduce at hqf hpf
  refine ⟨p, ?_, hpv, ?_, ?_⟩
  · unfold pgaPointG
    dsimp only
    rw [hv]
    show (v.dual >>= fun p => _) = _
    rw [hq]
    exact hp
  · intro i hi hne
    rw [hpf i hi, hqf i hi, hvf _ (xor_mask_lt hi)]
    have : vecF (x ++ [1]) (i ^^^ (2 ^ A.dim - 1)) = 0 := by
      unfold vecF
      rw [if_neg]
      intro hc
      obtain ⟨k, hk, he⟩ := eq_two_pow_of_countOnes (xor_mask_lt hi) hc
      refine hne k (by omega) ?_
      rw [← he, MV.xor_mask_xor_mask]
    rw [this, sgnC_zero]
    exact FloatModel.zero_div hm (fun h => h0 (by rw [h, re_zero]))
  · intro k hk
    have hlt : 2 ^ k ^^^ (2 ^ A.dim - 1) < 2 ^ A.dim := xor_mask_lt (GA.two_pow_lt (by omega))
    unfold pc
    rw [hpf _ hlt, hqf _ hlt, MV.xor_mask_xor_mask, hvf _ (GA.two_pow_lt (by omega)), vecF_two_pow _ (by omega)]
    rfl

theorem extractG_fl (hP : IsPga A d) {a : MV A S} (ha : a.Valid) : a.pgaExtractPointG d = .ok ((List.range d).map fun k =>
    sgnC (GA.csg A.dim * dsg A.dim k) (pc a k) / sgnC (GA.csg A.dim * dsg A.dim d) (pc a d)) := by
  have hd := LawfulStorage.supp_le ha.supp
  rw [hP.dim] at hd
  obtain ⟨s, hs, hsv, hsf⟩ := dual_fl hP.wf ha
  beta_reduce at hsf
  have hval : ∀ k ≤ d, s.getByIdx (2 ^ k) = .ok (sgnC (GA.csg A.dim * dsg A.dim k) (pc a k)) := by
    intro k hk
    have hlt : 2 ^ k < 2 ^ A.dim := GA.two_pow_lt (by rw [hP.dim]; omega)
    rw [hsv.get hlt, hsf _ hlt, GA.bsgn_compl_comm (by rw [hP.dim]; omega)]
    rfl
  unfold pgaExtractPointG
  rw [hs]
  show (s.getByIdx A.projMask >>= fun scale => _) = _
  rw [hP.mask, hval d le_rfl]
  show (List.range d).mapM (m := Res) _ = _
  have : ∀ l : List Nat, (∀ k ∈ l, k < d) → l.mapM (m := Res) (fun n => do
      return (← s.getByIdx (ushl 1 n)) / sgnC (GA.csg A.dim * dsg A.dim d) (pc a d)) = .ok (l.map fun k =>
        sgnC (GA.csg A.dim * dsg A.dim k) (pc a k) / sgnC (GA.csg A.dim * dsg A.dim d) (pc a d)) := by
    intro l
    induction l with
    | nil => intro _; rfl
    | cons k l ih =>
      intro h
      have hk := h k (by simp)
      rw [List.mapM_cons, ih (fun j hj => h j (by simp [hj])), ushl_one (by omega), hval k (by omega)]
      rfl
  exact this _ (fun k hk => List.mem_range.mp hk)

theorem csg_dsg_unit (n k : Nat) : GA.csg n * dsg n k = 1 ∨ GA.csg n * dsg n k = -1 := by
  rcases csg_unit n with h | h <;> rcases dsg_unit n k with g | g <;> rw [h, g] <;> simp

/-- The numbers divided by `pga_extract_point`. -/
theorem extract_parts {a : MV A S} {k : Nat} (hf : FloatModel.fin (pc a k)) :
    FloatModel.fin (sgnC (GA.csg A.dim * dsg A.dim k) (pc a k)) ∧
    re (sgnC (GA.csg A.dim * dsg A.dim k) (pc a k)) = GA.csg A.dim * nc a k := by
  refine ⟨fin_sgnC _ hf, ?_⟩
  rw [re_sgnC (csg_dsg_unit _ _) hf]
  unfold nc
  push_cast; ring

theorem csg_ne (n : Nat) : (GA.csg n : ℝ) ≠ 0 := by
  rcases csg_unit n with h | h <;> rw [h] <;> simp

theorem rsg_bivector (hP : IsPga A d) {k : Nat} (hk : k < d) : rsg A.dim (2 ^ d ||| 2 ^ k) = -1 := by
  have hc : cnt A.dim (2 ^ d ||| 2 ^ k) = 2 := by
    rw [hP.dim, cnt_succ, Nat.testBit_or, Nat.testBit_two_pow_self, Bool.true_or]
    have : cnt d (2 ^ d ||| 2 ^ k) = cnt d (2 ^ k) := by
      refine cnt_congr fun i hi => ?_
      rw [Nat.testBit_or, Nat.testBit_two_pow]
      have : d ≠ i := by omega
      simp [this]
    rw [this, cnt_two_pow hk]; rfl
  rw [rsg_eq, hc]; decide

/-- The reverse of a translation. -/
theorem IsT.rev (hP : IsPga A d) {h : Nat → F64} {t : MV A S} (hT : IsT d h t) :
    ∃ r, t.rev = .ok r ∧ IsT d (fun k => -h k) r := by
  obtain ⟨r, hr, hrv, hrf⟩ := rev_fl hT.valid
  beta_reduce at hrf
  refine ⟨r, hr, hrv, ?_, ?_, ?_, fun k hk => (neg_ok (hT.fin k hk)).1⟩
  · rw [hrf 0 (Nat.two_pow_pos _), hT.one, rsg_eq, cnt_zero]
    unfold sgnC
    rw [if_neg (by decide)]
  · intro k hk
    rw [hrf _ (by rw [hP.dim]; exact or_two_pow_lt (by omega)), hT.bi k hk, rsg_bivector hP hk]
    unfold sgnC
    rw [if_pos rfl]
  · intro i hi h0 hne
    rw [hrf i hi, hT.zero i hi h0 hne, sgnC_zero]

theorem trans_listG (v : List F64) (d : Nat) (h : v.length ≤ 64) :
    v.zipIdx.map (fun p => (2 ^ d ||| ushl 1 p.2, p.1 / (1 + 1))) =
    (List.range v.length).map (fun k => (2 ^ d ||| 2 ^ k, v.getD k 0 / (1 + 1))) := by
  apply List.ext_getElem
  · simp
  · intro i h1 h2
    have hi : i < v.length := by simpa using h2
    simp only [List.getElem_map, List.getElem_zipIdx, List.getElem_range, Nat.zero_add]
    rw [ushl_one (by omega)]
    simp [hi]

theorem f64_two : FloatModel.fin (1 + 1 : F64) ∧ re (1 + 1 : F64) = 2 := by
  have := add_int (F := F64) (x := 1) (y := 1) (m := 1) (n := 1) fin_one fin_one (by rw [re_one]; simp) (by rw [re_one]; simp) (by
    rw [C69_f64.2.2.1]; norm_num)
  refine ⟨this.1, this.2.trans ?_⟩
  norm_num

theorem pgaTranslationG_fl (hP : IsPga A d) (hS : LawfulStorage.Supp (S := S) (T := F64) A.dim) {v : List F64} (hv : v.length = d)
    (hf : ∀ k < d, FloatModel.fin (v.getD k 0 / (1 + 1))) :
    ∃ t : MV A S, pgaTranslationG v = .ok t ∧ IsT d (fun k => v.getD k 0 / (1 + 1)) t := by
  have hd := LawfulStorage.supp_le hS
  rw [hP.dim] at hd
  unfold pgaTranslationG
  rw [hP.mask]
  dsimp only
  rw [trans_listG v d (by omega)]
  have hlt : ∀ k < d, 2 ^ d ||| 2 ^ k < 2 ^ A.dim := fun k hk => by rw [hP.dim]; exact or_two_pow_lt (by omega)
  set g : Nat → F64 := fun i => if h : ∃ k < d, i = 2 ^ d ||| 2 ^ k then v.getD h.choose 0 / (1 + 1) else 0 with hg
  have hgk : ∀ k < d, g (2 ^ d ||| 2 ^ k) = v.getD k 0 / (1 + 1) := by
    intro k hk
    have hex : ∃ j < d, 2 ^ d ||| 2 ^ k = 2 ^ d ||| 2 ^ j := ⟨k, hk, rfl⟩
    have h2 : hex.choose = k := (or_two_pow_inj (by omega) (by have := hex.choose_spec.1; omega) hex.choose_spec.2).symm
    rw [hg]
    dsimp only
    rw [dif_pos hex, h2]
  have henum : Enumerates A.dim ((List.range v.length).map (fun k => (2 ^ d ||| 2 ^ k, v.getD k 0 / (1 + 1)))) g := by
    refine ⟨?_, ?_, ?_⟩
    · rw [List.map_map]
      refine List.Nodup.map_on ?_ List.nodup_range
      intro j hj k hk h
      rw [List.mem_range] at hj hk
      exact or_two_pow_inj (by omega) (by omega) h
    · intro p hp
      rw [List.mem_map] at hp
      obtain ⟨k, hk, rfl⟩ := hp
      rw [List.mem_range] at hk
      exact ⟨hlt k (by omega), (hgk k (by omega)).symm⟩
    · intro i hi hne
      have hex : ∃ k < d, i = 2 ^ d ||| 2 ^ k := by
        by_contra hc
        exact hne (by rw [hg]; dsimp only; rw [dif_neg hc])
      obtain ⟨k, hk, rfl⟩ := hex
      rw [List.mem_map]
      exact ⟨k, List.mem_range.mpr (by omega), by rw [hgk k hk]⟩
  obtain ⟨u, hu, huv, huf⟩ := fromIndexedIter_enum hS henum
  rw [hu]
  have hpos : 0 < 2 ^ A.dim := Nat.two_pow_pos _
  have hTne : ∀ k < d, 2 ^ d ||| 2 ^ k ≠ 0 := fun k hk h => by
    have := Nat.left_le_or (m := 2 ^ k) (n := 2 ^ d)
    have := Nat.two_pow_pos d
    omega
  refine ⟨_, rfl, huv.set 0 1, ?_, ?_, ?_, hf⟩
  · rw [huv.set_val hpos, if_pos rfl]
  · intro k hk
    rw [huv.set_val hpos, if_neg (hTne k hk), huf _ (hlt k hk), hgk k hk]
  · intro i hi h0 hne
    rw [huv.set_val hpos, if_neg h0, huf i hi, hg]
    dsimp only
    rw [dif_neg]
    rintro ⟨k, hk, h⟩
    exact hne k hk h

/-! ### Errors -/

theorem quot_near {a w x B α β : ℝ} (ha : |a - x| ≤ α * B) (hw : |w - 1| ≤ β) (hx : |x| ≤ B) (hβ : β ≤ 1 / 4) :
    |a / w - x| * (1 - β) ≤ (α + β) * B := by
  obtain ⟨w1, w2⟩ := abs_le.mp hw
  have hw0 : 0 < w := by linarith
  have hB : 0 ≤ B := (abs_nonneg _).trans hx
  have e : (a / w - x) * w = (a - x) - x * (w - 1) := by field_simp; ring
  have h1 : |a / w - x| * w ≤ α * B + B * β := by
    calc |a / w - x| * w = |(a / w - x) * w| := by rw [abs_mul, abs_of_pos hw0]
      _ = |(a - x) - x * (w - 1)| := by rw [e]
      _ ≤ |a - x| + |x * (w - 1)| := abs_sub _ _
      _ ≤ α * B + B * β := by
        refine add_le_add ha ?_
        rw [abs_mul]
        exact mul_le_mul hx hw (abs_nonneg _) hB
  have h2 : |a / w - x| * (1 - β) ≤ |a / w - x| * w := mul_le_mul_of_nonneg_left (by linarith) (abs_nonneg _)
  linarith

/-- The length of the vector is far from underflow and overflow. -/
theorem mag_bounds {l : List F64} (hl : ∀ c ∈ l, Moderate c) (hn : l.length ≤ 64) (hne : ∃ c ∈ l, re c ≠ 0) :
    fin (euclMagG Flt.sqrt l) ∧ 1 / 2 ^ 481 ≤ re (euclMagG Flt.sqrt l) ∧ re (euclMagG Flt.sqrt l) ≤ 2 ^ 484 := by
  obtain ⟨h1, h2, h3, h4, h5⟩ := mag_ok hl hn hne
  obtain ⟨p1, p2⟩ := pow_ρ (k := l.length + 2) (by omega)
  refine ⟨h1, le_trans ?_ h2, h3.trans ?_⟩
  · calc (1 : ℝ) / 2 ^ 481 = 1 / 2 * (1 / 2 ^ 480) := by rw [div_mul_div_comm, one_mul, ← pow_succ']
      _ ≤ _ := mul_le_mul p2 h4 (by positivity) (le_trans (by norm_num) p2)
  · calc _ ≤ 2 * (2 : ℝ) ^ 483 := mul_le_mul p1 h5 (Real.sqrt_nonneg _) (by norm_num)
      _ = 2 ^ 484 := by rw [← pow_succ']

theorem getD_moderate {l : List F64} (hl : ∀ c ∈ l, Moderate c) (k : Nat) : Moderate (l.getD k 0) := by
  by_cases hk : k < l.length
  · rw [List.getD_eq_getElem _ _ hk]; exact hl _ (List.getElem_mem hk)
  · rw [List.getD_eq_default _ _ (by omega)]; exact ⟨fin_zero, Or.inl re_zero⟩

theorem one_moderate : Moderate (1 : F64) := by
  refine ⟨fin_one, Or.inr ?_⟩
  rw [re_one, abs_one]
  exact ⟨by rw [div_le_one (by positivity)]; exact one_le_pow₀ (by norm_num), one_le_pow₀ (by norm_num)⟩

/-- A moderate number over the length. -/
theorem div_mag {x g : F64} (hx : Moderate x) (hg : fin g) (h1 : 1 / 2 ^ 481 ≤ re g) (h2 : re g ≤ 2 ^ 484) {c : ℤ} (hc : c = 1 ∨ c = -1) :
    fin (sgnC c x / g) ∧ |c * re (sgnC c x / g) * re g - re x| ≤ ρ * |re x| := by
  have hg0 : 0 < re g := lt_of_lt_of_le (by positivity) h1
  have hcc : (c : ℝ) * c = 1 := by rcases hc with h | h <;> rw [h] <;> simp
  have hca : |(c : ℝ)| = 1 := by rcases hc with h | h <;> rw [h] <;> simp
  have hrs := re_sgnC hc hx.1
  have habs : |re (sgnC c x) / re g| = |re x| / re g := by rw [hrs, abs_div, abs_mul, hca, one_mul, abs_of_pos hg0]
  obtain ⟨r1, r2⟩ := F64.div_rel (fin_sgnC c hx.1) hg hg0.ne' (by
    rcases hx.2 with h | ⟨h, -⟩
    · left; rw [hrs, h, MulZeroClass.mul_zero]
    · right
      rw [habs, le_div_iff₀ hg0]
      calc 1 / 2 ^ 1000 * re g ≤ 1 / 2 ^ 1000 * 2 ^ 484 := mul_le_mul_of_nonneg_left h2 (by positivity)
        _ ≤ 1 / 2 ^ 480 := by
          rw [div_mul_eq_mul_div, one_mul, div_le_div_iff₀ (by positivity) (by positivity), one_mul, ← pow_add]
          exact pow_le_pow_right₀ (by norm_num) (by norm_num)
        _ ≤ _ := h) (by
    rw [habs, div_le_iff₀ hg0]
    calc |re x| ≤ 2 ^ 480 := hx.le
      _ ≤ 2 ^ 1000 * (1 / 2 ^ 481) := by
        rw [mul_one_div, le_div_iff₀ (by positivity), ← pow_add]
        exact pow_le_pow_right₀ (by norm_num) (by norm_num)
      _ ≤ _ := mul_le_mul_of_nonneg_left h1 (by positivity))
  refine ⟨r1, ?_⟩
  rw [habs, hrs] at r2
  have h3 := mul_le_mul_of_nonneg_right r2 hg0.le
  rw [mul_assoc, div_mul_cancel₀ _ hg0.ne'] at h3
  refine le_trans (le_of_eq ?_) h3
  rw [← abs_of_pos hg0, ← abs_mul, abs_of_pos hg0, ← one_mul |_ * re g|, ← hca, ← abs_mul]
  congr 1
  rw [sub_mul, mul_sub, div_mul_cancel₀ _ hg0.ne', ← mul_assoc, ← mul_assoc, hcc, one_mul]

/-- The multivector of a point. -/
theorem pgaPointG_near (hP : IsPga A d) (hS : LawfulStorage.Supp (S := S) (T := F64) A.dim) {x : List F64} (hx : x.length = d)
    (hm : ∀ c ∈ x, Moderate c) (h0 : ∃ c ∈ x, re c ≠ 0) :
    ∃ (p : MV A S) (m : ℝ), pgaPointG Flt.sqrt x = .ok p ∧ IsDp d p ∧ 1 / 2 ^ 481 ≤ m ∧ m ≤ 2 ^ 484 ∧
      (∀ k < d, |nc p k * m - re (x.getD k 0)| ≤ ρ * |re (x.getD k 0)|) ∧ |nc p d * m - 1| ≤ ρ := by
  have hd := LawfulStorage.supp_le hS
  rw [hP.dim] at hd
  obtain ⟨m1, m2, m3⟩ := mag_bounds hm (by omega) h0
  have hm0 : 0 < re (euclMagG Flt.sqrt x) := lt_of_lt_of_le (by positivity) m2
  obtain ⟨p, hp, hpv, hpz, hpc⟩ := pgaPointG_fl (S := S) hP hS hx m1 hm0.ne'
  have hmod : ∀ k ≤ d, Moderate ((x ++ [1]).getD k 0) := fun k hk => getD_moderate (by
    intro c hc
    rcases List.mem_append.mp hc with h | h
    · exact hm c h
    · rw [List.mem_singleton.mp h]; exact one_moderate) k
  have key : ∀ k ≤ d, FloatModel.fin (pc p k) ∧ |nc p k * re (euclMagG Flt.sqrt x) - re ((x ++ [1]).getD k 0)| ≤ ρ * |re ((x ++ [1]).getD k 0)| := by
    intro k hk
    have := div_mag (hmod k hk) m1 m2 m3 (dsg_unit A.dim k)
    rw [← hpc k hk] at this
    exact this
  refine ⟨p, re (euclMagG Flt.sqrt x), hp, ⟨hpv, hpz, fun k hk => (key k hk).1⟩, m2, m3, ?_, ?_⟩
  · intro k hk
    have := (key k (by omega)).2
    rw [List.getD_append _ _ _ _ (by omega)] at this
    exact this
  · have := (key d le_rfl).2
    have e : (x ++ [1]).getD d 0 = 1 := by rw [List.getD_append_right _ _ _ _ (by omega), hx]; simp
    rw [e, re_one, abs_one, mul_one] at this
    exact this

/-- **C97.** With doubles, `pga_extract_point(pga_point(x))` returns every coordinate of `x` up to a relative error of at most
`4 · 2⁻⁵³`, in every dimension and every storage, if the coordinates are zero or between `2⁻⁴⁸⁰` and `2⁴⁸⁰` in absolute value
and not all zero. -/
theorem C97_roundtrip (hA : declareAlgebra sig names = some A) (hp : implPga sig = some d)
    (hS : LawfulStorage.Supp (S := S) (T := F64) A.dim) {x : List F64} (hx : x.length = d)
    (hm : ∀ c ∈ x, Moderate c) (h0 : ∃ c ∈ x, re c ≠ 0) :
    ∃ (p : MV A S) (y : List F64), pgaPointG Flt.sqrt x = .ok p ∧ p.Valid ∧ p.pgaExtractPointG d = .ok y ∧ y.length = d ∧
      ∀ k < d, fin (y.getD k 0) ∧ |re (y.getD k 0) - re (x.getD k 0)| ≤ 4 / 2 ^ 53 * |re (x.getD k 0)| := by
  have hP := isPga hA hp
  obtain ⟨p, m, hp, hD, m1, m2, hk, hw⟩ := pgaPointG_near (S := S) hP hS hx hm h0
  have hm0 : 0 < m := lt_of_lt_of_le (by positivity) m1
  refine ⟨p, _, hp, hD.valid, extractG_fl hP hD.valid, by simp, fun k hkd => ?_⟩
  rw [List.getD_eq_getElem _ _ (by simpa using hkd), List.getElem_map, List.getElem_range]
  obtain ⟨a1, a2⟩ := extract_parts (hD.fin k (by omega))
  obtain ⟨b1, b2⟩ := extract_parts (hD.fin d le_rfl)
  have hρ0 := ρ_pos
  have hρ : ρ ≤ 1 / 4 := ρ_small.trans (by norm_num)
  have hX := getD_moderate hm k
  set X := re (x.getD k 0)
  set a := nc p k * m with ha
  set w := nc p d * m with hw'
  obtain ⟨w1, w2⟩ := abs_le.mp hw
  have hw0 : 0 < w := by linarith
  have hndz : nc p d ≠ 0 := fun h => by rw [hw', h, MulZeroClass.zero_mul] at hw0; exact lt_irrefl _ hw0
  have hq : re (sgnC (GA.csg A.dim * dsg A.dim k) (pc p k)) / re (sgnC (GA.csg A.dim * dsg A.dim d) (pc p d)) = a / w := by
    rw [a2, b2, mul_div_mul_left _ _ (csg_ne _), ha, hw', mul_div_mul_right _ _ hm0.ne']
  have hnear := quot_near (hk k hkd) hw le_rfl hρ
  have hX0 : 0 ≤ |X| := abs_nonneg _
  have hqn : |a / w - X| ≤ 3 * ρ * |X| := by
    have h1 : 3 * ρ * |X| * (1 - ρ) ≥ (ρ + ρ) * |X| := by nlinarith [mul_nonneg hρ0.le hX0]
    exact le_of_mul_le_mul_right (hnear.trans h1) (by linarith)
  have hqX : |a / w| ≤ 2 * |X| := by
    have := abs_sub_abs_le_abs_sub (a / w) X
    nlinarith [mul_nonneg hρ0.le hX0]
  have hqX' : |X| / 4 ≤ |a / w| := by
    have := abs_sub_abs_le_abs_sub X (a / w)
    rw [abs_sub_comm] at this
    have h4 : ρ ≤ 1 / 8 := ρ_small.trans (by norm_num)
    nlinarith [mul_nonneg hρ0.le hX0]
  obtain ⟨y1, y2⟩ := F64.div_rel a1 b1 (by rw [b2]; exact mul_ne_zero (csg_ne _) hndz) (by
    rw [hq]
    rcases hX.2 with h | ⟨h, -⟩
    · left
      have hX' : X = 0 := h
      have : a = 0 := by
        have := hk k hkd
        rw [← ha] at this
        rw [h, abs_zero, MulZeroClass.mul_zero] at this
        have := abs_nonpos_iff.mp this
        linarith
      rw [a2]
      rcases mul_eq_zero.mp this with h | h
      · rw [h, MulZeroClass.mul_zero]
      · exact absurd h hm0.ne'
    · right
      refine le_trans ?_ hqX'
      rw [le_div_iff₀ (by norm_num)]
      refine le_trans ?_ h
      rw [div_mul_eq_mul_div, one_mul, div_le_div_iff₀ (by positivity) (by positivity), one_mul]
      calc (4 : ℝ) * 2 ^ 480 = 2 ^ 482 := by rw [show (4 : ℝ) = 2 ^ 2 by norm_num, ← pow_add]
        _ ≤ 2 ^ 1000 := pow_le_pow_right₀ (by norm_num) (by norm_num)) (by
    rw [hq]
    refine hqX.trans ?_
    calc 2 * |X| ≤ 2 * 2 ^ 480 := mul_le_mul_of_nonneg_left hX.le (by norm_num)
      _ = 2 ^ 481 := by rw [← pow_succ']
      _ ≤ 2 ^ 1000 := pow_le_pow_right₀ (by norm_num) (by norm_num))
  refine ⟨y1, ?_⟩
  rw [hq] at y2
  have h5 : ρ * |a / w| + |a / w - X| ≤ 4 / 2 ^ 53 * |X| := by
    have h6 : |a / w| ≤ (1 + 3 * ρ) * |X| := by
      have := abs_sub_abs_le_abs_sub (a / w) X
      linarith
    have h7 : |a / w - X| ≤ (ρ + ρ) * (1 + 2 * ρ) * |X| := by
      have h1 : (ρ + ρ) * (1 + 2 * ρ) * |X| * (1 - ρ) ≥ (ρ + ρ) * |X| := by
        have : (1 + 2 * ρ) * (1 - ρ) ≥ 1 := by nlinarith
        nlinarith [mul_nonneg hρ0.le hX0]
      exact le_of_mul_le_mul_right (hnear.trans h1) (by linarith)
    have h8 : ρ * |a / w| ≤ ρ * ((1 + 3 * ρ) * |X|) := mul_le_mul_of_nonneg_left h6 hρ0.le
    have h9 : ρ * (1 + 3 * ρ) + (ρ + ρ) * (1 + 2 * ρ) ≤ 4 / 2 ^ 53 := by unfold ρ; norm_num
    calc _ ≤ ρ * ((1 + 3 * ρ) * |X|) + (ρ + ρ) * (1 + 2 * ρ) * |X| := add_le_add h8 h7
      _ = (ρ * (1 + 3 * ρ) + (ρ + ρ) * (1 + 2 * ρ)) * |X| := by ring
      _ ≤ _ := mul_le_mul_of_nonneg_right h9 hX0
  exact (abs_sub_le _ (a / w) _).trans ((add_le_add_left y2 _).trans h5)

/-- Errors of `t.rev() * p * t`, in units of the scale of `p`. -/
theorem trans_num {x v p q h r w s z : ℝ} (hp : |p - x| ≤ ρ * |x|) (hq : |q - 1| ≤ ρ) (hh : |h - v / 2| ≤ ρ * |v / 2|)
    (hr : |r - (p + h * q)| ≤ 4 * ρ * (|p| + |h * q|)) (hw : |w - q| ≤ 4 * ρ * |q|)
    (hs : |s - (r + h * w)| ≤ 4 * ρ * (|r| + |h * w|)) (hz : |z - w| ≤ 4 * ρ * |w|) :
    (|x| + |v|) / 10 ≤ |p| + |h * q| ∧ |p| + |h * q| ≤ 2 * (|x| + |v|) ∧
    (|x| + |v|) / 10 ≤ |r| + |h * w| ∧ |r| + |h * w| ≤ 2 * (|x| + |v|) ∧
    |w - 1| ≤ 6 * ρ ∧ |s - (x + v)| ≤ 13 * ρ * (|x| + |v|) ∧ |z - 1| ≤ 10 * ρ := by
  have hρ0 := ρ_pos
  have hρ : ρ ≤ 1 / 10000 := ρ_small.trans (by norm_num)
  have X0 := abs_nonneg x
  have V0 := abs_nonneg v
  rw [abs_div, abs_of_pos (show (0 : ℝ) < 2 by norm_num)] at hh
  have tri : ∀ a b e : ℝ, |a - b| ≤ e → |a| ≤ |b| + e := fun a b e h => by
    have := abs_sub_abs_le_abs_sub a b
    linarith
  have tri' : ∀ a b e : ℝ, |a - b| ≤ e → |b| - e ≤ |a| := fun a b e h => by
    have := abs_sub_abs_le_abs_sub b a
    rw [abs_sub_comm] at this
    linarith
  have ρX : ρ * |x| ≤ 1 / 10000 * |x| := mul_le_mul_of_nonneg_right hρ X0
  have ρV : ρ * |v| ≤ 1 / 10000 * |v| := mul_le_mul_of_nonneg_right hρ V0
  have ρX0 : 0 ≤ ρ * |x| := mul_nonneg hρ0.le X0
  have ρV0 : 0 ≤ ρ * |v| := mul_nonneg hρ0.le V0
  -- a factor close to one
  have near : ∀ (y e : ℝ), 0 ≤ e → e ≤ 1 / 100 → |y - 1| ≤ e → |h * y - v / 2| ≤ (ρ * 101 / 200 + e / 2) * |v| := by
    intro y e he0 he hy
    have h1 : h * y - v / 2 = (h - v / 2) * y + v / 2 * (y - 1) := by ring
    have h2 : |y| ≤ 101 / 100 := by
      have := tri y 1 e hy
      rw [abs_one] at this; linarith
    rw [h1]
    refine (abs_add_le _ _).trans ?_
    rw [abs_mul, abs_mul, abs_div, abs_of_pos (show (0 : ℝ) < 2 by norm_num)]
    have h3 : |h - v / 2| * |y| ≤ ρ * (|v| / 2) * (101 / 100) := mul_le_mul hh h2 (abs_nonneg _) (by positivity)
    have h4 : |v| / 2 * |y - 1| ≤ |v| / 2 * e := mul_le_mul_of_nonneg_left hy (by positivity)
    linarith
  have hv2 : |v / 2| = |v| / 2 := by rw [abs_div, abs_of_pos (show (0 : ℝ) < 2 by norm_num)]
  -- the first product
  have q1 := near q ρ hρ0.le (by linarith) hq
  have q2 := tri _ _ _ q1
  have q3 := tri' _ _ _ q1
  have p2 := tri _ _ _ hp
  have p3 := tri' _ _ _ hp
  rw [hv2] at q2 q3
  have a1 : (|x| + |v|) / 10 ≤ |p| + |h * q| := by nlinarith only [q3, p3, ρX, ρV, X0, V0]
  have a2 : |p| + |h * q| ≤ 101 / 100 * |x| + 51 / 100 * |v| := by nlinarith only [q2, p2, ρX, ρV, X0, V0]
  have a3 : 4 * ρ * (|p| + |h * q|) ≤ 4 * ρ * (101 / 100 * |x| + 51 / 100 * |v|) := mul_le_mul_of_nonneg_left a2 (by positivity)
  have r1 : |r - (x + v / 2)| ≤ ρ * (51 / 10 * |x| + 32 / 10 * |v|) := by
    have e : r - (x + v / 2) = (r - (p + h * q)) + (p - x) + (h * q - v / 2) := by ring
    rw [e]
    have := abs_add_three (r - (p + h * q)) (p - x) (h * q - v / 2)
    nlinarith only [this, a3, hr, hp, q1, ρX0, ρV0]
  have qa : |q| ≤ 101 / 100 := by
    have := tri q 1 ρ hq
    rw [abs_one] at this; linarith
  have w1 : |w - 1| ≤ 6 * ρ := by
    have := abs_sub_le w q 1
    have h2 : 4 * ρ * |q| ≤ 4 * ρ * (101 / 100) := mul_le_mul_of_nonneg_left qa (by positivity)
    linarith
  have hw1 := near w (6 * ρ) (by linarith) (by linarith) w1
  have hw2 := tri _ _ _ hw1
  have hw3 := tri' _ _ _ hw1
  rw [hv2] at hw2 hw3
  have rr2 := tri _ _ _ r1
  have rr3 := tri' _ _ _ r1
  have xv : |x + v / 2| ≤ |x| + |v| / 2 := by rw [← hv2]; exact abs_add_le _ _
  have xv' : |x| - |v| / 2 ≤ |x + v / 2| := by
    have := abs_sub_abs_le_abs_sub x (-(v / 2))
    rw [abs_neg, hv2, sub_neg_eq_add] at this
    exact this
  have xv0 := abs_nonneg (x + v / 2)
  have b1 : (|x| + |v|) / 10 ≤ |r| + |h * w| := by nlinarith only [hw3, rr3, xv', xv0, ρX, ρV, X0, V0]
  have b2 : |r| + |h * w| ≤ 101 / 100 * (|x| + |v|) := by nlinarith only [hw2, rr2, xv, ρX, ρV, X0, V0]
  have b3 : 4 * ρ * (|r| + |h * w|) ≤ 4 * ρ * (101 / 100 * (|x| + |v|)) := mul_le_mul_of_nonneg_left b2 (by positivity)
  have s1 : |s - (x + v)| ≤ 13 * ρ * (|x| + |v|) := by
    have e : s - (x + v) = (s - (r + h * w)) + (r - (x + v / 2)) + (h * w - v / 2) := by ring
    rw [e]
    have := abs_add_three (s - (r + h * w)) (r - (x + v / 2)) (h * w - v / 2)
    nlinarith only [this, b3, hs, r1, hw1, ρX0, ρV0]
  have wa : |w| ≤ 101 / 100 := by
    have := tri w 1 _ w1
    rw [abs_one] at this; linarith
  have z1 : |z - 1| ≤ 10 * ρ + ρ := by
    have := abs_sub_le z w 1
    have h2 : 4 * ρ * |w| ≤ 4 * ρ * (101 / 100) := mul_le_mul_of_nonneg_left wa (by positivity)
    linarith
  have z2 : |z - 1| ≤ 10 * ρ := by
    have := abs_sub_le z w 1
    have w1' : |w - 1| ≤ 5 * ρ + ρ / 10 := by
      have := abs_sub_le w q 1
      have h2 : 4 * ρ * |q| ≤ 4 * ρ * (101 / 100) := mul_le_mul_of_nonneg_left qa (by positivity)
      linarith
    have h2 : 4 * ρ * |w| ≤ 4 * ρ * (101 / 100) := mul_le_mul_of_nonneg_left wa (by positivity)
    linarith
  exact ⟨a1, by linarith, b1, by linarith, w1, s1, z2⟩

theorem safe_of {B m t : ℝ} (h1 : 1 / 2 ^ 481 ≤ m) (h2 : m ≤ 2 ^ 484) (hB : B = 0 ∨ 1 / 2 ^ 480 ≤ B) (hB2 : B ≤ 2 ^ 481) (t1 : B / 10 ≤ t)
    (t2 : t ≤ 2 * B) : SafeR (t / m) := by
  have hm : 0 < m := lt_of_lt_of_le (by positivity) h1
  constructor
  · rcases hB with h | h
    · left
      have : t = 0 := by rw [h] at t1 t2; linarith
      rw [this, _root_.zero_div]
    · right
      rw [le_div_iff₀ hm]
      calc 1 / 2 ^ 1000 * m ≤ 1 / 2 ^ 1000 * 2 ^ 484 := mul_le_mul_of_nonneg_left h2 (by positivity)
        _ ≤ 1 / 2 ^ 480 / 2 ^ 4 := by
          rw [div_div, ← pow_add, div_mul_eq_mul_div, one_mul, div_le_div_iff₀ (by positivity) (by positivity), one_mul, ← pow_add]
          exact pow_le_pow_right₀ (by norm_num) (by norm_num)
        _ ≤ B / 2 ^ 4 := div_le_div_of_nonneg_right h (by positivity)
        _ ≤ B / 10 := div_le_div_of_nonneg_left (le_trans (by positivity) h) (by norm_num) (by norm_num)
        _ ≤ t := t1
  · rw [div_le_iff₀ hm]
    calc t ≤ 2 * B := t2
      _ ≤ 2 * 2 ^ 481 := mul_le_mul_of_nonneg_left hB2 (by norm_num)
      _ ≤ 2 ^ 999 * (1 / 2 ^ 481) := by
        rw [← pow_succ', mul_one_div, le_div_iff₀ (by positivity), ← pow_add]
        exact pow_le_pow_right₀ (by norm_num) (by norm_num)
      _ ≤ 2 ^ 999 * m := mul_le_mul_of_nonneg_left h1 (by positivity)

/-- Half of a moderate number. -/
theorem half_fl {v : F64} (hv : Moderate v) : fin (v / (1 + 1)) ∧ |re (v / (1 + 1)) - re v / 2| ≤ ρ * |re v / 2| := by
  obtain ⟨t1, t2⟩ := f64_two
  have := F64.div_rel hv.1 t1 (by rw [t2]; norm_num) (by
    rw [t2]
    rcases hv.2 with h | ⟨h, -⟩
    · exact Or.inl h
    · right
      rw [abs_div, abs_of_pos (show (0 : ℝ) < 2 by norm_num), le_div_iff₀ (by norm_num)]
      refine le_trans ?_ h
      rw [div_mul_eq_mul_div, one_mul, div_le_div_iff₀ (by positivity) (by positivity), one_mul, ← pow_succ']
      exact pow_le_pow_right₀ (by norm_num) (by norm_num)) (by
    rw [t2, abs_div, abs_of_pos (show (0 : ℝ) < 2 by norm_num), div_le_iff₀ (by norm_num)]
    refine hv.le.trans ?_
    rw [← pow_succ]
    exact pow_le_pow_right₀ (by norm_num) (by norm_num))
  rw [t2] at this
  exact this

/-- **C97.** With doubles, `t.rev() * p * t` for `t = pga_translation(v)` and `p = pga_point(x)` is a point whose coordinates
are those of `x` translated by `v`, up to an error of at most `2⁻⁴⁸ · (|x_k| + |v_k|)` for the coordinate `k`, in every
dimension and every storage, if the numbers given are zero or between `2⁻⁴⁸⁰` and `2⁴⁸⁰` in absolute value and `x` is not the
origin. -/
theorem C97_translate (hA : declareAlgebra sig names = some A) (hp : implPga sig = some d)
    (hS : LawfulStorage.Supp (S := S) (T := F64) A.dim) {x v : List F64} (hx : x.length = d) (hv : v.length = d)
    (hmx : ∀ c ∈ x, Moderate c) (h0 : ∃ c ∈ x, re c ≠ 0) (hmv : ∀ c ∈ v, Moderate c) :
    ∃ y : List F64, (do
        let p ← pgaPointG (A := A) (S := S) Flt.sqrt x
        let t ← pgaTranslationG v
        let r ← t.rev
        let q ← r.naiveMulImpl p
        let q ← q.naiveMulImpl t
        q.pgaExtractPointG d) = .ok y ∧ y.length = d ∧
      ∀ k < d, fin (y.getD k 0) ∧
        |re (y.getD k 0) - (re (x.getD k 0) + re (v.getD k 0))| ≤ 1 / 2 ^ 48 * (|re (x.getD k 0)| + |re (v.getD k 0)|) := by
  have hP := isPga hA hp
  obtain ⟨p, m, hp, hD, m1, m2, hk, hw⟩ := pgaPointG_near (S := S) hP hS hx hmx h0
  have hm0 : 0 < m := lt_of_lt_of_le (by positivity) m1
  have hX := getD_moderate hmx
  have hV := getD_moderate hmv
  obtain ⟨t, ht, hT⟩ := pgaTranslationG_fl (S := S) hP hS hv (fun k _ => (half_fl (hV k)).1)
  obtain ⟨r, hr, hR⟩ := hT.rev hP
  have hρ0 := ρ_pos
  have hρ : ρ ≤ 1 / 10000 := ρ_small.trans (by norm_num)
  -- the sizes
  have hB : ∀ k, |re (x.getD k 0)| + |re (v.getD k 0)| = 0 ∨ 1 / 2 ^ 480 ≤ |re (x.getD k 0)| + |re (v.getD k 0)| := by
    intro k
    have p1 := abs_nonneg (re (x.getD k 0))
    have p2 := abs_nonneg (re (v.getD k 0))
    rcases (hX k).2 with h | ⟨h, -⟩
    · rcases (hV k).2 with h' | ⟨h', -⟩
      · left; rw [h, h']; simp
      · right; exact le_add_of_nonneg_of_le p1 h'
    · right; exact le_add_of_le_of_nonneg h p2
  have hB2 : ∀ k, |re (x.getD k 0)| + |re (v.getD k 0)| ≤ 2 ^ 481 := by
    intro k
    refine (add_le_add (hX k).le (hV k).le).trans (le_of_eq ?_)
    rw [← mul_two, ← pow_succ]
  have hsafe1 : ∀ {z : ℝ}, |z * m - 1| ≤ 10 * ρ → SafeR |z| := by
    intro z hz
    have e : |z| = |z * m| / m := by rw [abs_mul, abs_of_pos hm0, mul_div_assoc, div_self hm0.ne', mul_one]
    obtain ⟨z1, z2⟩ := abs_le.mp hz
    rw [e, abs_of_pos (show 0 < z * m by linarith)]
    exact safe_of (B := 1) m1 m2 (Or.inr (by rw [div_le_one (by positivity)]; exact one_le_pow₀ (by norm_num)))
      (one_le_pow₀ (by norm_num)) (by linarith) (by linarith)
  -- the first product
  have num0 : ∀ k < d, _ := fun k hkd => trans_num (hk k hkd) hw (half_fl (hV k)).2
    (r := nc p k * m + re (v.getD k 0 / (1 + 1)) * (nc p d * m)) (w := nc p d * m)
    (s := nc p k * m + re (v.getD k 0 / (1 + 1)) * (nc p d * m) + re (v.getD k 0 / (1 + 1)) * (nc p d * m)) (z := nc p d * m)
    (by rw [sub_self, abs_zero]; positivity) (by rw [sub_self, abs_zero]; positivity)
    (by rw [sub_self, abs_zero]; positivity) (by rw [sub_self, abs_zero]; positivity)
  have scale : ∀ a b c : ℝ, |a| + |b * c| = (|a * m| + |b * (c * m)|) / m := by
    intro a b c
    rw [← mul_assoc, abs_mul a, abs_mul (b * c), ← add_mul, abs_of_pos hm0, mul_div_assoc, div_self hm0.ne', mul_one]
  have hre : ∀ k < d, re (-(v.getD k 0 / (1 + 1)) : F64) = -re (v.getD k 0 / (1 + 1)) := fun k _ => (neg_ok (half_fl (hV k)).1).2
  obtain ⟨q, hq, hQ, hqk, hqd⟩ := mul_left_fl hP hR hD f64_one (fun k hkd => by
    rw [hre k hkd, neg_mul, abs_neg, scale]
    exact safe_of m1 m2 (hB k) (hB2 k) (num0 k hkd).1 (num0 k hkd).2.1) (hsafe1 (hw.trans (by linarith)))
  have cancel : ∀ a b c : ℝ, |a - b| ≤ 4 * ρ * c → |a * m - b * m| ≤ 4 * ρ * (c * m) := by
    intro a b c h
    rw [← sub_mul, abs_mul, abs_of_pos hm0, ← mul_assoc]
    exact mul_le_mul_of_nonneg_right h hm0.le
  have hqk' : ∀ k < d, |nc q k * m - (nc p k * m + re (v.getD k 0 / (1 + 1)) * (nc p d * m))| ≤
      4 * ρ * (|nc p k * m| + |re (v.getD k 0 / (1 + 1)) * (nc p d * m)|) := by
    intro k hkd
    have h1 := hqk k hkd
    rw [hre k hkd, neg_mul, abs_neg, sub_neg_eq_add] at h1
    have h2 := cancel _ _ _ h1
    rw [scale, div_mul_cancel₀ _ hm0.ne', add_mul, mul_assoc] at h2
    exact h2
  have hqd' : |nc q d * m - nc p d * m| ≤ 4 * ρ * |nc p d * m| := by
    have h2 := cancel _ _ _ hqd
    rw [abs_mul (nc p d), abs_of_pos hm0]
    exact h2
  have num1 : ∀ k < d, _ := fun k hkd => trans_num (hk k hkd) hw (half_fl (hV k)).2 (hqk' k hkd) hqd'
    (s := nc q k * m + re (v.getD k 0 / (1 + 1)) * (nc q d * m)) (z := nc q d * m)
    (by rw [sub_self, abs_zero]; positivity) (by rw [sub_self, abs_zero]; positivity)
  obtain ⟨s, hs, hSd, hsk, hsd⟩ := mul_right_fl hP hT hQ f64_one (fun k hkd => by
    rw [scale]
    exact safe_of m1 m2 (hB k) (hB2 k) (num1 k hkd).2.2.1 (num1 k hkd).2.2.2.1)
    (hsafe1 ((num1 0 hP.pos).2.2.2.2.1.trans (by linarith)))
  have hsk' : ∀ k < d, |nc s k * m - (nc q k * m + re (v.getD k 0 / (1 + 1)) * (nc q d * m))| ≤
      4 * ρ * (|nc q k * m| + |re (v.getD k 0 / (1 + 1)) * (nc q d * m)|) := by
    intro k hkd
    have h2 := cancel _ _ _ (hsk k hkd)
    rw [scale, div_mul_cancel₀ _ hm0.ne', add_mul, mul_assoc] at h2
    exact h2
  have hsd' : |nc s d * m - nc q d * m| ≤ 4 * ρ * |nc q d * m| := by
    have h2 := cancel _ _ _ hsd
    rw [abs_mul (nc q d), abs_of_pos hm0]
    exact h2
  refine ⟨(List.range d).map fun k => sgnC (GA.csg A.dim * dsg A.dim k) (pc s k) / sgnC (GA.csg A.dim * dsg A.dim d) (pc s d),
    ?_, ?_⟩
  · rw [hp]
    show (pgaTranslationG v >>= fun t => _) = _
    rw [ht]
    show (t.rev >>= fun t => _) = _
    rw [hr]
    show (r.naiveMulImpl p >>= fun t => _) = _
    rw [hq]
    show (q.naiveMulImpl t >>= fun t => _) = _
    rw [hs]
    exact extractG_fl hP hSd.valid
  refine ⟨by simp, fun k hkd => ?_⟩
  rw [List.getD_eq_getElem _ _ (by simpa using hkd), List.getElem_map, List.getElem_range]
  obtain ⟨-, -, -, -, -, n1, n2⟩ := trans_num (hk k hkd) hw (half_fl (hV k)).2 (hqk' k hkd) hqd' (hsk' k hkd) hsd'
  obtain ⟨a1, a2⟩ := extract_parts (hSd.fin k (by omega))
  obtain ⟨b1, b2⟩ := extract_parts (hSd.fin d le_rfl)
  have hBk := hB k
  have hB2k := hB2 k
  have hxv : |re (x.getD k 0) + re (v.getD k 0)| ≤ |re (x.getD k 0)| + |re (v.getD k 0)| := abs_add_le _ _
  set B := |re (x.getD k 0)| + |re (v.getD k 0)| with hBdef
  have hB0 : 0 ≤ B := by positivity
  set c := re (x.getD k 0) + re (v.getD k 0) with hc
  obtain ⟨w1, w2⟩ := abs_le.mp n2
  have hw0 : 0 < nc s d * m := by linarith
  have hndz : nc s d ≠ 0 := fun h => by rw [h, MulZeroClass.zero_mul] at hw0; exact lt_irrefl _ hw0
  have hq' : re (sgnC (GA.csg A.dim * dsg A.dim k) (pc s k)) / re (sgnC (GA.csg A.dim * dsg A.dim d) (pc s d)) =
      nc s k * m / (nc s d * m) := by
    rw [a2, b2, mul_div_mul_left _ _ (csg_ne _), mul_div_mul_right _ _ hm0.ne']
  have hnear := quot_near n1 n2 hxv (by linarith)
  set Y := nc s k * m / (nc s d * m) with hY
  have hqn : |Y - c| ≤ 24 * ρ * B := by
    have h1 : 24 * ρ * B * (1 - 10 * ρ) ≥ (13 * ρ + 10 * ρ) * B := by
      have : 24 * (1 - 10 * ρ) ≥ 23 := by linarith
      nlinarith [mul_nonneg hρ0.le hB0]
    exact le_of_mul_le_mul_right (hnear.trans h1) (by linarith)
  have hYB : |Y| ≤ 2 * B := by
    have := abs_sub_abs_le_abs_sub Y c
    nlinarith [mul_nonneg hρ0.le hB0]
  by_cases hBz : B = 0
  · have hYz : nc s k * m = 0 := by
      have h1 := n1
      rw [hBz, MulZeroClass.mul_zero] at h1
      have h2 := abs_nonpos_iff.mp h1
      rw [hBz] at hxv
      have h3 := abs_nonpos_iff.mp hxv
      linarith
    have hz : nc s k = 0 := (mul_eq_zero.mp hYz).resolve_right hm0.ne'
    have : sgnC (GA.csg A.dim * dsg A.dim k) (pc s k) = 0 := F64.eq_zero a1 (by rw [a2, hz, MulZeroClass.mul_zero])
    rw [this, FloatModel.zero_div b1 (fun h => by
      have := b2
      rw [h, re_zero] at this
      exact mul_ne_zero (csg_ne _) hndz this.symm)]
    refine ⟨fin_zero, ?_⟩
    rw [re_zero, hBz, MulZeroClass.mul_zero, zero_sub, abs_neg]
    rw [hBz] at hxv
    exact hxv
  · have hBl : 1 / 2 ^ 1000 ≤ B := le_trans (one_div_le_one_div_of_le (by positivity) (pow_le_pow_right₀ (by norm_num) (by norm_num)))
      (hBk.resolve_left hBz)
    obtain ⟨y1, y2⟩ := div_ok a1 b1 (by rw [b2]; exact mul_ne_zero (csg_ne _) hndz) (F64.big (by
      rw [hq']
      refine hYB.trans ?_
      calc 2 * B ≤ 2 * 2 ^ 481 := mul_le_mul_of_nonneg_left hB2k (by norm_num)
        _ = 2 ^ 482 := by rw [← pow_succ']
        _ ≤ 2 ^ 1000 := pow_le_pow_right₀ (by norm_num) (by norm_num)))
    refine ⟨y1, ?_⟩
    rw [hq'] at y2
    have hη := F64.under hBl
    have hu0 : 0 ≤ u F64 := u_nonneg
    have h3 : u F64 * |Y| ≤ ρ * (2 * B) := mul_le_mul u_le_ρ hYB (abs_nonneg _) hρ0.le
    have h4 : 0 ≤ u F64 * B := mul_nonneg hu0 hB0
    have h5 : |re (sgnC (GA.csg A.dim * dsg A.dim k) (pc s k) / sgnC (GA.csg A.dim * dsg A.dim d) (pc s d)) - c| ≤ 27 * ρ * B := by
      have := abs_sub_le (re (sgnC (GA.csg A.dim * dsg A.dim k) (pc s k) / sgnC (GA.csg A.dim * dsg A.dim d) (pc s d))) Y c
      linarith
    refine h5.trans (mul_le_mul_of_nonneg_right ?_ hB0)
    unfold ρ; norm_num

theorem hyper_num {c m E v : ℝ} {N : Nat} (hN : N ≤ 66) (hE : 0 < E) (h1 : (1 - ρ) ^ N * E ≤ m) (h2 : m ≤ (1 + ρ) ^ N * E)
    (hv : |v * m - c| ≤ ρ * |c|) : |v - c / E| ≤ (N + 2) / 2 ^ 53 * |c / E| := by
  have hρ0 := ρ_pos
  have hρ : ρ ≤ 1 / 10000 := ρ_small.trans (by norm_num)
  have hN' : (N : ℝ) ≤ 66 := by exact_mod_cast hN
  have hN0 : (0 : ℝ) ≤ N := Nat.cast_nonneg _
  have hNρ : N * ρ ≤ 1 / 100 := by nlinarith
  have hNρ0 : 0 ≤ N * ρ := mul_nonneg hN0 hρ0.le
  have bern : 1 - N * ρ ≤ (1 - ρ) ^ N := by
    have := one_add_mul_le_pow (show (-2 : ℝ) ≤ -ρ by linarith) N
    rw [← sub_eq_add_neg] at this
    linarith
  have inv : (1 + ρ) ^ N * (1 - N * ρ) ≤ 1 := by
    calc (1 + ρ) ^ N * (1 - N * ρ) ≤ (1 + ρ) ^ N * (1 - ρ) ^ N := mul_le_mul_of_nonneg_left bern (by positivity)
      _ = (1 - ρ ^ 2) ^ N := by rw [← mul_pow]; ring
      _ ≤ 1 := pow_le_one₀ (by nlinarith) (by nlinarith)
  have m1 : (1 - N * ρ) * E ≤ m := (mul_le_mul_of_nonneg_right bern hE.le).trans h1
  have m2 : m * (1 - N * ρ) ≤ E := by
    calc m * (1 - N * ρ) ≤ (1 + ρ) ^ N * E * (1 - N * ρ) := mul_le_mul_of_nonneg_right h2 (by linarith)
      _ = (1 + ρ) ^ N * (1 - N * ρ) * E := by ring
      _ ≤ 1 * E := mul_le_mul_of_nonneg_right inv hE.le
      _ = E := one_mul E
  have hm : 0 < m := lt_of_lt_of_le (mul_pos (by linarith) hE) m1
  -- multiply by `m E`
  have e : (v - c / E) * (m * E) = (v * m - c) * E + c * (E - m) := by field_simp; ring
  have hcE : |c / E| * (m * E) = |c| * m := by rw [abs_div, abs_of_pos hE]; field_simp
  have hEm : |E - m| ≤ (N * ρ + (N * ρ) ^ 2 * 2) * m := by
    have h3 : E ≤ m * (1 + N * ρ + (N * ρ) ^ 2 * 2) := by
      have h4 : 1 ≤ (1 - N * ρ) * (1 + N * ρ + (N * ρ) ^ 2 * 2) := by nlinarith [mul_nonneg hNρ0 hNρ0]
      calc E = E * 1 := (mul_one E).symm
        _ ≤ E * ((1 - N * ρ) * (1 + N * ρ + (N * ρ) ^ 2 * 2)) := mul_le_mul_of_nonneg_left h4 hE.le
        _ = ((1 - N * ρ) * E) * (1 + N * ρ + (N * ρ) ^ 2 * 2) := by ring
        _ ≤ m * (1 + N * ρ + (N * ρ) ^ 2 * 2) := mul_le_mul_of_nonneg_right m1 (by positivity)
    have h5 : 0 ≤ (N * ρ) ^ 2 * m := by positivity
    rw [abs_le]
    constructor <;> nlinarith
  have hE2 : E ≤ m * 2 := by
    have : 1 / 2 * E ≤ (1 - N * ρ) * E := mul_le_mul_of_nonneg_right (by linarith) hE.le
    linarith
  have hE3 : E ≤ (1 + (N * ρ + (N * ρ) ^ 2 * 2)) * m := by
    have := (abs_le.mp hEm).2
    linarith
  have hfin : |v - c / E| * (m * E) ≤ (ρ * (1 + (N * ρ + (N * ρ) ^ 2 * 2)) + (N * ρ + (N * ρ) ^ 2 * 2)) * (|c| * m) := by
    calc |v - c / E| * (m * E) = |(v - c / E) * (m * E)| := by rw [abs_mul, abs_of_pos (mul_pos hm hE)]
      _ = |(v * m - c) * E + c * (E - m)| := by rw [e]
      _ ≤ |v * m - c| * E + |c| * |E - m| := by
        refine (abs_add_le _ _).trans ?_
        rw [abs_mul, abs_mul, abs_of_pos hE]
      _ ≤ ρ * |c| * ((1 + (N * ρ + (N * ρ) ^ 2 * 2)) * m) + |c| * ((N * ρ + (N * ρ) ^ 2 * 2) * m) :=
        add_le_add (mul_le_mul hv hE3 hE.le (by positivity)) (mul_le_mul_of_nonneg_left hEm (abs_nonneg _))
      _ = _ := by ring
  have hcoef : ρ * (1 + (N * ρ + (N * ρ) ^ 2 * 2)) + (N * ρ + (N * ρ) ^ 2 * 2) ≤ (N + 2) / 2 ^ 53 := by
    have a1 : ρ * (N * ρ + (N * ρ) ^ 2 * 2) + (N * ρ) ^ 2 * 2 ≤ 1 / 2 ^ 80 := by
      have b1 : N * ρ ≤ 66 * ρ := mul_le_mul_of_nonneg_right hN' hρ0.le
      have b2 : (N * ρ) ^ 2 ≤ (66 * ρ) ^ 2 := pow_le_pow_left₀ hNρ0 b1 2
      have b3 : ρ * (N * ρ + (N * ρ) ^ 2 * 2) + (N * ρ) ^ 2 * 2 ≤ ρ * (66 * ρ + (66 * ρ) ^ 2 * 2) + (66 * ρ) ^ 2 * 2 := by
        refine add_le_add (mul_le_mul_of_nonneg_left ?_ hρ0.le) ?_ <;> linarith
      refine b3.trans ?_
      unfold ρ; norm_num
    have a2 : ρ + N * ρ ≤ (N + 1) / 2 ^ 53 + 67 * (1 / 2 ^ 73) := by
      have : ρ = 1 / 2 ^ 53 + 1 / 2 ^ 73 := by unfold ρ; norm_num
      rw [this]
      nlinarith
    have a3 : (67 : ℝ) * (1 / 2 ^ 73) + 1 / 2 ^ 80 ≤ 1 / 2 ^ 53 := by norm_num
    have a4 : ((N : ℝ) + 2) / 2 ^ 53 = (N + 1) / 2 ^ 53 + 1 / 2 ^ 53 := by ring
    rw [a4]; linarith
  have hmE := mul_pos hm hE
  refine le_of_mul_le_mul_right ?_ hmE
  rw [mul_assoc, hcE]
  exact hfin.trans (mul_le_mul_of_nonneg_right hcoef (by positivity))

/-- **C97.** With doubles, the coefficients of `pga_hyperplane(c)` are those of the unit normal form `c / |c|` of the equation
up to a relative error of at most `(d + 5) · 2⁻⁵³`, and all others are zero, in every dimension `d` and every storage, if the
numbers given are zero or between `2⁻⁴⁸⁰` and `2⁴⁸⁰` in absolute value and not all zero. -/
theorem C97_hyperplane (hA : declareAlgebra sig names = some A) (hp : implPga sig = some d)
    (hS : LawfulStorage.Supp (S := S) (T := F64) A.dim) {c : List F64} (hc : c.length = d + 1)
    (hm : ∀ t ∈ c, Moderate t) (h0 : ∃ t ∈ c, re t ≠ 0) :
    ∃ h : MV A S, pgaHyperplaneG Flt.sqrt c = .ok h ∧ h.Valid ∧
      (∀ k ≤ d, ∃ t, h.getByIdx (2 ^ k) = .ok t ∧ fin t ∧
        |re t - re (c.getD k 0) / Real.sqrt (c.map (fun t => re t ^ 2)).sum| ≤
          (d + 5) / 2 ^ 53 * |re (c.getD k 0) / Real.sqrt (c.map (fun t => re t ^ 2)).sum|) ∧
      ∀ i < 2 ^ A.dim, (∀ k ≤ d, i ≠ 2 ^ k) → h.getByIdx i = .ok 0 := by
  have hP := isPga hA hp
  have hd := LawfulStorage.supp_le hS
  have hdim := hP.dim
  obtain ⟨m1, m2, m3⟩ := mag_bounds hm (by omega) h0
  obtain ⟨-, g1, g2, g3, -⟩ := mag_ok hm (by omega) h0
  have hm0 : 0 < re (euclMagG Flt.sqrt c) := lt_of_lt_of_le (by positivity) m2
  have hE0 : 0 < Real.sqrt (c.map (fun t => re t ^ 2)).sum := lt_of_lt_of_le (by positivity) g3
  obtain ⟨v, hv, hvv, hvf⟩ := fromVector_denotes (A := A) (S := S) hS (l := c) (by omega)
  obtain ⟨p, hp, hpv, hpf⟩ := sdivG_fl hvv m1 hm0.ne'
  beta_reduce at hpf
  refine ⟨p, ?_, hpv, ?_, ?_⟩
  · unfold pgaHyperplaneG
    dsimp only
    rw [hv]
    exact hp
  · intro k hk
    have hlt : 2 ^ k < 2 ^ A.dim := GA.two_pow_lt (by omega)
    refine ⟨_, hpv.get hlt, ?_⟩
    rw [hpf _ hlt, hvf _ hlt, vecF_two_pow _ (by omega)]
    obtain ⟨r1, r2⟩ := div_mag (getD_moderate hm k) m1 m2 m3 (c := 1) (Or.inl rfl)
    have e : sgnC 1 (c.getD k 0) = c.getD k 0 := by unfold sgnC; rw [if_neg (by decide)]
    rw [e] at r1 r2
    refine ⟨r1, ?_⟩
    rw [Int.cast_one, one_mul] at r2
    have := hyper_num (N := c.length + 2) (by omega) hE0 g1 g2 r2
    rw [hc] at this
    refine this.trans (le_of_eq ?_)
    push_cast
    ring
  · intro i hi hne
    rw [hpv.get hi, hpf i hi, hvf i hi]
    have : vecF c i = 0 := by
      unfold vecF
      rw [if_neg]
      intro hc
      obtain ⟨k, hk, he⟩ := eq_two_pow_of_countOnes hi hc
      exact hne k (by omega) he
    rw [this, FloatModel.zero_div m1 (fun h => by rw [h, re_zero] at hm0; exact lt_irrefl _ hm0)]

theorem planeEq_floats {c x : List F64} (hx : x.length = d) (f : ℝ → ℝ) (f0 : f 0 = 0) (f1 : f 1 = 1) (fm : ∀ a b, f (a * b) = f a * f b) :
    planeEq d (c.map fun t => f (re t)) (x.map fun t => f (re t)) =
      ∑ k ∈ range (d + 1), f (re (c.getD k 0) * re ((x ++ [1]).getD k 0)) := by
  have hg : ∀ (l : List F64) k, (l.map fun t => f (re t)).getD k 0 = f (re (l.getD k 0)) := by
    intro l k
    have := List.getD_map (l := l) (d := (0 : F64)) (n := k) (f := fun t => f (re t))
    rw [re_zero, f0] at this
    exact this
  unfold planeEq
  rw [sum_range_succ]
  congr 1
  · refine sum_congr rfl fun k hk => ?_
    rw [hg, hg, fm, List.getD_append _ _ _ _ (by rw [hx]; exact mem_range.mp hk)]
  · rw [hg, fm, List.getD_append_right _ _ _ _ (by omega), hx, Nat.sub_self]
    show _ = _ * f (re (1 : F64))
    rw [re_one, f1, mul_one]

theorem pow_u_le {N : Nat} (hN : N ≤ 66) : (1 + u F64) ^ N ≤ 1 + N * u F64 + 2 * (N * u F64) ^ 2 := by
  have hu := C69_f64.1
  have hu0 : 0 ≤ u F64 := u_nonneg
  generalize u F64 = t at *
  have hN' : (N : ℝ) ≤ 66 := by exact_mod_cast hN
  have hN0 : (0 : ℝ) ≤ N := Nat.cast_nonneg _
  have ht : t ≤ 1 / 10000 := by rw [hu]; norm_num
  have h1 : N * t ≤ 1 / 100 := by nlinarith
  have h0 : 0 ≤ N * t := mul_nonneg hN0 hu0
  have bern : 1 - N * t ≤ (1 - t) ^ N := by
    have := one_add_mul_le_pow (show (-2 : ℝ) ≤ -t by linarith) N
    rw [← sub_eq_add_neg] at this
    linarith
  have inv : (1 + t) ^ N * (1 - N * t) ≤ 1 := by
    calc (1 + t) ^ N * (1 - N * t) ≤ (1 + t) ^ N * (1 - t) ^ N := mul_le_mul_of_nonneg_left bern (by positivity)
      _ = (1 - t ^ 2) ^ N := by rw [← mul_pow]; ring
      _ ≤ 1 := pow_le_one₀ (by nlinarith) (by nlinarith)
  have h4 : 1 ≤ (1 - N * t) * (1 + N * t + 2 * (N * t) ^ 2) := by nlinarith [mul_nonneg h0 h0]
  calc (1 + t) ^ N = (1 + t) ^ N * 1 := (mul_one _).symm
    _ ≤ (1 + t) ^ N * ((1 - N * t) * (1 + N * t + 2 * (N * t) ^ 2)) := mul_le_mul_of_nonneg_left h4 (by positivity)
    _ = ((1 + t) ^ N * (1 - N * t)) * (1 + N * t + 2 * (N * t) ^ 2) := by ring
    _ ≤ 1 * (1 + N * t + 2 * (N * t) ^ 2) := mul_le_mul_of_nonneg_right inv (by positivity)
    _ = _ := one_mul _

theorem abs_le_mag {l : List F64} {t : F64} (ht : t ∈ l) : |re t| ≤ Real.sqrt (l.map (fun t => re t ^ 2)).sum := by
  refine Real.abs_le_sqrt ?_
  exact List.single_le_sum (by
    intro a ha
    obtain ⟨b, -, rfl⟩ := List.mem_map.mp ha
    positivity) _ (List.mem_map.mpr ⟨t, ht, rfl⟩)

theorem getD_le_mag (l : List F64) (k : Nat) : |re (l.getD k 0)| ≤ Real.sqrt (l.map (fun t => re t ^ 2)).sum := by
  by_cases h : k < l.length
  · rw [List.getD_eq_getElem _ _ h]; exact abs_le_mag (List.getElem_mem h)
  · rw [List.getD_eq_default _ _ (by omega), re_zero, abs_zero]; exact Real.sqrt_nonneg _

/-- The point of `C97_roundtrip` in normal form. -/
theorem pgaPointG_normal (hP : IsPga A d) (hS : LawfulStorage.Supp (S := S) (T := F64) A.dim) {x : List F64} (hx : x.length = d)
    (hm : ∀ c ∈ x, Moderate c) (h0 : ∃ c ∈ x, re c ≠ 0) :
    ∃ p : MV A S, pgaPointG Flt.sqrt x = .ok p ∧ IsDp d p ∧ ∀ k ≤ d,
      |nc p k - re ((x ++ [1]).getD k 0) / Real.sqrt (x.map (fun t => re t ^ 2)).sum| ≤
        (d + 4) / 2 ^ 53 * |re ((x ++ [1]).getD k 0) / Real.sqrt (x.map (fun t => re t ^ 2)).sum| := by
  have hd := LawfulStorage.supp_le hS
  rw [hP.dim] at hd
  obtain ⟨m1, m2, m3⟩ := mag_bounds hm (by omega) h0
  obtain ⟨-, g1, g2, g3, -⟩ := mag_ok hm (by omega) h0
  have hm0 : 0 < re (euclMagG Flt.sqrt x) := lt_of_lt_of_le (by positivity) m2
  have hE0 : 0 < Real.sqrt (x.map (fun t => re t ^ 2)).sum := lt_of_lt_of_le (by positivity) g3
  obtain ⟨p, hp, hpv, hpz, hpc⟩ := pgaPointG_fl (S := S) hP hS hx m1 hm0.ne'
  have hmod : ∀ k ≤ d, Moderate ((x ++ [1]).getD k 0) := fun k hk => getD_moderate (by
    intro c hc
    rcases List.mem_append.mp hc with h | h
    · exact hm c h
    · rw [List.mem_singleton.mp h]; exact one_moderate) k
  have key : ∀ k ≤ d, FloatModel.fin (pc p k) ∧ |nc p k * re (euclMagG Flt.sqrt x) - re ((x ++ [1]).getD k 0)| ≤ ρ * |re ((x ++ [1]).getD k 0)| := by
    intro k hk
    have := div_mag (hmod k hk) m1 m2 m3 (dsg_unit A.dim k)
    rw [← hpc k hk] at this
    exact this
  refine ⟨p, hp, ⟨hpv, hpz, fun k hk => (key k hk).1⟩, fun k hk => ?_⟩
  have := hyper_num (N := x.length + 2) (by omega) hE0 g1 g2 (key k hk).2
  rw [hx] at this
  refine this.trans (le_of_eq ?_)
  push_cast
  ring

/-- Errors of a sum of products of numbers with relative errors. -/
theorem dot_near {n : Nat} {h p h' p' : Nat → ℝ} {α β : ℝ} (hα : 0 ≤ α) (hh : ∀ k < n, |h k - h' k| ≤ α * |h' k|)
    (hp : ∀ k < n, |p k - p' k| ≤ β * |p' k|) :
    |∑ k ∈ range n, h k * p k - ∑ k ∈ range n, h' k * p' k| ≤ (α + β + α * β) * ∑ k ∈ range n, |h' k * p' k| ∧
    ∑ k ∈ range n, |h k * p k| ≤ (1 + (α + β + α * β)) * ∑ k ∈ range n, |h' k * p' k| := by
  have key : ∀ k < n, |h k * p k - h' k * p' k| ≤ (α + β + α * β) * |h' k * p' k| := by
    intro k hk
    have e : h k * p k - h' k * p' k = (h k - h' k) * p' k + h' k * (p k - p' k) + (h k - h' k) * (p k - p' k) := by ring
    rw [e]
    refine (abs_add_three _ _ _).trans ?_
    rw [abs_mul, abs_mul, abs_mul]
    have a1 := mul_le_mul_of_nonneg_right (hh k hk) (abs_nonneg (p' k))
    have a2 := mul_le_mul_of_nonneg_left (hp k hk) (abs_nonneg (h' k))
    have a3 := mul_le_mul (hh k hk) (hp k hk) (abs_nonneg _) (by positivity)
    rw [abs_mul]
    nlinarith only [a1, a2, a3]
  constructor
  · rw [← sum_sub_distrib, mul_sum]
    exact (abs_sum_le_sum_abs _ _).trans (sum_le_sum fun k hk => key k (mem_range.mp hk))
  · rw [mul_sum]
    refine sum_le_sum fun k hk => ?_
    have h1 := key k (mem_range.mp hk)
    have h2 := abs_sub_abs_le_abs_sub (h k * p k) (h' k * p' k)
    linarith

/-- The terms of a wedge product of a vector and a point that can be different from zero. -/
theorem terms_wedge (hP : IsPga A d) {h p : MV A S} (hz : ∀ i < 2 ^ A.dim, (∀ k ≤ d, i ≠ 2 ^ k) → h.val i = 0) (hD : IsDp d p) {i K : Nat}
    (hi : i < 2 ^ A.dim) (hK : K < 2 ^ A.dim)
    (hne : ¬ (bsgn (fun _ => 0) A.dim i (i ^^^ K) = 0 ∨ h.val i = 0 ∨ p.val (i ^^^ K) = 0)) :
    K = 2 ^ A.dim - 1 ∧ ∃ k ≤ d, i = 2 ^ k := by
  push Not at hne
  obtain ⟨n1, n2, n3⟩ := hne
  have hk : ∃ k ≤ d, i = 2 ^ k := by
    by_contra hc
    push Not at hc
    exact n2 (hz _ hi hc)
  have hl : ∃ l ≤ d, i ^^^ K = 2 ^ l ^^^ (2 ^ A.dim - 1) := by
    by_contra hc
    push Not at hc
    exact n3 (hD.zero _ (Nat.xor_lt_two_pow hi hK) hc)
  obtain ⟨k, hk, rfl⟩ := hk
  obtain ⟨l, hl, he⟩ := hl
  have hkl : k = l := by
    by_contra hne
    apply n1
    rw [he]
    exact bsgn_common_null (g := k) (by rw [hP.dim]; omega) rfl (Nat.testBit_two_pow_self) (testBit_Dk (by rw [hP.dim]; omega) hne)
  subst hkl
  exact ⟨Nat.xor_right_injective he, k, hk, rfl⟩

theorem xyz_num {X Y Z : ℝ} (Y0 : 0 ≤ Y) (Z0 : 0 ≤ Z) (hX : X ≤ 1 / 2 ^ 46) (hY : Y ≤ 1 / 2 ^ 46) (hZ : Z ≤ 1 / 2 ^ 46) :
    (1 + (X + Y + X * Y)) * Z + (X + Y + X * Y) ≤ X + Y + Z + 1 / 2 ^ 53 := by
  have h1 : X * Y ≤ 1 / 2 ^ 46 * (1 / 2 ^ 46) := mul_le_mul hX hY Y0 (by positivity)
  have h2 : (X + Y + X * Y) * Z ≤ (1 / 2 ^ 46 + 1 / 2 ^ 46 + 1 / 2 ^ 46 * (1 / 2 ^ 46)) * (1 / 2 ^ 46) :=
    mul_le_mul (by linarith) hZ Z0 (by positivity)
  have h3 : (1 : ℝ) / 2 ^ 46 * (1 / 2 ^ 46) + (1 / 2 ^ 46 + 1 / 2 ^ 46 + 1 / 2 ^ 46 * (1 / 2 ^ 46)) * (1 / 2 ^ 46) ≤ 1 / 2 ^ 53 := by norm_num
  linarith

theorem big_num {a b e Q B C t : ℝ} (h1 : a ≤ 2 * Q) (h2 : Q ≤ B) (h3 : b ≤ a * 1) (h4 : e ≤ b + t) (h5 : t ≤ 1)
    (h6 : 1 ≤ B) (h7 : 1024 * B ≤ C) : a + e ≤ C := by linarith

/-- **C97.** With doubles, the wedge product of `pga_hyperplane(c)` and `pga_point(x)` measures how far the point is from the
hyperplane: its only coefficient is, up to its sign, the value of the equation at the point, divided by `|c| |x|`, with an error
of at most `(3d + 13) · 2⁻⁵³` times the sum of the absolute values of the terms of the equation, divided by `|c| |x|`, plus
`2⁻¹⁰⁶⁸`; in particular the test of src/pga.rs:107-108 whether a point is on a plane, with a tolerance. -/
theorem C97_incidence [WedgeProduct A S] [FloatWedge A S] (hA : declareAlgebra sig names = some A) (hp : implPga sig = some d)
    (hS : LawfulStorage.Supp (S := S) (T := F64) A.dim) {c x : List F64} (hc : c.length = d + 1) (hx : x.length = d)
    (hmc : ∀ t ∈ c, Moderate t) (hc0 : ∃ t ∈ c, re t ≠ 0) (hmx : ∀ t ∈ x, Moderate t) (hx0 : ∃ t ∈ x, re t ≠ 0) :
    ∃ (w : MV A S) (v : F64), (do
        let h ← pgaHyperplaneG Flt.sqrt c
        let p ← pgaPointG Flt.sqrt x
        h.wedge p) = .ok w ∧
      (∀ i < 2 ^ (d + 1), i ≠ 2 ^ (d + 1) - 1 → w.getByIdx i = .ok 0) ∧
      w.getByIdx (2 ^ (d + 1) - 1) = .ok v ∧ fin v ∧
      let n := Real.sqrt (c.map (fun t => re t ^ 2)).sum * Real.sqrt (x.map (fun t => re t ^ 2)).sum
      |re v - (if d % 2 = 0 then 1 else -1) * planeEq d (c.map re) (x.map re) / n| ≤
        (3 * d + 13) / 2 ^ 53 * (planeEq d (c.map fun t => |re t|) (x.map fun t => |re t|) / n) + 1 / 2 ^ 1068 := by
  have hP := isPga hA hp
  have hd := LawfulStorage.supp_le hS
  have hdim := hP.dim
  have hd' : (d : ℝ) ≤ 62 := by
    have : d ≤ 62 := by omega
    exact_mod_cast this
  have hd0 : (0 : ℝ) ≤ d := Nat.cast_nonneg _
  obtain ⟨h, hh, hhv, hhk, hhz⟩ := C97_hyperplane (S := S) hA hp hS hc hmc hc0
  obtain ⟨p, hp, hD, hpk⟩ := pgaPointG_normal (S := S) hP hS hx hmx hx0
  obtain ⟨-, -, -, gE, -⟩ := mag_ok hmc (by omega) hc0
  obtain ⟨-, -, -, gR, -⟩ := mag_ok hmx (by omega) hx0
  have leE := getD_le_mag c
  have leR := getD_le_mag x
  have hlt : ∀ k ≤ d, 2 ^ k < 2 ^ A.dim := fun k hk => GA.two_pow_lt (by omega)
  have hz : ∀ i < 2 ^ A.dim, (∀ k ≤ d, i ≠ 2 ^ k) → h.val i = 0 := by
    intro i hi hne
    have := hhz i hi hne
    rw [hhv.get hi] at this
    exact Except.ok.inj this
  have hk : ∀ k ≤ d, fin (h.val (2 ^ k)) ∧ |re (h.val (2 ^ k)) - re (c.getD k 0) / Real.sqrt (c.map (fun t => re t ^ 2)).sum| ≤
      (d + 5) / 2 ^ 53 * |re (c.getD k 0) / Real.sqrt (c.map (fun t => re t ^ 2)).sum| := by
    intro k hk
    obtain ⟨t, h1, h2⟩ := hhk k hk
    rw [hhv.get (hlt k hk)] at h1
    rw [Except.ok.inj h1]
    exact h2
  have hfin : ∀ i < 2 ^ A.dim, fin (h.val i) := by
    intro i hi
    by_cases hc : ∀ k ≤ d, i ≠ 2 ^ k
    · rw [hz i hi hc]; exact fin_zero
    · push Not at hc
      obtain ⟨k, h1, rfl⟩ := hc
      exact (hk k h1).1
  obtain ⟨w, hw, hwv, hacc⟩ := FloatWedge.wedge sumInv_acc hhv hD.valid hfin (fun i hi => hD.all_fin hi)
  have hm : 2 ^ A.dim - 1 < 2 ^ A.dim := by have := Nat.two_pow_pos A.dim; omega
  refine ⟨w, w.val (2 ^ A.dim - 1), ?_, ?_, ?_, ?_⟩
  · rw [hh, hp]; exact hw
  · intro i hi hne
    rw [← hdim] at hi hne
    rw [hwv.get hi, zero_terms (hacc i hi)]
    intro l hl
    by_contra hcon
    exact hne (terms_wedge hP hz hD (mem_range.mp hl) hi hcon).1
  · rw [← hdim]; exact hwv.get hm
  -- the sum
  have hsum : ∑ i ∈ range (2 ^ A.dim), tau (bsgn (fun _ => 0) A.dim i (i ^^^ (2 ^ A.dim - 1))) (h.val i) (p.val (i ^^^ (2 ^ A.dim - 1))) =
      ∑ k ∈ range (d + 1), tau (GA.csg A.dim * dsg A.dim k) (h.val (2 ^ k)) (pc p k) := by
    rw [← sum_subset (s₁ := (range (d + 1)).image (2 ^ ·)), sum_image]
    · refine sum_congr rfl fun k hk => ?_
      unfold dsg pc
      rw [GA.bsgn_compl_comm (by have := mem_range.mp hk; omega)]
    · intro a _ b _ hab
      exact two_pow_inj' hab
    · intro i hi
      obtain ⟨k, hk, rfl⟩ := mem_image.mp hi
      exact mem_range.mpr (hlt k (by have := mem_range.mp hk; omega))
    · intro i hi hn
      by_contra hne
      refine hn ?_
      obtain ⟨-, k, hk, rfl⟩ := terms_wedge hP hz hD (mem_range.mp hi) hm (i := i) (fun hor => hne (by
        unfold tau
        rcases hor with h | h | h <;> rw [h] <;> simp [re_zero]))
      exact mem_image.mpr ⟨k, mem_range.mpr (by omega), rfl⟩
  have ha := hacc _ hm
  rw [hsum] at ha
  obtain ⟨-, -, -, h3⟩ := ha
  have e1 : (∑ k ∈ range (d + 1), tau (GA.csg A.dim * dsg A.dim k) (h.val (2 ^ k)) (pc p k)).1 =
      GA.csg A.dim * ∑ k ∈ range (d + 1), re (h.val (2 ^ k)) * nc p k := by
    rw [Prod.fst_sum, mul_sum]
    refine sum_congr rfl fun k _ => ?_
    unfold tau nc
    push_cast
    ring
  have hcs : |(GA.csg A.dim : ℝ)| = 1 := by rcases csg_unit A.dim with h | h <;> rw [h] <;> simp
  have e2 : (∑ k ∈ range (d + 1), tau (GA.csg A.dim * dsg A.dim k) (h.val (2 ^ k)) (pc p k)).2.1 =
      ∑ k ∈ range (d + 1), |re (h.val (2 ^ k)) * nc p k| := by
    rw [Prod.snd_sum, Prod.fst_sum]
    refine sum_congr rfl fun k _ => ?_
    unfold tau
    dsimp only
    rw [abs_mul, abs_mul, abs_mul, abs_nc]
    push_cast
    rw [abs_mul, hcs, abs_dsg, one_mul, one_mul]
  have e3 : (∑ k ∈ range (d + 1), tau (GA.csg A.dim * dsg A.dim k) (h.val (2 ^ k)) (pc p k)).2.2 ≤ d + 1 := by
    rw [Prod.snd_sum, Prod.snd_sum]
    refine (sum_le_card_nsmul _ _ 1 fun k _ => ?_).trans (by simp)
    unfold tau
    dsimp only
    split <;> omega
  rw [e1, e2] at h3
  set n := (∑ k ∈ range (d + 1), tau (GA.csg A.dim * dsg A.dim k) (h.val (2 ^ k)) (pc p k)).2.2
  clear hsum e1 e2 hacc hw hwv
  -- the numbers
  set E := Real.sqrt (c.map (fun t => re t ^ 2)).sum
  set R := Real.sqrt (x.map (fun t => re t ^ 2)).sum
  have hE : 0 < E := lt_of_lt_of_le (by positivity) gE
  have hR : 0 < R := lt_of_lt_of_le (by positivity) gR
  dsimp only
  have p1 : planeEq d (c.map re) (x.map re) / (E * R) = ∑ k ∈ range (d + 1), re (c.getD k 0) / E * (re ((x ++ [1]).getD k 0) / R) := by
    have := planeEq_floats (c := c) hx id rfl rfl (fun _ _ => rfl)
    simp only [id] at this
    rw [this, sum_div]
    exact sum_congr rfl fun k _ => (div_mul_div_comm _ _ _ _).symm
  have p2 : planeEq d (c.map fun t => |re t|) (x.map fun t => |re t|) / (E * R) =
      ∑ k ∈ range (d + 1), |re (c.getD k 0) / E * (re ((x ++ [1]).getD k 0) / R)| := by
    rw [planeEq_floats (c := c) hx abs abs_zero abs_one abs_mul, sum_div]
    refine sum_congr rfl fun k _ => ?_
    rw [div_mul_div_comm, abs_div, abs_of_pos (mul_pos hE hR)]
  have hsg : (if d % 2 = 0 then (1 : ℝ) else -1) = GA.csg A.dim := by
    unfold GA.csg
    rw [hdim]
    by_cases hd2 : d % 2 = 0
    · rw [if_pos hd2, if_pos (by omega)]; simp
    · rw [if_neg hd2, if_neg (by omega)]; simp
  rw [hsg, mul_div_assoc, p1, p2]
  obtain ⟨q1, q2⟩ := dot_near (n := d + 1) (h := fun k => re (h.val (2 ^ k))) (p := nc p) (h' := fun k => re (c.getD k 0) / E)
    (p' := fun k => re ((x ++ [1]).getD k 0) / R) (α := (d + 5) / 2 ^ 53) (β := (d + 4) / 2 ^ 53) (by positivity)
    (fun k hk' => (hk k (by omega)).2) (fun k hk' => hpk k (by omega))
  have q3 : ∑ k ∈ range (d + 1), |re (c.getD k 0) / E * (re ((x ++ [1]).getD k 0) / R)| ≤ 2 ^ 490 := by
    have hb : ∀ k ∈ range (d + 1), |re (c.getD k 0) / E * (re ((x ++ [1]).getD k 0) / R)| ≤ 2 ^ 480 := by
      intro k hk'
      have a1 : |re (c.getD k 0) / E| ≤ 1 := by
        rw [abs_div, abs_of_pos hE, div_le_one hE]; exact leE k
      have a2 : |re ((x ++ [1]).getD k 0) / R| ≤ 2 ^ 480 := by
        rw [abs_div, abs_of_pos hR]
        by_cases hkd : k < d
        · rw [List.getD_append _ _ _ _ (by omega)]
          refine le_trans ((div_le_one hR).mpr (leR k)) (one_le_pow₀ (by norm_num))
        · have : k = d := by have := mem_range.mp hk'; omega
          subst this
          rw [List.getD_append_right _ _ _ _ (by omega), hx, Nat.sub_self]
          show |re (1 : F64)| / R ≤ _
          rw [re_one, abs_one]
          exact (one_div_le hR (by positivity)).mpr gR
      rw [abs_mul]
      calc _ ≤ 1 * (2 : ℝ) ^ 480 := mul_le_mul a1 a2 (abs_nonneg _) zero_le_one
        _ = _ := one_mul _
    refine (sum_le_card_nsmul _ _ _ hb).trans ?_
    rw [card_range, nsmul_eq_mul, show (490 : ℕ) = 10 + 480 from rfl, pow_add]
    refine mul_le_mul_of_nonneg_right ?_ (by positivity)
    push_cast
    norm_num
    linarith
  beta_reduce at q1 q2
  have q0 : 0 ≤ ∑ k ∈ range (d + 1), |re (c.getD k 0) / E * (re ((x ++ [1]).getD k 0) / R)| := sum_nonneg fun _ _ => abs_nonneg _
  have a0 : 0 ≤ ∑ k ∈ range (d + 1), |re (h.val (2 ^ k)) * nc p k| := sum_nonneg fun _ _ => abs_nonneg _
  generalize (∑ k ∈ range (d + 1), |re (c.getD k 0) / E * (re ((x ++ [1]).getD k 0) / R)|) = Q at *
  generalize (∑ k ∈ range (d + 1), re (c.getD k 0) / E * (re ((x ++ [1]).getD k 0) / R)) = P at *
  generalize (∑ k ∈ range (d + 1), |re (h.val (2 ^ k)) * nc p k|) = a at *
  generalize (∑ k ∈ range (d + 1), re (h.val (2 ^ k)) * nc p k) = s at *
  clear p1 p2 hk hfin hz hhk hhz hpk hD hh hp leE leR
  have hn : n ≤ d + 1 := e3
  clear_value n
  -- the error of the sum
  have hu := C69_f64.1
  have hη := C69_f64.2.1
  have b1 : errB F64 a n ≤ a * ((d + 3) / 2 ^ 53) + 1 / 2 ^ 1068 := by
    refine (errB_mono (F := F64) a0 (le_refl a) hn).trans ?_
    unfold errB
    refine add_le_add (mul_le_mul_of_nonneg_left ?_ a0) ?_
    · have := pow_u_le (N := d + 1 + 1) (by omega)
      rw [hu] at this ⊢
      push_cast at this ⊢
      have h2 : 2 * ((((d : ℝ) + 1 + 1) * (1 / 2 ^ 53)) ^ 2) ≤ 1 / 2 ^ 53 := by
        have : ((d : ℝ) + 1 + 1) * (1 / 2 ^ 53) ≤ 1 / 2 ^ 46 := by norm_num; linarith
        have h0 : 0 ≤ ((d : ℝ) + 1 + 1) * (1 / 2 ^ 53) := by positivity
        have := pow_le_pow_left₀ h0 this 2
        refine (mul_le_mul_of_nonneg_left this (by norm_num)).trans (by norm_num)
      have h3 : ((d : ℝ) + 3) / 2 ^ 53 = (d + 1 + 1) * (1 / 2 ^ 53) + 1 / 2 ^ 53 := by ring
      rw [h3]
      linarith
    · have h1 : (1 + u F64) ^ (d + 1) ≤ 2 := by
        refine (pow_le_pow_right₀ (by rw [hu]; norm_num) (show d + 1 ≤ 64 by omega)).trans ?_
        rw [hu]; norm_num
      have h2 : ((d + 1 : ℕ) : ℝ) ≤ 2 ^ 6 := by push_cast; linarith
      have h0 : 0 ≤ η F64 := η_nonneg
      calc η F64 * ((d + 1 : ℕ) : ℝ) * (1 + u F64) ^ (d + 1) ≤ η F64 * 2 ^ 6 * 2 :=
            mul_le_mul (mul_le_mul_of_nonneg_left h2 h0) h1 (pow_nonneg (by rw [hu]; norm_num) _) (by positivity)
        _ = 1 / 2 ^ 1068 := by
          rw [hη, show (1075 : ℕ) = 1068 + 7 from rfl, pow_add, mul_assoc, one_div_mul_eq_div, div_mul_eq_div_div_swap]
          norm_num
  have q2' : a ≤ 2 * Q := by
    refine q2.trans (mul_le_mul_of_nonneg_right ?_ q0)
    norm_num
    nlinarith
  have tiny : (1 : ℝ) / 2 ^ 1068 ≤ 1 := by
    rw [div_le_one (by positivity)]; exact one_le_pow₀ (by norm_num)
  obtain ⟨g1, g2⟩ := h3 (by
    refine F64.big ?_
    have : a * ((d + 3) / 2 ^ 53) ≤ a * 1 := mul_le_mul_of_nonneg_left (by norm_num; linarith) a0
    have e : (2 : ℝ) ^ 500 = 1024 * 2 ^ 490 := by rw [show (500 : ℕ) = 10 + 490 from rfl, pow_add]; norm_num
    have e' : (2 : ℝ) ^ 500 ≤ 2 ^ 1000 := pow_le_pow_right₀ (by norm_num) (by norm_num)
    have e'' : (1 : ℝ) ≤ 2 ^ 490 := one_le_pow₀ (by norm_num)
    rw [e] at e'
    exact big_num q2' q3 this b1 tiny e'' e')
  refine ⟨g1, ?_⟩
  have q1' : |(GA.csg A.dim : ℝ) * s - GA.csg A.dim * P| ≤ ((d + 5) / 2 ^ 53 + (d + 4) / 2 ^ 53 + (d + 5) / 2 ^ 53 * ((d + 4) / 2 ^ 53)) * Q := by
    rw [← mul_sub, abs_mul, hcs, one_mul]; exact q1
  have tot := (abs_sub_le (re (w.val (2 ^ A.dim - 1))) ((GA.csg A.dim : ℝ) * s) (GA.csg A.dim * P)).trans (add_le_add (g2.trans b1) q1')
  refine tot.trans ?_
  have q2'' : a * ((d + 3) / 2 ^ 53) ≤ (1 + ((d + 5) / 2 ^ 53 + (d + 4) / 2 ^ 53 + (d + 5) / 2 ^ 53 * ((d + 4) / 2 ^ 53))) * Q * ((d + 3) / 2 ^ 53) :=
    mul_le_mul_of_nonneg_right q2 (by positivity)
  have fin' : (1 + (((d : ℝ) + 5) / 2 ^ 53 + (d + 4) / 2 ^ 53 + (d + 5) / 2 ^ 53 * ((d + 4) / 2 ^ 53))) * ((d + 3) / 2 ^ 53) +
      ((d + 5) / 2 ^ 53 + (d + 4) / 2 ^ 53 + (d + 5) / 2 ^ 53 * ((d + 4) / 2 ^ 53)) ≤ (3 * d + 13) / 2 ^ 53 := by
    have X : ((d : ℝ) + 5) / 2 ^ 53 ≤ 1 / 2 ^ 46 := by norm_num; linarith
    have Y : ((d : ℝ) + 4) / 2 ^ 53 ≤ 1 / 2 ^ 46 := by norm_num; linarith
    have Z : ((d : ℝ) + 3) / 2 ^ 53 ≤ 1 / 2 ^ 46 := by norm_num; linarith
    have e : (3 * (d : ℝ) + 13) / 2 ^ 53 = (d + 5) / 2 ^ 53 + (d + 4) / 2 ^ 53 + (d + 3) / 2 ^ 53 + 1 / 2 ^ 53 := by ring
    rw [e]
    exact xyz_num (by positivity) (by positivity) X Y Z
  have := mul_le_mul_of_nonneg_right fin' q0
  generalize (1 : ℝ) / 2 ^ 1068 = t at *
  linarith

end

/-! ### The exact model -/

section
variable {A : ClAlg} {S : Type} [DecidableEq ℝ] [CoeffStorage S ℝ] [LawfulStorage S ℝ]

theorem sdivG_real {a : MV A S} {t : ℝ} (h0 : t ≠ 0) : a.sdivG t = a.sdiv t := by
  unfold sdivG sdiv
  congr 1
  funext u
  rw [foldlM_set _ _ (fun p => (p.1, p.2 / t))]
  · rw [List.foldl_map]; rfl
  · intro u p _
    unfold fdiv
    rw [if_neg h0]; rfl

theorem euclMagG_real (x : List ℝ) : euclMagG Real.sqrt x = euclMag x := by
  unfold euclMagG euclMag
  rw [← List.sum_eq_foldl]

/-- **C97, the same code.** With real numbers instead of doubles, the functions here are those of C46–C48 and C89, as long as
nothing is divided by zero. -/
theorem C97_exact_model {x c v : List ℝ} (hx : euclMag x ≠ 0) (hc : euclMag c ≠ 0) :
    pgaPointG (A := A) (S := S) Real.sqrt x = pgaPoint x ∧ pgaHyperplaneG (A := A) (S := S) Real.sqrt c = pgaHyperplane c ∧
      pgaTranslationG (A := A) (S := S) v = pgaTranslation v ∧
      ∀ (n : Nat) (a sd : MV A S) (w : ℝ), a.dual = .ok sd → sd.getByIdx A.projMask = .ok w → w ≠ 0 →
        a.pgaExtractPointG n = a.pgaExtractPoint n := by
  refine ⟨?_, ?_, ?_, ?_⟩
  · unfold pgaPointG pgaPoint
    simp only [euclMagG_real, sdivG_real hx]
  · unfold pgaHyperplaneG pgaHyperplane
    simp only [euclMagG_real, sdivG_real hc]
  · unfold pgaTranslationG pgaTranslation
    rw [one_add_one_eq_two]
  · intro n a sd w h1 h2 h3
    unfold pgaExtractPointG pgaExtractPoint
    rw [h1]
    show (sd.getByIdx A.projMask >>= fun scale => _) = (sd.getByIdx A.projMask >>= fun scale => _)
    rw [h2]
    show (List.range n).mapM _ = (List.range n).mapM _
    congr 1
    funext k
    unfold fdiv
    simp only [if_neg h3]
    rfl

end

namespace Ex

/-- `declare_algebra!(PGA2, [+,+,0], ["x", "y", "n"])`, README.md:37. -/
def P2 : ClAlg := (declareAlgebra [.plus, .plus, .null] ["x", "y", "n"]).get rfl

theorem P2_decl : declareAlgebra [.plus, .plus, .null] ["x", "y", "n"] = some P2 := rfl
theorem P2_pga : implPga [.plus, .plus, .null] = some 2 := rfl

/-- All values of `f64` -/
abbrev D64 := Ieee Fmt.f64
def d64 (q : ℚ) : D64 := .round false q
def dInf : D64 := .inf false

/-- `M::pga_point(x).unwrap().pga_extract_point()` -/
def roundTrip2 (x : List D64) : Res (List D64) := do (← (pgaPointG Ieee.sqrt x : Res (MV P2 (ArrayStorage D64)))).pgaExtractPointG 2

/-- `t.rev() * pga_point(x) * t` for `t = pga_translation(v)`, then `pga_extract_point()` -/
def moved2 (x v : List D64) : Res (List D64) := do
  let p : MV P2 (ArrayStorage D64) ← pgaPointG Ieee.sqrt x
  let t ← pgaTranslationG v
  let r ← t.rev
  let q ← r.naiveMulImpl p
  let q ← q.naiveMulImpl t
  q.pgaExtractPointG 2

/-- The example of README.md:36-53 -/
def readmePga : Res (List D64) := do
  let ax : MV P2 (ArrayStorage D64) ← pgaPointG Ieee.sqrt [d64 10, d64 0]
  let ay : MV P2 (ArrayStorage D64) ← pgaPointG Ieee.sqrt [d64 0, d64 8]
  let line1 ← ax.meet ay
  let line2 : MV P2 (ArrayStorage D64) ← pgaHyperplaneG Ieee.sqrt [d64 (-2), d64 5, d64 (-10)]
  let intersection ← line1.wedge line2
  intersection.pgaExtractPointG 2

end Ex

open Ex in
/-- **C97.** The assertion of README.md:53 holds: the intersection is exactly `[5., 4.]` with doubles. -/
theorem C97_readme : readmePga.toOption = some [d64 5, d64 4] := by decide +kernel

open Ex in
/-- **C97, false without rounding errors.** The point extracted from `pga_point([3., 4.])` is not `[3., 4.]` (it is
`[2.9999999999999996, 4.]`). -/
theorem C97_exact_false : (roundTrip2 [d64 3, d64 4]).toOption = some [d64 (3 - 1 / 2 ^ 51), d64 4] ∧
    d64 (3 - 1 / 2 ^ 51) ≠ d64 3 := by decide +kernel

open Ex in
/-- **C97, false for all numbers.** The squares of large coordinates overflow and those of small ones are rounded to zero: the
point extracted from `pga_point([2^600, 0.])` is `[NaN, NaN]`, and from `pga_point([2^-600, 0.])` it is `[NaN, 0.]`. -/
theorem C97_range_false :
    (roundTrip2 [d64 (2 ^ 600), d64 0]).toOption = some [.nan, .nan] ∧
    (roundTrip2 [d64 (1 / 2 ^ 600), d64 0]).toOption = some [.nan, d64 0] := by decide +kernel

open Ex in
/-- **C97, false for the origin.** `pga_point([0., 0.])` has an infinite coefficient; the point extracted from it is still
`[0., 0.]`, but moved by `[1., 2.]` it is `[NaN, NaN]`. -/
theorem C97_origin_false :
    (roundTrip2 [d64 0, d64 0]).toOption = some [d64 0, d64 0] ∧
    (moved2 [d64 0, d64 0] [d64 1, d64 2]).toOption = some [.nan, .nan] := by decide +kernel

open Ex in
/-- **C97.** The error of the moved point is not relative to the result: `[3., 4.]` moved by `[-3., -4.]` is
`[-5·2^-53, 0.]`. -/
theorem C97_cancels : (moved2 [d64 3, d64 4] [d64 (-3), d64 (-4)]).toOption = some [d64 (-5 / 2 ^ 53), d64 0] := by
  decide +kernel

namespace Ex

theorem n64_three : re (n64 3) = 3 := by
  show ((Flt.toRat (n64 3) : ℚ) : ℝ) = 3
  rw [show Flt.toRat (n64 3) = 3 by decide +kernel]; norm_num
theorem n64_four : re (n64 4) = 4 := by
  show ((Flt.toRat (n64 4) : ℚ) : ℝ) = 4
  rw [show Flt.toRat (n64 4) = 4 by decide +kernel]; norm_num

theorem moderate_range {x : ℝ} (h1 : 1 ≤ x) (h2 : x ≤ 2 ^ 8) : 1 / 2 ^ 480 ≤ |x| ∧ |x| ≤ 2 ^ 480 := by
  rw [abs_of_pos (by linarith)]
  refine ⟨le_trans ?_ h1, h2.trans (pow_le_pow_right₀ (by norm_num) (by norm_num))⟩
  rw [div_le_one (by positivity)]
  exact one_le_pow₀ (by norm_num)

theorem three_moderate : Moderate (n64 3) :=
  ⟨by show n64 3 ≠ .nonFinite; decide +kernel, .inr (by rw [n64_three]; exact moderate_range (by norm_num) (by norm_num))⟩
theorem four_moderate : Moderate (n64 4) :=
  ⟨by show n64 4 ≠ .nonFinite; decide +kernel, .inr (by rw [n64_four]; exact moderate_range (by norm_num) (by norm_num))⟩

theorem P3_supp64 : LawfulStorage.Supp (S := ArrayStorage F64) (T := F64) P3.dim := by
  show P3.dim ≤ 63
  decide
theorem P2_supp64 : LawfulStorage.Supp (S := ArrayStorage F64) (T := F64) P2.dim := by
  show P2.dim ≤ 63
  decide

theorem pt_moderate : ∀ c ∈ [n64 3, n64 3, n64 4], Moderate c := by
  intro c hc
  rcases List.mem_cons.mp hc with rfl | hc
  · exact three_moderate
  rcases List.mem_cons.mp hc with rfl | hc
  · exact three_moderate
  rcases List.mem_cons.mp hc with rfl | hc
  · exact four_moderate
  cases hc

theorem pt_nonzero : ∃ c ∈ [n64 3, n64 3, n64 4], re c ≠ 0 := ⟨n64 3, by simp, by rw [n64_three]; norm_num⟩

/-- The point `(3, 3, 4)` of space, and its translation by `(3, 3, 4)` -/
example := C97_roundtrip (S := ArrayStorage F64) P3_decl P3_pga P3_supp64 (x := [n64 3, n64 3, n64 4]) rfl pt_moderate pt_nonzero
example := C97_translate (S := ArrayStorage F64) P3_decl P3_pga P3_supp64 (x := [n64 3, n64 3, n64 4]) (v := [n64 3, n64 3, n64 4])
  rfl rfl pt_moderate pt_nonzero pt_moderate
example := C97_exact_model (A := P3) (S := PD) (x := [3, 0, 4]) (c := [3, 0, 4, 0]) (v := [1, 2, 3])
  (fun h => by have := euclMag_eq_zero.mp h 3 (by simp); norm_num at this)
  (fun h => by have := euclMag_eq_zero.mp h 3 (by simp); norm_num at this)
/-- The line `3x + 3y + 4 = 0` of the plane -/
example := C97_hyperplane (S := ArrayStorage F64) P2_decl P2_pga P2_supp64 (c := [n64 3, n64 3, n64 4]) rfl pt_moderate pt_nonzero

theorem pt2_moderate : ∀ c ∈ [n64 3, n64 4], Moderate c := fun c hc => pt_moderate c (List.mem_cons_of_mem _ hc)

/-- … and its product with the point `(3, 4)` -/
example := C97_incidence (S := ArrayStorage F64) P2_decl P2_pga P2_supp64 (c := [n64 3, n64 3, n64 4]) (x := [n64 3, n64 4]) rfl rfl
  pt_moderate pt_nonzero pt2_moderate ⟨n64 3, by simp, by rw [n64_three]; norm_num⟩

end Ex

end TClifford
