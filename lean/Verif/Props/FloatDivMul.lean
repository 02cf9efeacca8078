import Verif.Props.FloatDiv
/-
C98: multiplying a quotient with its divisor, with doubles.
-/

namespace TClifford

open Finset FloatModel MV

section
variable {sig : List Sym} {names : List String} {A : ClAlg} {S : Type} [CoeffStorage S F64] [LawfulStorage S F64]
variable {S' : Type} [CoeffStorage S' ℝ] [LawfulStorage S' ℝ]
variable {a b : MV A S} {a' b' : MV A S'} {x y : Nat → F64}

/-- The real multivector with given coefficients. -/
noncomputable def realMV (A : ClAlg) (f : Nat → ℝ) : MV A (ArrayStorage ℝ) := ⟨⟨A.dim, ⟨2 ^ A.dim, f⟩⟩⟩

theorem realMV_valid (hd : A.dim ≤ 63) (f : Nat → ℝ) : (realMV A f).Valid := ⟨hd, rfl, rfl⟩

theorem realMV_val (f : Nat → ℝ) {i : Nat} (hi : i < 2 ^ A.dim) : (realMV A f).val i = f i := if_pos hi

theorem same_realMV (ha : a.Valid) (hc : Coefs (.ok a) x) (hf : ∀ i < 2 ^ A.dim, fin (x i)) :
    SameValues a (realMV A fun i => re (x i)) x := by
  have hv := realMV_valid (LawfulStorage.supp_le ha.supp) fun i => re (x i)
  exact ⟨ha, hv, hc, (Denotes.of_valid hv).coefs.congr fun i hi => realMV_val _ hi, hf⟩

/-- The largest absolute value of a factor times the Euclidean norm of the other. -/
theorem sum_abs_mul_le {n k : Nat} (hn : n ≤ 2) (hk : k < 2 ^ n) {f : Nat → ℝ} {g : Nat → ℝ} {c : ℝ} (hf : ∀ i < 2 ^ n, |f i| ≤ c) :
    ∑ i ∈ range (2 ^ n), |f i| * |g (i ^^^ k)| ≤ 2 * c * √(∑ i ∈ range (2 ^ n), g i ^ 2) := by
  have hc : 0 ≤ c := (abs_nonneg _).trans (hf 0 (Nat.two_pow_pos n))
  have h1 := Real.sum_mul_le_sqrt_mul_sqrt (range (2 ^ n)) (fun i => |f i|) (fun i => |g (i ^^^ k)|)
  simp only [sq_abs] at h1
  rw [sum_xor hk (fun i => g i ^ 2)] at h1
  refine h1.trans (mul_le_mul_of_nonneg_right ?_ (Real.sqrt_nonneg _))
  refine Real.sqrt_le_iff.mpr ⟨by positivity, ?_⟩
  have h2 : ∑ i ∈ range (2 ^ n), f i ^ 2 ≤ ∑ _i ∈ range (2 ^ n), c ^ 2 :=
    sum_le_sum fun i hi => sq_le_sq' (by linarith [neg_abs_le (f i), hf i (mem_range.mp hi)]) ((le_abs_self _).trans (hf i (mem_range.mp hi)))
  refine h2.trans ?_
  rw [sum_const, card_range, nsmul_eq_mul]
  have h3 : ((2 ^ n : ℕ) : ℝ) ≤ 4 := by
    have : 2 ^ n ≤ 2 ^ 2 := Nat.pow_le_pow_right (by omega) hn
    exact_mod_cast this
  nlinarith [sq_nonneg c]

theorem geo_abs_le (hA : A.WF) (f g : Nat → ℝ) {k : Nat} (hk : k < 2 ^ A.dim) :
    |geo A.sigma A.dim f g k| ≤ ∑ i ∈ range (2 ^ A.dim), |f i| * |g (i ^^^ k)| := by
  refine (abs_sum_le_sum_abs _ _).trans (sum_le_sum fun i hi => ?_)
  rw [zsmul_eq_mul]
  exact mul_le_of_unit (bsgn_sigma_abs hA (mem_range.mp hi) (Nat.xor_lt_two_pow (mem_range.mp hi) hk))

/-- **C98.** In the algebras `[-]` and `[-,-]` with doubles whose coefficients are zero or between `2⁻²⁰⁰` and `2²⁰⁰`, `(a / b) * b`
gives `a` back up to rounding: every coefficient is finite and within `45 · 2⁻⁵³` times the norm of `a`. -/
theorem C98_div_mul (hA : declareAlgebra sig names = some A) (hd : implDivision sig = true) (ha : SameValues a a' x)
    (hb : SameValues b b' y) (hx : ∀ i < 2 ^ A.dim, MidR (x i)) (hy : ∀ i < 2 ^ A.dim, MidR (y i))
    (h0 : ∃ i < 2 ^ A.dim, re (y i) ≠ 0) :
    NearR (do let q ← a.divG b; q.naiveMulImpl b) (.ok a') (fun _ _ => True)
      (fun _ _ => 45 / 2 ^ 53 * √(∑ i ∈ range (2 ^ A.dim), re (x i) ^ 2)) := by
  obtain ⟨p, q, z, e, h1, h2, h3, h4, h5, h6, h7⟩ := C98_div_norm hA hd ha hb hx hy h0
  obtain ⟨hw, hdim, hσ⟩ := division_cases hA hd
  have hdim2 : A.dim ≤ 2 := by rcases hdim with h | h <;> omega
  set X := ∑ i ∈ range (2 ^ A.dim), re (x i) ^ 2 with hX
  set Y := ∑ i ∈ range (2 ^ A.dim), re (y i) ^ 2 with hY
  have hY0 : 0 < Y := by
    obtain ⟨i, hi, hne⟩ := h0
    exact lt_of_lt_of_le (by positivity) (single_le_sum (f := fun i => re (y i) ^ 2) (fun _ _ => sq_nonneg _) (mem_range.mpr hi))
  have hsY : 0 < √Y := Real.sqrt_pos.mpr hY0
  have hsX : 0 ≤ √X := Real.sqrt_nonneg _
  set R := √X / √Y with hR
  have hR0 : 0 ≤ R := by positivity
  have hRY : R * √Y = √X := div_mul_cancel₀ _ hsY.ne'
  have hfin : ∀ i < 2 ^ A.dim, fin (z i) := fun i hi => (h7 i hi trivial).1
  have hnear : ∀ i < 2 ^ A.dim, |re (z i) - e i| ≤ 15 / 2 ^ 53 * R := fun i hi => (h7 i hi trivial).2
  -- the exact quotient
  have hg : geo A.sigma A.dim b'.val (cj A.dim b'.val) 0 = Y := by
    rw [(geo_cj hdim hσ b'.val (Nat.two_pow_pos _)).1, single, if_pos rfl]
    exact sum_congr rfl fun i hi => by rw [hb.val' (mem_range.mp hi), sq]
  have hden := div_denotes hw ha.valid' hb.valid' (by rw [hg]; exact hY0.ne')
  rw [h2] at hden
  have he := h6.unique hden.coefs
  have hle : ∀ i < 2 ^ A.dim, |e i| ≤ R := fun i hi => by
    rw [he i hi]
    refine (geo_abs_le hw _ _ hi).trans ?_
    have e1 : ∑ j ∈ range (2 ^ A.dim), |a'.val j| *
        |cj A.dim b'.val (j ^^^ i) / geo A.sigma A.dim b'.val (cj A.dim b'.val) 0| =
        (∑ j ∈ range (2 ^ A.dim), |re (x j)| * |re (y (j ^^^ i))|) / Y := by
      rw [sum_div]
      refine sum_congr rfl fun j hj => ?_
      rw [mem_range] at hj
      rw [hg, cj_eq, abs_div, abs_mul, cs_abs, one_mul, ha.val' hj, hb.val' (Nat.xor_lt_two_pow hj hi), abs_of_pos hY0, mul_div_assoc]
    rw [e1]
    have hcs := Real.sum_mul_le_sqrt_mul_sqrt (range (2 ^ A.dim)) (fun i => |re (x i)|) (fun j => |re (y (j ^^^ i))|)
    simp only [sq_abs] at hcs
    rw [sum_xor hi (fun i => re (y i) ^ 2)] at hcs
    rw [div_le_iff₀ hY0, hR, div_mul_eq_mul_div, le_div_iff₀ hsY]
    calc _ ≤ (√X * √Y) * √Y := mul_le_mul_of_nonneg_right hcs hsY.le
      _ = _ := by rw [mul_assoc, Real.mul_self_sqrt hY0.le]
  have hback : ∀ k < 2 ^ A.dim, geo A.sigma A.dim e b'.val k = re (x k) := fun k hk => by
    have h := (div_facts hA hd ha.valid' hb.valid' (by
      have : ∑ i ∈ range (2 ^ A.dim), b'.val i * b'.val i = Y := sum_congr rfl fun i hi => by rw [hb.val' (mem_range.mp hi), sq]
      rw [this]; exact hY0.ne')).1
    rw [h2] at h
    have hm := mul_denotes hw h4 hb.valid'
    obtain ⟨u, v, hu, hv, hu', hv', huv⟩ := h
    cases hv
    have hu : q.naiveMulImpl b' = .ok u := hu
    rw [hu] at hm
    have hk' := (beq_iff hu' hv').mp huv k hk
    rw [ha.val' hk, hm.coefs.val hu' hk] at hk'
    rw [← hk']
    exact geo_congr (fun _ _ => rfl) (fun i hi => (h6.val h4 hi).symm) (fun _ _ => rfl) hk
  -- the product
  have sp := same_realMV h3 h5 hfin
  have sb := same_realMV hb.valid hb.coefs hb.finite
  have hdist : ∀ k < 2 ^ A.dim, |geo A.sigma A.dim (fun i => re (z i)) b'.val k - re (x k)| ≤ 30 / 2 ^ 53 * √X := fun k hk => by
    rw [← hback k hk, ← geo_sub_left]
    refine (geo_abs_le hw _ _ hk).trans ?_
    have := sum_abs_mul_le hdim2 hk (f := fun i => re (z i) - e i) (g := b'.val) hnear
    have e1 : ∑ i ∈ range (2 ^ A.dim), b'.val i ^ 2 = Y := sum_congr rfl fun i hi => by rw [hb.val' (mem_range.mp hi)]
    rw [e1] at this
    refine this.trans (le_of_eq ?_)
    rw [← hRY]; ring
  have hz : ∀ i < 2 ^ A.dim, |re (z i)| ≤ 17 / 16 * R := fun i hi => by
    have h8 := abs_sub_abs_le_abs_sub (re (z i)) (e i)
    have h9 := hnear i hi
    have h10 := hle i hi
    have h11 : 15 / 2 ^ 53 * R ≤ 1 / 16 * R := mul_le_mul_of_nonneg_right (by norm_num) hR0
    linarith
  have hmul := mul_denotes hw sp.valid' sb.valid'
  have hgeo : ∀ k < 2 ^ A.dim, geo A.sigma A.dim (realMV A fun i => re (z i)).val (realMV A fun i => re (y i)).val k =
      geo A.sigma A.dim (fun i => re (z i)) b'.val k := fun k hk =>
    geo_congr (fun _ _ => rfl) (fun i hi => realMV_val _ hi) (fun i hi => (realMV_val _ hi).trans (hb.val' hi).symm) hk
  have hab : Coefs (.ok a') fun i => re (x i) := ha.coefs'
  rcases hsX.eq_or_lt with hX0 | hX0
  · have hRz : R = 0 := by rw [hR, ← hX0, _root_.zero_div]
    have hz0 : ∀ i < 2 ^ A.dim, re (z i) = 0 := fun i hi => by
      have := hz i hi
      rw [hRz, MulZeroClass.mul_zero] at this
      exact abs_nonpos_iff.mp this
    obtain ⟨u, v, w, f, m1, m2, m3, m4, m5, m6, m7⟩ := C70_mul hw sp sb
    refine ⟨u, a', w, _, ?_, rfl, m3, ha.valid', m5, hab, fun k hk _ => ?_⟩
    · rw [h1]; exact m1
    have hzz : ∀ i < 2 ^ A.dim, z i = 0 := fun i hi => re_inj (hfin i hi) fin_zero ((hz0 i hi).trans re_zero.symm)
    have hM : absSum (range (2 ^ A.dim)) z (fun i => y (i ^^^ k)) = 0 :=
      sum_eq_zero fun i hi => by rw [hz0 i (mem_range.mp hi), abs_zero, MulZeroClass.zero_mul]
    have hN : nTerms (range (2 ^ A.dim)) z (fun i => y (i ^^^ k)) = 0 := by
      refine card_eq_zero.mpr (filter_eq_empty_iff.mpr fun i hi h => h.1 (hzz i (mem_range.mp hi)))
    have hE : errB F64 0 0 = 0 := by unfold errB; simp
    have h8 := m7 k hk
    beta_reduce at h8
    rw [hM, hN, hE, _root_.add_zero] at h8
    obtain ⟨h9, h10⟩ := h8 Ω_nonneg
    refine ⟨h9, ?_⟩
    rw [m2] at hmul
    have h11 := m6.unique hmul.coefs k hk
    rw [hgeo k hk] at h11
    have h12 := hdist k hk
    rw [← h11] at h12
    rw [← hX0] at h12 ⊢
    rw [MulZeroClass.mul_zero] at h12 ⊢
    exact (abs_sub_le _ (f k) _).trans (by linarith)
  · have hX2 : 1 / 2 ^ 200 ≤ √X := by
      obtain ⟨i, hi, hne⟩ : ∃ i < 2 ^ A.dim, re (x i) ≠ 0 := by
        by_contra h
        push Not at h
        have : X = 0 := sum_eq_zero fun i hi => by rw [h i (mem_range.mp hi)]; norm_num
        rw [this, Real.sqrt_zero] at hX0
        exact lt_irrefl _ hX0
      have h8 := ((hx i hi).2.resolve_left hne).1
      refine h8.trans (Real.le_sqrt_of_sq_le ?_)
      rw [sq_abs]
      exact single_le_sum (f := fun i => re (x i) ^ 2) (fun _ _ => sq_nonneg _) (mem_range.mpr hi)
    have hY2 : 1 / 2 ^ 200 ≤ √Y := by
      obtain ⟨i, hi, hne⟩ := h0
      have h8 := ((hy i hi).2.resolve_left hne).1
      refine h8.trans (Real.le_sqrt_of_sq_le ?_)
      rw [sq_abs]
      exact single_le_sum (f := fun i => re (y i) ^ 2) (fun _ _ => sq_nonneg _) (mem_range.mpr hi)
    have hX3 : √X ≤ 2 * 2 ^ 200 := by
      refine Real.sqrt_le_iff.mpr ⟨by positivity, ?_⟩
      have h8 : X ≤ ∑ _i ∈ range (2 ^ A.dim), ((2 : ℝ) ^ 200) ^ 2 := sum_le_sum fun i hi => by
        rw [← sq_abs]
        exact pow_le_pow_left₀ (abs_nonneg _) (hx i (mem_range.mp hi)).le 2
      refine h8.trans ?_
      rw [sum_const, card_range, nsmul_eq_mul]
      have h9 : ((2 ^ A.dim : ℕ) : ℝ) ≤ 4 := by
        have : 2 ^ A.dim ≤ 2 ^ 2 := Nat.pow_le_pow_right (by omega) hdim2
        exact_mod_cast this
      rw [mul_pow]
      exact mul_le_mul_of_nonneg_right (by linarith) (by positivity)
    have hR2 : R ≤ 2 ^ 401 := by
      rw [hR, div_le_iff₀ hsY]
      refine hX3.trans ?_
      have h8 : (2 : ℝ) ^ 401 * (1 / 2 ^ 200) ≤ 2 ^ 401 * √Y := mul_le_mul_of_nonneg_left hY2 (by positivity)
      refine le_trans (le_of_eq ?_) h8
      rw [show (401 : ℕ) = 200 + 1 + 200 from rfl, pow_add (2 : ℝ) (200 + 1) 200, pow_succ]
      field_simp
    obtain ⟨u, v, w, f, m1, m2, m5, m6, m7⟩ := C70_mul_f64 hw (by omega) sp sb
      (fun i hi => (hz i hi).trans (by
        have : 17 / 16 * R ≤ 17 / 16 * 2 ^ 401 := mul_le_mul_of_nonneg_left hR2 (by norm_num)
        refine this.trans ?_
        have h8 : (2 : ℝ) ^ 402 ≤ 2 ^ 480 := pow_le_pow_right₀ (by norm_num) (by norm_num)
        have h9 : (2 : ℝ) ^ 402 = 2 ^ 401 * 2 := pow_succ 2 401
        have h10 : (0 : ℝ) < 2 ^ 401 := by positivity
        rw [h9] at h8
        refine le_trans ?_ h8
        rw [mul_comm]
        exact mul_le_mul_of_nonneg_left (by norm_num) h10.le))
      (fun i hi => (hy i hi).le.trans (pow_le_pow_right₀ (by norm_num) (by norm_num)))
    have m3 : u.Valid := by
      obtain ⟨u', e1, e2, -⟩ := mul_inv sumInv_acc hw h3 hb.valid sp.good hb.good
      rw [m1] at e1
      cases e1
      exact e2
    refine ⟨u, a', w, _, ?_, rfl, m3, ha.valid', m5, hab, fun k hk _ => ⟨(m7 k hk).1, ?_⟩⟩
    · rw [h1]; exact m1
    rw [m2] at hmul
    have h11 := m6.unique hmul.coefs k hk
    rw [hgeo k hk] at h11
    have h12 := hdist k hk
    rw [← h11] at h12
    have h13 := (m7 k hk).2
    have h14 := sum_abs_mul_le hdim2 hk (f := fun i => re (z i)) (g := fun i => re (y i)) hz
    have h15 : 2 * (17 / 16 * R) * √Y = 17 / 8 * √X := by rw [← hRY]; ring
    rw [h15] at h14
    have h16 : ((2 : ℝ) ^ A.dim + 2) / 2 ^ 53 ≤ 6 / 2 ^ 53 := by
      have : (2 : ℝ) ^ A.dim ≤ 2 ^ 2 := pow_le_pow_right₀ (by norm_num) hdim2
      exact div_le_div_of_nonneg_right (by linarith) (by positivity)
    have h17 : (3 * (2 : ℝ) ^ A.dim) / 2 ^ 1075 ≤ 1 / 2 ^ 53 * √X := by
      have h8 : (2 : ℝ) ^ A.dim ≤ 2 ^ 2 := pow_le_pow_right₀ (by norm_num) hdim2
      have h9 : (3 * (2 : ℝ) ^ A.dim) / 2 ^ 1075 ≤ 2 ^ 4 / 2 ^ 1075 := div_le_div_of_nonneg_right (by linarith) (by positivity)
      have h10 : (1 : ℝ) / 2 ^ 53 * (1 / 2 ^ 200) ≤ 1 / 2 ^ 53 * √X := mul_le_mul_of_nonneg_left hX2 (by positivity)
      refine h9.trans (le_trans ?_ h10)
      rw [div_mul_div_comm, one_mul, ← pow_add, div_le_div_iff₀ (by positivity) (by positivity), one_mul, ← pow_add]
      exact pow_le_pow_right₀ (by norm_num) (by norm_num)
    have h18 : (((2 : ℝ) ^ A.dim + 2) / 2 ^ 53) * ∑ i ∈ range (2 ^ A.dim), |re (z i)| * |re (y (i ^^^ k))| ≤ 6 / 2 ^ 53 * (17 / 8 * √X) :=
      mul_le_mul h16 h14 (by positivity) (by norm_num)
    refine (abs_sub_le _ (f k) _).trans ((add_le_add (h13.trans (add_le_add h18 h17)) h12).trans ?_)
    have : 6 / 2 ^ 53 * (17 / 8 * √X) + 1 / 2 ^ 53 * √X + 30 / 2 ^ 53 * √X = (6 * (17 / 8) + 31) / 2 ^ 53 * √X := by ring
    rw [this]
    exact mul_le_mul_of_nonneg_right (by norm_num) hsX

end

open Ex in
/-- **C98, false without rounding errors.** `((1 + 3i) / (1 + 3i)) * (1 + 3i)` is not `1 + 3i`. -/
theorem C98_div_mul_exact_false :
    (do let a : MV Ex.Cx (ArrayStorage D64) ← fromIndexedIter [(0, d64 1), (1, d64 3)]
        let q ← a.divG a
        let r ← q.naiveMulImpl a
        return [← r.getByIdx 0, ← r.getByIdx 1] : Res (List D64)).toOption ≠ some [d64 1, d64 3] := by decide +kernel

namespace Ex

example := C98_div_mul C45_algebra rfl same_qD same_qD (fun i _ => xD_mid i) (fun i _ => xD_mid i) ⟨0, by decide, xD_ne⟩

end Ex

end TClifford
