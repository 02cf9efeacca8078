import Verif.Proofs.ClifftOps
/-
The functions of src/clifft/mod.rs compute the transform of `Verif/Math/Clifft.lean`.
-/

set_option linter.unusedSectionVars false

namespace TClifford

open Finset

section ring
variable {T : Type} [Ring T]

theorem alpha_eq {m i j : Nat} (hi : i < 2 ^ m) (hj : j < 2 ^ m) (c : T) : alpha c i j = sg (par m i ^^ par m j) • c := by
  unfold alpha
  rw [Nat.and_one_is_mod, ← par_xor]
  by_cases h : par m (i ^^^ j) = true
  · rw [if_pos ((countOnes_mod_two (Nat.xor_lt_two_pow hi hj)).mpr h), h]; simp
  · rw [if_neg (fun hc => h ((countOnes_mod_two (Nat.xor_lt_two_pow hi hj)).mp hc)), Bool.eq_false_iff.mpr h]; simp

theorem cnnO_eq (m : Nat) (x : Nat → T) : MEq (2 ^ m) (2 ^ m) (cnnO m x) (cnn m x) := by
  induction m generalizing x with
  | zero => exact MEq.rfl' _
  | succ m ih =>
    rw [cnnO_succ, cnn_succ]
    refine blk_congr ?_ ?_ ?_ ?_
    all_goals
      intro i hi' j hj
      simp only [ih _ i hi' j hj]
    · rfl
    · rw [alpha_eq hi' hj]; rfl
    · rfl
    · rw [alpha_eq hi' hj]; rfl

theorem clifftNnInto_spec (m : Nat) (hm : 2 * m < 64) (coeffs : Arr1 T) (dest : Arr2 T) (hl : coeffs.len = 2 ^ (2 * m))
    (hr : dest.rows = 2 ^ m) (hc : dest.cols = 2 ^ m) : IsM (clifftNnInto coeffs dest) m (cnn m coeffs.get) := by
  obtain ⟨r, h1, h2, h3, h4⟩ := clifftNnInto_ops m hm coeffs dest hl hr hc
  exact ⟨r, h1, h2, h3, h4.trans (cnnO_eq m _)⟩

theorem clifftNn_spec (m : Nat) (hm : 2 * m < 64) (coeffs : Arr1 T) (hl : coeffs.len = 2 ^ (2 * m)) :
    IsM (clifftNn coeffs) m (cnn m coeffs.get) := by
  unfold clifftNn
  rw [clifftAlloc_two_pow hm _ hl, show 2 * m / 2 = m by omega]
  exact clifftNnInto_spec m hm coeffs _ hl rfl rfl

theorem imaginaryFlipInplace_spec (m : Nat) (M : Arr2 T) (hr : M.rows = 2 ^ m) (hc : M.cols = 2 ^ m) :
    (imaginaryFlipInplace M).rows = 2 ^ m ∧ (imaginaryFlipInplace M).cols = 2 ^ m ∧
    MEq (2 ^ m) (2 ^ m) (imaginaryFlipInplace M).get (ifl m M.get) := by
  induction m generalizing M with
  | zero =>
    unfold imaginaryFlipInplace
    rw [dif_pos (by simp [Arr2.size, hr, hc])]
    exact ⟨hr, hc, MEq.rfl' _⟩
  | succ m ih =>
    have hp : 2 ^ (m + 1) = 2 ^ m + 2 ^ m := by rw [pow_succ]; ring
    have hpos := Nat.two_pow_pos m
    have hsz : ¬ M.size ≤ 1 := by
      unfold Arr2.size
      rw [hr, hc, two_pow_mul_self]
      have : 2 ^ 1 < 2 ^ (2 * (m + 1)) := Nat.pow_lt_pow_right (by norm_num) (by omega)
      omega
    have h1 : M.rows / 2 = 2 ^ m := by omega
    have h2 : M.cols / 2 = 2 ^ m := by omega
    unfold imaginaryFlipInplace
    rw [dif_neg hsz]
    simp only [h1, h2]
    refine ⟨?_, ?_, ?_⟩
    · simp only [Arr2.joinQuarters, Arr2.quarters]; omega
    · simp only [Arr2.joinQuarters, Arr2.quarters]; omega
    · have key : ∀ (r c : Nat) (g : Nat → Nat → T) (X : Nat → Nat → T), r = 2 ^ m → c = 2 ^ m → MEq (2 ^ m) (2 ^ m) g (al m X) →
          MEq (2 ^ m) (2 ^ m) (imaginaryFlipInplace (⟨r, c, g⟩ : Arr2 T)).get (ifl m (al m X)) := by
        intro r c g X h3 h4 h5
        exact (ih ⟨r, c, g⟩ h3 h4).2.2.trans (ifl_congr h5)
      have put : ∀ (X g : Nat → Nat → T), MEq (2 ^ m) (2 ^ m)
          (fun i j => if i < 2 ^ m ∧ j < 2 ^ m then alpha (X i j) i j else g i j) (al m X) := by
        intro X g i hi j hj
        simp only [hi, hj, and_self, if_true, alpha_eq hi hj, al]
      have ka := key _ _ _ _ rfl rfl (put (q11 m M.get) M.get)
      have kb := key (2 ^ m) (M.cols - 2 ^ m) _ _ rfl (by omega) (put (q10 m M.get) (fun i j => M.get i (j + 2 ^ m)))
      have kc := key (M.rows - 2 ^ m) (2 ^ m) _ _ (by omega) rfl (put (q01 m M.get) (fun i j => M.get (i + 2 ^ m) j))
      have kd := key (M.rows - 2 ^ m) (M.cols - 2 ^ m) _ _ (by omega) (by omega) (put M.get (fun i j => M.get (i + 2 ^ m) (j + 2 ^ m)))
      intro i hi j hj
      rw [hp] at hi hj
      rw [ifl_succ]
      simp only [Arr2.joinQuarters, Arr2.quarters, blk]
      by_cases h3 : i < 2 ^ m <;> by_cases h4 : j < 2 ^ m
      · simp only [h3, h4, if_true]
        exact ka i h3 j h4
      · simp only [h3, h4, if_true, if_false]
        exact kb i h3 _ (by omega)
      · simp only [h3, h4, if_true, if_false]
        exact kc _ (by omega) j h4
      · simp only [h3, h4, if_false]
        exact kd _ (by omega) _ (by omega)

theorem imaginaryFlip_spec {m : Nat} (hm : m < 64) (M : Arr2 T) (hr : M.rows = 2 ^ m) (hc : M.cols = 2 ^ m) :
    IsM (imaginaryFlip M) m (ifl m M.get) := by
  unfold imaginaryFlip
  rw [badSquare_false hr hc hm]
  exact ⟨_, rfl, imaginaryFlipInplace_spec m M hr hc⟩

theorem reversal_spec {m : Nat} (hm : m < 64) (M : Arr2 T) (hr : M.rows = 2 ^ m) (hc : M.cols = 2 ^ m) :
    IsM (reversal M) m (ifl m (fun i j => M.get j i)) := imaginaryFlip_spec hm M.transpose hc hr

theorem parityFlip_spec {m : Nat} (M : Arr2 T) (hr : M.rows = 2 ^ m) (hc : M.cols = 2 ^ m) :
    IsM (.ok (parityFlip M)) m (al m M.get) :=
  ⟨_, rfl, hr, hc, fun _ hi _ hj => alpha_eq hi hj _⟩

end ring

section div
variable {T : Type} [DivisionRing T]

theorem alpha_zero {n k : Nat} (hk : k < 2 ^ n) (c : T) : alpha c k 0 = sg (par n k) • c := by
  rw [alpha_eq hk (Nat.two_pow_pos n)]; simp

theorem icnnO_eq (m : Nat) (M : Nat → Nat → T) {k : Nat} (hk : k < 2 ^ (2 * m)) : icnnO m M k = icnn m M k := by
  induction m generalizing M k with
  | zero => rfl
  | succ m ih =>
    have h4 : 2 ^ (2 * (m + 1)) = 4 * 2 ^ (2 * m) := by
      rw [show 2 * (m + 1) = 2 * m + 1 + 1 by ring, pow_succ, pow_succ]; ring
    have h2 : 2 ^ (2 * m + 1) = 2 * 2 ^ (2 * m) := by rw [pow_succ]; ring
    unfold icnnO icnn
    simp only [jn, flp]
    by_cases k1 : k < 2 ^ (2 * m + 1)
    · simp only [k1, if_true]
      by_cases k2 : k < 2 ^ (2 * m)
      · simp only [k2, if_true, ih _ k2, alpha_zero k2]
      · have k3 : k - 2 ^ (2 * m) < 2 ^ (2 * m) := by omega
        simp only [k2, if_false, ih _ k3, alpha_zero k3]
    · simp only [k1, if_false]
      by_cases k2 : k - 2 ^ (2 * m + 1) < 2 ^ (2 * m)
      · simp only [k2, if_true, ih _ k2, alpha_zero k2]
      · have k3 : k - 2 ^ (2 * m + 1) - 2 ^ (2 * m) < 2 ^ (2 * m) := by omega
        simp only [k2, if_false, ih _ k3, alpha_zero k3]

theorem iclifftNnInto_spec (m : Nat) (hm : m < 64) (M : Arr2 T) (dest : Arr1 T) (hr : M.rows = 2 ^ m) (hc : M.cols = 2 ^ m)
    (hd : 2 ^ (2 * m) ≤ dest.len) : ∃ r, iclifftNnInto M dest = .ok r ∧ r.len = dest.len ∧
      (∀ k < 2 ^ (2 * m), r.get k = icnn m M.get k) ∧ ∀ k, 2 ^ (2 * m) ≤ k → r.get k = dest.get k := by
  obtain ⟨r, h1, h2, h3, h4⟩ := iclifftNnInto_ops m hm M dest hr hc hd
  exact ⟨r, h1, h2, fun k hk => (h3 k hk).trans (icnnO_eq m _ hk), h4⟩

theorem iclifftNn_spec {m : Nat} (hm : m < 64) (M : Arr2 T) (hr : M.rows = 2 ^ m) (hc : M.cols = 2 ^ m) :
    ∃ r, iclifftNn M = .ok r ∧ r.len = 2 ^ (2 * m) ∧ ∀ k < 2 ^ (2 * m), r.get k = icnn m M.get k := by
  have hs : M.size = 2 ^ (2 * m) := by unfold Arr2.size; rw [hr, hc, two_pow_mul_self]
  obtain ⟨r, h1, h2, h3, -⟩ := iclifftNnInto_spec m hm M (Arr1.zeros M.size) hr hc (by rw [← hs]; exact le_rfl)
  exact ⟨r, h1, h2.trans hs, h3⟩

end div

theorem mmO_eq {T : Type} [Ring T] (m : Nat) (X Y : Nat → Nat → T) : mmO m X Y = mm m X Y := by
  funext i j
  show ((List.range (2 ^ m)).map (fun k => X i k * Y k j)).foldl (· + ·) 0 = ∑ k ∈ range (2 ^ m), X i k * Y k j
  rw [← List.sum_eq_foldl, ← List.sum_toFinset _ List.nodup_range, List.toFinset_range]

theorem dot_get {T : Type} [Ring T] {m : Nat} {a b : Arr2 T} (ha : a.cols = 2 ^ m) (hb : b.rows = 2 ^ m) :
    ∃ r, a.dot b = .ok r ∧ r.rows = a.rows ∧ r.cols = b.cols ∧ r.get = mm m a.get b.get := by
  obtain ⟨r, h1, h2, h3, h4⟩ := dot_ops ha hb
  exact ⟨r, h1, h2, h3, h4.trans (mmO_eq m _ _)⟩

theorem IsM.dot {T : Type} [Ring T] {x y : Res (Arr2 T)} {m : Nat} {M N : Nat → Nat → T} (hx : IsM x m M) (hy : IsM y m N) :
    IsM (do let a ← x; let b ← y; a.dot b) m (mm m M N) := by
  obtain ⟨r, rfl, h1, h2, h3⟩ := hx
  obtain ⟨s, rfl, g1, g2, g3⟩ := hy
  obtain ⟨t, ht, e1, e2, e3⟩ := dot_get h2 g1
  refine ⟨t, ht, e1.trans h1, e2.trans g2, ?_⟩
  rw [e3]
  exact mm_congr h3 g3

/-! ### Signs as powers of `-1` -/

theorem sg_par_pow {n k : Nat} (hk : k < 2 ^ n) : sg (par n k) = (-1) ^ countOnes k := by
  rw [countOnes_eq_cnt hk, par_eq, neg_one_pow_eq_pow_mod_two]
  rcases Nat.mod_two_eq_zero_or_one (cnt n k) with h | h <;> simp [h]

theorem rsg_pow {n k : Nat} (hk : k < 2 ^ n) : rsg n k = (-1) ^ (countOnes k * (countOnes k - 1) / 2) := by
  rw [rsg_eq, countOnes_eq_cnt hk]
  generalize cnt n k = g
  obtain ⟨q, r, hr, rfl⟩ : ∃ q r, r < 4 ∧ g = 4 * q + r := ⟨g / 4, g % 4, Nat.mod_lt _ (by norm_num), by omega⟩
  have hmod : (4 * q + r) % 4 = r := by omega
  rw [hmod]
  have hexp : (4 * q + r) * (4 * q + r - 1) / 2 % 2 = r * (r - 1) / 2 % 2 := by
    interval_cases r
    · rcases q with _ | q
      · rfl
      · rw [show (4 * (q + 1) + 0) * (4 * (q + 1) + 0 - 1) = 2 * (2 * ((q + 1) * (4 * q + 3))) by
          rw [show 4 * (q + 1) + 0 - 1 = 4 * q + 3 by omega]; ring]
        rw [Nat.mul_div_cancel_left _ (by norm_num)]; simp
    · rw [show (4 * q + 1) * (4 * q + 1 - 1) = 2 * (2 * (q * (4 * q + 1))) by rw [Nat.add_sub_cancel]; ring]
      rw [Nat.mul_div_cancel_left _ (by norm_num)]; simp
    · rw [show (4 * q + 2) * (4 * q + 2 - 1) = 2 * (2 * (q * (4 * q + 3)) + 1) by
        rw [show 4 * q + 2 - 1 = 4 * q + 1 by omega]; ring]
      rw [Nat.mul_div_cancel_left _ (by norm_num)]; omega
    · rw [show (4 * q + 3) * (4 * q + 3 - 1) = 2 * (2 * (q * (4 * q + 5) + 1) + 1) by
        rw [show 4 * q + 3 - 1 = 4 * q + 2 by omega]; ring]
      rw [Nat.mul_div_cancel_left _ (by norm_num)]; omega
  rw [neg_one_pow_eq_pow_mod_two, hexp]
  interval_cases r <;> simp

theorem oddMask_testBit {i : Nat} (hi : i < 64) : oddMask.testBit i = decide (i % 2 = 1) := by
  revert i
  decide

theorem sg_opar_pow {m k : Nat} (hm : 2 * m ≤ 64) (hk : k < 2 ^ (2 * m)) :
    sg (opar m k) = (-1) ^ countOnes (k &&& oddMask) := by
  rw [countOnes_eq_cnt (lt_of_le_of_lt Nat.and_le_left hk)]
  clear hk
  induction m with
  | zero => rfl
  | succ m ih =>
    rw [show 2 * (m + 1) = 2 * m + 1 + 1 by ring, cnt_succ, cnt_succ, Nat.testBit_and, Nat.testBit_and,
      oddMask_testBit (by omega), oddMask_testBit (by omega), opar, sg_xor, ih (by omega), pow_add, pow_add]
    have h1 : decide (2 * m % 2 = 1) = false := by simp
    have h2 : decide ((2 * m + 1) % 2 = 1) = true := by simp
    rw [h1, h2]
    cases k.testBit (2 * m + 1) <;> simp

/-! ### Powers of the imaginary unit -/

section imag
variable {K : Type} [Field K] [ImagUnit K]

local notation "𝐢" => (HasI.I : K)

theorem I_pow_four : 𝐢 ^ 4 = 1 := by
  have := ImagUnit.I_mul_I (K := K)
  have h : 𝐢 ^ 4 = (𝐢 * 𝐢) * (𝐢 * 𝐢) := by ring
  rw [h, this]; ring

theorem iPow_eq (n : Nat) : (iPow n : K) = 𝐢 ^ n := by
  have h := Nat.div_add_mod n 4
  conv_rhs => rw [← h, pow_add, pow_mul, I_pow_four, one_pow, one_mul]
  unfold iPow
  have h4 : n % 4 < 4 := Nat.mod_lt _ (by norm_num)
  have h2 : 𝐢 ^ 2 = -1 := by rw [pow_two, ImagUnit.I_mul_I]
  have h3 : 𝐢 ^ 3 = -𝐢 := by rw [pow_succ, h2]; ring
  interval_cases n % 4 <;> simp [h2, h3]

theorem iPowNeg_eq (n : Nat) : (iPowNeg n : K) = (-𝐢) ^ n := by
  have h := Nat.div_add_mod n 4
  have hI : (-𝐢) ^ 4 = 1 := by rw [neg_pow, I_pow_four]; norm_num
  conv_rhs => rw [← h, pow_add, pow_mul, hI, one_pow, one_mul]
  unfold iPowNeg
  have h4 : n % 4 < 4 := Nat.mod_lt _ (by norm_num)
  have h2 : (-𝐢) ^ 2 = -1 := by rw [neg_pow, pow_two 𝐢, ImagUnit.I_mul_I]; norm_num
  have h3 : (-𝐢) ^ 3 = 𝐢 := by rw [pow_succ, h2]; ring
  interval_cases n % 4 <;> simp [h2, h3]

theorem iPow_mul_iPowNeg (n : Nat) : (iPow n : K) * iPowNeg n = 1 := by
  rw [iPow_eq, iPowNeg_eq, ← mul_pow, mul_neg, ImagUnit.I_mul_I, neg_neg, one_pow]

theorem iPowNeg_mul_iPow (n : Nat) : (iPowNeg n : K) * iPow n = 1 := by rw [mul_comm, iPow_mul_iPowNeg]

theorem bprod_mask (c : K) (mask n a : Nat) : bprod (fun i => if mask.testBit i then c else 1) n a = c ^ cnt n (a &&& mask) := by
  induction n with
  | zero => simp [bprod]
  | succ n ih =>
    rw [bprod_succ, ih, cnt_succ, pow_add, Nat.testBit_and]
    cases a.testBit n <;> cases mask.testBit n <;> simp

theorem countOnes_and {n a mask : Nat} (ha : a < 2 ^ n) : countOnes (a &&& mask) = cnt n (a &&& mask) :=
  countOnes_eq_cnt (lt_of_le_of_lt Nat.and_le_left ha)

theorem iPow_mask {n a : Nat} (ha : a < 2 ^ n) (mask : Nat) :
    (iPow (countOnes (a &&& mask)) : K) = bprod (fun i => if mask.testBit i then 𝐢 else 1) n a := by
  rw [iPow_eq, countOnes_and ha, bprod_mask]

theorem iPowNeg_mask {n a : Nat} (ha : a < 2 ^ n) (mask : Nat) :
    (iPowNeg (countOnes (a &&& mask)) : K) = bprod (fun i => if mask.testBit i then -𝐢 else 1) n a := by
  rw [iPowNeg_eq, countOnes_and ha, bprod_mask]

/-! ### The transform of coefficient arrays with padding and scaling -/

/-- Truncation to `2^n` coefficients. -/
def pad {R : Type} [Zero R] (n : Nat) (f : Nat → R) : Nat → R := fun i => if i < 2 ^ n then f i else 0

theorem geo_pad {R : Type} [Ring R] (σ : Nat → ℤ) {n N : Nat} (h : n ≤ N) (f g : Nat → R) {k : Nat} (hk : k < 2 ^ N) :
    geo σ N (pad n f) (pad n g) k = pad n (geo σ n f g) k := by
  induction N generalizing k with
  | zero =>
    have : n = 0 := by omega
    subst this
    have : k = 0 := by simpa using hk
    subst this
    simp [geo, pad]
  | succ N ih =>
    by_cases hn : n = N + 1
    · subst hn
      unfold pad
      rw [if_pos hk]
      exact geo_congr (fun _ _ => rfl) (fun i hi => if_pos hi) (fun i hi => if_pos hi) hk
    · have h' : n ≤ N := by omega
      have hle : 2 ^ n ≤ 2 ^ N := Nat.pow_le_pow_right (by norm_num) h'
      have hz : ∀ f : Nat → R, hi N (pad n f) = fun _ => 0 := by
        intro f; funext i
        show pad n f (i + 2 ^ N) = 0
        unfold pad
        rw [if_neg (by omega)]
      by_cases hkN : k < 2 ^ N
      · rw [geo_lo _ _ _ _ hkN, hz, hz, geo_zero_right, smul_zero, add_zero, ih h' hkN]
      · obtain ⟨l, rfl⟩ : ∃ l, k = l + 2 ^ N := ⟨k - 2 ^ N, by omega⟩
        have hl : l < 2 ^ N := by rw [pow_succ] at hk; omega
        rw [geo_hi _ _ _ _ hl, hz, hz, geo_zero_left, geo_zero_right, add_zero]
        unfold pad
        rw [if_neg (by omega)]

/-- Coefficients padded to `2m` generators and multiplied by the powers of `i`. -/
def psc (m n : Nat) (x : Nat → K) : Nat → K := fun k => bprod (fun i => if oddMask.testBit i then 𝐢 else 1) (2 * m) k * pad n x k

/-- The transform of `2^n` coefficients, `n ≤ 2m`. -/
def ctr (m n : Nat) (x : Nat → K) : Nat → Nat → K := cnn m (psc m n x)

theorem ctr_congr {m n : Nat} {x y : Nat → K} (h : ∀ i < 2 ^ n, x i = y i) : ctr m n x = ctr m n y := by
  unfold ctr
  refine cnn_congr fun k _ => ?_
  unfold psc pad
  split
  · rename_i hk; rw [h k hk]
  · rfl

theorem ctr_geo {m n : Nat} (hm : 2 * m ≤ 64) (hn : n ≤ 2 * m) (x y : Nat → K) :
    MEq (2 ^ m) (2 ^ m) (ctr m n (geo (fun _ => 1) n x y)) (mm m (ctr m n x) (ctr m n y)) := by
  refine MEq.trans ?_ (cnn_geo m _ _)
  have : ctr m n (geo (fun _ => 1) n x y) = cnn m (geo spm (2 * m) (psc m n x) (psc m n y)) := by
    unfold ctr
    refine cnn_congr fun k hk => ?_
    have hs := geo_scale (T := K) (σ' := fun _ => 1) (σ := spm) (l := fun i => if oddMask.testBit i then 𝐢 else 1) (n := 2 * m)
      (fun i hi => by
        rw [oddMask_testBit (by omega)]
        unfold spm
        rcases Nat.mod_two_eq_zero_or_one i with h | h
        · simp [h]
        · simp [h, ImagUnit.I_mul_I]) (pad n x) (pad n y) k
    unfold psc
    rw [← hs, geo_pad _ hn _ _ hk]
  rw [this]
  exact MEq.rfl' _

theorem psc_add (m n : Nat) (x y : Nat → K) : psc m n (x + y) = psc m n x + psc m n y := by
  funext k; simp only [psc, pad, Pi.add_apply]; split
  · ring
  · ring

theorem psc_sub (m n : Nat) (x y : Nat → K) : psc m n (x - y) = psc m n x - psc m n y := by
  funext k; simp only [psc, pad, Pi.sub_apply]; split
  · ring
  · ring

theorem ctr_add (m n : Nat) (x y : Nat → K) : ctr m n (x + y) = ctr m n x + ctr m n y := by
  unfold ctr; rw [psc_add, cnn_add]
theorem ctr_sub (m n : Nat) (x y : Nat → K) : ctr m n (x - y) = ctr m n x - ctr m n y := by
  unfold ctr; rw [psc_sub, cnn_sub]
theorem ctr_zero (m n : Nat) : ctr m n (0 : Nat → K) = 0 := by
  have := ctr_sub m n (0 : Nat → K) 0
  rwa [sub_self, sub_self] at this
theorem ctr_neg (m n : Nat) (x : Nat → K) : ctr m n (-x) = -ctr m n x := by
  rw [← zero_sub, ctr_sub, ctr_zero, zero_sub]

theorem ctr_smul (m n : Nat) (x : Nat → K) (c : K) : ctr m n (fun i => x i * c) = fun i j => ctr m n x i j * c := by
  unfold ctr
  rw [← cnn_map (f := fun z => z * c) (fun z w => add_mul z w c)]
  refine congrArg _ (funext fun k => ?_)
  simp only [psc, pad]; split
  · ring
  · ring

theorem ctr_one (m n : Nat) : MEq (2 ^ m) (2 ^ m) (ctr m n (single 0 1 : Nat → K)) idm := by
  refine MEq.trans ?_ (cnn_one m)
  have : ctr m n (single 0 1 : Nat → K) = cnn m (single 0 1) := by
    unfold ctr
    refine cnn_congr fun k _ => ?_
    unfold psc pad single
    by_cases hk : k = 0
    · subst hk; simp
    · simp [hk]
  rw [this]; exact MEq.rfl' _

theorem par_of_le {n m a : Nat} (h : a < 2 ^ n) (hm : n ≤ m) : par m a = par n a := by
  rw [par_eq, par_eq, cnt_of_le h hm]

theorem rsg_of_le {n m a : Nat} (h : a < 2 ^ n) (hm : n ≤ m) : rsg m a = rsg n a := by
  rw [rsg_eq, rsg_eq, cnt_of_le h hm]

theorem ctr_flp {m n : Nat} (hn : n ≤ 2 * m) (x : Nat → K) :
    MEq (2 ^ m) (2 ^ m) (ctr m n (flp n x)) (al m (ctr m n x)) := by
  refine MEq.trans ?_ (cnn_flp m _)
  have : ctr m n (flp n x) = cnn m (flp (2 * m) (psc m n x)) := by
    unfold ctr
    refine cnn_congr fun k _ => ?_
    simp only [psc, flp, pad]
    split
    · rename_i h
      rw [par_of_le h hn, mul_smul_comm]
    · simp
  rw [this]; exact MEq.rfl' _

theorem ctr_rev {m n : Nat} (hn : n ≤ 2 * m) (x : Nat → K) :
    MEq (2 ^ m) (2 ^ m) (ctr m n (fun k => rsg n k • x k)) (ifl m (fun i j => ctr m n x j i)) := by
  refine MEq.trans ?_ (cnn_rev m _)
  have : ctr m n (fun k => rsg n k • x k) = cnn m (fun k => rsg (2 * m) k • psc m n x k) := by
    unfold ctr
    refine cnn_congr fun k _ => ?_
    unfold psc pad
    split
    · rename_i h
      rw [rsg_of_le h hn, mul_smul_comm]
    · simp
  rw [this]; exact MEq.rfl' _

theorem ctr_ifl {m n : Nat} (x : Nat → K) :
    MEq (2 ^ m) (2 ^ m) (ctr m n (fun k => sg (opar m k) • x k)) (ifl m (ctr m n x)) := by
  refine MEq.trans ?_ (cnn_ifl m _)
  have : ctr m n (fun k => sg (opar m k) • x k) = cnn m (fun k => sg (opar m k) • psc m n x k) := by
    unfold ctr
    refine cnn_congr fun k _ => ?_
    unfold psc pad
    split
    · rw [mul_smul_comm]
    · simp
  rw [this]; exact MEq.rfl' _

theorem ctr_trace (m n : Nat) (x : Nat → K) : ∑ i ∈ range (2 ^ m), ctr m n x i i = (2 ^ m : Nat) • x 0 := by
  unfold ctr
  rw [cnn_trace]
  simp [psc, pad]

/-- The inverse of the transform. -/
def ictr (m : Nat) (M : Nat → Nat → K) : Nat → K := fun k =>
  icnn m M k * bprod (fun i => if oddMask.testBit i then -𝐢 else 1) (2 * m) k

theorem bprod_I_mul (mask n k : Nat) : bprod (fun i => if mask.testBit i then 𝐢 else 1) n k *
    bprod (fun i => if mask.testBit i then -𝐢 else 1) n k = 1 := by
  rw [bprod_mask, bprod_mask, ← mul_pow, mul_neg, ImagUnit.I_mul_I, neg_neg, one_pow]

theorem ictr_ctr (h2 : (2 : K) ≠ 0) {m n : Nat} (x : Nat → K) {k : Nat} (hk : k < 2 ^ (2 * m)) :
    ictr m (ctr m n x) k = pad n x k := by
  unfold ictr ctr
  rw [icnn_cnn (by rw [one_add_one_eq_two]; exact h2) m _ hk]
  unfold psc
  rw [mul_comm, ← mul_assoc, mul_comm (bprod _ _ _), bprod_I_mul, one_mul]

theorem ctr_ictr (h2 : (2 : K) ≠ 0) (m : Nat) (M : Nat → Nat → K) : MEq (2 ^ m) (2 ^ m) (ctr m (2 * m) (ictr m M)) M := by
  refine MEq.trans ?_ (cnn_icnn (by rw [one_add_one_eq_two]; exact h2) m M)
  have : ctr m (2 * m) (ictr m M) = cnn m (icnn m M) := by
    unfold ctr
    refine cnn_congr fun k hk => ?_
    unfold psc pad ictr
    rw [if_pos hk, mul_comm (icnn m M k), ← mul_assoc, bprod_I_mul, one_mul]
  rw [this]; exact MEq.rfl' _

theorem ictr_congr {m : Nat} {M N : Nat → Nat → K} (h : MEq (2 ^ m) (2 ^ m) M N) : ictr m M = ictr m N := by
  unfold ictr; rw [icnn_congr h]

theorem ctr_injective (h2 : (2 : K) ≠ 0) {m n : Nat} (hn : n ≤ 2 * m) {x y : Nat → K}
    (h : MEq (2 ^ m) (2 ^ m) (ctr m n x) (ctr m n y)) {k : Nat} (hk : k < 2 ^ n) : x k = y k := by
  have hk' : k < 2 ^ (2 * m) := lt_of_lt_of_le hk (Nat.pow_le_pow_right (by norm_num) hn)
  have := ictr_ctr h2 (n := n) x hk'
  rw [ictr_congr h, ictr_ctr h2 _ hk'] at this
  unfold pad at this
  rw [if_pos hk, if_pos hk] at this
  exact this.symm

variable {T : Type} [IntoComplex T K]

theorem pscO_eq {m n : Nat} (x : Nat → K) {k : Nat} (hk : k < 2 ^ (2 * m)) : pscO n x k = psc m n x k := by
  simp only [pscO, psc, pad]
  split
  · rw [iPow_mask hk, mul_comm]
  · rw [mul_zero]

theorem ctrO_eq (m n : Nat) (x : Nat → K) : MEq (2 ^ m) (2 ^ m) (ctrO m n x) (ctr m n x) := by
  unfold ctrO ctr
  refine (cnnO_eq m _).trans ?_
  rw [cnn_congr (fun k hk => pscO_eq x hk)]
  exact MEq.rfl' _

theorem ictrO_eq (m : Nat) (M : Nat → Nat → K) {k : Nat} (hk : k < 2 ^ (2 * m)) : ictrO m M k = ictr m M k := by
  unfold ictrO ictr
  rw [icnnO_eq m M hk, iPowNeg_mask hk]

theorem clifft_spec {n : Nat} (hn : n < 63) (coeffs : Arr1 T) (hl : coeffs.len = 2 ^ n) :
    IsM (clifft (K := K) coeffs) ((n + 1) / 2) (ctr ((n + 1) / 2) n (fun i => IntoComplex.into (coeffs.get i))) := by
  obtain ⟨r, h1, h2, h3, h4⟩ := clifft_ops (K := K) hn coeffs hl
  exact ⟨r, h1, h2, h3, h4.trans (ctrO_eq _ _ _)⟩

theorem clifftInto_spec {n : Nat} (hn : n < 63) (coeffs : Arr1 T) (dest : Arr2 K) (hl : coeffs.len = 2 ^ n)
    (hr : dest.rows = 2 ^ ((n + 1) / 2)) (hc : dest.cols = 2 ^ ((n + 1) / 2)) :
    IsM (clifftInto coeffs dest) ((n + 1) / 2) (ctr ((n + 1) / 2) n (fun i => IntoComplex.into (coeffs.get i))) := by
  obtain ⟨r, h1, h2, h3, h4⟩ := clifftInto_ops (K := K) hn coeffs dest hl hr hc
  exact ⟨r, h1, h2, h3, h4.trans (ctrO_eq _ _ _)⟩

theorem iclifftInto_spec {m : Nat} (hm : m < 64) (M : Arr2 K) (dest : Arr1 K) (hr : M.rows = 2 ^ m) (hc : M.cols = 2 ^ m)
    (hd : dest.len = 2 ^ (2 * m)) : ∃ r, iclifftInto M dest = .ok r ∧ r.len = 2 ^ (2 * m) ∧
      ∀ k < 2 ^ (2 * m), r.get k = ictr m M.get k := by
  obtain ⟨r, h1, h2, h3⟩ := iclifftInto_ops hm M dest hr hc hd
  exact ⟨r, h1, h2, fun k hk => (h3 k hk).trans (ictrO_eq m _ hk)⟩

theorem iclifft_spec {m : Nat} (hm : m < 64) (M : Arr2 K) (hr : M.rows = 2 ^ m) (hc : M.cols = 2 ^ m) :
    ∃ r, iclifft M = .ok r ∧ r.len = 2 ^ (2 * m) ∧ ∀ k < 2 ^ (2 * m), r.get k = ictr m M.get k :=
  iclifftInto_spec hm M _ hr hc (by unfold Arr1.zeros Arr2.size; rw [hr, hc, two_pow_mul_self])

end imag

end TClifford
