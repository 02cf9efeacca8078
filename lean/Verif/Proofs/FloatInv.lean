import Verif.Model.FFT
import Verif.Proofs.Ieee
/-
`matrix_inv` with IEEE floating point entries: diagonal matrices.
-/

set_option linter.unusedSectionVars false

namespace TClifford

/-! ### Exact arithmetic -/

/-- The tests in exact arithmetic. -/
def exactTests (T N : Type) [Zero T] [DecidableEq T] [LinearOrder N] [Zero N] : InvTests T N where
  isZero x := decide (x = 0)
  isNaN x := decide (x ≠ x)
  isZeroNorm x := decide (x = 0)
  gt x y := decide (x > y)

/-- In exact arithmetic `matrixInvG` is `matrixInv`. -/
theorem matrixInvG_eq {T N : Type} [DivisionRing T] [DecidableEq T] [LinearOrder N] [Zero N] (norm : T → N) (mat : Arr2 T) :
    matrixInvG (exactTests T N) norm mat = matrixInv norm mat := by
  have h1 : invPivotG (exactTests T N) norm = invPivot norm := by
    funext n i w
    unfold invPivotG invPivot exactTests
    simp only [decide_eq_true_eq]
  have h2 : invEliminateG (exactTests T N) = invEliminate := by
    funext n i w
    unfold invEliminateG invEliminate exactTests
    congr 1
    funext w j
    simp
  have h3 : invForwardStepG (exactTests T N) norm = invForwardStep norm := by
    funext n w i
    unfold invForwardStepG invForwardStep
    rw [h1, h2]
    unfold exactTests
    simp only [decide_eq_true_eq]
  unfold matrixInvG matrixInv
  rw [h3]

/-! ### Which norms are looked at -/

section
variable {T N : Type} [Zero T] [One T] [Sub T] [Mul T] [Div T]

/-- All norms compared in the forward phase are norms of entries with the property `P`. -/
def invNormsOk (P : T → Bool) (t : InvTests T N) (norm : T → N) (n : Nat) : List Nat → (Nat → Nat → T) → Bool
  | [], _ => true
  | i :: l, w => (List.range' i (n - i)).all (fun j => P (w j i)) &&
    match invForwardStepG t norm n w i with
    | none => true
    | some w => invNormsOk P t norm n l w

theorem forward_congr {P : T → Bool} {t : InvTests T N} {norm norm' : T → N} (hP : ∀ x, P x = true → norm' x = norm x) {n : Nat}
    {w : Nat → Nat → T} {i : Nat} (hi : i < n) (h : (List.range' i (n - i)).all (fun j => P (w j i)) = true) :
    invForwardStepG t norm' n w i = invForwardStepG t norm n w i := by
  rw [List.all_eq_true] at h
  have hw : ∀ j, i ≤ j → j < n → norm' (w j i) = norm (w j i) := fun j h1 h2 => hP _ (h j (by rw [List.mem_range'_1]; omega))
  have : invPivotG t norm' n i w = invPivotG t norm n i w := by
    unfold invPivotG
    rw [hw i le_rfl hi]
    refine List.foldl_ext _ _ _ fun st j hj => ?_
    rw [List.mem_range'_1] at hj
    rw [hw j (by omega) (by omega)]
  unfold invForwardStepG
  rw [this]

/-- Only those norms matter. -/
theorem matrixInvG_norm {P : T → Bool} {t : InvTests T N} {norm norm' : T → N} (hP : ∀ x, P x = true → norm' x = norm x) {mat : Arr2 T}
    (h : invNormsOk P t norm mat.rows (List.range mat.rows) (invInit mat) = true) : matrixInvG t norm' mat = matrixInvG t norm mat := by
  have key : ∀ (l : List Nat) (w : Nat → Nat → T), (∀ i ∈ l, i < mat.rows) → invNormsOk P t norm mat.rows l w = true →
      l.foldlM (invForwardStepG t norm' mat.rows) w = l.foldlM (invForwardStepG t norm mat.rows) w := by
    intro l
    induction l with
    | nil => intros; rfl
    | cons i l ih =>
      intro w hl h
      unfold invNormsOk at h
      rw [Bool.and_eq_true] at h
      rw [List.foldlM_cons, List.foldlM_cons, forward_congr hP (hl i (by simp)) h.1]
      have h2 := h.2
      cases hs : invForwardStepG t norm mat.rows w i with
      | none => rfl
      | some w' =>
        rw [hs] at h2
        exact ih w' (fun j hj => hl j (by simp [hj])) h2
  unfold matrixInvG
  dsimp only
  rw [key _ _ (fun i hi => List.mem_range.mp hi) h]

end

/-! ### Complex numbers with IEEE parts -/

variable {f : Fmt}

/-- `is_zero`, `x != x` and `>` for `Complex<f64>` and `f64` (derived comparisons of the parts). -/
def ieeeTests (f : Fmt) : InvTests (Cx (Ieee f)) (Ieee f) where
  isZero z := z.re.eq 0 && z.im.eq 0
  isNaN z := !(z.re.eq z.re && z.im.eq z.im)
  isZeroNorm x := x.eq 0
  gt := Ieee.gt

/-- What is used of `hypot`: `hypot(x, 0) = |x|`. -/
def IsHypot (norm : Cx (Ieee f) → Ieee f) : Prop := ∀ x y : Ieee f, y.Is 0 → norm ⟨x, y⟩ = x.abs

/-- A complex number that is the real number `a`. -/
def IsR (z : Cx (Ieee f)) (a : ℚ) : Prop := z.re.Is a ∧ z.im.Is 0

open Ieee

theorem IsR.mul {z w : Cx (Ieee f)} {a b : ℚ} (hz : IsR z a) (hw : IsR w b) (h : |a * b| ≤ f.maxFin) : IsR (z * w) (f.rnd (a * b)) :=
  ⟨sub_zero_is (mul_is hz.1 hw.1 h) (mul_zero_is hz.2 hw.2), add_zero_is (mul_zero_is hz.1 hw.2) (zero_mul_is hz.2 hw.1)⟩

theorem IsR.mul_zero {z w : Cx (Ieee f)} {a : ℚ} (hz : IsR z a) (hw : IsR w 0) : IsR (z * w) 0 :=
  ⟨sub_zero_is (mul_zero_is hz.1 hw.1) (mul_zero_is hz.2 hw.2), add_zero_is (mul_zero_is hz.1 hw.2) (zero_mul_is hz.2 hw.1)⟩

theorem IsR.zero_mul {z w : Cx (Ieee f)} {a : ℚ} (hz : IsR z 0) (hw : IsR w a) : IsR (z * w) 0 :=
  ⟨sub_zero_is (zero_mul_is hz.1 hw.1) (mul_zero_is hz.2 hw.2), add_zero_is (mul_zero_is hz.1 hw.2) (zero_mul_is hz.2 hw.1)⟩

theorem IsR.mul_one {z w : Cx (Ieee f)} {a : ℚ} (hz : IsR z a) (hw : IsR w 1) : IsR (z * w) a :=
  ⟨sub_zero_is (mul_one_is hz.1 hw.1) (mul_zero_is hz.2 hw.2), add_zero_is (mul_zero_is hz.1 hw.2) (zero_mul_is hz.2 hw.1)⟩

theorem IsR.sub_zero {z w : Cx (Ieee f)} {a : ℚ} (hz : IsR z a) (hw : IsR w 0) : IsR (z - w) a :=
  ⟨sub_zero_is hz.1 hw.1, sub_zero_is hz.2 hw.2⟩

theorem isR_one : IsR (1 : Cx (Ieee f)) 1 := ⟨is_one, is_zero⟩

theorem isR_zero : IsR (0 : Cx (Ieee f)) 0 := ⟨is_zero, is_zero⟩

/-- The computed reciprocal of a real number: `c / (c * c)`. -/
def recip (f : Fmt) (c : ℚ) : ℚ := f.rnd (c / f.rnd (c * c))

theorem IsR.recip {z : Cx (Ieee f)} {c : ℚ} (hz : IsR z c) (h1 : |c * c| ≤ f.maxFin) (h2 : f.rnd (c * c) ≠ 0)
    (h3 : |c / f.rnd (c * c)| ≤ f.maxFin) : IsR (1 / z) (TClifford.recip f c) := by
  have hq : (z.normSq).Is (f.rnd (c * c)) := add_zero_is (mul_is hz.1 hz.1 h1) (mul_zero_is hz.2 hz.2)
  have hn : ((1 : Cx (Ieee f)).re * z.re + (1 : Cx (Ieee f)).im * z.im).Is c := by
    have h := mul_is isR_one.1 hz.1 (by rw [_root_.one_mul]; exact hz.1.repr.2)
    rw [_root_.one_mul, hz.1.repr.1] at h
    exact add_zero_is h (mul_zero_is isR_one.2 hz.2)
  have hm : ((1 : Cx (Ieee f)).im * z.re - (1 : Cx (Ieee f)).re * z.im).Is 0 :=
    sub_zero_is (zero_mul_is isR_one.2 hz.1) (mul_zero_is isR_one.1 hz.2)
  exact ⟨div_is hn hq h2 h3, zero_div_is hm hq h2⟩

theorem IsR.isNaN {z : Cx (Ieee f)} {a : ℚ} (hz : IsR z a) : (ieeeTests f).isNaN z = false := by
  show (!(z.re.eq z.re && z.im.eq z.im)) = false
  rw [eq_is hz.1 hz.1, eq_is hz.2 hz.2]; simp

theorem IsR.isZero {z : Cx (Ieee f)} {a : ℚ} (hz : IsR z a) : (ieeeTests f).isZero z = decide (a = 0) := by
  show (z.re.eq 0 && z.im.eq 0) = _
  rw [eq_is hz.1 Ieee.is_zero, eq_is hz.2 Ieee.is_zero]; simp

/-! ### Diagonal matrices -/

/-- What the inversion of a diagonal entry `c` needs: no over- or underflow. -/
structure Safe (f : Fmt) (c : ℚ) : Prop where
  ne : c ≠ 0
  sq : |c * c| ≤ f.maxFin
  sq_ne : f.rnd (c * c) ≠ 0
  quot : |c / f.rnd (c * c)| ≤ f.maxFin
  prod : |recip f c * c| ≤ f.maxFin

/-- The matrix after `s` steps. -/
def diagState (f : Fmt) (c : Nat → ℚ) (n s r m : Nat) : ℚ :=
  if r < s then (if m = r then f.rnd (recip f (c r) * c r) else if m = n + r then recip f (c r) else 0)
  else (if m = r then c r else if m = n + r then 1 else 0)

theorem forward_diag {norm : Cx (Ieee f) → Ieee f} (hN : IsHypot norm) {c : Nat → ℚ} {n : Nat} (hc : ∀ i < n, Safe f (c i))
    {w : Nat → Nat → Cx (Ieee f)} {s : Nat} (hs : s < n) (hw : ∀ r < n, ∀ m < 2 * n, IsR (w r m) (diagState f c n s r m)) :
    ∃ w', invForwardStepG (ieeeTests f) norm n w s = some w' ∧
      ∀ r < n, ∀ m < 2 * n, IsR (w' r m) (diagState f c n (s + 1) r m) := by
  have hs2 : s < 2 * n := by omega
  -- the pivot
  have hnorm : ∀ j < n, ∀ m < 2 * n, (norm (w j m)).Is |diagState f c n s j m| := by
    intro j hj m hm
    have h := hw j hj m hm
    have h1 := hN (w j m).re (w j m).im h.2
    rw [show norm (w j m) = (w j m).re.abs from h1]
    exact abs_is h.1
  have hpiv : invPivotG (ieeeTests f) norm n s w = (norm (w s s), s) := by
    unfold invPivotG
    have : ∀ l : List Nat, (∀ j ∈ l, s < j ∧ j < n) → l.foldl (fun (st : Ieee f × Nat) j =>
        if (ieeeTests f).gt (norm (w j s)) st.1 then (norm (w j s), j) else st) (norm (w s s), s) = (norm (w s s), s) := by
      intro l
      induction l with
      | nil => intros; rfl
      | cons j l ih =>
        intro hl
        obtain ⟨h1, h2⟩ := hl j (by simp)
        have h3 := hnorm j h2 s hs2
        have h4 := hnorm s hs s hs2
        have h5 : diagState f c n s j s = 0 := by
          unfold diagState
          rw [if_neg (by omega), if_neg (by omega), if_neg (by omega)]
        rw [h5, abs_zero] at h3
        have : (ieeeTests f).gt (norm (w j s)) (norm (w s s)) = false := by
          show Ieee.gt _ _ = false
          rw [gt_is h3 h4, decide_eq_false_iff_not, not_lt]
          exact abs_nonneg _
        rw [List.foldl_cons, this]
        exact ih fun j' hj' => hl j' (by simp [hj'])
    exact this _ fun j hj => by rw [List.mem_range'_1] at hj; omega
  have hss : diagState f c n s s s = c s := by
    unfold diagState
    rw [if_neg (by omega), if_pos rfl]
  have hz : (ieeeTests f).isZeroNorm (norm (w s s)) = false := by
    have h4 := hnorm s hs s hs2
    rw [hss] at h4
    show Ieee.eq _ 0 = false
    rw [eq_is h4 Ieee.is_zero, decide_eq_false_iff_not, abs_eq_zero]
    exact (hc s hs).ne
  have hswap : invSwap s s w = w := by
    funext r m
    unfold invSwap
    split
    · rename_i h; rw [h]
    · rfl
  -- the normalised matrix
  have hk : IsR (w s s) (c s) := by have := hw s hs s hs2; rwa [hss] at this
  have hrec : IsR (1 / w s s) (recip f (c s)) := hk.recip (hc s hs).sq (hc s hs).sq_ne (hc s hs).quot
  have hnrm : ∀ r < n, ∀ m < 2 * n, IsR (invNormalize s w r m) (diagState f c n (s + 1) r m) := by
    intro r hr m hm
    unfold invNormalize
    by_cases h : r = s ∧ s ≤ m
    · rw [if_pos h]
      obtain ⟨rfl, h⟩ := h
      have h0 := hw r hr m hm
      unfold diagState at h0 ⊢
      rw [if_neg (by omega)] at h0
      rw [if_pos (by omega)]
      by_cases h1 : m = r
      · rw [if_pos h1] at h0 ⊢
        exact hrec.mul h0 (hc r hr).prod
      · rw [if_neg h1] at h0 ⊢
        by_cases h2 : m = n + r
        · rw [if_pos h2] at h0 ⊢
          exact hrec.mul_one h0
        · rw [if_neg h2] at h0 ⊢
          exact hrec.mul_zero h0
    · rw [if_neg h]
      have h0 := hw r hr m hm
      have : diagState f c n (s + 1) r m = diagState f c n s r m := by
        unfold diagState
        by_cases h1 : r < s
        · rw [if_pos h1, if_pos (by omega)]
        · by_cases h2 : r = s
          · have h3 : m < s := by omega
            rw [if_neg h1, if_pos (by omega), if_neg (by omega), if_neg (by omega), if_neg (by omega), if_neg (by omega)]
          · rw [if_neg h1, if_neg (by omega)]
      rw [this]; exact h0
  -- elimination does nothing
  have helim : ∀ (l : List Nat) (v : Nat → Nat → Cx (Ieee f)), (∀ j ∈ l, s < j ∧ j < n) →
      (∀ r < n, ∀ m < 2 * n, IsR (v r m) (diagState f c n (s + 1) r m)) →
      ∃ w', l.foldlM (fun w j =>
          let w := invSubRow s j s (w j s) w
          if (List.range' s (2 * n - s)).any (fun m => (ieeeTests f).isNaN (w j m)) then none
          else if (ieeeTests f).isZero (w j j) then none else some w) v = some w' ∧
        ∀ r < n, ∀ m < 2 * n, IsR (w' r m) (diagState f c n (s + 1) r m) := by
    intro l
    induction l with
    | nil => intro v _ hv; exact ⟨v, rfl, hv⟩
    | cons j l ih =>
      intro v hl hv
      obtain ⟨h1, h2⟩ := hl j (by simp)
      have hcoef : IsR (v j s) 0 := by
        have := hv j h2 s hs2
        unfold diagState at this
        rwa [if_neg (by omega), if_neg (by omega), if_neg (by omega)] at this
      have hv' : ∀ r < n, ∀ m < 2 * n, IsR (invSubRow s j s (v j s) v r m) (diagState f c n (s + 1) r m) := by
        intro r hr m hm
        unfold invSubRow
        by_cases h : r = j ∧ s ≤ m
        · rw [if_pos h]
          obtain ⟨rfl, h⟩ := h
          exact (hv r hr m hm).sub_zero (hcoef.zero_mul (hv s hs m hm))
        · rw [if_neg h]; exact hv r hr m hm
      have hnan : (List.range' s (2 * n - s)).any (fun m => (ieeeTests f).isNaN (invSubRow s j s (v j s) v j m)) = false := by
        rw [List.any_eq_false]
        intro m hm
        rw [List.mem_range'_1] at hm
        rw [(hv' j h2 m (by omega)).isNaN]
        simp
      have hzero : (ieeeTests f).isZero (invSubRow s j s (v j s) v j j) = false := by
        rw [(hv' j h2 j (by omega)).isZero, decide_eq_false_iff_not]
        unfold diagState
        rw [if_neg (by omega), if_pos rfl]
        exact (hc j h2).ne
      rw [List.foldlM_cons]
      dsimp only
      rw [hnan, hzero]
      exact ih _ (fun j' hj' => hl j' (by simp [hj'])) hv'
  unfold invForwardStepG
  rw [hpiv]
  dsimp only
  rw [hz, hswap]
  exact helim _ _ (fun j hj => by rw [List.mem_range'_1] at hj; omega) hnrm

/-- The inverse of a diagonal matrix of real numbers, rounded. -/
theorem matrixInvG_diag {norm : Cx (Ieee f) → Ieee f} (hN : IsHypot norm) {c : Nat → ℚ} {mat : Arr2 (Cx (Ieee f))}
    (hsq : mat.rows = mat.cols) (hc : ∀ i < mat.rows, Safe f (c i)) (hd : ∀ i < mat.rows, Safe f (f.rnd (recip f (c i) * c i)))
    (hm : ∀ i < mat.rows, ∀ j < mat.cols, IsR (mat.get i j) (if i = j then c i else 0)) :
    ∃ r, matrixInvG (ieeeTests f) norm mat = some r ∧ r.rows = mat.rows ∧ r.cols = mat.cols ∧
      ∀ i < mat.rows, ∀ j < mat.cols, IsR (r.get i j) (if i = j then recip f (c i) else 0) := by
  set n := mat.rows with hn
  have hinit : ∀ r < n, ∀ m < 2 * n, IsR (invInit mat r m) (diagState f c n 0 r m) := by
    intro r hr m hm2
    unfold invInit diagState
    rw [if_neg (Nat.not_lt_zero r), ← hn]
    by_cases h : m < n
    · rw [if_pos h]
      have := hm r hr m (by omega)
      by_cases h1 : m = r
      · rw [if_pos h1]; rwa [if_pos h1.symm] at this
      · rw [if_neg h1, if_neg (by omega)]; rwa [if_neg (fun h => h1 h.symm)] at this
    · rw [if_neg h, if_neg (show ¬ m = r by omega)]
      split
      · exact isR_one
      · exact isR_zero
  have hfwd : ∀ k, ∀ s, s + k = n → ∀ w : Nat → Nat → Cx (Ieee f), (∀ r < n, ∀ m < 2 * n, IsR (w r m) (diagState f c n s r m)) →
      ∃ w', (List.range' s k).foldlM (invForwardStepG (ieeeTests f) norm n) w = some w' ∧
        ∀ r < n, ∀ m < 2 * n, IsR (w' r m) (diagState f c n n r m) := by
    intro k
    induction k with
    | zero => intro s hs w hw; rw [Nat.add_zero] at hs; subst hs; exact ⟨w, rfl, hw⟩
    | succ k ih =>
      intro s hs w hw
      obtain ⟨w1, h1, h2⟩ := forward_diag hN hc (by omega : s < n) hw
      rw [List.range'_succ, List.foldlM_cons, h1]
      exact ih (s + 1) (by omega) w1 h2
  obtain ⟨w, hw, hw'⟩ := hfwd n 0 (by omega) _ hinit
  -- the backward phase does nothing
  have hback : ∀ r < n, ∀ m < 2 * n, IsR (invBackward n w r m) (diagState f c n n r m) := by
    unfold invBackward
    have inner : ∀ (i : Nat), i < n → ∀ (l : List Nat) (v : Nat → Nat → Cx (Ieee f)), (∀ j ∈ l, j < i) →
        (∀ r < n, ∀ m < 2 * n, IsR (v r m) (diagState f c n n r m)) →
        ∀ r < n, ∀ m < 2 * n, IsR (l.foldl (fun w j => invSubRow i j j (1 / w i i * w j i) w) v r m) (diagState f c n n r m) := by
      intro i hi l
      induction l with
      | nil => intro v _ hv; exact hv
      | cons j l ih =>
        intro v hl hv
        rw [List.foldl_cons]
        refine ih _ (fun j' hj' => hl j' (by simp [hj'])) ?_
        intro r hr m hm2
        have hji := hl j (by simp)
        unfold invSubRow
        by_cases h : r = j ∧ j ≤ m
        · rw [if_pos h]
          obtain ⟨rfl, h⟩ := h
          have h1 : IsR (v i i) (f.rnd (recip f (c i) * c i)) := by
            have := hv i hi i (by omega)
            unfold diagState at this
            rwa [if_pos hi, if_pos rfl] at this
          have h2 : IsR (v r i) 0 := by
            have := hv r hr i (by omega)
            unfold diagState at this
            rwa [if_pos hr, if_neg (by omega), if_neg (by omega)] at this
          have h3 := h1.recip (hd i hi).sq (hd i hi).sq_ne (hd i hi).quot
          exact (hv r hr m hm2).sub_zero ((h3.mul_zero h2).zero_mul (hv i hi m hm2))
        · rw [if_neg h]; exact hv r hr m hm2
    have outer : ∀ (l : List Nat) (v : Nat → Nat → Cx (Ieee f)), (∀ i ∈ l, i < n) →
        (∀ r < n, ∀ m < 2 * n, IsR (v r m) (diagState f c n n r m)) →
        ∀ r < n, ∀ m < 2 * n, IsR (l.foldl (fun w i =>
          (List.range i).reverse.foldl (fun w j => invSubRow i j j (1 / w i i * w j i) w) w) v r m) (diagState f c n n r m) := by
      intro l
      induction l with
      | nil => intro v _ hv; exact hv
      | cons i l ih =>
        intro v hl hv
        rw [List.foldl_cons]
        exact ih _ (fun i' hi' => hl i' (by simp [hi'])) (inner i (hl i (by simp)) _ v (fun j hj => by simpa using hj) hv)
    exact outer _ w (fun i hi => by simpa using hi) hw'
  refine ⟨⟨n, n, fun i j => invBackward n w i (n + j)⟩, ?_, rfl, hsq, ?_⟩
  · unfold matrixInvG
    dsimp only
    rw [if_neg (not_not.mpr hsq), ← hn, List.range_eq_range', hw]
    rfl
  · intro i hi j hj
    have := hback i hi (n + j) (by omega)
    unfold diagState at this
    rw [if_pos hi, if_neg (by omega)] at this
    by_cases h : i = j
    · rw [if_pos h]; rwa [if_pos (by omega)] at this
    · rw [if_neg h]; rwa [if_neg (by omega)] at this

end TClifford
