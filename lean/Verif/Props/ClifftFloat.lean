import Verif.Props.Clifft
import Verif.Props.FFTFloat
import Verif.Proofs.Adjoint
/-
C27, C29 and C38 for arrays of complex floating point numbers: integers are transformed exactly, and other numbers up to
rounding errors.
-/

set_option linter.unusedSectionVars false

namespace TClifford

open Finset FloatModel

namespace CxRel

variable {K : Type} [Zero K] [One K] [Add K] [Sub K] [Neg K] [Mul K] [Div K] [HasI K] (Q : CxRel K)

/-- `clifft`. -/
theorem clifft {T : Type} [IntoComplex T K] {n : Nat} (hn : n < 63) (x : Arr1 T) (hx : x.len = 2 ^ n) {l : Nat} {z : Nat → ℂ} {b : Nat → ℝ}
    (h : ∀ k < 2 ^ n, Q.R l (IntoComplex.into (x.get k)) (z k) (b k))
    (hok : Q.ok (l + (n + 1) / 2) (∑ k ∈ range (2 ^ n), b k)) :
    ∃ M, TClifford.clifft (K := K) x = .ok M ∧ M.rows = 2 ^ ((n + 1) / 2) ∧ M.cols = 2 ^ ((n + 1) / 2) ∧
      Q.Mat ((n + 1) / 2) (l + (n + 1) / 2) M.get (ctr ((n + 1) / 2) n z) (∑ k ∈ range (2 ^ n), b k) := by
  obtain ⟨M, h1, h2, h3, h4⟩ := clifft_ops (K := K) hn x hx
  refine ⟨M, h1, h2, h3, ?_⟩
  exact (Q.ctrO (m := (n + 1) / 2) (by omega) h hok).congr (fun i hi j hj => h4 i hi j hj)
    fun i hi j hj => (ctrO_eq _ _ _ i hi j hj).symm

/-- `iclifft`. -/
theorem iclifft {m n : Nat} (hm : m < 32) (M : Arr2 K) (hr : M.rows = 2 ^ m) (hc : M.cols = 2 ^ m)
    {l : Nat} {z : Nat → ℂ} {b : ℝ} (h : ∀ i < 2 ^ m, ∀ j < 2 ^ m, Q.R l (M.get i j) (ctr m n z i j) b)
    (hG : ∀ k < 2 ^ n, Q.G (z k)) (hok : Q.ok (l + 3 * m) (4 * (b + m * Q.D))) :
    ∃ r, TClifford.iclifft M = .ok r ∧ r.len = 2 ^ (2 * m) ∧
      ∀ k < 2 ^ (2 * m), Q.R (l + 3 * m) (r.get k) (pad n z k) (b + m * Q.D) := by
  obtain ⟨r, h1, h2, h3⟩ := iclifftInto_ops (m := m) (by omega) M (Arr1.zeros M.size) hr hc
    (by show M.rows * M.cols = _; rw [hr, hc, two_pow_mul_self])
  refine ⟨r, h1, h2, fun k hk => ?_⟩
  rw [h3 k hk]
  have hz : ∀ k < 2 ^ (2 * m), Q.G (psc m n z k) := by
    intro k hk
    rw [← pscO_eq z hk]
    unfold TClifford.pscO
    split
    · rename_i h'; exact Q.G_iPow _ (hG k h')
    · exact Q.G_zero
  have := Q.mul_iPowNeg (countOnes (k &&& oddMask)) (Q.icnn m h hz hok k hk)
  have e : psc m n z k * iPowNeg (countOnes (k &&& oddMask)) = pad n z k := by
    rw [← pscO_eq z hk]
    unfold TClifford.pscO pad
    split
    · rw [mul_assoc, iPow_mul_iPowNeg, mul_one]
    · exact MulZeroClass.zero_mul _
  rw [e] at this
  exact this

/-- `parity_flip`. -/
theorem parityFlip {m n : Nat} (hn : n ≤ 2 * m) {M : Arr2 K} {l : Nat} {z : Nat → ℂ} {b : ℝ}
    (h : ∀ i < 2 ^ m, ∀ j < 2 ^ m, Q.R l (M.get i j) (ctr m n z i j) b) :
    ∀ i < 2 ^ m, ∀ j < 2 ^ m, Q.R l ((TClifford.parityFlip M).get i j) (ctr m n (flp n z) i j) b := by
  intro i hi j hj
  rw [ctr_flp hn z i hi j hj]
  show Q.R l (TClifford.alpha (M.get i j) i j) _ b
  unfold al
  rw [← alpha_eq hi hj]
  exact Q.alpha (h i hi j hj) i j

/-- `imaginary_flip`. -/
theorem imaginaryFlip {m : Nat} (hm : m < 64) {M : Arr2 K} (hr : M.rows = 2 ^ m) (hc : M.cols = 2 ^ m) {l : Nat} {X : Nat → Nat → ℂ} {b : ℝ}
    (h : ∀ i < 2 ^ m, ∀ j < 2 ^ m, Q.R l (M.get i j) (X i j) b) :
    ∃ N, TClifford.imaginaryFlip M = .ok N ∧ N.rows = 2 ^ m ∧ N.cols = 2 ^ m ∧
      ∀ i < 2 ^ m, ∀ j < 2 ^ m, Q.R l (N.get i j) (ifl m X i j) b := by
  obtain ⟨h1, h2, h3⟩ := imaginaryFlipInplace_rel m (P := fun _ _ v z => Q.R l v z b) (fun _ _ _ _ => Q.neg) M ⟨2 ^ m, 2 ^ m, X⟩ hr hc rfl rfl h
  refine ⟨imaginaryFlipInplace M, ?_, h1, h2, fun i hi j hj => ?_⟩
  · unfold TClifford.imaginaryFlip
    rw [badSquare_false hr hc hm]; rfl
  · obtain ⟨_, _, h4⟩ := imaginaryFlipInplace_spec m (⟨2 ^ m, 2 ^ m, X⟩ : Arr2 ℂ) rfl rfl
    rw [← h4 i hi j hj]
    exact h3 i hi j hj

end CxRel

/-! ### Integers -/

section exact
variable {F : Type} [Zero F] [One F] [Add F] [Sub F] [Neg F] [Mul F] [Div F] [FloatModel F] [FloatSigns F]

/-- The first `2^n` entries of the array are complex numbers with integer parts, and the sum of their sizes is at most `b`. -/
def IntArr {T : Type} [IntoComplex T (Cx F)] (n : Nat) (x : Arr1 T) (b : ℝ) : Prop :=
  x.len = 2 ^ n ∧ (∀ k < 2 ^ n, (IntoComplex.into (x.get k) : Cx F).Fin ∧ Cx.GInt (IntoComplex.into (x.get k) : Cx F).val) ∧
  ∑ k ∈ range (2 ^ n), Cx.n1 (IntoComplex.into (x.get k) : Cx F).val ≤ b

/-- The array with the entries negated for which `e` is odd. -/
def negOdd {K : Type} [Neg K] (e : Nat → Nat) (x : Arr1 K) : Arr1 K := ⟨x.len, fun k => if e k % 2 = 1 then -x.get k else x.get k⟩

variable {T : Type} [IntoComplex T (Cx F)] {n : Nat}

/-- The exact values of the array. -/
noncomputable def arrVal (x : Arr1 T) : Nat → ℂ := fun k => (IntoComplex.into (x.get k) : Cx F).val

theorem cx_inj {v w : Cx F} (hv : v.Fin) (hw : w.Fin) (h : v.val = w.val) : v = w :=
  Cx.ext' (FloatModel.re_inj hv.1 hw.1 (congrArg Complex.re h)) (FloatModel.re_inj hv.2 hw.2 (congrArg Complex.im h))

theorem IntArr.clifft {x : Arr1 T} {b : ℝ} (hx : IntArr (F := F) n x b) (h4 : 4 ≤ M F) (hn : n < 63) (hb : b ≤ M F) :
    ∃ N, clifft (K := Cx F) x = .ok N ∧ N.rows = 2 ^ ((n + 1) / 2) ∧ N.cols = 2 ^ ((n + 1) / 2) ∧
      (Cx.exactRel h4).Mat ((n + 1) / 2) 0 N.get (ctr ((n + 1) / 2) n (arrVal (F := F) x)) b := by
  obtain ⟨N, h1, h2, h3, h5⟩ := (Cx.exactRel (F := F) h4).clifft hn x hx.1 (l := 0) (z := arrVal (F := F) x)
    (b := fun k => Cx.n1 (arrVal (F := F) x k)) (fun k hk => ⟨(hx.2.1 k hk).1, rfl, (hx.2.1 k hk).2, le_rfl⟩) (hx.2.2.trans hb)
  obtain ⟨β, b1, b2, b3⟩ := h5
  exact ⟨N, h1, h2, h3, β, b1, fun i hi => (b2 i hi).trans hx.2.2, fun j hj => (b3 j hj).trans hx.2.2⟩

/-- **C78.** The transform of an array of complex integers, computed with floating point numbers, is exactly the
transform over the complex numbers. -/
theorem C78_clifft (h4 : 4 ≤ M F) {x : Arr1 T} {b : ℝ} (hn : n < 63) (hx : IntArr (F := F) n x b) (hb : b ≤ M F) :
    ∃ N N', TClifford.clifft (K := Cx F) x = .ok N ∧ TClifford.clifft (K := ℂ) (⟨x.len, arrVal (F := F) x⟩ : Arr1 ℂ) = .ok N' ∧
      N.rows = N'.rows ∧ N.cols = N'.cols ∧
      ∀ i < N.rows, ∀ j < N.cols, (N.get i j).Fin ∧ (N.get i j).val = N'.get i j := by
  obtain ⟨N, e, hr, hc, hN⟩ := hx.clifft h4 hn hb
  obtain ⟨N', e', hr', hc', hN'⟩ := clifft_spec (K := ℂ) hn (⟨x.len, arrVal (F := F) x⟩ : Arr1 ℂ) hx.1
  refine ⟨N, N', e, e', hr.trans hr'.symm, hc.trans hc'.symm, fun i hi j hj => ?_⟩
  rw [hr] at hi
  rw [hc] at hj
  obtain ⟨h1, h2, -⟩ := hN.entry hi hj
  exact ⟨h1, h2.trans (hN' i hi j hj).symm⟩

/-- The inverse transform of integers. -/
theorem iclifft_int (h4 : 4 ≤ M F) {m : Nat} (hm : m < 32) {N : Arr2 (Cx F)} (hr : N.rows = 2 ^ m) (hc : N.cols = 2 ^ m) {z : Nat → ℂ} {b : ℝ} {l : Nat}
    (h : ∀ i < 2 ^ m, ∀ j < 2 ^ m, (Cx.exactRel h4).R l (N.get i j) (ctr m n z i j) b) (hb : 4 * b ≤ M F)
    (hG : ∀ k < 2 ^ n, Cx.GInt (z k)) {w : Arr1 (Cx F)} (hw : w.len = 2 ^ (2 * m))
    (hwz : ∀ k < 2 ^ (2 * m), (w.get k).Fin ∧ (w.get k).val = pad n z k) : Same1 (iclifft N) (.ok w) := by
  obtain ⟨r, h1, h2, h3⟩ := (Cx.exactRel (F := F) h4).iclifft hm N hr hc h hG (by
    show 4 * (b + m * 0) ≤ M F
    rw [MulZeroClass.mul_zero, _root_.add_zero]; exact hb)
  refine ⟨r, w, h1, rfl, h2.trans hw.symm, fun k hk => ?_⟩
  rw [h2] at hk
  obtain ⟨g1, g2, -⟩ := h3 k hk
  obtain ⟨g3, g4⟩ := hwz k hk
  exact cx_inj g1 g3 (g2.trans g4.symm)

theorem even_up (n : Nat) : (if n % 2 = 0 then n else n + 1) = 2 * ((n + 1) / 2) := by split <;> omega

/-- **C27, C78.** `iclifft(clifft(x))` for an array of complex integers, computed with floating point numbers, is exactly
`x`, filled up with zeros to an even number of generators, if four times the sum of the sizes is exactly representable. -/
theorem C78_clifft_round_trip (h4 : 4 ≤ M F) {x : Arr1 T} {b : ℝ} (hn : n < 63) (hx : IntArr (F := F) n x b) (hb : 4 * b ≤ M F) :
    Same1 (do let m ← clifft (K := Cx F) x; iclifft m) (.ok (padded (Cx F) x (2 ^ (if n % 2 = 0 then n else n + 1)))) := by
  have hb0 : 0 ≤ b := (sum_nonneg fun _ _ => Cx.n1_nonneg _).trans hx.2.2
  obtain ⟨N, e, hr, hc, hN⟩ := hx.clifft h4 hn (by linarith)
  simp only [e, bind, Except.bind]
  refine iclifft_int h4 (by omega) hr hc (fun i hi j hj => hN.entry hi hj) hb (fun k hk => (hx.2.1 k hk).2) (by rw [even_up]; rfl) fun k hk => ?_
  simp only [padded, pad, hx.1]
  split
  · rename_i h; exact ⟨(hx.2.1 k h).1, rfl⟩
  · exact Cx.zero_Fin

/-- `negOdd` in terms of the exact values. -/
theorem negOdd_ok {x : Arr1 (Cx F)} {b : ℝ} (hx : IntArr (F := F) n x b) {e : Nat → Nat} {s : Nat → ℤ} (h : ∀ k < 2 ^ n, s k = (-1) ^ e k)
    {k : Nat} (hk : k < 2 ^ n) : ((negOdd e x).get k).Fin ∧ ((negOdd e x).get k).val = s k • arrVal (F := F) x k := by
  have hf : (x.get k).Fin := (hx.2.1 k hk).1
  have hv : arrVal (F := F) x k = (x.get k).val := rfl
  rw [h k hk, hv, neg_one_pow_eq_pow_mod_two]
  simp only [negOdd]
  rcases Nat.mod_two_eq_zero_or_one (e k) with h' | h'
  · rw [if_neg (by omega), h']
    exact ⟨hf, by simp⟩
  · rw [if_pos h', h']
    exact ⟨(Cx.neg_Fin hf).1, by rw [(Cx.neg_Fin hf).2]; simp⟩

/-- An automorphism that changes signs. -/
theorem signed_int (h4 : 4 ≤ M F) (hn : n < 63) (he : n % 2 = 0) {x : Arr1 (Cx F)} {b : ℝ} (hx : IntArr (F := F) n x b) (hb : 4 * b ≤ M F)
    {e : Nat → Nat} {s : Nat → ℤ} (hs : ∀ k < 2 ^ n, s k = (-1) ^ e k) {N : Arr2 (Cx F)} {l : Nat}
    (hr : N.rows = 2 ^ ((n + 1) / 2)) (hc : N.cols = 2 ^ ((n + 1) / 2))
    (h : ∀ i < 2 ^ ((n + 1) / 2), ∀ j < 2 ^ ((n + 1) / 2),
      (Cx.exactRel h4).R l (N.get i j) (ctr ((n + 1) / 2) n (fun k => s k • arrVal (F := F) x k) i j) b) :
    Same1 (iclifft N) (.ok (negOdd e x)) := by
  have e2 : 2 * ((n + 1) / 2) = n := by omega
  refine iclifft_int h4 (by omega) hr hc h hb (fun k hk => ?_) (by rw [e2]; exact hx.1) fun k hk => ?_
  · rw [hs k hk]
    rcases neg_one_pow_eq_or ℤ (e k) with h | h <;> rw [h]
    · rw [one_smul]; exact (hx.2.1 k hk).2
    · rw [neg_one_zsmul]; exact (hx.2.1 k hk).2.neg
  · rw [e2] at hk
    unfold pad
    rw [if_pos hk]
    exact negOdd_ok hx hs hk

/-- **C38, C78.** `iclifft(parity_flip(clifft(x)))` for an array of complex integers is exactly `x` with the coefficients
of the blades of odd grade negated. -/
theorem C78_parity_flip (h4 : 4 ≤ M F) (hn : n < 63) (he : n % 2 = 0) {x : Arr1 (Cx F)} {b : ℝ} (hx : IntArr (F := F) n x b)
    (hb : 4 * b ≤ M F) :
    Same1 (do let m ← clifft (K := Cx F) x; iclifft (parityFlip m)) (.ok (negOdd countOnes x)) := by
  have hb0 : 0 ≤ b := (sum_nonneg fun _ _ => Cx.n1_nonneg _).trans hx.2.2
  obtain ⟨N, e, hr, hc, hN⟩ := hx.clifft h4 hn (by linarith)
  simp only [e, bind, Except.bind]
  exact signed_int h4 hn he hx hb (s := fun k => sg (par n k)) (fun k hk => sg_par_pow hk) (N := parityFlip N) hr hc
    ((Cx.exactRel h4).parityFlip (by omega) fun i hi j hj => hN.entry hi hj)

/-- **C38, C78.** `iclifft(imaginary_flip(clifft(x)))` for an array of complex integers is exactly `x` with the
coefficients of the blades negated that contain an odd number of odd-numbered generators. -/
theorem C78_imaginary_flip (h4 : 4 ≤ M F) (hn : n < 63) (he : n % 2 = 0) {x : Arr1 (Cx F)} {b : ℝ} (hx : IntArr (F := F) n x b)
    (hb : 4 * b ≤ M F) :
    Same1 (do let m ← clifft (K := Cx F) x; let m' ← imaginaryFlip m; iclifft m')
      (.ok (negOdd (fun k => countOnes (k &&& oddMask)) x)) := by
  have hb0 : 0 ≤ b := (sum_nonneg fun _ _ => Cx.n1_nonneg _).trans hx.2.2
  obtain ⟨N, e, hr, hc, hN⟩ := hx.clifft h4 hn (by linarith)
  obtain ⟨N', e', hr', hc', hN'⟩ := (Cx.exactRel h4).imaginaryFlip (by omega) hr hc fun i hi j hj => hN.entry hi hj
  simp only [e, e', bind, Except.bind]
  refine signed_int h4 hn he hx hb (l := 0) (s := fun k => sg (opar ((n + 1) / 2) k))
    (fun k hk => sg_opar_pow (by omega) (lt_of_lt_of_le hk (Nat.pow_le_pow_right (by norm_num) (by omega)))) hr' hc' fun i hi j hj => ?_
  rw [ctr_ifl _ i hi j hj]
  exact hN' i hi j hj

/-- **C38, C78.** `iclifft(reversal(clifft(x)))` for an array of complex integers is exactly `x` with every blade
reversed. -/
theorem C78_reversal (h4 : 4 ≤ M F) (hn : n < 63) (he : n % 2 = 0) {x : Arr1 (Cx F)} {b : ℝ} (hx : IntArr (F := F) n x b)
    (hb : 4 * b ≤ M F) :
    Same1 (do let m ← clifft (K := Cx F) x; let m' ← reversal m; iclifft m')
      (.ok (negOdd (fun k => countOnes k * (countOnes k - 1) / 2) x)) := by
  have hb0 : 0 ≤ b := (sum_nonneg fun _ _ => Cx.n1_nonneg _).trans hx.2.2
  obtain ⟨N, e, hr, hc, hN⟩ := hx.clifft h4 hn (by linarith)
  obtain ⟨N', e', hr', hc', hN'⟩ := (Cx.exactRel h4).imaginaryFlip (M := N.transpose) (by omega) hc hr
    (X := fun i j => ctr ((n + 1) / 2) n (arrVal (F := F) x) j i) fun i hi j hj => hN.entry hj hi
  have e' : reversal N = .ok N' := e'
  simp only [e, e', bind, Except.bind]
  refine signed_int h4 hn he hx hb (l := 0) (s := fun k => rsg n k) (fun k hk => rsg_pow hk) hr' hc' fun i hi j hj => ?_
  rw [ctr_rev (by omega) _ i hi j hj]
  exact hN' i hi j hj

/-- The complex conjugate: `Complex::conj` of num-complex. -/
def Cx.conj (v : Cx F) : Cx F := ⟨v.re, -v.im⟩

theorem Cx.conj_rel (h4 : 4 ≤ M F) {l : Nat} {v : Cx F} {z : ℂ} {b : ℝ} (h : (Cx.exactRel h4).R l v z b) :
    (Cx.exactRel h4).R l v.conj (star z) b := by
  obtain ⟨h1, rfl, ⟨⟨p, hp⟩, q, hq⟩, h5⟩ := h
  have hi := FloatModel.neg_ok h1.2
  refine ⟨⟨h1.1, hi.1⟩, Complex.ext rfl (by simp only [Cx.val, Cx.conj, hi.2]; simp), ⟨⟨p, by simpa using hp⟩, -q, by simp [hq]⟩, ?_⟩
  simpa [Cx.n1] using h5

/-- **C38, C78.** For an array of integers without imaginary parts, the transposed complex conjugate of the transform
is, exactly, the transform of the reversed array. -/
theorem C78_conj_transpose (h4 : 4 ≤ M F) (hn : n < 63) (he : n % 2 = 0) {x : Arr1 (Cx F)} {b : ℝ} (hx : IntArr (F := F) n x b)
    (hre : ∀ k < 2 ^ n, (x.get k).val.im = 0) (hb : 4 * b ≤ M F) :
    Same1 (do let m ← clifft (K := Cx F) x; iclifft (⟨m.cols, m.rows, fun i j => Cx.conj (m.get j i)⟩ : Arr2 (Cx F)))
      (.ok (negOdd (fun k => countOnes k * (countOnes k - 1) / 2) x)) := by
  have hb0 : 0 ≤ b := (sum_nonneg fun _ _ => Cx.n1_nonneg _).trans hx.2.2
  obtain ⟨N, e, hr, hc, hN⟩ := hx.clifft h4 hn (by linarith)
  simp only [e, bind, Except.bind]
  refine signed_int h4 hn he hx hb (l := 0) (s := fun k => rsg n k) (fun k hk => rsg_pow hk) hc hr fun i hi j hj => ?_
  have hI : star (HasI.I : ℂ) = -HasI.I := Complex.conj_I
  rw [ctr_congr (y := fun k => rsg n k • star (arrVal (F := F) x k)), ctr_star hI (by omega) (by omega) _ i hi j hj]
  · exact Cx.conj_rel h4 (hN.entry hj hi)
  · intro k hk
    congr 1
    exact Complex.ext rfl (by
      show (x.get k).val.im = -(x.get k).val.im
      rw [hre k hk, neg_zero])

/-- **C29, C78.** `iclifft(clifft(x).dot(clifft(y)))` for arrays of complex integers is exactly the geometric product of
`x` and `y` in the algebra whose generators all square to `+1`. -/
theorem C78_clifft_mul (h4 : 4 ≤ M F) (hn : n < 63) {x y : Arr1 T} {b c : ℝ} (hx : IntArr (F := F) n x b) (hy : IntArr (F := F) n y c)
    (hb1 : b ≤ M F) (hc1 : c ≤ M F) (hb : 4 * (b * c) ≤ M F) :
    ∃ r, (do let p ← clifft (K := Cx F) x; let q ← clifft (K := Cx F) y; let t ← p.dot q; iclifft t) = .ok r ∧
      r.len = 2 ^ (if n % 2 = 0 then n else n + 1) ∧
      ∀ k < r.len, (r.get k).Fin ∧ (r.get k).val =
        if k < 2 ^ n then geo (fun _ => 1) n (arrVal (F := F) x) (arrVal (F := F) y) k else 0 := by
  have hb0 : 0 ≤ b := (sum_nonneg fun _ _ => Cx.n1_nonneg _).trans hx.2.2
  have hc0 : 0 ≤ c := (sum_nonneg fun _ _ => Cx.n1_nonneg _).trans hy.2.2
  have hbc := mul_nonneg hb0 hc0
  obtain ⟨N, e, hr, hc, hN⟩ := hx.clifft h4 hn hb1
  obtain ⟨N', e', hr', hc', hN'⟩ := hy.clifft h4 hn hc1
  obtain ⟨t, e2, t1, t2, t3⟩ := dot_ops hc hr'
  simp only [e, e', e2, bind, Except.bind]
  have hD : ∀ p : ℝ, p * (Cx.exactRel (F := F) h4).D = 0 := fun p => MulZeroClass.mul_zero p
  have hP := CxRel.Mat.mm hN hN' (by
    show _ + _ * (_ * (Cx.exactRel (F := F) h4).D) ≤ M F
    rw [hD, MulZeroClass.mul_zero]; linarith)
  rw [hD, MulZeroClass.mul_zero] at hP
  obtain ⟨r, h1, h2, h3⟩ := (Cx.exactRel (F := F) h4).iclifft (n := n) (z := geo (fun _ => 1) n (arrVal (F := F) x) (arrVal (F := F) y))
    (by omega) t (t1.trans hr) (t2.trans hc') (fun i hi j hj => by
      rw [t3, ctr_geo (by omega) (by omega) _ _ i hi j hj, ← mmO_eq]
      exact hP.entry hi hj) (fun k hk => by
      unfold geo
      refine sum_induction _ Cx.GInt (fun _ _ => Cx.GInt.add) ⟨⟨0, by simp⟩, 0, by simp⟩ fun i hi => ?_
      have h1 := ((hx.2.1 i (mem_range.mp hi)).2).mul (hy.2.1 _ (Nat.xor_lt_two_pow (mem_range.mp hi) hk)).2
      rw [zsmul_eq_mul]
      exact Cx.GInt.mul ⟨⟨bsgn (fun _ => 1) n i (i ^^^ k), by simp⟩, 0, by simp⟩ h1) (by
      show 4 * (b * c + 0 + _) ≤ M F
      rw [hD]; linarith)
  refine ⟨r, h1, by rw [even_up, h2], fun k hk => ?_⟩
  rw [h2] at hk
  exact ⟨(h3 k hk).1, (h3 k hk).2.1⟩

/-- **C29, C78.** The product of the transforms of two arrays of complex integers is, exactly, the transform of the
geometric product. -/
theorem C78_clifft_dot (h4 : 4 ≤ M F) (hn : n < 63) {x y : Arr1 T} {b c : ℝ} (hx : IntArr (F := F) n x b) (hy : IntArr (F := F) n y c)
    (hb1 : b ≤ M F) (hc1 : c ≤ M F) (hb : b * c ≤ M F) :
    ∃ N N', (do let p ← clifft (K := Cx F) x; let q ← clifft (K := Cx F) y; p.dot q) = .ok N ∧
      clifft (K := ℂ) (⟨x.len, geo (fun _ => 1) n (arrVal (F := F) x) (arrVal (F := F) y)⟩ : Arr1 ℂ) = .ok N' ∧
      N.rows = N'.rows ∧ N.cols = N'.cols ∧
      ∀ i < N.rows, ∀ j < N.cols, (N.get i j).Fin ∧ (N.get i j).val = N'.get i j := by
  obtain ⟨N, e, hr, hc, hN⟩ := hx.clifft h4 hn hb1
  obtain ⟨N', e', hr', hc', hN'⟩ := hy.clifft h4 hn hc1
  obtain ⟨t, e2, t1, t2, t3⟩ := dot_ops hc hr'
  obtain ⟨L, e3, l1, l2, l3⟩ := clifft_spec (K := ℂ) hn
    (⟨x.len, geo (fun _ => 1) n (arrVal (F := F) x) (arrVal (F := F) y)⟩ : Arr1 ℂ) hx.1
  simp only [e, e', e2, bind, Except.bind]
  have hD : ∀ p : ℝ, p * (Cx.exactRel (F := F) h4).D = 0 := fun p => MulZeroClass.mul_zero p
  have hP := CxRel.Mat.mm hN hN' (by
    show _ + _ * (_ * (Cx.exactRel (F := F) h4).D) ≤ M F
    rw [hD, MulZeroClass.mul_zero, _root_.add_zero]; exact hb)
  refine ⟨t, L, rfl, e3, (t1.trans hr).trans l1.symm, (t2.trans hc').trans l2.symm, fun i hi j hj => ?_⟩
  rw [t1, hr] at hi
  rw [t2, hc'] at hj
  obtain ⟨h1, h2, -⟩ := hP.entry hi hj
  rw [t3]
  refine ⟨h1, h2.trans ?_⟩
  have l4 : L.get i j = ctr ((n + 1) / 2) n (geo (fun _ => 1) n (arrVal (F := F) x) (arrVal (F := F) y)) i j := l3 i hi j hj
  rw [l4, ctr_geo (by omega) (by omega) _ _ i hi j hj, mmO_eq]

end exact

/-! ### Rounding errors -/

section near
variable {F : Type} [Zero F] [One F] [Add F] [Sub F] [Neg F] [Mul F] [Div F] [FloatModel F] [FloatSigns F]
  {T : Type} [IntoComplex T (Cx F)] {n : Nat}

/-- The sum of the sizes of the entries of an array. -/
noncomputable def arrSize (x : Arr1 T) : ℝ := ∑ k ∈ range x.len, Cx.n1 (arrVal (F := F) x k)

/-- **C79.** The transform of an array of finite complex numbers: every entry is within `(1+u)^m - 1` times the size of
the array of the entry of the exact transform, where `2^m` is the side of the matrix. -/
theorem C79_clifft (h4 : 4 ≤ M F) (hu : 0 < u F) (hn : n < 63) {x : Arr1 T} (hx : x.len = 2 ^ n)
    (hf : ∀ k < x.len, (IntoComplex.into (x.get k) : Cx F).Fin) {m : Nat} (hm : m = (n + 1) / 2)
    (hb : (1 + u F) ^ m * arrSize (F := F) x ≤ Ω F) :
    ∃ N N', clifft (K := Cx F) x = .ok N ∧ clifft (K := ℂ) (⟨x.len, arrVal (F := F) x⟩ : Arr1 ℂ) = .ok N' ∧
      N.rows = N'.rows ∧ N.cols = N'.cols ∧
      ∀ i < N.rows, ∀ j < N.cols, (N.get i j).Fin ∧
        Cx.n1 ((N.get i j).val - N'.get i j) ≤ ((1 + u F) ^ m - 1) * arrSize (F := F) x := by
  subst hm
  obtain ⟨N', e', hr', hc', hN'⟩ := clifft_spec (K := ℂ) hn (⟨x.len, arrVal (F := F) x⟩ : Arr1 ℂ) hx
  unfold arrSize at hb ⊢
  rw [hx] at hb hf ⊢
  rw [← Nat.zero_add ((n + 1) / 2)] at hb
  obtain ⟨N, e, hr, hc, hN⟩ := (Cx.nearRel h4 hu).clifft hn x hx (l := 0) (z := arrVal (F := F) x)
    (b := fun k => Cx.n1 (arrVal (F := F) x k)) (fun k hk => ⟨hf k hk, le_rfl, by
      show Cx.n1 (_ - (IntoComplex.into (x.get k) : Cx F).val) ≤ _
      rw [sub_self, Cx.n1_zero, pow_zero, sub_self, MulZeroClass.zero_mul]⟩) hb
  rw [hx] at e'
  refine ⟨N, N', e, e', hr.trans hr'.symm, hc.trans hc'.symm, fun i hi j hj => ?_⟩
  rw [hr] at hi
  rw [hc] at hj
  obtain ⟨h1, -, h2⟩ := hN.entry hi hj
  rw [Nat.zero_add] at h2
  refine ⟨h1, ?_⟩
  rw [hN' i hi j hj]
  exact h2

/-- **C79.** The inverse transform of a matrix of finite complex numbers whose entries have size at most `b`: the result
is within `(1+u)^(3m) - 1` times `b` of the exact one, up to underflow. -/
theorem C79_iclifft (h4 : 4 ≤ M F) (hu : 0 < u F) {m : Nat} (hm : m < 32) {N : Arr2 (Cx F)} (hr : N.rows = 2 ^ m) (hc : N.cols = 2 ^ m)
    (hf : ∀ i < 2 ^ m, ∀ j < 2 ^ m, (N.get i j).Fin) {b B : ℝ} (hb : ∀ i < 2 ^ m, ∀ j < 2 ^ m, Cx.n1 (N.get i j).val ≤ b)
    (hB : B = b + m * (4 * η F / u F)) (hF : (1 + u F) ^ (3 * m) * (4 * B) ≤ Ω F) :
    ∃ r s, iclifft N = .ok r ∧ iclifft (⟨N.rows, N.cols, fun i j => (N.get i j).val⟩ : Arr2 ℂ) = .ok s ∧ r.len = s.len ∧
      ∀ k < r.len, (r.get k).Fin ∧ Cx.n1 ((r.get k).val - s.get k) ≤ ((1 + u F) ^ (3 * m) - 1) * B := by
  subst hB
  obtain ⟨s, e', hs, hsk⟩ := iclifft_spec (m := m) (by omega) (⟨N.rows, N.cols, fun i j => (N.get i j).val⟩ : Arr2 ℂ) hr hc
  have h0 : (0 : ℕ) + 3 * m = 3 * m := Nat.zero_add _
  obtain ⟨r, e, hl, hk⟩ := (Cx.nearRel h4 hu).iclifft (n := 2 * m) (l := 0) (b := b) hm N hr hc
    (z := ictr m fun i j => (N.get i j).val) (fun i hi j hj => by
      rw [ctr_ictr two_ne_zero m _ i hi j hj]
      refine ⟨hf i hi j hj, hb i hi j hj, ?_⟩
      rw [sub_self, Cx.n1_zero, pow_zero, sub_self, MulZeroClass.zero_mul]) (fun _ _ => trivial) (by rw [h0]; exact hF)
  refine ⟨r, s, e, e', hl.trans hs.symm, fun k hk' => ?_⟩
  rw [hl] at hk'
  obtain ⟨h1, -, h2⟩ := hk k hk'
  rw [h0] at h2
  refine ⟨h1, ?_⟩
  rw [hsk k hk']
  unfold pad at h2
  rw [if_pos hk'] at h2
  exact h2

/-- **C27, C79.** `iclifft(clifft(x))` for an array of finite complex numbers is `x`, filled up with zeros, up to
`(1+u)^(4m) - 1` times the size of the array and underflow. -/
theorem C79_clifft_round_trip (h4 : 4 ≤ M F) (hu : 0 < u F) (hn : n < 63) {x : Arr1 T} (hx : x.len = 2 ^ n)
    (hf : ∀ k < x.len, (IntoComplex.into (x.get k) : Cx F).Fin) {m : Nat} (hm : m = (n + 1) / 2) {B : ℝ}
    (hB : B = arrSize (F := F) x + m * (4 * η F / u F)) (hF : (1 + u F) ^ (4 * m) * (4 * B) ≤ Ω F) :
    ∃ r, (do let N ← clifft (K := Cx F) x; iclifft N) = .ok r ∧ r.len = 2 ^ (if n % 2 = 0 then n else n + 1) ∧
      ∀ k < r.len, (r.get k).Fin ∧
        Cx.n1 ((r.get k).val - (if k < x.len then arrVal (F := F) x k else 0)) ≤ ((1 + u F) ^ (4 * m) - 1) * B := by
  subst hm hB
  have hu0 := FloatModel.u_nonneg (F := F)
  have hη0 := FloatModel.η_nonneg (F := F)
  have hm0 : 0 ≤ ((n + 1) / 2 : ℕ) * (4 * η F / u F) := by positivity
  have hs0 : 0 ≤ arrSize (F := F) x := sum_nonneg fun _ _ => Cx.n1_nonneg _
  have hp0 : 0 ≤ (1 + u F) ^ ((n + 1) / 2) := by positivity
  unfold arrSize at *
  rw [hx] at hF hf hs0 ⊢
  obtain ⟨N, e, hr, hc, hN⟩ := (Cx.nearRel h4 hu).clifft hn x hx (l := 0) (z := arrVal (F := F) x)
    (b := fun k => Cx.n1 (arrVal (F := F) x k)) (fun k hk => ⟨hf k hk, le_rfl, by
      show Cx.n1 (_ - (IntoComplex.into (x.get k) : Cx F).val) ≤ _
      rw [sub_self, Cx.n1_zero, pow_zero, sub_self, MulZeroClass.zero_mul]⟩) (by
      refine le_trans ?_ hF
      refine mul_le_mul (Cx.pow_le' (by omega)) (by linarith) hs0 (by positivity))
  have h5 : 0 + (n + 1) / 2 + 3 * ((n + 1) / 2) = 4 * ((n + 1) / 2) := by omega
  obtain ⟨r, e2, hl, hk⟩ := (Cx.nearRel h4 hu).iclifft (n := n) (by omega) N hr hc (fun i hi j hj => hN.entry hi hj)
    (fun _ _ => trivial) (by rw [h5]; exact hF)
  simp only [e, bind, Except.bind]
  refine ⟨r, e2, by rw [even_up]; exact hl, fun k hk' => ?_⟩
  rw [hl] at hk'
  obtain ⟨h1, -, h2⟩ := hk k hk'
  rw [h5] at h2
  exact ⟨h1, h2⟩

set_option exponentiation.threshold 2000 in
/-- **C27, C79, `f64`.** If the sizes of the entries add up to at most `2^1000`, `iclifft(clifft(x))` in double precision
has finite entries, off by at most `m 2^-50 (‖x‖₁ + 2^-900)`, where `2^m` is the side of the matrix. -/
theorem C79_clifft_round_trip_f64 {T : Type} [IntoComplex T (Cx F64)] (hn : n < 63) {x : Arr1 T} (hx : x.len = 2 ^ n)
    (hf : ∀ k < x.len, (IntoComplex.into (x.get k) : Cx F64).Fin) (hs : arrSize (F := F64) x ≤ 2 ^ 1000) {m : Nat} (hm : m = (n + 1) / 2) :
    ∃ r, (do let N ← clifft (K := Cx F64) x; iclifft N) = .ok r ∧ r.len = 2 ^ (if n % 2 = 0 then n else n + 1) ∧
      ∀ k < r.len, (r.get k).Fin ∧
        Cx.n1 ((r.get k).val - (if k < x.len then arrVal (F := F64) x k else 0)) ≤ m / 2 ^ 50 * (arrSize (F := F64) x + 1 / 2 ^ 900) := by
  obtain ⟨cu, cη, -, cΩ, -⟩ := C69_f64
  have hm31 : m ≤ 31 := by omega
  have hmr : (m : ℝ) ≤ 31 := by exact_mod_cast hm31
  have hm0 : (0 : ℝ) ≤ m := Nat.cast_nonneg m
  have h0 : 0 ≤ arrSize (F := F64) x := sum_nonneg fun _ _ => Cx.n1_nonneg _
  have hLu : ((4 * m : ℕ) : ℝ) * u F64 ≤ 1 / 2 ^ 40 := by
    rw [cu]; push_cast
    have : (4 : ℝ) * m ≤ 2 ^ 7 := by norm_num; linarith
    calc (4 * m : ℝ) * (1 / 2 ^ 53) ≤ 2 ^ 7 * (1 / 2 ^ 53) := mul_le_mul_of_nonneg_right this (by positivity)
      _ ≤ _ := by norm_num
  have hL0 : 0 ≤ ((4 * m : ℕ) : ℝ) * u F64 := mul_nonneg (Nat.cast_nonneg _) u_nonneg
  have key := one_add_pow_le (u_nonneg (F := F64)) (4 * m) (by linarith [show (1 : ℝ) / 2 ^ 40 ≤ 1 by norm_num])
  rw [← mul_pow] at key
  have hsq : (((4 * m : ℕ) : ℝ) * u F64) ^ 2 ≤ ((4 * m : ℕ) : ℝ) * u F64 := by
    have : (1 : ℝ) / 2 ^ 40 ≤ 1 := by norm_num
    nlinarith
  have k1 : (1 + u F64) ^ (4 * m) - 1 ≤ m / 2 ^ 50 := by
    have e : (m : ℝ) / 2 ^ 50 = 2 * (((4 * m : ℕ) : ℝ) * u F64) := by rw [cu]; push_cast; ring
    rw [e]; linarith
  have k2 : (1 + u F64) ^ (4 * m) ≤ 2 := by
    have : (1 : ℝ) / 2 ^ 40 ≤ 1 / 2 := by norm_num
    linarith
  have h7 : (4 * η F64 / u F64 : ℝ) = 1 / 2 ^ 1020 := by
    rw [cu, cη, show (1075 : ℕ) = 1020 + 55 from rfl, pow_add]
    field_simp
    norm_num
  have h8 : (m : ℝ) * (4 * η F64 / u F64) ≤ 1 / 2 ^ 900 := by
    rw [h7]
    calc (m : ℝ) * (1 / 2 ^ 1020) ≤ 2 ^ 120 * (1 / 2 ^ 1020) := mul_le_mul_of_nonneg_right (by linarith [show (31 : ℝ) ≤ 2 ^ 120 by norm_num]) (by positivity)
      _ = 1 / 2 ^ 900 := by rw [show (1020 : ℕ) = 120 + 900 from rfl, pow_add]; field_simp
  have h9 : 0 ≤ (m : ℝ) * (4 * η F64 / u F64) := by rw [h7]; positivity
  have hp : 1 ≤ (1 + u F64) ^ (4 * m) := Cx.one_le_pow' (4 * m)
  obtain ⟨r, e1, e2, e3⟩ := C79_clifft_round_trip (F := F64) Ex.four_le (by rw [cu]; positivity) hn hx hf hm rfl (by
    rw [cΩ]
    have h10 : (1 : ℝ) / 2 ^ 900 ≤ 2 ^ 1000 := by
      rw [div_le_iff₀ (by positivity), ← pow_add]
      exact one_le_pow₀ (by norm_num)
    calc (1 + u F64) ^ (4 * m) * (4 * (arrSize (F := F64) x + m * (4 * η F64 / u F64)))
        ≤ 2 * (4 * (2 ^ 1000 + 2 ^ 1000)) := mul_le_mul k2 (by linarith) (by linarith) (by norm_num)
      _ = 2 ^ 1004 := by rw [show (1004 : ℕ) = 1000 + 4 from rfl, pow_add]; ring
      _ ≤ 2 ^ 52 * 2 ^ 971 := by rw [← pow_add]; exact pow_le_pow_right₀ (by norm_num) (by norm_num)
      _ ≤ _ := mul_le_mul_of_nonneg_right (by norm_num) (by positivity))
  refine ⟨r, e1, e2, fun k hk => ⟨(e3 k hk).1, (e3 k hk).2.trans ?_⟩⟩
  exact mul_le_mul k1 (by linarith) (by linarith) (by positivity)

end near

/-! ### Examples -/

namespace Ex

/-- The coefficients `(k + 1) - k i` in double precision. -/
def cf8 : Arr1 (TClifford.Cx F64) := ⟨8, fun k => ⟨.ofRat ((k + 1 : ℤ) : ℚ), .ofRat ((-k : ℤ) : ℚ)⟩⟩

/-- The same with 16 coefficients. -/
def cf16 : Arr1 (TClifford.Cx F64) := ⟨16, cf8.get⟩

theorem cf8_get {k : Nat} (hk : k < 16) : (cf8.get k).Fin ∧ (cf8.get k).val = ⟨k + 1, -k⟩ := by
  have h1 := Flt.ofRat_int (f := Fmt.f64) (m := k + 1) (by
    rw [abs_of_nonneg (by positivity)]; show (k + 1 : ℤ) ≤ 2 ^ 53; norm_num; omega)
  have h2 := Flt.ofRat_int (f := Fmt.f64) (m := -k) (by
    rw [abs_neg, abs_of_nonneg (by positivity)]; show (k : ℤ) ≤ 2 ^ 53; norm_num; omega)
  refine ⟨⟨h1.1, h2.1⟩, Complex.ext ?_ ?_⟩
  · show (((Flt.ofRat ((k + 1 : ℤ) : ℚ) : F64).toRat : ℚ) : ℝ) = k + 1
    rw [h1.2]; push_cast; rfl
  · show (((Flt.ofRat ((-k : ℤ) : ℚ) : F64).toRat : ℚ) : ℝ) = -k
    rw [h2.2]; push_cast; rfl

theorem cf_int {x : Arr1 (TClifford.Cx F64)} {n : Nat} (hx : x.len = 2 ^ n) (h : x.get = cf8.get) (hn : n ≤ 4) : IntArr (F := F64) n x 512 := by
  have h16 : 2 ^ n ≤ 16 := (Nat.pow_le_pow_right (by norm_num) hn : 2 ^ n ≤ 2 ^ 4)
  refine ⟨hx, fun k hk => ?_, ?_⟩
  · rw [h]
    obtain ⟨h1, h2⟩ := cf8_get (k := k) (by omega)
    exact ⟨h1, show Cx.GInt (cf8.get k).val by rw [h2]; exact ⟨⟨k + 1, by simp⟩, -k, by simp⟩⟩
  · have : ∀ k ∈ range (2 ^ n), Cx.n1 (IntoComplex.into (x.get k) : TClifford.Cx F64).val ≤ 32 := by
      intro k hk
      have hk := mem_range.mp hk
      rw [h]
      show Cx.n1 (cf8.get k).val ≤ 32
      rw [(cf8_get (k := k) (by omega)).2]
      have hk' : (k : ℝ) ≤ 15 := by exact_mod_cast (by omega : k ≤ 15)
      have h0 : (0 : ℝ) ≤ k := by positivity
      unfold Cx.n1
      rw [abs_neg, abs_of_nonneg (by linarith), abs_of_nonneg h0]
      linarith
    refine (sum_le_sum this).trans ?_
    rw [sum_const, card_range, nsmul_eq_mul]
    have : ((2 ^ n : ℕ) : ℝ) ≤ 16 := by exact_mod_cast h16
    linarith

theorem cf_bounds : (512 : ℝ) ≤ FloatModel.M F64 ∧ 4 * (512 : ℝ) ≤ FloatModel.M F64 ∧ 4 * ((512 : ℝ) * 512) ≤ FloatModel.M F64 ∧
    (512 : ℝ) * 512 ≤ FloatModel.M F64 := by
  show _ ≤ (2 : ℝ) ^ 53 ∧ _ ≤ (2 : ℝ) ^ 53 ∧ _ ≤ (2 : ℝ) ^ 53 ∧ _ ≤ (2 : ℝ) ^ 53
  norm_num

example := C78_clifft four_le (n := 3) (by norm_num) (cf_int (x := cf8) (n := 3) rfl rfl (by norm_num)) cf_bounds.1
example := C78_clifft_round_trip four_le (n := 3) (by norm_num) (cf_int (x := cf8) (n := 3) rfl rfl (by norm_num)) cf_bounds.2.1
example := C78_parity_flip four_le (n := 4) (by norm_num) (by norm_num) (cf_int (x := cf16) rfl rfl (by norm_num)) cf_bounds.2.1
example := C78_imaginary_flip four_le (n := 4) (by norm_num) (by norm_num) (cf_int (x := cf16) rfl rfl (by norm_num)) cf_bounds.2.1
example := C78_reversal four_le (n := 4) (by norm_num) (by norm_num) (cf_int (x := cf16) rfl rfl (by norm_num)) cf_bounds.2.1
example := C78_clifft_mul four_le (n := 3) (by norm_num) (cf_int (x := cf8) (n := 3) rfl rfl (by norm_num))
  (cf_int (x := cf8) (n := 3) rfl rfl (by norm_num)) cf_bounds.1 cf_bounds.1 cf_bounds.2.2.1
example := C78_clifft_dot four_le (n := 3) (by norm_num) (cf_int (x := cf8) (n := 3) rfl rfl (by norm_num))
  (cf_int (x := cf8) (n := 3) rfl rfl (by norm_num)) cf_bounds.1 cf_bounds.1 cf_bounds.2.2.2

/-- `1` and `0.1` in turn: not all entries are integers. -/
def ct8 : Arr1 F64 := ⟨8, fun k => if k % 2 = 0 then 1 else .ofRat (1 / 10)⟩

theorem ct8_ok : (∀ k < ct8.len, (IntoComplex.into (ct8.get k) : TClifford.Cx F64).Fin) ∧ arrSize (F := F64) ct8 ≤ 8 := by
  have h1 : ∀ k, ct8.get k ≠ .nonFinite ∧ |(ct8.get k).toRat| ≤ 1 := by
    intro k
    unfold ct8
    dsimp only
    split <;> decide +kernel
  refine ⟨fun k _ => ⟨(h1 k).1, FloatModel.fin_zero⟩, ?_⟩
  unfold arrSize
  refine (sum_le_sum (g := fun _ => 1) fun k _ => ?_).trans (by simp [ct8])
  show |(((ct8.get k).toRat : ℚ) : ℝ)| + |FloatModel.re (0 : F64)| ≤ 1
  rw [FloatModel.re_zero, abs_zero, _root_.add_zero]
  exact_mod_cast (h1 k).2

example := C79_clifft_round_trip_f64 (n := 3) (by norm_num) (x := ct8) rfl ct8_ok.1 (ct8_ok.2.trans (by
  rw [show (8 : ℝ) = 2 ^ 3 by norm_num]; exact pow_le_pow_right₀ (by norm_num) (by norm_num))) rfl

set_option exponentiation.threshold 2000 in
theorem ct8_bounds : (0 : ℝ) < FloatModel.u F64 ∧ (∀ k ≤ 8, (1 + FloatModel.u F64) ^ k * 64 ≤ FloatModel.Ω F64) ∧
    (2 : ℕ) * (4 * FloatModel.η F64 / FloatModel.u F64) ≤ 1 := by
  obtain ⟨cu, cη, -, cΩ, -⟩ := C69_f64
  refine ⟨by rw [cu]; positivity, fun k hk => ?_, ?_⟩
  · have h1 : (1 + FloatModel.u F64) ^ k ≤ 2 ^ 8 := by
      refine (pow_le_pow_left₀ (by rw [cu]; positivity) (show 1 + FloatModel.u F64 ≤ 2 by rw [cu]; norm_num) k).trans ?_
      exact pow_le_pow_right₀ (by norm_num) hk
    rw [cΩ]
    calc (1 + FloatModel.u F64) ^ k * 64 ≤ 2 ^ 8 * 64 := mul_le_mul_of_nonneg_right h1 (by norm_num)
      _ ≤ (2 ^ 53 - 1) * 1 := by norm_num
      _ ≤ _ := mul_le_mul_of_nonneg_left (one_le_pow₀ (by norm_num)) (by norm_num)
  · rw [cu, cη, show (1075 : ℕ) = 1020 + 55 from rfl, pow_add]
    have : (1 : ℝ) ≤ 2 ^ 1020 := one_le_pow₀ (by norm_num)
    have h : ((2 : ℕ) : ℝ) * (4 * (1 / (2 ^ 1020 * 2 ^ 55)) / (1 / 2 ^ 53)) = 2 / 2 ^ 1020 := by
      field_simp; norm_num
    rw [h, div_le_one (by positivity)]
    exact le_self_pow₀ (by norm_num) (by norm_num)

example := C79_clifft four_le ct8_bounds.1 (n := 3) (by norm_num) (x := ct8) rfl ct8_ok.1 (m := 2) rfl
  (le_trans (mul_le_mul_of_nonneg_left (ct8_ok.2.trans (by norm_num)) (by have := ct8_bounds.1; positivity)) (ct8_bounds.2.1 2 (by norm_num)))

example := C79_clifft_round_trip four_le ct8_bounds.1 (n := 3) (by norm_num) (x := ct8) rfl ct8_ok.1 (m := 2) rfl rfl
  (le_trans (mul_le_mul_of_nonneg_left (by have := ct8_ok.2; have := ct8_bounds.2.2; linarith) (by have := ct8_bounds.1; positivity))
    (ct8_bounds.2.1 8 (by norm_num)))

/-- A matrix of side 4 whose entries are all `0.1`. -/
def ctM : Arr2 (TClifford.Cx F64) := ⟨4, 4, fun _ _ => ⟨.ofRat (1 / 10), 0⟩⟩

example := C79_iclifft four_le ct8_bounds.1 (m := 2) (by norm_num) (N := ctM) rfl rfl
  (fun _ _ _ _ => ⟨(show (Flt.ofRat (1 / 10) : F64) ≠ .nonFinite by decide +kernel), FloatModel.fin_zero⟩) (b := 1)
  (fun _ _ _ _ => by
    show |(((Flt.ofRat (1 / 10) : F64).toRat : ℚ) : ℝ)| + |FloatModel.re (0 : F64)| ≤ 1
    rw [FloatModel.re_zero, abs_zero, _root_.add_zero]
    exact_mod_cast (by decide +kernel : |(Flt.ofRat (1 / 10) : F64).toRat| ≤ 1)) rfl
  (le_trans (mul_le_mul_of_nonneg_left (by have := ct8_bounds.2.2; linarith) (by have := ct8_bounds.1; positivity))
    (ct8_bounds.2.1 6 (by norm_num)))

/-- The coefficients `1, -1, 1, -1, ...`. -/
def cr16 : Arr1 (TClifford.Cx F64) := ⟨16, fun k => ⟨if k % 2 = 0 then 1 else -1, 0⟩⟩

theorem cr16_val (k : Nat) : (cr16.get k).Fin ∧ (cr16.get k).val = (if k % 2 = 0 then 1 else -1) := by
  unfold cr16
  dsimp only
  split
  · exact ⟨⟨FloatModel.fin_one, FloatModel.fin_zero⟩, Complex.ext FloatModel.re_one FloatModel.re_zero⟩
  · have h := FloatModel.neg_ok (FloatModel.fin_one (F := F64))
    exact ⟨⟨h.1, FloatModel.fin_zero⟩, Complex.ext (by simp [TClifford.Cx.val, h.2, FloatModel.re_one]) (by simp [TClifford.Cx.val, FloatModel.re_zero])⟩

theorem cr16_int : IntArr (F := F64) 4 cr16 512 := by
  refine ⟨rfl, fun k _ => ⟨(cr16_val k).1, ?_⟩, ?_⟩
  · show Cx.GInt (cr16.get k).val
    rw [(cr16_val k).2]
    split
    · exact ⟨⟨1, by simp⟩, 0, by simp⟩
    · exact ⟨⟨-1, by simp⟩, 0, by simp⟩
  · refine (sum_le_sum (g := fun _ => 1) fun k _ => ?_).trans (by norm_num)
    show Cx.n1 (cr16.get k).val ≤ 1
    rw [(cr16_val k).2]
    split <;> simp [Cx.n1]

example := C78_conj_transpose four_le (n := 4) (by norm_num) (by norm_num) cr16_int
  (fun k _ => by rw [(cr16_val k).2]; split <;> simp) cf_bounds.2.1

end Ex

end TClifford
