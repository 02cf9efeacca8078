import Verif.Props.ComplexScalar
import Verif.Props.ComplexifyFloat
import Verif.Props.FFTRound
import Verif.Props.FloatInv
import Verif.Props.TestsRandom
import Verif.Props.VdotRound
/-
C55 with rounding: `real_fft` of doubles has exactly the entries of `fft`, with a bound for its error.
-/

set_option linter.unusedSectionVars false

namespace TClifford

open MV FloatModel

/-! ### The transform of real numbers among complex ones -/

/-- The transform commutes with what commutes with sums, differences and signs. -/
theorem cnnO_map {T U : Type} [Zero T] [Add T] [Sub T] [Neg T] [Zero U] [Add U] [Sub U] [Neg U] {φ : T → U}
    (ha : ∀ x y, φ (x + y) = φ x + φ y) (hs : ∀ x y, φ (x - y) = φ x - φ y) (hn : ∀ x, φ (-x) = -φ x) (m : Nat) (x : Nat → T) :
    cnnO m (fun k => φ (x k)) = fun i j => φ (cnnO m x i j) := by
  have hal : ∀ (c : T) i j, alpha (φ c) i j = φ (alpha c i j) := by
    intro c i j
    unfold alpha
    split
    · rw [hn]
    · rfl
  induction m generalizing x with
  | zero => rfl
  | succ m ih =>
    have e1 := ih x
    have e2 := ih (hi (2 * m) x)
    have e3 := ih (hi (2 * m + 1) x)
    have e4 := ih (hi (2 * m) (hi (2 * m + 1) x))
    funext i j
    rw [cnnO_succ, cnnO_succ]
    change cnnO m (hi (2 * m) fun k => φ (x k)) = _ at e2
    change cnnO m (hi (2 * m + 1) fun k => φ (x k)) = _ at e3
    change cnnO m (hi (2 * m) (hi (2 * m + 1) fun k => φ (x k))) = _ at e4
    rw [e1, e2, e3, e4]
    unfold blk
    split <;> split <;> simp only [← ha, ← hs, hal]

theorem cnnO_re (m : Nat) (x : Nat → F64) :
    cnnO m (fun k => (⟨x k, 0⟩ : Cx F64)) = fun i j => ⟨cnnO m x i j, 0⟩ := by
  have z1 : (0 : F64) + 0 = 0 := by decide +kernel
  have z2 : (0 : F64) - 0 = 0 := by decide +kernel
  have z3 : -(0 : F64) = 0 := by decide +kernel
  exact cnnO_map (φ := fun t : F64 => (⟨t, 0⟩ : Cx F64)) (fun x y => Cx.ext' rfl z1.symm) (fun x y => Cx.ext' rfl z2.symm)
    (fun x => Cx.ext' rfl z3.symm) m x

theorem realFft_ops {A : ClAlg} {T : Type} [Zero T] [One T] [Add T] [Sub T] [Neg T] [Mul T] [DecidableEq T] [CoeffLaws T]
    (hd : A.dim < 63) {m : Nat} (hm : A.dim = 2 * m) {a : MV A (ArrayStorage T)} (ha : a.Valid) :
    IsM a.realFft m (cnnO m a.val) := by
  obtain ⟨r, h1, h2, h3, h4⟩ := clifftNn_ops m (by omega) a.coeffs.array (by rw [← hm]; exact ha.2.2)
  refine ⟨r, ?_, h2, h3, h4.trans ?_⟩
  · show unwrap (clifftNn a.coeffs.array) = _
    rw [h1]; rfl
  · rw [cnnO_congr (g := a.val)]
    · exact MEq.rfl' _
    · intro k hk
      rw [← hm] at hk
      show _ = (if k < a.coeffs.array.len then _ else _)
      rw [if_pos (by rw [ha.2.2]; exact hk)]

theorem real_le_n1 (v : F64) (t : ℝ) : |re v - t| ≤ Cx.n1 ((⟨v, 0⟩ : Cx F64).val - (t : ℂ)) := by
  unfold Cx.n1
  have : ((⟨v, 0⟩ : Cx F64).val - (t : ℂ)).re = re v - t := rfl
  rw [this]
  linarith [abs_nonneg ((⟨v, 0⟩ : Cx F64).val - (t : ℂ)).im]

section
variable {A : ClAlg} {a b : MV A (ArrayStorage F64)} {a' b' : MV A (ArrayStorage ℝ)} {x y : Nat → F64}

theorem MV.SameValues.lift (ha : SameValues a a' x) {k : Nat} (hk : k < 2 ^ A.dim) :
    (⟨a.val k, 0⟩ : Cx F64).Fin ∧ (⟨a.val k, 0⟩ : Cx F64).val = ((a'.val k : ℝ) : ℂ) ∧ Cx.n1 ((a'.val k : ℝ) : ℂ) = |re (x k)| := by
  rw [ha.val hk, ha.val' hk]
  exact ⟨⟨ha.finite k hk, fin_zero⟩, Complex.ext rfl re_zero, by simp [Cx.n1]⟩

theorem MV.SameValues.near (ha : SameValues a a' x) (hu : 0 < u F64) : ∀ k < 2 ^ A.dim,
    (Cx.nearRel Ex.four_le hu).R 0 (⟨a.val k, 0⟩ : Cx F64) ((a'.val k : ℝ) : ℂ) |re (x k)| := by
  intro k hk
  obtain ⟨h1, h2, h3⟩ := ha.lift hk
  refine ⟨h1, h3.le, ?_⟩
  rw [h2, sub_self, Cx.n1_zero]; simp

theorem MV.SameValues.exact (ha : SameValues a a' x) (zx : ∀ i < 2 ^ A.dim, ∃ n : ℤ, re (x i) = n) : ∀ k < 2 ^ A.dim,
    (Cx.exactRel Ex.four_le).R 0 (⟨a.val k, 0⟩ : Cx F64) ((a'.val k : ℝ) : ℂ) |re (x k)| := by
  intro k hk
  obtain ⟨h1, h2, h3⟩ := ha.lift hk
  obtain ⟨n, hn⟩ := zx k hk
  refine ⟨h1, h2, ⟨⟨n, ?_⟩, 0, ?_⟩, h3.le⟩
  · rw [ha.val' hk]; simpa using hn
  · simp

/-- The matrix of `real_fft`, among complex numbers. -/
theorem MV.SameValues.realMat (_ha : SameValues a a' x) {m : Nat} (hm : A.dim = 2 * m) (Q : CxRel (Cx F64)) {l : Nat}
    (h : ∀ k < 2 ^ A.dim, Q.R l (⟨a.val k, 0⟩ : Cx F64) ((a'.val k : ℝ) : ℂ) |re (x k)|) (hok : Q.ok (l + m) (normOne A.dim x)) :
    Q.Mat m (l + m) (fun i j => ⟨cnnO m a.val i j, 0⟩) (fun i j => ((cnnO m a'.val i j : ℝ) : ℂ)) (normOne A.dim x) := by
  unfold normOne at hok ⊢
  rw [hm] at h hok ⊢
  refine ⟨cnnB m fun k => |re (x k)|, fun i hi j hj => ?_, fun i hi => (cnnB_row m _ hi).le, fun j hj => (cnnB_col m _ hj).le⟩
  have key := Q.cnn m h hok i hi j hj
  rw [cnnO_re] at key
  rw [congrFun (congrFun (cnnO_map (φ := fun t : ℝ => (t : ℂ)) Complex.ofReal_add Complex.ofReal_sub Complex.ofReal_neg m a'.val) i) j] at key
  exact key

theorem mmO_re {m : Nat} {X Y : Nat → Nat → F64} {i j : Nat} (hX : ∀ k < 2 ^ m, fin (X i k)) (hY : ∀ k < 2 ^ m, fin (Y k j)) :
    mmO m (fun i j => (⟨X i j, 0⟩ : Cx F64)) (fun i j => ⟨Y i j, 0⟩) i j = ⟨mmO m X Y i j, 0⟩ := by
  have z1 : (0 : F64) + 0 = 0 := by decide +kernel
  have hmul : ∀ k < 2 ^ m, (⟨X i k, 0⟩ : Cx F64) * ⟨Y k j, 0⟩ = ⟨X i k * Y k j, 0⟩ := by
    intro k hk
    have e1 : X i k * 0 = 0 := FloatModel.mul_zero (hX k hk)
    have e2 : 0 * Y k j = 0 := FloatModel.zero_mul (hY k hk)
    apply Cx.ext'
    · show X i k * Y k j - 0 * 0 = X i k * Y k j
      rw [show (0 : F64) * 0 = 0 by decide +kernel]
      rw [← SignLaws.add_neg, SumLaws.neg_zero, SignLaws.add_comm, SumLaws.zero_add]
    · show X i k * 0 + 0 * Y k j = 0
      rw [e1, e2, z1]
  unfold mmO
  rw [List.map_congr_left (g := fun k => (⟨X i k * Y k j, 0⟩ : Cx F64)) fun k hk => hmul k (List.mem_range.mp hk)]
  have : ∀ (l : List Nat) (s : F64), (l.map fun k => (⟨X i k * Y k j, 0⟩ : Cx F64)).foldl (· + ·) ⟨s, 0⟩ =
      ⟨(l.map fun k => X i k * Y k j).foldl (· + ·) s, 0⟩ := by
    intro l
    induction l with
    | nil => intro s; rfl
    | cons k l ih =>
      intro s
      simp only [List.map_cons, List.foldl_cons]
      rw [← ih]
      congr 1
      exact Cx.ext' rfl z1
  exact this _ 0

/-- The product of the matrices, and the exact matrix of the product. -/
theorem realMul {sig : List Sym} {names : List String} (h : declareAlgebra sig names = some A) (hs : implSplitSignature sig = true)
    (hd : A.dim < 63) (ha : SameValues a a' x) (hb : SameValues b b' y) {m : Nat} (hm : A.dim = 2 * m) (Q : CxRel (Cx F64))
    (qa : ∀ k < 2 ^ A.dim, Q.R 0 (⟨a.val k, 0⟩ : Cx F64) ((a'.val k : ℝ) : ℂ) |re (x k)|)
    (qb : ∀ k < 2 ^ A.dim, Q.R 0 (⟨b.val k, 0⟩ : Cx F64) ((b'.val k : ℝ) : ℂ) |re (y k)|)
    (hfin : ∀ {l v z b}, Q.R l v z b → v.Fin)
    (hx : Q.ok (0 + m) (normOne A.dim x)) (hy : Q.ok (0 + m) (normOne A.dim y))
    (hxy : Q.ok (0 + m + (0 + m) + 2 + 2 ^ m) (normOne A.dim x * normOne A.dim y + 2 ^ m * (2 ^ m * Q.D))) :
    ∃ N N', (do let p ← a.realFft; let q ← b.realFft; p.dot q) = .ok N ∧ (do let c ← a'.naiveMulImpl b'; c.realFft) = .ok N' ∧
      N.rows = 2 ^ m ∧ N.cols = 2 ^ m ∧ N'.rows = 2 ^ m ∧ N'.cols = 2 ^ m ∧ ∀ i < 2 ^ m, ∀ j < 2 ^ m,
        Q.R (0 + m + (0 + m) + 2 + 2 ^ m) (⟨N.get i j, 0⟩ : Cx F64) ((N'.get i j : ℝ) : ℂ)
          (normOne A.dim x * normOne A.dim y + 2 ^ m * (2 ^ m * Q.D)) := by
  obtain ⟨P, e1, p1, p2, p3⟩ := realFft_ops hd hm ha.valid
  obtain ⟨P', e2, q1, q2, q3⟩ := realFft_ops hd hm hb.valid
  obtain ⟨L, e3, l1, l2, l3⟩ := dot_ops p2 q1
  obtain ⟨N, N', e4, e5, n1, n2, n3⟩ := C55_real_fft_mul h hs hd ha.valid' hb.valid'
  obtain ⟨R, e6, s1, s2, s3⟩ := realFft_ops hd hm ha.valid'
  obtain ⟨R', e7, t1, t2, t3⟩ := realFft_ops hd hm hb.valid'
  obtain ⟨L', e8, k1, k2, k3⟩ := dot_ops s2 t1
  have e9 : (do let x ← a'.realFft; let y ← b'.realFft; x.dot y) = .ok L' := by rw [e6, e7]; exact e8
  have eN : N' = L' := Except.ok.inj (e5.symm.trans e9)
  subst eN
  have hrows : N.rows = 2 ^ m := n1.trans (k1.trans s1)
  have hcols : N.cols = 2 ^ m := n2.trans (k2.trans t2)
  refine ⟨L, N, ?_, e4, l1.trans p1, l2.trans q2, hrows, hcols, fun i hi j hj => ?_⟩
  · rw [e1, e2]; exact e3
  have Ma := ha.realMat hm Q qa hx
  have Mb := hb.realMat hm Q qb hy
  have key := (Ma.mm Mb hxy).entry hi hj
  have fX : ∀ k < 2 ^ m, fin (cnnO m a.val i k) := fun k hk => (hfin (Ma.entry hi hk)).1
  have fY : ∀ k < 2 ^ m, fin (cnnO m b.val k j) := fun k hk => (hfin (Mb.entry hk hj)).1
  rw [mmO_re fX fY] at key
  have e10 : L.get i j = mmO m (cnnO m a.val) (cnnO m b.val) i j := by
    rw [l3]; exact mmO_congr p3 q3 i hi j hj
  have e11 : N.get i j = mmO m (cnnO m a'.val) (cnnO m b'.val) i j := by
    rw [n3 i (by rw [hrows]; exact hi) j (by rw [hcols]; exact hj), k3]; exact mmO_congr s3 t3 i hi j hj
  have e12 : mmO m (fun i j => ((cnnO m a'.val i j : ℝ) : ℂ)) (fun i j => ((cnnO m b'.val i j : ℝ) : ℂ)) i j = ((N.get i j : ℝ) : ℂ) := by
    rw [e11, mmO_eq, mmO_eq]
    unfold mm
    push_cast
    rfl
  rw [e12, ← e10] at key
  exact key

end

section
variable {A : ClAlg} {sig : List Sym} {names : List String}

/-- **C55.** With doubles the entries of `fft().into_array2()` are exactly those of `real_fft()`, with imaginary part zero,
although both are rounded: the scalings of the general transform only exchange real and imaginary parts and change signs. -/
theorem C55_rounded (h : declareAlgebra sig names = some A) (hs : implSplitSignature sig = true) (hd : A.dim < 63)
    {a : MV A (ArrayStorage F64)} (ha : a.Valid) (hf : ∀ i < 2 ^ A.dim, fin (a.val i)) :
    Same2 (do let x ← a.realFft; return (⟨x.rows, x.cols, fun i j => ⟨x.get i j, 0⟩⟩ : Arr2 (Cx F64)))
      (do let r ← (a.fft : Res (FFTRepr A (Cx F64))); return r.intoArray2) := by
  obtain ⟨m, hm, hnn, hp, -, himag⟩ := split_spec h hs
  have hA := declareAlgebra_wf h
  have hhalf : A.half = m := by unfold ClAlg.half; omega
  obtain ⟨x, e1, h1, h2, h3⟩ := realFft_ops hd hm ha
  obtain ⟨r, e2, ⟨i0, i1, i2⟩, hr⟩ := fft_ops (K := Cx F64) SignConv.fft_zero hA hd ha
  rw [e1, e2]
  rw [hhalf] at i1 i2 hr
  refine ⟨_, _, rfl, rfl, h1.trans i1.symm, h2.trans i2.symm, ?_⟩
  show ∀ i < x.rows, ∀ j < x.cols, (⟨x.get i j, 0⟩ : Cx F64) = r.arr.get 0 i j
  rw [h1, h2]
  intro i hi j hj
  rw [hr 0 (Nat.two_pow_pos _) i hi j hj, h3 i hi j hj]
  unfold FLO ctrO
  rw [lay_zero, ← congrFun (congrFun (cnnO_re m a.val) i) j]
  refine congrFun (congrFun (cnnO_congr fun k hk => ?_) i) j
  unfold pscO cx
  rw [hnn, if_pos hk]
  have e : k &&& A.imagMask = k &&& oddMask := by
    refine Nat.eq_of_testBit_eq fun i => ?_
    rw [Nat.testBit_and, Nat.testBit_and]
    by_cases hi : i < 2 * m
    · rw [himag i hi, oddMask_testBit (by omega)]
    · rw [Nat.testBit_lt_two_pow (lt_of_lt_of_le hk (Nat.pow_le_pow_right (by norm_num) (by omega)))]; rfl
  rw [e, Cx.mul_comm', Turn.turn]
  · rfl
  · exact ⟨hf k (by rw [hm]; exact hk), fin_zero⟩

/-- **C55.** The error of `real_fft`: every entry is finite and within `(1+u)^m - 1` times the sum of the absolute values of
the coefficients of what `real_fft` gives for the same real numbers, where `2^m` is the side of the matrix. -/
theorem C55_rounded_error (h : declareAlgebra sig names = some A) (hs : implSplitSignature sig = true) (hd : A.dim < 63)
    {a : MV A (ArrayStorage F64)} {a' : MV A (ArrayStorage ℝ)} {x : Nat → F64} (ha : SameValues a a' x)
    (hb : (1 + u F64) ^ (A.dim / 2) * normOne A.dim x ≤ Ω F64) :
    ∃ N N', a.realFft = .ok N ∧ a'.realFft = .ok N' ∧ N.rows = N'.rows ∧ N.cols = N'.cols ∧
      ∀ i < N.rows, ∀ j < N.cols, fin (N.get i j) ∧
        |re (N.get i j) - N'.get i j| ≤ ((1 + u F64) ^ (A.dim / 2) - 1) * normOne A.dim x := by
  obtain ⟨m, hm, -⟩ := split_spec h hs
  obtain ⟨N, e, r1, r2, r3⟩ := realFft_ops hd hm ha.valid
  obtain ⟨N', e', s1, s2, s3⟩ := realFft_ops hd hm ha.valid'
  have hm' : A.dim / 2 = m := by omega
  rw [hm'] at hb ⊢
  refine ⟨N, N', e, e', r1.trans s1.symm, r2.trans s2.symm, ?_⟩
  rw [r1, r2]
  intro i hi' j hj
  have hu : 0 < u F64 := by rw [C69_f64.1]; norm_num
  have key := (ha.realMat hm (Cx.nearRel Ex.four_le hu) (ha.near hu) (by
    show (1 + u F64) ^ (0 + m) * _ ≤ _
    rw [Nat.zero_add]; exact hb)).entry hi' hj
  rw [← r3 i hi' j hj, ← s3 i hi' j hj, Nat.zero_add] at key
  exact ⟨key.1.1, (real_le_n1 _ _).trans key.2.2⟩

/-- **C55.** How far `real_fft` is from being multiplicative: the product of the matrices is within `(1+u)^(2m+2+2^m) - 1` times
the product of the sums of the absolute values (up to underflow) of the exact matrix of the geometric product. -/
theorem C55_rounded_mul (h : declareAlgebra sig names = some A) (hs : implSplitSignature sig = true) (hd : A.dim < 63)
    {a b : MV A (ArrayStorage F64)} {a' b' : MV A (ArrayStorage ℝ)} {x y : Nat → F64} (ha : SameValues a a' x) (hb : SameValues b b' y)
    {m : Nat} (hm : A.dim = 2 * m) {B : ℝ} (hB : B = normOne A.dim x * normOne A.dim y + 2 ^ m * (2 ^ m * Cx.uflow F64))
    (hx : (1 + u F64) ^ m * normOne A.dim x ≤ Ω F64) (hy : (1 + u F64) ^ m * normOne A.dim y ≤ Ω F64)
    (hxy : (1 + u F64) ^ (2 * m + 2 + 2 ^ m) * B ≤ Ω F64) :
    ∃ N N', (do let p ← a.realFft; let q ← b.realFft; p.dot q) = .ok N ∧ (do let c ← a'.naiveMulImpl b'; c.realFft) = .ok N' ∧
      N.rows = N'.rows ∧ N.cols = N'.cols ∧ ∀ i < N.rows, ∀ j < N.cols, fin (N.get i j) ∧
        |re (N.get i j) - N'.get i j| ≤ ((1 + u F64) ^ (2 * m + 2 + 2 ^ m) - 1) * B := by
  have hu : 0 < u F64 := by rw [C69_f64.1]; norm_num
  have el : 0 + m + (0 + m) + 2 + 2 ^ m = 2 * m + 2 + 2 ^ m := by omega
  obtain ⟨N, N', e, e', r1, r2, s1, s2, key⟩ := realMul h hs hd ha hb hm (Cx.nearRel Ex.four_le hu) (ha.near hu) (hb.near hu)
    (fun h => h.1) (by show (1 + u F64) ^ (0 + m) * _ ≤ _; rw [Nat.zero_add]; exact hx)
    (by show (1 + u F64) ^ (0 + m) * _ ≤ _; rw [Nat.zero_add]; exact hy)
    (by show (1 + u F64) ^ _ * (_ + _ * (_ * Cx.uflow F64)) ≤ _; rw [el, ← hB]; exact hxy)
  refine ⟨N, N', e, e', r1.trans s1.symm, r2.trans s2.symm, ?_⟩
  rw [r1, r2]
  intro i hi j hj
  have k := key i hi j hj
  rw [el, show normOne A.dim x * normOne A.dim y + 2 ^ m * (2 ^ m * (Cx.nearRel (F := F64) Ex.four_le hu).D) = B from hB.symm] at k
  exact ⟨k.1.1, (real_le_n1 _ _).trans k.2.2⟩

/-- **C55.** On integers whose absolute values add up to at most `2^53`, with the product of the sums at most `2^53` too,
`real_fft` is multiplicative without any error. -/
theorem C55_rounded_integers (h : declareAlgebra sig names = some A) (hs : implSplitSignature sig = true) (hd : A.dim < 63)
    {a b : MV A (ArrayStorage F64)} {a' b' : MV A (ArrayStorage ℝ)} {x y : Nat → F64} (ha : SameValues a a' x) (hb : SameValues b b' y)
    (zx : ∀ i < 2 ^ A.dim, ∃ n : ℤ, re (x i) = n) (zy : ∀ i < 2 ^ A.dim, ∃ n : ℤ, re (y i) = n)
    (hx : normOne A.dim x ≤ 2 ^ 53) (hy : normOne A.dim y ≤ 2 ^ 53) (hxy : normOne A.dim x * normOne A.dim y ≤ 2 ^ 53) :
    Same2 (do let c ← a.naiveMulImpl b; c.realFft) (do let p ← a.realFft; let q ← b.realFft; p.dot q) := by
  obtain ⟨m, hm, -⟩ := split_spec h hs
  have hM : M F64 = 2 ^ 53 := C69_f64.2.2.1
  rw [← hM] at hx hy hxy
  obtain ⟨c, c', z, c1, c2, c3, c4, c5⟩ := C71_mul ha hb zx zy (declareAlgebra_wf h) hxy
  obtain ⟨N, N', e, e', r1, r2, s1, s2, key⟩ := realMul h hs hd ha hb hm (Cx.exactRel Ex.four_le) (ha.exact zx) (hb.exact zy)
    (fun h => h.1) hx hy (by
      show _ + _ * (_ * 0) ≤ M F64
      rw [MulZeroClass.mul_zero, MulZeroClass.mul_zero, _root_.add_zero]; exact hxy)
  rw [c2] at e'
  obtain ⟨P, f, q1, q2, q3⟩ := realFft_ops hd hm c3.valid
  obtain ⟨P', f', t1, t2, t3⟩ := realFft_ops hd hm c3.valid'
  have eP : P' = N' := Except.ok.inj (f'.symm.trans e')
  subst eP
  rw [c1]
  refine ⟨P, N, f, e, q1.trans r1.symm, q2.trans r2.symm, ?_⟩
  rw [q1, q2]
  intro i hi j hj
  have k := key i hi j hj
  have k' := (c3.realMat hm (Cx.exactRel Ex.four_le) (c3.exact c4) (c5.trans hxy)).entry hi hj
  rw [← q3 i hi j hj, ← t3 i hi j hj] at k'
  refine re_inj k'.1.1 k.1.1 ?_
  exact congrArg Complex.re (k'.2.1.trans k.2.1.symm)

end

/-! ### What fails -/

namespace Ex

/-- `2^53 + e1e2`. -/
def rfA : MV G11 (ArrayStorage F64) := ⟨⟨2, ⟨4, fun i => if i = 0 then .ofRat (2 ^ 53) else if i = 3 then 1 else 0⟩⟩⟩
/-- The scalar 3. -/
def rfB : MV G11 (ArrayStorage F64) := ⟨⟨2, ⟨4, fun i => if i = 0 then .ofRat 3 else 0⟩⟩⟩
/-- `2^24 + e1e2` in single precision. -/
def rfC : MV G11 (ArrayStorage F32) := ⟨⟨2, ⟨4, fun i => if i = 0 then .ofRat (2 ^ 24) else if i = 3 then 1 else 0⟩⟩⟩
/-- A multivector with an infinite coefficient. -/
def rfD : MV G11 (ArrayStorage F64) := ⟨⟨2, ⟨4, fun i => if i = 0 then .nonFinite else 1⟩⟩⟩

theorem rfA_valid : rfA.Valid := ⟨by decide, rfl, rfl⟩
theorem rfB_valid : rfB.Valid := ⟨by decide, rfl, rfl⟩
theorem rfC_valid : rfC.Valid := ⟨by decide, rfl, rfl⟩
theorem rfD_valid : rfD.Valid := ⟨by decide, rfl, rfl⟩

end Ex

theorem Same2.entry {T : Type} {x y : Res (Arr2 T)} (h : Same2 x y) {u v : T} (hx : (do let m ← x; return m.get 0 0) = .ok u)
    (hy : (do let m ← y; return m.get 0 0) = .ok v) (hr : (do let m ← x; return decide (0 < m.rows ∧ 0 < m.cols)) = .ok true) : u = v := by
  obtain ⟨a, b, rfl, rfl, -, -, h⟩ := h
  have e1 : a.get 0 0 = u := Except.ok.inj hx
  have e2 : b.get 0 0 = v := Except.ok.inj hy
  have e3 := of_decide_eq_true (Except.ok.inj hr)
  rw [← e1, ← e2]
  exact h 0 e3.1 0 e3.2

/-- **C55.** With rounding `real_fft` is not multiplicative. -/
theorem C55_rounded_mul_false : ∃ a b : MV Ex.G11 (ArrayStorage F64), a.Valid ∧ b.Valid ∧
    ¬ Same2 (do let c ← a.naiveMulImpl b; c.realFft) (do let x ← a.realFft; let y ← b.realFft; x.dot y) :=
  ⟨Ex.rfA, Ex.rfB, Ex.rfA_valid, Ex.rfB_valid, fun h => absurd (h.entry (u := .ofRat (3 * 2 ^ 53 + 4)) (v := .ofRat (3 * 2 ^ 53))
    (by decide +kernel) (by decide +kernel) (by decide +kernel)) (by decide +kernel)⟩

/-- **C55.** In single precision `fft` and `real_fft` do not have the same entries: `fft` adds in double precision. -/
theorem C55_rounded_f32_false : ∃ a : MV Ex.G11 (ArrayStorage F32), a.Valid ∧ (∀ i < 4, fin (a.val i)) ∧
    ¬ Same2 (do let x ← a.realFft; return (⟨x.rows, x.cols, fun i j => IntoComplex.into (x.get i j)⟩ : Arr2 (Cx F64)))
      (do let r ← (a.fft : Res (FFTRepr Ex.G11 (Cx F64))); return r.intoArray2) :=
  ⟨Ex.rfC, Ex.rfC_valid, fun i hi => show _ ≠ _ by
    revert i; decide +kernel, fun h => absurd (h.entry (u := ⟨.ofRat (2 ^ 24), 0⟩) (v := ⟨.ofRat (2 ^ 24 + 1), 0⟩)
    (by decide +kernel) (by decide +kernel) (by decide +kernel)) (by decide +kernel)⟩

/-- **C55.** With an infinite coefficient the entries of `fft` are not real: the imaginary part of its product with 1 is not zero. -/
theorem C55_rounded_nonfinite_false : ∃ a : MV Ex.G11 (ArrayStorage F64), a.Valid ∧
    ¬ Same2 (do let x ← a.realFft; return (⟨x.rows, x.cols, fun i j => ⟨x.get i j, 0⟩⟩ : Arr2 (Cx F64)))
      (do let r ← (a.fft : Res (FFTRepr Ex.G11 (Cx F64))); return r.intoArray2) :=
  ⟨Ex.rfD, Ex.rfD_valid, fun h => absurd (h.entry (u := ⟨.nonFinite, 0⟩) (v := ⟨.nonFinite, .nonFinite⟩)
    (by decide +kernel) (by decide +kernel) (by decide +kernel)) (by decide +kernel)⟩

namespace Ex

/-- Coefficients that make every sum of the transform inexact. -/
def rfE : MV A4 (ArrayStorage F64) := ⟨⟨4, ⟨16, fun i => if i % 2 = 0 then .ofRat (2 ^ 60) else .ofRat (i / 3)⟩⟩⟩
theorem rfE_valid : rfE.Valid := ⟨by decide, rfl, rfl⟩

example : Same2 (do let x ← rfE.realFft; return (⟨x.rows, x.cols, fun i j => ⟨x.get i j, 0⟩⟩ : Arr2 (TClifford.Cx F64)))
    (do let r ← (rfE.fft : Res (FFTRepr A4 (TClifford.Cx F64))); return r.intoArray2) :=
  C55_rounded A4_decl rfl (by decide) rfE_valid (show ∀ i < 16, rfE.val i ≠ .nonFinite by decide +kernel)

/-- Random coefficients. -/
theorem rf_same (s : Nat) : ∃ a' : MV A4 (ArrayStorage ℝ), SameValues (mU A4 s) a' (mU A4 s).val ∧ normOne A4.dim (mU A4 s).val ≤ 2 ^ A4.dim :=
  unit_same (mU_unit (by decide) s).1 (by decide) (mU_unit (by decide) s).2

theorem rf_four : ((2 : ℝ) ^ A4.dim) ≤ 2 ^ 1000 := pow_le_pow_right₀ (by norm_num) (by decide)

example := C55_rounded_error A4_decl rfl (by decide) (rf_same 0).choose_spec.1
  (ok64 (by decide) ((rf_same 0).choose_spec.2.trans rf_four))

example := C55_rounded_mul A4_decl rfl (by decide) (rf_same 0).choose_spec.1 (rf_same 1).choose_spec.1 (m := 2) rfl rfl
  (ok64 (by decide) ((rf_same 0).choose_spec.2.trans rf_four)) (ok64 (by decide) ((rf_same 1).choose_spec.2.trans rf_four))
  (ok64 (by decide) (le_big (by
    have h := mul_le_mul (rf_same 0).choose_spec.2 (rf_same 1).choose_spec.2 (normOne_nonneg _ _) (by positivity)
    have h' : (2 : ℝ) ^ A4.dim * 2 ^ A4.dim = 256 := by rw [show A4.dim = 4 from rfl]; norm_num
    rw [h'] at h
    have hu := uflow64_le
    have h1 : (1 : ℝ) / 2 ^ 900 ≤ 1 := by
      rw [div_le_one (by positivity)]; exact one_le_pow₀ (by norm_num)
    refine (add_le_add h (mul_le_mul_of_nonneg_left (mul_le_mul_of_nonneg_left (hu.trans h1) (by norm_num)) (by norm_num))).trans ?_
    norm_num)))

/-- Integer coefficients. -/
def rfZ : MV A4 (ArrayStorage F64) := ⟨⟨4, ⟨16, fun i => if i % 3 = 0 then -1 else 1⟩⟩⟩

theorem rfZ_val : ∀ i < 16, rfZ.val i = -1 ∨ rfZ.val i = 1 := by decide +kernel

theorem rfZ_re {i : Nat} (hi : i < 16) : fin (rfZ.val i) ∧ (re (rfZ.val i) = -1 ∨ re (rfZ.val i) = 1) := by
  have h1 : fin (1 : F64) := show _ ≠ _ by decide +kernel
  have h2 : re (1 : F64) = 1 := re_one
  rcases rfZ_val i hi with h | h <;> rw [h]
  · obtain ⟨h3, h4⟩ := neg_ok h1
    exact ⟨h3, .inl (by rw [h4, h2])⟩
  · exact ⟨h1, .inr h2⟩

theorem rfZ_same : ∃ a' : MV A4 (ArrayStorage ℝ), SameValues rfZ a' rfZ.val ∧ normOne A4.dim rfZ.val ≤ 2 ^ A4.dim := by
  have hv : rfZ.Valid := ⟨by decide, rfl, rfl⟩
  refine unit_same hv (by decide) fun i hi => ⟨rfZ.val i, hv.get hi, (rfZ_re hi).1, ?_⟩
  rcases (rfZ_re hi).2 with h | h <;> rw [h] <;> simp

example : Same2 (do let c ← rfZ.naiveMulImpl rfZ; c.realFft) (do let p ← rfZ.realFft; let q ← rfZ.realFft; p.dot q) := by
  have hz : ∀ i < 2 ^ A4.dim, ∃ n : ℤ, re (rfZ.val i) = n := fun i hi => by
    rcases (rfZ_re hi).2 with h | h
    · exact ⟨-1, by rw [h]; norm_num⟩
    · exact ⟨1, by rw [h]; norm_num⟩
  have hn := rfZ_same.choose_spec.2
  rw [show (2 : ℝ) ^ A4.dim = 16 by rw [show A4.dim = 4 from rfl]; norm_num] at hn
  have h0 := normOne_nonneg A4.dim rfZ.val
  exact C55_rounded_integers A4_decl rfl (by decide) rfZ_same.choose_spec.1 rfZ_same.choose_spec.1 hz hz (by linarith) (by linarith)
    ((mul_le_mul hn hn h0 (by norm_num)).trans (by norm_num))

end Ex

end TClifford
