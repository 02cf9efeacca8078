import Verif.Proofs.Adjoint
import Verif.Props.Spin
/-
C85: conjugate transposes of the matrices, the sums of the squares of their entries, unitary matrices.
-/

set_option linter.unusedSectionVars false

namespace TClifford

open MV Finset

section
variable {A : ClAlg} {K : Type} [Field K] [DecidableEq K] [ImagUnit K] [StarRing K] {T : Type} [Ring T] [DecidableEq T] [IntoComplex T K]

local notation "𝐢" => (HasI.I : K)

/-- The size of the matrices. -/
abbrev ClAlg.fsz (A : ClAlg) : Nat := 2 ^ ((A.dim + 1) / 2)

omit [StarRing K] in
/-- `x.fft().into_array2()` is `M`. -/
def FftIs (x : Res (MV A (ArrayStorage T))) (M : Matrix (Fin A.fsz) (Fin A.fsz) K) : Prop :=
  ∃ m, (do let a ← x; let r ← (a.fft : Res (FFTRepr A K)); return r.intoArray2) = .ok m ∧ m.rows = A.fsz ∧ m.cols = A.fsz ∧
    ∀ i j : Fin A.fsz, m.get i j = M i j

/-- The coefficients of `a.revc().flip_subspace(A::imag_mask())`. -/
def adjF (A : ClAlg) (conj : T → T) (f : Nat → T) : Nat → T := fun k => sg (par A.dim (k &&& A.imagMask)) • (rsg A.dim k • conj (f k))

theorem cx_adjF [LawfulInto T K] (hI : star 𝐢 = -𝐢) {conj : T → T} (hc : ∀ t, (IntoComplex.into (conj t) : K) = star (IntoComplex.into t)) (f : Nat → T)
    {k : Nat} (hk : k < 2 ^ A.dim) : cx (K := K) A (adjF A conj f) k = rsg A.dim k • star (cx A f k) := by
  have h1 : star (iPowNeg (countOnes (k &&& A.imagMask)) : K) = sg (par A.dim (k &&& A.imagMask)) • iPowNeg (countOnes (k &&& A.imagMask)) := by
    rw [iPowNeg_eq, star_pow, star_neg, hI, neg_neg, countOnes_and hk, par_eq, neg_pow 𝐢, zsmul_eq_mul, ← mul_assoc]
    have : ((sg (decide (cnt A.dim (k &&& A.imagMask) % 2 = 1)) : ℤ) : K) = (-1) ^ cnt A.dim (k &&& A.imagMask) := by
      rcases Nat.even_or_odd (cnt A.dim (k &&& A.imagMask)) with h | h
      · rw [h.neg_one_pow, decide_eq_false (by obtain ⟨r, hr⟩ := h; omega)]; simp
      · rw [h.neg_one_pow, decide_eq_true (by obtain ⟨r, hr⟩ := h; omega)]; simp
    rw [this, ← mul_pow, neg_one_mul, neg_neg, one_pow, one_mul]
  unfold cx adjF
  rw [star_mul', h1, into_eq, map_zsmul, map_zsmul, ← into_eq, hc]
  simp only [zsmul_eq_mul]
  ring

theorem fftIs_of [LawfulInto T K] (hA : A.WF) (hd : A.dim < 63) (hn : A.projDim = 0) {x : Res (MV A (ArrayStorage T))} {f : Nat → T}
    (hx : Denotes x f) : FftIs (K := K) x (toMat _ (ctr ((A.dim + 1) / 2) A.dim (cx A f))) := by
  have hnn : A.nn = A.dim := by have := hA.dims; unfold ClAlg.nn; omega
  have hh : A.half = (A.dim + 1) / 2 := by unfold ClAlg.half; rw [hnn]
  obtain ⟨r, e1, hI, hr⟩ := hx.fft (K := K) hA hd
  have hz := hr 0 (Nat.two_pow_pos _)
  unfold FL at hz
  rw [lay_zero, hnn, hh] at hz
  refine ⟨r.intoArray2, ?_, by rw [show r.intoArray2.rows = _ from hI.2.1, hh], by rw [show r.intoArray2.cols = _ from hI.2.2, hh],
    fun i j => hz i i.2 j j.2⟩
  have : (do let a ← x; let r ← (a.fft : Res (FFTRepr A K)); return r.intoArray2) =
      (do let r ← (do let a ← x; (a.fft : Res (FFTRepr A K))); return r.intoArray2) := by simp
  rw [this, e1]
  rfl

theorem FftIs.unique {x : Res (MV A (ArrayStorage T))} {M M' : Matrix (Fin A.fsz) (Fin A.fsz) K} (h : FftIs x M) (h' : FftIs x M') : M = M' := by
  obtain ⟨m, h1, -, -, h2⟩ := h
  obtain ⟨m', h1', -, -, h2'⟩ := h'
  rw [h1] at h1'
  injection h1' with h3
  subst h3
  exact Matrix.ext fun i j => (h2 i j).symm.trans (h2' i j)

/-- `a.revc().flip_subspace(A::imag_mask())`. -/
def MV.adjoint (conj : T → T) (a : MV A (ArrayStorage T)) : Res (MV A (ArrayStorage T)) := do
  let b ← a.revc conj
  b.flipSubspace A.imagMask

theorem adjoint_denotes {conj : T → T} (h0 : conj 0 = 0) {a : MV A (ArrayStorage T)} (ha : a.Valid) :
    Denotes (a.adjoint conj) (adjF A conj a.val) := (revc_denotes ha h0).flipSubspace A.imagMask

theorem toMat_star {N : Nat} (X : Nat → Nat → K) : toMat N (fun i j => star (X j i)) = (toMat N X).conjTranspose := rfl

theorem ctr_adjF [LawfulInto T K] (hI : star 𝐢 = -𝐢) {conj : T → T} (hc : ∀ t, (IntoComplex.into (conj t) : K) = star (IntoComplex.into t))
    (f : Nat → T) {m : Nat} (hm : 2 * m ≤ 64) (hn : A.dim ≤ 2 * m) :
    MEq (2 ^ m) (2 ^ m) (ctr m A.dim (cx (K := K) A (adjF A conj f))) (fun i j => star (ctr m A.dim (cx (K := K) A f) j i)) := by
  rw [ctr_congr fun k hk => cx_adjF hI hc f hk]
  exact ctr_star hI hm hn _

/-- **C85.** The matrix of `a.revc().flip_subspace(A::imag_mask())` is the conjugate transpose of that of `a`. -/
theorem C85_adjoint [LawfulInto T K] (hI : star 𝐢 = -𝐢) {conj : T → T} (h0 : conj 0 = 0)
    (hc : ∀ t, (IntoComplex.into (conj t) : K) = star (IntoComplex.into t)) (hA : A.WF) (hd : A.dim < 63) (hn : A.projDim = 0)
    {a : MV A (ArrayStorage T)} (ha : a.Valid) :
    ∃ M : Matrix (Fin A.fsz) (Fin A.fsz) K, FftIs (.ok a) M ∧ FftIs (a.adjoint conj) M.conjTranspose := by
  refine ⟨_, fftIs_of hA hd hn (.of_valid ha), ?_⟩
  have := fftIs_of (K := K) hA hd hn (adjoint_denotes h0 ha)
  rwa [toMat_congr (ctr_adjF hI hc _ (by omega) (by omega)), toMat_star] at this

/-- **C85.** The half-spin matrices of `a.revc().flip_subspace(A::imag_mask())` are the conjugate transposes of those of `a`. -/
theorem C85_adjoint_half_spin [LawfulInto T K] (hI : star 𝐢 = -𝐢) {conj : T → T} (h0 : conj 0 = 0)
    (hc : ∀ t, (IntoComplex.into (conj t) : K) = star (IntoComplex.into t)) (hA : A.WF) (hd : A.dim < 63) (hn : A.projDim = 0) (hp : 0 < A.dim)
    {a : MV A (ArrayStorage T)} (ha : a.Valid) :
    ∃ E O : Matrix (Fin A.hsz) (Fin A.hsz) K, HalfSpinIs (.ok a) E O ∧ HalfSpinIs (a.adjoint conj) E.conjTranspose O.conjTranspose := by
  refine ⟨_, _, halfSpinIs_of hA hd hn hp (.of_valid ha), ?_⟩
  have := halfSpinIs_of (K := K) hA hd hn hp (adjoint_denotes h0 ha)
  have e : ∀ q < 2, MEq A.hsz A.hsz (hs ((A.dim - 1) / 2 + 1) A.dim q (cx (K := K) A (adjF A conj a.val)))
      (fun i j => star (hs ((A.dim - 1) / 2 + 1) A.dim q (cx (K := K) A a.val) j i)) := fun q _ i hi j hj =>
    ctr_adjF hI hc _ (by omega) (by omega) _ (nth_lt hi) _ (nth_lt hj)
  rwa [toMat_congr (e 0 (by norm_num)), toMat_congr (e 1 (by norm_num)), toMat_star, toMat_star] at this

theorem sum_range_blocks {R : Type} [AddCommMonoid R] (N M : Nat) (F : Nat → R) :
    ∑ w ∈ range N, ∑ k ∈ range M, F (k + w * M) = ∑ k ∈ range (N * M), F k := by
  induction N with
  | zero => simp
  | succ N ih =>
    rw [sum_range_succ, ih, Nat.succ_mul, sum_range_add]
    congr 1
    exact sum_congr rfl fun k _ => by rw [add_comm]

theorem star_iPowNeg (hI : star 𝐢 = -𝐢) (n : Nat) : star (iPowNeg n : K) * iPowNeg n = 1 := by
  rw [iPowNeg_eq, star_pow, star_neg, hI, ← mul_pow, neg_neg, mul_neg, ImagUnit.I_mul_I, neg_neg, one_pow]

/-- **C85.** Parseval: the sum of `|z|^2` over all entries of all matrices of `a.fft()` is `2^ceil((p+q)/2)` times that over all
coefficients. -/
theorem C85_parseval [LawfulInto T K] (hI : star 𝐢 = -𝐢) (hA : A.WF) (hd : A.dim < 63) {a : MV A (ArrayStorage T)} (ha : a.Valid)
    {f : Nat → T} (hf : Coefs (.ok a) f) :
    ∃ r, (a.fft : Res (FFTRepr A K)) = .ok r ∧
      ∑ w ∈ range (2 ^ A.projDim), ∑ i ∈ range (2 ^ ((A.realDim + A.imagDim + 1) / 2)), ∑ j ∈ range (2 ^ ((A.realDim + A.imagDim + 1) / 2)),
        star (r.arr.get w i j) * r.arr.get w i j =
      2 ^ ((A.realDim + A.imagDim + 1) / 2) * ∑ k ∈ range (2 ^ A.dim), star (IntoComplex.into (f k) : K) * IntoComplex.into (f k) := by
  have hdim : A.nn + A.projDim = A.dim := hA.dims
  obtain ⟨r, e1, hr1, hr⟩ := fft_represents (K := K) hA hd ha
  refine ⟨r, e1, ?_⟩
  have hh : (A.realDim + A.imagDim + 1) / 2 = A.half := rfl
  have key : ∀ w ∈ range (2 ^ A.projDim), ∑ i ∈ range (2 ^ A.half), ∑ j ∈ range (2 ^ A.half), star (r.arr.get w i j) * r.arr.get w i j =
      2 ^ A.half * ∑ k ∈ range (2 ^ A.nn), star (cx (K := K) A a.val (k + w * 2 ^ A.nn)) * cx A a.val (k + w * 2 ^ A.nn) := by
    intro w hw
    refine Eq.trans ?_ (ctr_parseval hI (half_le hA) (half_ge A) (lay A.nn (cx A a.val) w))
    refine sum_congr rfl fun i hi => sum_congr rfl fun j hj => ?_
    rw [hr w (mem_range.mp hw) i (mem_range.mp hi) j (mem_range.mp hj)]
    rfl
  rw [hh, sum_congr rfl key, ← mul_sum]
  congr 1
  rw [sum_range_blocks _ _ (fun k => star (cx (K := K) A a.val k) * cx A a.val k), mul_comm, ← pow_add, hdim]
  refine sum_congr rfl fun k hk => ?_
  rw [← hf.val ha (mem_range.mp hk)]
  unfold cx
  rw [star_mul', mul_mul_mul_comm, star_iPowNeg hI, one_mul]

end

section
variable {A : ClAlg} {K : Type} [Field K] [DecidableEq K] [ImagUnit K] [StarRing K] {T : Type} [Ring T] [DecidableEq T] [IntoComplex T K]
  [FromComplex T K] [LawfulComplex T K]

local notation "𝐢" => (HasI.I : K)

theorem MV.Agree.iff_denotes {x y : Res (MV A (ArrayStorage T))} {f g : Nat → T} (hx : Denotes x f) (hy : Denotes y g) :
    x ≈ᵣ y ↔ ∀ k < 2 ^ A.dim, f k = g k := by
  refine ⟨fun h k hk => ?_, Agree.of_denotes hx hy⟩
  obtain ⟨u, v, e1, e2, hu, hv, hb⟩ := h
  obtain ⟨u', e1', _, hu'⟩ := hx
  obtain ⟨v', e2', _, hv'⟩ := hy
  rw [e1] at e1'
  rw [e2] at e2'
  injection e1' with e1'
  injection e2' with e2'
  subst e1' e2'
  rw [← hu' k hk, ← hv' k hk]
  exact (beq_iff hu hv).mp hb k hk

theorem adjoint_mul_denotes (hA : A.WF) {conj : T → T} (h0 : conj 0 = 0) {a : MV A (ArrayStorage T)} (ha : a.Valid) :
    Denotes (do let b ← a.adjoint conj; b.naiveMulImpl a) (geo A.sigma A.dim (adjF A conj a.val) a.val) :=
  (adjoint_denotes h0 ha).mul hA (.of_valid ha)

omit [FromComplex T K] [LawfulComplex T K] in
theorem ctr_product [LawfulInto T K] (hA : A.WF) (hn : A.projDim = 0) (f g : Nat → T) {m : Nat} (hm : 2 * m ≤ 64) (hle : A.dim ≤ 2 * m) :
    MEq (2 ^ m) (2 ^ m) (ctr m A.dim (cx (K := K) A (geo A.sigma A.dim f g))) (mm m (ctr m A.dim (cx A f)) (ctr m A.dim (cx A g))) := by
  have hnn : A.nn = A.dim := by have := hA.dims; unfold ClAlg.nn; omega
  rw [ctr_congr (y := geo (fun _ => 1) A.dim (cx (K := K) A f) (cx A g)) (fun k hk => by
      rw [cx_geo hA _ _ hk]
      refine geo_congr (fun i hi => ?_) (fun _ _ => rfl) (fun _ _ => rfl) hk
      rw [hA.sigma_complexification hi, if_pos (by omega)])]
  exact ctr_geo hm hle _ _

theorem fftIs_one_iff (h2 : (2 : K) ≠ 0) (hd : A.dim < 63) {x : Res (MV A (ArrayStorage T))} {f : Nat → T}
    (hx : Denotes x f) : x ≈ᵣ MV.one (T := T) ↔ toMat A.fsz (ctr ((A.dim + 1) / 2) A.dim (cx (K := K) A f)) = 1 := by
  have h1 := one_denotes (A := A) (S := ArrayStorage T) (T := T) (show A.dim ≤ 63 by omega)
  constructor
  · intro h
    have : ∀ k < 2 ^ A.dim, f k = single 0 1 k := (Agree.iff_denotes hx h1).mp h
    rw [ctr_congr fun k hk => cx_congr (this k hk), cx_single, toMat_congr (ctr_one _ _), toMat_one]
  · intro h
    refine (Agree.iff_denotes hx h1).mpr fun k hk => ?_
    rw [← toMat_one, ← toMat_congr (ctr_one ((A.dim + 1) / 2) A.dim), ← cx_single (T := T) (K := K) A] at h
    have h3 := ctr_injective h2 (by omega) (MEq.of_toMat h) hk
    have := congrArg (fun z => (FromComplex.from_ (iPow (countOnes (k &&& A.imagMask)) * z) : T)) h3
    have e : ∀ f, FromComplex.from_ (iPow (countOnes (k &&& A.imagMask)) * cx (K := K) A f k) = f k := fun f =>
      congrFun (dcx_cx (T := T) (K := K) A f) k
    simpa only [e] using this

/-- **C85.** The matrix of `a` is unitary exactly if `a.revc().flip_subspace(A::imag_mask()) * a == 1`. -/
theorem C85_unitary (h2 : (2 : K) ≠ 0) (hI : star 𝐢 = -𝐢) {conj : T → T} (h0 : conj 0 = 0)
    (hc : ∀ t, (IntoComplex.into (conj t) : K) = star (IntoComplex.into t)) (hA : A.WF) (hd : A.dim < 63) (hn : A.projDim = 0)
    {a : MV A (ArrayStorage T)} (ha : a.Valid) {M : Matrix (Fin A.fsz) (Fin A.fsz) K} (hM : FftIs (.ok a) M) :
    (do let b ← a.adjoint conj; b.naiveMulImpl a) ≈ᵣ MV.one (T := T) ↔ M.conjTranspose * M = 1 := by
  rw [fftIs_one_iff (K := K) h2 hd (adjoint_mul_denotes hA h0 ha),
    hM.unique (fftIs_of hA hd hn (.of_valid ha)), toMat_congr (ctr_product hA hn _ _ (by omega) (by omega)), ← toMat_mul,
    toMat_congr (ctr_adjF hI hc _ (by omega) (by omega)), toMat_star]

/-- **C85.** With real coefficients and without imaginary generators: the matrix is unitary exactly if `a.rev() * a == 1`. -/
theorem C85_unitary_euclidean (h2 : (2 : K) ≠ 0) (hI : star 𝐢 = -𝐢) (hc : ∀ t : T, star (IntoComplex.into t : K) = IntoComplex.into t)
    (hA : A.WF) (hd : A.dim < 63) (hn : A.projDim = 0) (hq : A.imagMask = 0) {a : MV A (ArrayStorage T)} (ha : a.Valid)
    {M : Matrix (Fin A.fsz) (Fin A.fsz) K} (hM : FftIs (.ok a) M) :
    (do let b ← a.rev; b.naiveMulImpl a) ≈ᵣ MV.one (T := T) ↔ M.conjTranspose * M = 1 := by
  rw [← C85_unitary h2 hI (conj := fun t => t) rfl (fun t => (hc t).symm) hA hd hn ha hM]
  have h1 : Denotes (do let b ← a.rev; b.naiveMulImpl a) _ := (rev_denotes ha).mul hA (.of_valid ha)
  have h3 := adjoint_mul_denotes hA (conj := fun t : T => t) rfl ha
  have h4 := one_denotes (A := A) (S := ArrayStorage T) (T := T) (show A.dim ≤ 63 by omega)
  rw [Agree.iff_denotes h1 h4, Agree.iff_denotes h3 h4]
  have : ∀ k, adjF A (fun t : T => t) a.val k = rsg A.dim k • a.val k := fun k => by
    unfold adjF; rw [hq, Nat.and_zero, par_zero]; simp
  rw [show adjF A (fun t : T => t) a.val = fun k => rsg A.dim k • a.val k from funext this]

/-- **C85.** The half-spin matrices of rotors are unitary: if `a` is even and `a.revc().flip_subspace(A::imag_mask()) * a == 1`. -/
theorem C85_half_spin_unitary (h2 : (2 : K) ≠ 0) (hI : star 𝐢 = -𝐢) {conj : T → T} (h0 : conj 0 = 0)
    (hc : ∀ t, (IntoComplex.into (conj t) : K) = star (IntoComplex.into t)) (hA : A.WF) (hd : A.dim < 63) (hn : A.projDim = 0) (hp : 0 < A.dim)
    {a : MV A (ArrayStorage T)} (ha : a.Valid) (hae : ∀ k < 2 ^ A.dim, countOnes k % 2 = 1 → a.val k = 0)
    (h1 : (do let b ← a.adjoint conj; b.naiveMulImpl a) ≈ᵣ MV.one (T := T)) {E O : Matrix (Fin A.hsz) (Fin A.hsz) K}
    (hM : HalfSpinIs (.ok a) E O) : E.conjTranspose * E = 1 ∧ O.conjTranspose * O = 1 := by
  obtain ⟨rfl, rfl⟩ := hM.unique (halfSpinIs_of hA hd hn hp (.of_valid ha))
  have hx := adjoint_mul_denotes hA h0 ha
  have h3 := one_denotes (A := A) (S := ArrayStorage T) (T := T) (show A.dim ≤ 63 by omega)
  have h4 := (Agree.iff_denotes hx h3).mp h1
  have key : ∀ q < 2, (toMat A.hsz (hs ((A.dim - 1) / 2 + 1) A.dim q (cx (K := K) A a.val))).conjTranspose *
      toMat A.hsz (hs ((A.dim - 1) / 2 + 1) A.dim q (cx A a.val)) = 1 := by
    intro q hq
    rw [← toMat_star, toMat_mul, ← toMat_one, ← toMat_congr (hs_one (n := A.dim) (q := q)), ← cx_single (T := T) (K := K) A]
    refine toMat_congr fun i hi j hj => ?_
    have hev : EvenFn A.dim (cx (K := K) A (adjF A conj a.val)) := fun k hk h => by
      refine cx_eq_zero ?_
      unfold adjF
      rw [hae k hk h, h0, smul_zero, smul_zero]
    have hadj : MEq A.hsz A.hsz (hs ((A.dim - 1) / 2 + 1) A.dim q (cx (K := K) A (adjF A conj a.val)))
        (fun i j => star (hs ((A.dim - 1) / 2 + 1) A.dim q (cx (K := K) A a.val) j i)) := fun i hi j hj =>
      ctr_adjF hI hc _ (by omega) (by omega) _ (nth_lt hi) _ (nth_lt hj)
    rw [← mm_congr hadj (MEq.rfl' _) i hi j hj, ← hs_mul h2 (by omega) hq (by omega) hev _ i hi j hj]
    refine congrFun (congrFun (hs_congr fun k hk => ?_) i) j
    rw [← cx_congr (h4 k hk), cx_geo hA _ _ hk]
    refine (geo_congr (fun i hi => ?_) (fun _ _ => rfl) (fun _ _ => rfl) hk).symm
    have := hA.dims
    rw [hA.sigma_complexification hi, if_pos (by unfold ClAlg.nn; omega)]
  exact ⟨key 0 (by norm_num), key 1 (by norm_num)⟩

end

section examples
open Ex

theorem star_I_complex : star (HasI.I : ℂ) = -HasI.I := Complex.conj_I

/-- `3/5 + 4/5 e_xy`. -/
noncomputable def eRot : MV E (ArrayStorage ℝ) := ⟨⟨3, ⟨8, fun i => if i = 0 then 3 / 5 else if i = 3 then 4 / 5 else 0⟩⟩⟩

theorem eRot_valid : eRot.Valid := ⟨by decide, rfl, rfl⟩

theorem eRot_val {k : Nat} (hk : k < 8) : eRot.val k = if k = 0 then 3 / 5 else if k = 3 then 4 / 5 else 0 := if_pos hk

theorem eRot_even : ∀ k < 2 ^ E.dim, countOnes k % 2 = 1 → eRot.val k = 0 := by
  intro k hk h
  rw [eRot_val hk]
  split
  · subst k; exact absurd h (by decide)
  · split
    · subst k; exact absurd h (by decide)
    · rfl

theorem eRot_unit : (do let b ← eRot.rev; b.naiveMulImpl eRot) ≈ᵣ MV.one (T := ℝ) := by
  have h : Denotes (do let b ← eRot.rev; b.naiveMulImpl eRot) _ := (rev_denotes eRot_valid).mul E_wf (.of_valid eRot_valid)
  refine Agree.of_denotes h (one_denotes (A := E) (S := ArrayStorage ℝ) (T := ℝ) (show E.dim ≤ 63 by decide)) fun k hk => ?_
  have hk' : k < 8 := hk
  have e : ∀ i ∈ range (2 ^ E.dim), bsgn E.sigma E.dim i (i ^^^ k) • ((rsg E.dim i • eRot.val i) * eRot.val (i ^^^ k)) =
      if i = 0 then bsgn E.sigma E.dim 0 (0 ^^^ k) • (3 / 5 * eRot.val (0 ^^^ k))
      else if i = 3 then bsgn E.sigma E.dim 3 (3 ^^^ k) • (-(4 / 5) * eRot.val (3 ^^^ k)) else 0 := by
    intro i hi
    have hi' : i < 8 := mem_range.mp hi
    rw [eRot_val hi']
    split
    · subst i
      rw [show rsg E.dim 0 = 1 by decide]; simp
    · split
      · subst i
        rw [show rsg E.dim 3 = -1 by decide]; simp
      · simp
  unfold geo
  rw [sum_congr rfl e]
  have h8 : 2 ^ E.dim = 8 := by decide
  rw [h8]
  have hx : ∀ i < 8, i ^^^ k < 8 := fun i hi => Nat.xor_lt_two_pow (n := 3) hi hk'
  simp only [sum_range_succ, sum_range_zero]
  rw [eRot_val (hx 0 (by norm_num)), eRot_val (hx 3 (by norm_num))]
  have b1 : bsgn E.sigma E.dim 3 3 = -1 := by decide
  have b2 : bsgn E.sigma E.dim 0 3 = 1 := by decide
  have b3 : bsgn E.sigma E.dim 3 0 = 1 := by decide
  have b4 : bsgn E.sigma E.dim 0 0 = 1 := by decide
  interval_cases k <;> norm_num [single, b1, b2, b3, b4]
  all_goals exact fun h => absurd h (by decide)

example : ∃ X : Matrix (Fin A4.fsz) (Fin A4.fsz) ℂ, FftIs (.ok a4R) X ∧ FftIs (a4R.adjoint (fun t => t)) X.conjTranspose :=
  C85_adjoint star_I_complex rfl (fun t => (Complex.conj_ofReal t).symm) (declareAlgebra_wf A4_decl) (by decide) rfl a4R_valid
example : ∃ X Y : Matrix (Fin A4.hsz) (Fin A4.hsz) ℂ, HalfSpinIs (.ok a4R) X Y ∧ HalfSpinIs (a4R.adjoint (fun t => t)) X.conjTranspose Y.conjTranspose :=
  C85_adjoint_half_spin star_I_complex rfl (fun t => (Complex.conj_ofReal t).symm) (declareAlgebra_wf A4_decl) (by decide) rfl (by decide) a4R_valid

/-- Complex coefficients, null generators. -/
example : ∃ r, (a7Z.fft : Res (FFTRepr A7 ℂ)) = .ok r ∧ ∑ w ∈ range 4, ∑ i ∈ range 8, ∑ j ∈ range 8,
      star (r.arr.get w i j) * r.arr.get w i j = 8 * ∑ k ∈ range 128, star ((k : ℂ) + Complex.I) * (k + Complex.I) := by
  have := C85_parseval (K := ℂ) star_I_complex A7_wf (by decide) a7Z_valid (f := fun i => (i : ℂ) + Complex.I)
    ⟨_, rfl, fun i hi => by rw [a7Z_valid.get hi]; congr 1; exact if_pos hi⟩
  norm_num [show A7.realDim = 3 by rfl, show A7.imagDim = 2 by rfl, show A7.projDim = 2 by rfl, show A7.dim = 7 by rfl] at this
  exact this

example {X : Matrix (Fin E.fsz) (Fin E.fsz) ℂ} (h : FftIs (.ok eRot) X) : X.conjTranspose * X = 1 :=
  (C85_unitary_euclidean two_ne_zero star_I_complex Complex.conj_ofReal E_wf (by decide) rfl rfl eRot_valid h).mp eRot_unit

theorem eRot_adjoint : (do let b ← eRot.adjoint (fun t => t); b.naiveMulImpl eRot) ≈ᵣ MV.one (T := ℝ) := by
  obtain ⟨X, h, -⟩ := C85_adjoint (K := ℂ) star_I_complex (conj := fun t : ℝ => t) rfl (fun t => (Complex.conj_ofReal t).symm) E_wf (by decide) rfl eRot_valid
  rw [C85_unitary two_ne_zero star_I_complex rfl (fun t => (Complex.conj_ofReal t).symm) E_wf (by decide) rfl eRot_valid h]
  exact (C85_unitary_euclidean two_ne_zero star_I_complex Complex.conj_ofReal E_wf (by decide) rfl rfl eRot_valid h).mp eRot_unit

example {X Y : Matrix (Fin E.hsz) (Fin E.hsz) ℂ} (h : HalfSpinIs (.ok eRot) X Y) : X.conjTranspose * X = 1 ∧ Y.conjTranspose * Y = 1 :=
  C85_half_spin_unitary two_ne_zero star_I_complex rfl (fun t => (Complex.conj_ofReal t).symm) E_wf (by decide) rfl (by decide) eRot_valid eRot_even
    eRot_adjoint h

end examples

end TClifford
