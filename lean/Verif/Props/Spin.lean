import Verif.Proofs.Spin
import Verif.Props.FFTMore
import Verif.Props.Rotors
import Mathlib.LinearAlgebra.Matrix.ToLin
/-
C84: the half-spin representations are irreducible; they are inequivalent in even dimensions and equivalent in odd dimensions.
-/

set_option linter.unusedSectionVars false

namespace TClifford

open MV Finset

section
variable {A : ClAlg} {K : Type} [Field K] [DecidableEq K] [ImagUnit K] {T : Type} [Ring T] [DecidableEq T] [IntoComplex T K]

/-- The size of the half-spin matrices. -/
abbrev ClAlg.hsz (A : ClAlg) : Nat := 2 ^ ((A.dim - 1) / 2)

/-- `x.fft().into_half_spin_repr()` is `(E, O)`. -/
def HalfSpinIs (x : Res (MV A (ArrayStorage T))) (E O : Matrix (Fin A.hsz) (Fin A.hsz) K) : Prop :=
  ∃ e o, halfSpin K x = .ok (e, o) ∧ e.rows = A.hsz ∧ e.cols = A.hsz ∧ o.rows = A.hsz ∧ o.cols = A.hsz ∧
    ∀ i j : Fin A.hsz, e.get i j = E i j ∧ o.get i j = O i j

/-- A part of an infinite matrix. -/
def toMat (N : Nat) (X : Nat → Nat → K) : Matrix (Fin N) (Fin N) K := Matrix.of fun i j => X i j

theorem toMat_congr {N : Nat} {X Y : Nat → Nat → K} (h : MEq N N X Y) : toMat N X = toMat N Y := Matrix.ext fun i j => h i i.2 j j.2

theorem MEq.of_toMat {N : Nat} {X Y : Nat → Nat → K} (h : toMat N X = toMat N Y) : MEq N N X Y := fun i hi j hj =>
  congrFun (congrFun h ⟨i, hi⟩) ⟨j, hj⟩

theorem toMat_mul {m : Nat} (X Y : Nat → Nat → K) : toMat (2 ^ m) X * toMat (2 ^ m) Y = toMat (2 ^ m) (mm m X Y) := by
  ext i j
  rw [Matrix.mul_apply]
  exact Fin.sum_univ_eq_sum_range (fun k => X i k * Y k j) (2 ^ m)

theorem toMat_one (N : Nat) : toMat N (idm : Nat → Nat → K) = 1 := by
  ext i j
  rw [Matrix.one_apply]
  show idm (i : Nat) (j : Nat) = _
  unfold idm
  by_cases h : i = j
  · rw [if_pos h, if_pos (by rw [h])]
  · rw [if_neg h, if_neg (fun e => h (Fin.ext e))]

theorem toMat_zero (N : Nat) : toMat N (0 : Nat → Nat → K) = 0 := rfl

/-- A matrix as a function of numbers. -/
def ofMat {N : Nat} (M : Matrix (Fin N) (Fin N) K) : Nat → Nat → K := fun i j =>
  if h : i < N ∧ j < N then M ⟨i, h.1⟩ ⟨j, h.2⟩ else 0

theorem toMat_ofMat {N : Nat} (M : Matrix (Fin N) (Fin N) K) : toMat N (ofMat M) = M := Matrix.ext fun i j => dif_pos ⟨i.2, j.2⟩

theorem toMat_mulVec {N : Nat} (X : Nat → Nat → K) (v : Fin N → K) : (toMat N X).mulVec v = act X v := rfl

/-- `basis()[i] * basis()[j]`. -/
def basisPair (A : ClAlg) (T : Type) [Ring T] [DecidableEq T] (i j : Nat) : Res (MV A (ArrayStorage T)) := do
  let e ← basisVec (A := A) (S := ArrayStorage T) (T := T) i
  let f ← basisVec (A := A) (S := ArrayStorage T) (T := T) j
  e.naiveMulImpl f

theorem half_sub_one (A : ClAlg) (hn : A.projDim = 0) (hA : A.WF) (h0 : 0 < A.dim) : A.half = (A.dim - 1) / 2 + 1 := by
  have := hA.dims
  unfold ClAlg.half ClAlg.nn
  omega

theorem halfSpinIs_of [LawfulInto T K] (hA : A.WF) (hd : A.dim < 63) (hn : A.projDim = 0) (h0 : 0 < A.dim)
    {x : Res (MV A (ArrayStorage T))} {f : Nat → T} (hx : Denotes x f) :
    HalfSpinIs (K := K) x (toMat _ (hs ((A.dim - 1) / 2 + 1) A.dim 0 (cx A f))) (toMat _ (hs ((A.dim - 1) / 2 + 1) A.dim 1 (cx A f))) := by
  obtain ⟨⟨e, he, e1, e2, e3⟩, ⟨o, ho, o1, o2, o3⟩⟩ := halfSpin_spec (K := K) hA hd hn h0 hx
  have hh := half_sub_one A hn hA h0
  rw [hh, Nat.add_sub_cancel] at e1 e2 e3 o1 o2 o3
  cases hp : halfSpin K x with
  | error err => rw [hp] at he; cases he
  | ok p =>
    rw [hp] at he ho
    have h1 : p.1 = e := by injection he
    have h3 : p.2 = o := by injection ho
    subst h1 h3
    exact ⟨p.1, p.2, hp, e1, e2, o1, o2, fun i j => ⟨e3 i i.2 j j.2, o3 i i.2 j j.2⟩⟩

theorem HalfSpinIs.unique {x : Res (MV A (ArrayStorage T))} {E O E' O' : Matrix (Fin A.hsz) (Fin A.hsz) K} (h : HalfSpinIs x E O)
    (h' : HalfSpinIs x E' O') : E = E' ∧ O = O' := by
  obtain ⟨e, o, h1, -, -, -, -, h2⟩ := h
  obtain ⟨e', o', h1', -, -, -, -, h2'⟩ := h'
  rw [h1] at h1'
  injection h1' with h1'
  injection h1' with h3 h4
  subst h3 h4
  exact ⟨Matrix.ext fun i j => (h2 i j).1.symm.trans (h2' i j).1, Matrix.ext fun i j => (h2 i j).2.symm.trans (h2' i j).2⟩

theorem basisPair_denotes (hA : A.WF) (hd : A.dim < 63) {i j : Nat} (hi : i < A.dim) (hji : j < i) :
    Denotes (basisPair A T i j) (single (2 ^ i ^^^ 2 ^ j) (bsgn A.sigma A.dim (2 ^ i) (2 ^ j) • (1 : T))) := by
  have hS : LawfulStorage.Supp (S := ArrayStorage T) (T := T) A.dim := show A.dim ≤ 63 by omega
  obtain ⟨e, e1, e2, e3⟩ := basisVec_denotes (A := A) (S := ArrayStorage T) (T := T) hS hi
  obtain ⟨f, f1, f2, f3⟩ := basisVec_denotes (A := A) (S := ArrayStorage T) (T := T) hS (hji.trans hi)
  unfold basisPair
  rw [e1, f1]
  refine (mul_denotes hA e2 f2).congr fun k hk => ?_
  rw [geo_congr (fun _ _ => rfl) e3 f3 hk, geo_single_single _ (Nat.pow_lt_pow_right (by norm_num) hi), mul_one]

theorem cx_single' [LawfulInto T K] (k : Nat) (c : T) : cx (K := K) A (single k c) = single k (iPowNeg (countOnes (k &&& A.imagMask)) * IntoComplex.into c) := by
  funext l
  unfold cx single
  split
  · rename_i h; rw [h]
  · rw [into_zero, mul_zero]

/-- The matrices of `e_i e_j` are non-zero multiples of those of the blade. -/
theorem basisPair_cx [LawfulInto T K] {i j : Nat} (hji : j < i) : ∃ c : K, c ≠ 0 ∧
    cx (K := K) A (single (2 ^ i ^^^ 2 ^ j) (bsgn A.sigma A.dim (2 ^ i) (2 ^ j) • (1 : T))) = single (2 ^ i ^^^ 2 ^ j) c := by
  have hd : ∀ k < A.dim, ((2 ^ i).testBit k && (2 ^ j).testBit k) = false := fun k _ => by
    rw [Nat.testBit_two_pow, Nat.testBit_two_pow]
    by_cases h : i = k <;> by_cases h' : j = k <;> simp [h, h']
    omega
  refine ⟨_, ?_, cx_single' _ _⟩
  refine mul_ne_zero (left_ne_zero_of_mul_eq_one (iPowNeg_mul_iPow _)) ?_
  rw [bsgn_disjoint A.sigma (fun _ => 1) hd, into_eq, map_zsmul, map_one]
  rcases mul_self_eq_one_iff.mp (bsgn_plus_sq A.dim (2 ^ i) (2 ^ j)) with h | h <;> rw [h] <;> simp

theorem dims_or (A : ClAlg) (h0 : 0 < A.dim) : A.dim = 2 * ((A.dim - 1) / 2 + 1) ∨ A.dim = 2 * ((A.dim - 1) / 2) + 1 := by omega

/-- **C84.** Every even multivector has two half-spin matrices, of size `2^((dim-1)/2)`. -/
theorem C84_half_spin_size [LawfulInto T K] (hA : A.WF) (hd : A.dim < 63) (hn : A.projDim = 0) (h0 : 0 < A.dim)
    {a : MV A (ArrayStorage T)} (ha : a.Valid) : ∃ E O, HalfSpinIs (K := K) (.ok a) E O :=
  ⟨_, _, halfSpinIs_of hA hd hn h0 (.of_valid ha)⟩

theorem stable_hs [LawfulInto T K] {q i j : Nat} (hji : j < i) {W : Submodule K (Fin A.hsz → K)}
    (h : ∀ v ∈ W, act (hs ((A.dim - 1) / 2 + 1) A.dim q (cx A (single (2 ^ i ^^^ 2 ^ j) (bsgn A.sigma A.dim (2 ^ i) (2 ^ j) • (1 : T))))) v ∈ W) :
    ∀ v ∈ W, act (hs ((A.dim - 1) / 2 + 1) A.dim q (single (2 ^ i ^^^ 2 ^ j) 1)) v ∈ W := by
  intro v hv
  obtain ⟨c, hc, he⟩ := basisPair_cx (A := A) (K := K) (T := T) hji
  have := W.smul_mem c⁻¹ (h v hv)
  rw [he, ← act_smul] at this
  rwa [act_congr (Y := hs ((A.dim - 1) / 2 + 1) A.dim q (single (2 ^ i ^^^ 2 ^ j) 1))] at this
  intro r _ s _
  simp only
  rw [hs_single _ _ _ _ c, inv_mul_cancel_left₀ hc]

/-- **C84.** The first half-spin representation is irreducible: a subspace that the matrices of all products of two basis vectors
map to itself is trivial. -/
theorem C84_irreducible_first [LawfulInto T K] (h2 : (2 : K) ≠ 0) (hA : A.WF) (hd : A.dim < 63) (hn : A.projDim = 0) (h0 : 0 < A.dim)
    {W : Submodule K (Fin A.hsz → K)}
    (hW : ∀ i j, j < i → i < A.dim → ∀ E O, HalfSpinIs (basisPair A T i j) E O → ∀ v ∈ W, E.mulVec v ∈ W) : W = ⊥ ∨ W = ⊤ :=
  hs_irreducible h2 (by omega) (show 0 < 2 by norm_num) (dims_or A h0) fun i j hji hi =>
    stable_hs (T := T) hji (hW i j hji hi _ _ (halfSpinIs_of hA hd hn h0 (basisPair_denotes hA hd hi hji)))

/-- **C84.** The second half-spin representation is irreducible. -/
theorem C84_irreducible_second [LawfulInto T K] (h2 : (2 : K) ≠ 0) (hA : A.WF) (hd : A.dim < 63) (hn : A.projDim = 0) (h0 : 0 < A.dim)
    {W : Submodule K (Fin A.hsz → K)}
    (hW : ∀ i j, j < i → i < A.dim → ∀ E O, HalfSpinIs (basisPair A T i j) E O → ∀ v ∈ W, O.mulVec v ∈ W) : W = ⊥ ∨ W = ⊤ :=
  hs_irreducible h2 (by omega) (show 1 < 2 by norm_num) (dims_or A h0) fun i j hji hi =>
    stable_hs (T := T) hji (hW i j hji hi _ _ (halfSpinIs_of hA hd hn h0 (basisPair_denotes hA hd hi hji)))

/-- **C84.** In even dimensions the two representations are inequivalent: only zero intertwines them. -/
theorem C84_inequivalent [LawfulInto T K] (h2 : (2 : K) ≠ 0) (hA : A.WF) (hd : A.dim < 63) (hn : A.projDim = 0) (h0 : 0 < A.dim)
    (hev : Even A.dim) {P : Matrix (Fin A.hsz) (Fin A.hsz) K}
    (hP : ∀ i j, j < i → i < A.dim → ∀ E O, HalfSpinIs (basisPair A T i j) E O → P * E = O * P) : P = 0 := by
  obtain ⟨m, hm⟩ : ∃ m, m = (A.dim - 1) / 2 := ⟨_, rfl⟩
  have hdim : A.dim = 2 * (m + 1) := by obtain ⟨r, hr⟩ := hev; omega
  have key := hs_inequivalent (P := ofMat P) h2 (m := m) (by omega) (fun i j hji hi => ?_)
  · rw [← toMat_ofMat P]
    subst hm
    exact toMat_congr key
  · have h := hP i j hji (by omega) _ _ (halfSpinIs_of hA hd hn h0 (basisPair_denotes hA hd (by omega) hji))
    obtain ⟨c, hc, he⟩ := basisPair_cx (A := A) (K := K) (T := T) hji
    have h3 : MEq (2 ^ m) (2 ^ m) (mm m (ofMat P) (hs (m + 1) (2 * (m + 1)) 0 (single (2 ^ i ^^^ 2 ^ j) c)))
        (mm m (hs (m + 1) (2 * (m + 1)) 1 (single (2 ^ i ^^^ 2 ^ j) c)) (ofMat P)) := by
      rw [he] at h
      nth_rw 1 [← toMat_ofMat P] at h
      nth_rw 2 [← toMat_ofMat P] at h
      rw [toMat_mul, toMat_mul] at h
      rw [← hdim, hm]
      exact MEq.of_toMat h
    intro r hr s hs'
    have h4 := h3 r hr s hs'
    unfold mm at h4 ⊢
    simp only [hs_single _ _ _ _ c] at h4
    rw [Finset.sum_congr rfl (fun k _ => mul_left_comm _ c _), ← mul_sum, Finset.sum_congr rfl (fun k _ => mul_assoc c _ _), ← mul_sum] at h4
    exact mul_left_cancel₀ hc h4

/-- **C84.** In odd dimensions they are equivalent: the even and the odd matrices of all even multivectors are similar. -/
theorem C84_equivalent [LawfulInto T K] (h2 : (2 : K) ≠ 0) (hA : A.WF) (hd : A.dim < 63) (hn : A.projDim = 0) (ho : Odd A.dim) :
    ∃ P Q : Matrix (Fin A.hsz) (Fin A.hsz) K, P * Q = 1 ∧ Q * P = 1 ∧
      ∀ a : MV A (ArrayStorage T), a.Valid → (∀ k < 2 ^ A.dim, countOnes k % 2 = 1 → a.val k = 0) →
        ∀ E O, HalfSpinIs (.ok a) E O → O = P * E * Q := by
  obtain ⟨m, hm⟩ : ∃ m, m = (A.dim - 1) / 2 := ⟨_, rfl⟩
  have hdim : A.dim = 2 * m + 1 := by obtain ⟨r, hr⟩ := ho; omega
  obtain ⟨P, P', h1, h3, h4⟩ := hs_equivalent h2 (m := m) (by omega)
  rw [hm] at h1 h3
  have hPQ : toMat A.hsz P * toMat A.hsz P' = 1 := by
    rw [toMat_mul, ← toMat_one]
    exact toMat_congr h1
  refine ⟨toMat _ P, toMat _ P', hPQ, ?_, fun a ha hev E O h => ?_⟩
  · rw [toMat_mul, ← toMat_one]
    exact toMat_congr h3
  · obtain ⟨rfl, rfl⟩ := h.unique (halfSpinIs_of hA hd hn (by omega) (.of_valid ha))
    have h5 := h4 (cx A a.val) (fun k hk hc => cx_eq_zero (hev k (by rw [hdim]; exact hk) hc))
    rw [hm, show 2 * ((A.dim - 1) / 2) + 1 = A.dim by omega] at h5
    rw [toMat_mul, toMat_congr h5, ← toMat_mul, Matrix.mul_assoc, hPQ, Matrix.mul_one]

end

section
variable {A : ClAlg} {K : Type} [Field K] [DecidableEq K] [ImagUnit K]

theorem exists_half_spin (hA : A.WF) (hd : A.dim < 63) (hn : A.projDim = 0) (h0 : 0 < A.dim) {x : Nat → K} (hx : EvenFn A.dim x) :
    ∃ a : MV A (ArrayStorage K), a.Valid ∧ (∀ k < 2 ^ A.dim, countOnes k % 2 = 1 → a.val k = 0) ∧
      HalfSpinIs (.ok a) (toMat _ (hs ((A.dim - 1) / 2 + 1) A.dim 0 x)) (toMat _ (hs ((A.dim - 1) / 2 + 1) A.dim 1 x)) := by
  let f := dcx (T := K) (K := K) A x
  have hv : (⟨⟨A.dim, ⟨2 ^ A.dim, f⟩⟩⟩ : MV A (ArrayStorage K)).Valid := ⟨by show A.dim ≤ 63; omega, rfl, rfl⟩
  have hval : ∀ k < 2 ^ A.dim, MV.val (⟨⟨A.dim, ⟨2 ^ A.dim, f⟩⟩⟩ : MV A (ArrayStorage K)) k = f k := fun k hk => if_pos hk
  refine ⟨_, hv, fun k hk h => ?_, ?_⟩
  · rw [hval k hk]
    show (iPow _ * x k) = (0 : K)
    rw [hx k hk h, mul_zero]
  · have := halfSpinIs_of (K := K) hA hd hn h0 (.of_valid hv)
    have e : ∀ q, hs ((A.dim - 1) / 2 + 1) A.dim q (cx (K := K) A (MV.val (⟨⟨A.dim, ⟨2 ^ A.dim, f⟩⟩⟩ : MV A (ArrayStorage K)))) =
        hs ((A.dim - 1) / 2 + 1) A.dim q x := fun q => by
      rw [hs_congr fun k hk => cx_congr (hval k hk), cx_dcx A x]
    rwa [e, e] at this

/-- **C84.** In even dimensions every pair of matrices is that of an even multivector with complex coefficients. -/
theorem C84_onto_even (h2 : (2 : K) ≠ 0) (hA : A.WF) (hd : A.dim < 63) (hn : A.projDim = 0) (h0 : 0 < A.dim) (hev : Even A.dim)
    (E O : Matrix (Fin A.hsz) (Fin A.hsz) K) : ∃ a : MV A (ArrayStorage K), a.Valid ∧
      (∀ k < 2 ^ A.dim, countOnes k % 2 = 1 → a.val k = 0) ∧ HalfSpinIs (.ok a) E O := by
  obtain ⟨x, hx, hX⟩ := hs_onto_pair h2 ((A.dim - 1) / 2) (fun q => if q = 0 then ofMat E else ofMat O)
  rw [show 2 * ((A.dim - 1) / 2 + 1) = A.dim by obtain ⟨r, hr⟩ := hev; omega] at hx hX
  obtain ⟨a, h1, h3, h4⟩ := exists_half_spin hA hd hn h0 hx
  refine ⟨a, h1, h3, ?_⟩
  rwa [toMat_congr (hX 0 (by norm_num)), toMat_congr (hX 1 (by norm_num)), if_pos rfl, if_neg (by norm_num), toMat_ofMat, toMat_ofMat] at h4

/-- **C84.** In odd dimensions every matrix is the first, and every matrix is the second half-spin matrix of an even multivector. -/
theorem C84_onto_odd (h2 : (2 : K) ≠ 0) (hA : A.WF) (hd : A.dim < 63) (hn : A.projDim = 0) (h0 : 0 < A.dim)
    (M : Matrix (Fin A.hsz) (Fin A.hsz) K) :
    (∃ (a : MV A (ArrayStorage K)) (O : Matrix (Fin A.hsz) (Fin A.hsz) K), a.Valid ∧
      (∀ k < 2 ^ A.dim, countOnes k % 2 = 1 → a.val k = 0) ∧ HalfSpinIs (.ok a) M O) ∧
    (∃ (a : MV A (ArrayStorage K)) (E : Matrix (Fin A.hsz) (Fin A.hsz) K), a.Valid ∧
      (∀ k < 2 ^ A.dim, countOnes k % 2 = 1 → a.val k = 0) ∧ HalfSpinIs (.ok a) E M) := by
  constructor
  · obtain ⟨x, hx, hX⟩ := hs_onto h2 (dims_or A h0) (show 0 < 2 by norm_num) (ofMat M)
    obtain ⟨a, h1, h3, h4⟩ := exists_half_spin hA hd hn h0 hx
    rw [toMat_congr hX, toMat_ofMat] at h4
    exact ⟨a, _, h1, h3, h4⟩
  · obtain ⟨x, hx, hX⟩ := hs_onto h2 (dims_or A h0) (show 1 < 2 by norm_num) (ofMat M)
    obtain ⟨a, h1, h3, h4⟩ := exists_half_spin hA hd hn h0 hx
    rw [toMat_congr hX, toMat_ofMat] at h4
    exact ⟨a, _, h1, h3, h4⟩

end

section examples
open Ex

open Classical in
/-- In `Cl(8)` (README, Spin(8)) some product of two basis vectors moves the first coordinate axis. -/
example : ∃ i j, j < i ∧ i < Cl8.dim ∧ ∃ E O : Matrix (Fin Cl8.hsz) (Fin Cl8.hsz) ℂ, HalfSpinIs (basisPair Cl8 ℝ i j) E O ∧
    ∃ v ∈ Submodule.span ℂ {(Pi.single ⟨0, by decide⟩ 1 : Fin Cl8.hsz → ℂ)}, E.mulVec v ∉ Submodule.span ℂ {(Pi.single ⟨0, by decide⟩ 1 : Fin Cl8.hsz → ℂ)} := by
  by_contra hc
  push Not at hc
  have := C84_irreducible_first (A := Cl8) (K := ℂ) (T := ℝ) two_ne_zero Cl8_wf (by decide) rfl (by decide) hc
  rcases this with h | h
  · rw [Submodule.span_singleton_eq_bot] at h
    have := congrFun h ⟨0, by decide⟩
    simp at this
  · have h1 : (Pi.single ⟨1, by decide⟩ 1 : Fin Cl8.hsz → ℂ) ∈ Submodule.span ℂ {(Pi.single ⟨0, by decide⟩ 1 : Fin Cl8.hsz → ℂ)} := by
      rw [h]; trivial
    obtain ⟨c, hc⟩ := Submodule.mem_span_singleton.mp h1
    have := congrFun hc ⟨1, by decide⟩
    simp at this

open Classical in
example (W : Submodule ℂ (Fin Cl8.hsz → ℂ))
    (hW : ∀ i j, j < i → i < Cl8.dim → ∀ E O, HalfSpinIs (basisPair Cl8 ℝ i j) E O → ∀ v ∈ W, O.mulVec v ∈ W) : W = ⊥ ∨ W = ⊤ :=
  C84_irreducible_second two_ne_zero Cl8_wf (by decide) rfl (by decide) hW

open Classical in
/-- In `Cl(8)` the two representations are not similar. -/
example : ¬ ∃ P : Matrix (Fin Cl8.hsz) (Fin Cl8.hsz) ℂ, IsUnit P ∧
    ∀ i j, j < i → i < Cl8.dim → ∀ E O, HalfSpinIs (basisPair Cl8 ℝ i j) E O → P * E = O * P := by
  rintro ⟨P, hu, hP⟩
  have := C84_inequivalent (A := Cl8) (K := ℂ) (T := ℝ) two_ne_zero Cl8_wf (by decide) rfl (by decide) (by decide) hP
  rw [this] at hu
  have : Nonempty (Fin Cl8.hsz) := ⟨⟨0, by decide⟩⟩
  exact not_isUnit_zero hu

/-- The half-spin matrices of the even part of a multivector of `Cl(3)` are similar. -/
example : ∃ P Q X Y : Matrix (Fin E.hsz) (Fin E.hsz) ℂ, P * Q = 1 ∧ HalfSpinIs (.ok eEven) X Y ∧ Y = P * X * Q := by
  obtain ⟨P, Q, h1, -, h3⟩ := C84_equivalent (A := E) (K := ℂ) (T := ℝ) two_ne_zero E_wf (by decide) rfl (by decide)
  obtain ⟨E, O, h⟩ := C84_half_spin_size (K := ℂ) E_wf (by decide) rfl (by decide) eEven_valid
  exact ⟨P, Q, E, O, h1, h, h3 eEven eEven_valid eEven_even E O h⟩

open Classical in
example : ∃ a : MV Cl8 (ArrayStorage ℂ), a.Valid ∧ (∀ k < 2 ^ Cl8.dim, countOnes k % 2 = 1 → a.val k = 0) ∧ HalfSpinIs (K := ℂ) (.ok a) 0 1 :=
  C84_onto_even two_ne_zero Cl8_wf (by decide) rfl (by decide) (by decide) 0 1

open Classical in
example (M : Matrix (Fin E.hsz) (Fin E.hsz) ℂ) := (C84_onto_odd (A := E) (K := ℂ) two_ne_zero E_wf (by decide) rfl (by decide) M).2

end examples

end TClifford
