import Verif.Model.Complexification
import Verif.Proofs.Clifft
import Verif.Proofs.Lift
import Verif.Spec.Arrays
/-
`complexify`, `decomplexify`, `Even` and `into_original`.
-/

set_option linter.unusedSectionVars false

namespace TClifford

open Finset

/-! ### Algebras -/

theorem countOnes_mask (n : Nat) : countOnes (2 ^ n - 1) = n := by
  rw [countOnes_eq_cnt (n := n) (by have := Nat.two_pow_pos n; omega)]
  have : ∀ k ≤ n, cnt k (2 ^ n - 1) = k := by
    intro k hk
    induction k with
    | zero => rfl
    | succ k ih =>
      rw [cnt_succ, ih (by omega), Nat.testBit_two_pow_sub_one]
      simp; omega
  exact this n le_rfl

theorem ClAlg.WF.countOnes_nn {A : ClAlg} (h : A.WF) : countOnes (A.realMask ||| A.imagMask) = A.nn := by
  rw [h.nonnull, countOnes_mask]; rfl

theorem ClAlg.WF.complexification {A : ClAlg} (h : A.WF) : A.complexification.WF where
  dim_le := h.dim_le
  dims := by
    show countOnes (A.realMask ||| A.imagMask) + countOnes 0 + countOnes A.projMask = A.dim
    rw [h.countOnes_nn, ← h.projDim_eq, ← h.dims]; simp [ClAlg.nn]
  nonnull := by
    show A.realMask ||| A.imagMask ||| 0 = 2 ^ (countOnes (A.realMask ||| A.imagMask) + countOnes 0) - 1
    rw [h.countOnes_nn, Nat.or_zero, h.nonnull]; simp [ClAlg.nn]
  disjoint := by show (A.realMask ||| A.imagMask) &&& 0 = 0; simp
  null := by
    show A.projMask = 2 ^ A.dim - 2 ^ (countOnes (A.realMask ||| A.imagMask) + countOnes 0)
    rw [h.countOnes_nn, h.null]; simp [ClAlg.nn]
  realDim_eq := rfl
  imagDim_eq := rfl
  projDim_eq := rfl

theorem ClAlg.WF.nn_complexification {A : ClAlg} (h : A.WF) : A.complexification.nn = A.nn := by
  show countOnes (A.realMask ||| A.imagMask) + countOnes 0 = A.nn
  rw [h.countOnes_nn]; simp

theorem ClAlg.WF.sigma_complexification {A : ClAlg} (h : A.WF) {i : Nat} (hi : i < A.dim) :
    A.complexification.sigma i = if i < A.nn then 1 else 0 := by
  split
  · rename_i hn
    rw [h.complexification.sigma_nonnull (by rwa [h.nn_complexification])]
    rw [if_neg]
    show ¬ (Nat.testBit 0 i = true)
    simp
  · rename_i hn
    exact h.complexification.sigma_null (by rw [h.nn_complexification]; omega) hi

/-! ### Coefficient functions -/

section
variable {T K : Type} [One K] [Neg K] [Mul K] [HasI K]

/-- Coefficients of the complexification. -/
def cx [IntoComplex T K] (A : ClAlg) (f : Nat → T) : Nat → K := fun k =>
  iPowNeg (countOnes (k &&& A.imagMask)) * IntoComplex.into (f k)

/-- Coefficients of the decomplexification. -/
def dcx [FromComplex T K] (A : ClAlg) (f : Nat → K) : Nat → T := fun k =>
  FromComplex.from_ (iPow (countOnes (k &&& A.imagMask)) * f k)

theorem cx_congr [IntoComplex T K] {A : ClAlg} {f g : Nat → T} {k : Nat} (h : f k = g k) : cx (K := K) A f k = cx A g k := by
  unfold cx; rw [h]

theorem dcx_congr [FromComplex T K] {A : ClAlg} {f g : Nat → K} {k : Nat} (h : f k = g k) : dcx (T := T) A f k = dcx A g k := by
  unfold dcx; rw [h]

end

section
variable {T K : Type} [Zero T] [One T] [Add T] [Sub T] [Neg T] [Mul T] [DecidableEq T]
  [Zero K] [One K] [Add K] [Sub K] [Neg K] [Mul K] [DecidableEq K] [HasI K] {A : ClAlg} {S S' : Type}

theorem MV.complexify_ops [IntoComplex T K] [CoeffStorage S T] [LawfulStorage S T] [CoeffStorage S' K] [LawfulStorage S' K]
    (h0 : ∀ n, iPowNeg n * IntoComplex.into (0 : T) = (0 : K))
    {a : MV A S} (ha : a.Valid) (h' : LawfulStorage.Supp (S := S') (T := K) A.dim) :
    Denotes (a.complexify : Res (MV A.complexification S')) (cx A a.val) := by
  refine (fromIndexedIter_enum (A := A.complexification) (S := S') (T := K) h' ?_).unwrap
  exact ha.enum.map (fun i c => iPowNeg (countOnes (i &&& A.imagMask)) * IntoComplex.into c) (fun i => h0 _)

theorem MV.decomplexify_ops [FromComplex T K] [CoeffStorage S K] [LawfulStorage S K] [CoeffStorage S' T]
    [LawfulStorage S' T] (h0 : ∀ n, (FromComplex.from_ (iPow n * 0 : K) : T) = 0)
    {a : MV A.complexification S} (ha : a.Valid) (h' : LawfulStorage.Supp (S := S') (T := T) A.dim) :
    Denotes (a.decomplexify : Res (MV A S')) (dcx A a.val) := by
  refine (fromIndexedIter_enum (A := A) (S := S') (T := T) h' ?_).unwrap
  exact ha.enum.map (fun i c => (FromComplex.from_ (iPow (countOnes (i &&& A.imagMask)) * c) : T)) (fun i => h0 _)

theorem MV.Denotes.decomplexify_ops [FromComplex T K] [CoeffStorage S K] [LawfulStorage S K] [CoeffStorage S' T]
    [LawfulStorage S' T] (h0 : ∀ n, (FromComplex.from_ (iPow n * 0 : K) : T) = 0) {x : Res (MV A.complexification S)}
    {f : Nat → K} (hx : Denotes x f) (h' : LawfulStorage.Supp (S := S') (T := T) A.dim) :
    Denotes (do let a ← x; (a.decomplexify : Res (MV A S'))) (dcx A f) :=
  hx.bind (fun _ hu huv => (MV.decomplexify_ops h0 hu h').congr (fun i hi => dcx_congr (huv i hi)))

end

section
variable {T K : Type} [Ring T] [DecidableEq T] [Field K] [DecidableEq K] [ImagUnit K] [IntoComplex T K]

theorem dcx_cx [FromComplex T K] [LawfulComplex T K] (A : ClAlg) (f : Nat → T) : dcx A (cx (K := K) A f) = f := by
  funext k
  unfold dcx cx
  rw [← mul_assoc, iPow_mul_iPowNeg, one_mul, from_into]

theorem cx_dcx (A : ClAlg) (f : Nat → K) : cx (K := K) A (dcx (T := K) (K := K) A f) = f := by
  funext k
  show iPowNeg _ * (iPow _ * f k) = f k
  rw [← mul_assoc, iPowNeg_mul_iPow, one_mul]

theorem cx_geo [LawfulInto T K] {A : ClAlg} (hA : A.WF) (f g : Nat → T) {k : Nat} (hk : k < 2 ^ A.dim) :
    cx (K := K) A (geo A.sigma A.dim f g) k = geo A.complexification.sigma A.dim (cx A f) (cx A g) k := by
  have hs := geo_scale (T := K) (σ' := A.sigma) (σ := A.complexification.sigma) (n := A.dim)
    (l := fun i => if A.imagMask.testBit i then -HasI.I else 1) (fun i hi => by
      rw [hA.sigma_complexification hi]
      by_cases hn : i < A.nn
      · rw [if_pos hn, hA.sigma_nonnull hn]
        split <;> simp [ImagUnit.I_mul_I]
      · rw [if_neg hn, hA.sigma_null (by omega) hi]; simp)
    (fun i => IntoComplex.into (f i)) (fun i => IntoComplex.into (g i)) k
  unfold cx
  rw [iPowNeg_mask hk]
  have hg : (IntoComplex.into (geo A.sigma A.dim f g k) : K) =
      geo A.sigma A.dim (fun i => IntoComplex.into (f i)) (fun i => IntoComplex.into (g i)) k := by
    simp only [geo, into_eq, map_sum, map_zsmul, map_mul]
  rw [hg, hs]
  refine geo_congr (fun _ _ => rfl) ?_ ?_ hk
  · intro i hi; rw [iPowNeg_mask hi]
  · intro i hi; rw [iPowNeg_mask hi]

theorem cx_smul [LawfulInto T K] (A : ClAlg) (s : Nat → ℤ) (f : Nat → T) :
    cx (K := K) A (fun k => s k • f k) = fun k => s k • cx A f k := by
  funext k
  simp only [cx, into_eq, map_zsmul, mul_smul_comm]

theorem cx_add [LawfulInto T K] (A : ClAlg) (f g : Nat → T) :
    cx (K := K) A (fun k => f k + g k) = fun k => cx A f k + cx A g k := by
  funext k
  simp only [cx, into_eq, map_add, mul_add]

theorem cx_sub [LawfulInto T K] (A : ClAlg) (f g : Nat → T) :
    cx (K := K) A (fun k => f k - g k) = fun k => cx A f k - cx A g k := by
  funext k
  simp only [cx, into_eq, map_sub, mul_sub]

theorem cx_neg [LawfulInto T K] (A : ClAlg) (f : Nat → T) : cx (K := K) A (fun k => -f k) = fun k => -cx A f k := by
  funext k
  simp only [cx, into_eq, map_neg, mul_neg]

theorem cx_mul [LawfulInto T K] (A : ClAlg) (f : Nat → T) (t : T) :
    cx (K := K) A (fun k => f k * t) = fun k => cx A f k * IntoComplex.into t := by
  funext k
  simp only [cx, into_eq, map_mul, mul_assoc]

theorem cx_single [LawfulInto T K] (A : ClAlg) : cx (K := K) A (single 0 (1 : T)) = single 0 1 := by
  funext k
  unfold cx single
  by_cases h : k = 0
  · subst h; simp [iPowNeg, LawfulInto.into_one]
  · simp [h, into_zero]

namespace MV
variable {A : ClAlg} {S S' : Type}

theorem complexify_denotes [LawfulInto T K] [CoeffStorage S T] [LawfulStorage S T] [CoeffStorage S' K] [LawfulStorage S' K]
    {a : MV A S} (ha : a.Valid) (h' : LawfulStorage.Supp (S := S') (T := K) A.dim) :
    Denotes (a.complexify : Res (MV A.complexification S')) (cx A a.val) :=
  complexify_ops (fun n => by rw [into_zero, mul_zero]) ha h'

theorem decomplexify_denotes [FromComplex T K] [LawfulComplex T K] [CoeffStorage S K] [LawfulStorage S K] [CoeffStorage S' T]
    [LawfulStorage S' T] {a : MV A.complexification S} (ha : a.Valid) (h' : LawfulStorage.Supp (S := S') (T := T) A.dim) :
    Denotes (a.decomplexify : Res (MV A S')) (dcx A a.val) :=
  decomplexify_ops (fun n => by rw [mul_zero, from_zero]) ha h'

theorem _root_.TClifford.MV.Denotes.complexify [LawfulInto T K] [CoeffStorage S T] [LawfulStorage S T] [CoeffStorage S' K] [LawfulStorage S' K]
    {x : Res (MV A S)} {f : Nat → T} (hx : Denotes x f) (h' : LawfulStorage.Supp (S := S') (T := K) A.dim) :
    Denotes (do let a ← x; (a.complexify : Res (MV A.complexification S'))) (cx A f) :=
  hx.bind (fun _ hu huv => (complexify_denotes hu h').congr (fun i hi => cx_congr (huv i hi)))

theorem _root_.TClifford.MV.Denotes.decomplexify [FromComplex T K] [LawfulComplex T K] [CoeffStorage S K] [LawfulStorage S K]
    [CoeffStorage S' T] [LawfulStorage S' T] {x : Res (MV A.complexification S)} {f : Nat → K} (hx : Denotes x f)
    (h' : LawfulStorage.Supp (S := S') (T := T) A.dim) :
    Denotes (do let a ← x; (a.decomplexify : Res (MV A S'))) (dcx A f) :=
  hx.bind (fun _ hu huv => (decomplexify_denotes hu h').congr (fun i hi => dcx_congr (huv i hi)))

end MV
end

/-! ### The algebra with an even number of non-null generators -/

/-- Insert a zero bit at position `p`. -/
def ins (p j : Nat) : Nat := j % 2 ^ p + j / 2 ^ p * 2 ^ (p + 1)

/-- Remove the bit at position `p`. -/
def rmv (p k : Nat) : Nat := k % 2 ^ p + k / 2 ^ (p + 1) * 2 ^ p

theorem testBit_mod_add (a b p i : Nat) (ha : a < 2 ^ p) :
    (a + b * 2 ^ p).testBit i = if i < p then a.testBit i else b.testBit (i - p) := by
  rw [add_comm, mul_comm, Nat.testBit_two_pow_mul_add _ ha]

theorem ins_testBit (p j i : Nat) : (ins p j).testBit i = if i < p then j.testBit i else if i = p then false else j.testBit (i - 1) := by
  unfold ins
  have h1 : j % 2 ^ p < 2 ^ p := Nat.mod_lt _ (Nat.two_pow_pos p)
  rw [testBit_mod_add _ _ _ _ (lt_of_lt_of_le h1 (Nat.pow_le_pow_right (by norm_num) (by omega)))]
  rw [Nat.testBit_mod_two_pow, Nat.testBit_div_two_pow]
  by_cases h : i < p
  · simp [h, show i < p + 1 by omega]
  · by_cases h' : i = p
    · simp [h']
    · rw [if_neg (by omega), if_neg h, if_neg h']
      congr 1; omega

theorem rmv_testBit (p k i : Nat) : (rmv p k).testBit i = if i < p then k.testBit i else k.testBit (i + 1) := by
  unfold rmv
  rw [testBit_mod_add _ _ _ _ (Nat.mod_lt _ (Nat.two_pow_pos p)), Nat.testBit_mod_two_pow, Nat.testBit_div_two_pow]
  by_cases h : i < p
  · simp [h]
  · rw [if_neg h, if_neg h]; congr 1; omega

theorem rmv_ins (p j : Nat) : rmv p (ins p j) = j := by
  apply Nat.eq_of_testBit_eq
  intro i
  rw [rmv_testBit, ins_testBit, ins_testBit]
  by_cases h : i < p
  · simp [h]
  · rw [if_neg h, if_neg (by omega), if_neg (by omega)]; simp

theorem ins_rmv {p k : Nat} (hk : k.testBit p = false) : ins p (rmv p k) = k := by
  apply Nat.eq_of_testBit_eq
  intro i
  rw [ins_testBit, rmv_testBit, rmv_testBit]
  by_cases h : i < p
  · simp [h]
  · by_cases h' : i = p
    · simp [h', hk]
    · rw [if_neg h, if_neg h', if_neg (by omega)]; congr 1; omega

theorem ins_lt {p n j : Nat} (hp : p ≤ n) (hj : j < 2 ^ n) : ins p j < 2 ^ (n + 1) := by
  apply Nat.lt_pow_two_of_testBit
  intro i hi
  rw [ins_testBit, if_neg (by omega), if_neg (by omega)]
  exact Nat.testBit_lt_two_pow (lt_of_lt_of_le hj (Nat.pow_le_pow_right (by norm_num) (by omega)))

theorem rmv_lt {p n k : Nat} (hp : p ≤ n) (hk : k < 2 ^ (n + 1)) : rmv p k < 2 ^ n := by
  apply Nat.lt_pow_two_of_testBit
  intro i hi
  rw [rmv_testBit, if_neg (by omega)]
  exact Nat.testBit_lt_two_pow (lt_of_lt_of_le hk (Nat.pow_le_pow_right (by norm_num) (by omega)))

/-- The number of generators of `Even<A>` with non-zero square. -/
theorem ClAlg.even_nn (A : ClAlg) : A.even.nn = 2 * ((A.nn + 1) / 2) := by
  show (if (A.realDim + A.imagDim) % 2 = 0 then A.realDim else A.realDim + 1) + A.imagDim = 2 * ((A.realDim + A.imagDim + 1) / 2)
  split <;> omega

theorem ClAlg.WF.even_dim {A : ClAlg} (h : A.WF) : A.even.dim = 2 * ((A.nn + 1) / 2) + A.projDim := by
  have := h.dims
  show (if (A.realDim + A.imagDim) % 2 = 0 then A.dim else A.dim + 1) = 2 * ((A.realDim + A.imagDim + 1) / 2) + A.projDim
  split <;> omega

namespace MV
variable {A : ClAlg} {S T : Type} [Zero T] [One T] [Add T] [Sub T] [Neg T] [Mul T] [DecidableEq T] [CoeffStorage S T] [LawfulStorage S T]

theorem even_index (hA : A.WF) (hd : A.dim < 63) {k : Nat} (hk : k < 2 ^ (A.dim + 1)) :
    ((k &&& unot (ushl A.projMask 1 ||| A.realMask ||| A.imagMask) ≠ 0) ↔ k.testBit A.nn = true) ∧
    (k &&& ushl A.projMask 1) >>> 1 ||| k &&& (A.realMask ||| A.imagMask) = rmv A.nn k := by
  have hp : A.projMask < 2 ^ A.dim := hA.mask_lt.2.2
  have hs : ushl A.projMask 1 = A.projMask <<< 1 := by
    refine ushl_of_lt (n := A.dim + 1) ?_ (by omega) (by norm_num)
    rw [Nat.shiftLeft_eq, pow_succ]; omega
  have hsb : ∀ i, (ushl A.projMask 1).testBit i = (decide (A.nn + 1 ≤ i) && decide (i < A.dim + 1)) := by
    intro i
    rw [hs, Nat.testBit_shiftLeft, hA.testBit_proj]
    by_cases h : 1 ≤ i
    · simp only [h, decide_true, Bool.true_and]
      congr 1
      · simp; omega
      · simp; omega
    · have : i = 0 := by omega
      subst this; simp
  have hkb : ∀ i, A.dim + 1 ≤ i → k.testBit i = false := fun i hi =>
    Nat.testBit_lt_two_pow (lt_of_lt_of_le hk (Nat.pow_le_pow_right (by norm_num) hi))
  have hnn := hA.nn_le
  constructor
  · constructor
    · intro h
      obtain ⟨i, hi⟩ := Nat.exists_testBit_of_ne_zero h
      rw [Nat.testBit_and, Bool.and_eq_true] at hi
      have hid : i < A.dim + 1 := by
        by_contra hc
        rw [hkb i (by omega)] at hi
        exact absurd hi.1 (by simp)
      rw [unot_testBit (by omega), Nat.or_assoc, Nat.testBit_or, hsb, hA.nonnull, Nat.testBit_two_pow_sub_one] at hi
      have hi2 := hi.2
      simp only [Bool.not_eq_true', Bool.or_eq_false_iff, Bool.and_eq_false_iff, decide_eq_false_iff_not] at hi2
      have : i = A.nn := by unfold ClAlg.nn at *; omega
      rw [← this]; exact hi.1
    · intro h hz
      have := congrArg (fun x => Nat.testBit x A.nn) hz
      simp only [Nat.testBit_and, h, Bool.true_and, Nat.zero_testBit] at this
      rw [unot_testBit (by omega), Nat.or_assoc, Nat.testBit_or, hsb, hA.nonnull, Nat.testBit_two_pow_sub_one] at this
      simp [ClAlg.nn] at this
  · apply Nat.eq_of_testBit_eq
    intro i
    rw [Nat.testBit_or, Nat.testBit_shiftRight, Nat.testBit_and, Nat.testBit_and, hsb, hA.nonnull, Nat.testBit_two_pow_sub_one,
      rmv_testBit, add_comm 1 i]
    change (k.testBit (i + 1) && (decide (A.nn + 1 ≤ i + 1) && decide (i + 1 < A.dim + 1)) || k.testBit i && decide (i < A.nn)) = _
    by_cases h : i < A.nn
    · simp [h, show ¬ A.nn ≤ i by omega]
    · simp only [h, decide_false, Bool.and_false, Bool.or_false, if_false, show A.nn + 1 ≤ i + 1 by omega, decide_true, Bool.true_and]
      by_cases hi : i + 1 < A.dim + 1
      · simp [hi]
      · rw [hkb (i + 1) (by omega)]; simp

theorem intoOriginal_denotes (hA : A.WF) (hd : A.dim < 63) {a : MV A.even S} (ha : a.Valid)
    (h' : LawfulStorage.Supp (S := S) (T := T) A.dim) :
    Denotes (a.intoOriginal) (fun k => a.val (if A.nn % 2 = 0 then k else ins A.nn k)) := by
  unfold intoOriginal
  by_cases he : A.nn % 2 = 0
  · have hdim : A.even.dim = A.dim := by
      show (if (A.realDim + A.imagDim) % 2 = 0 then A.dim else A.dim + 1) = A.dim
      exact if_pos he
    rw [if_pos hdim.symm]
    refine ⟨_, rfl, ?_, ?_⟩
    · have : LawfulStorage.Valid (S := S) (T := T) A.even.dim a.coeffs := ha
      rw [hdim] at this
      exact this
    · intro i _
      beta_reduce
      rw [if_pos he]; rfl
  · have hdim : A.even.dim = A.dim + 1 := by
      show (if (A.realDim + A.imagDim) % 2 = 0 then A.dim else A.dim + 1) = A.dim + 1
      exact if_neg he
    rw [if_neg (by omega)]
    have hnn := hA.nn_le
    refine ((fromIndexedIter_enum h' ?_).unwrap : _)
    simp only [if_neg he]
    have henum := ha.enum
    rw [hdim] at henum
    have hmem : ∀ p ∈ a.coeffEnumerate, ∀ q, (if p.1 &&& unot (ushl A.projMask 1 ||| A.realMask ||| A.imagMask) ≠ 0 then none
      else some (((p.1 &&& ushl A.projMask 1) >>> 1) ||| (p.1 &&& (A.realMask ||| A.imagMask)), p.2)) = some q →
        p.1.testBit A.nn = false ∧ q = (rmv A.nn p.1, p.2) := by
      intro p hp q hq
      obtain ⟨h1, h2⟩ := even_index hA hd (henum.mem p hp).1
      by_cases hb : p.1.testBit A.nn = true
      · rw [if_pos (h1.mpr hb)] at hq; exact absurd hq (by simp)
      · rw [if_neg (fun hc => hb (h1.mp hc)), h2] at hq
        exact ⟨Bool.eq_false_iff.mpr hb, (Option.some.inj hq).symm⟩
    refine ⟨?_, ?_, ?_⟩
    · -- no index occurs twice
      have hnd : a.coeffEnumerate.Nodup := List.Nodup.of_map _ henum.nodup
      rw [List.map_filterMap]
      refine (List.nodup_iff_pairwise_ne.mp hnd |> fun hpw => ?_)
      refine List.nodup_iff_pairwise_ne.mpr ?_
      refine List.Pairwise.filterMap _ ?_ (List.Pairwise.and_mem.mp hpw)
      intro p q ⟨hp, hq, hne⟩ i hi j hj hij
      rw [Option.map_eq_some_iff] at hi hj
      obtain ⟨x, hx, rfl⟩ := hi
      obtain ⟨y, hy, rfl⟩ := hj
      obtain ⟨hp0, rfl⟩ := hmem p hp x hx
      obtain ⟨hq0, rfl⟩ := hmem q hq y hy
      have : p.1 = q.1 := by rw [← ins_rmv hp0, ← ins_rmv hq0]; exact congrArg _ hij
      apply hne
      refine Prod.ext this ?_
      rw [(henum.mem p hp).2, (henum.mem q hq).2, this]
    · intro q hq
      rw [List.mem_filterMap] at hq
      obtain ⟨p, hp, hpq⟩ := hq
      obtain ⟨hp0, rfl⟩ := hmem p hp q hpq
      refine ⟨rmv_lt hnn (henum.mem p hp).1, ?_⟩
      rw [ins_rmv hp0]
      exact (henum.mem p hp).2
    · intro i hi hne
      rw [List.mem_filterMap]
      refine ⟨(ins A.nn i, a.val (ins A.nn i)), henum.complete _ (ins_lt hnn hi) hne, ?_⟩
      have hb : (ins A.nn i).testBit A.nn = false := by rw [ins_testBit]; simp
      obtain ⟨h1, h2⟩ := even_index hA hd (ins_lt hnn hi)
      simp only
      rw [if_neg (fun hc => by rw [h1] at hc; rw [hb] at hc; exact absurd hc (by simp)), h2, rmv_ins]

end MV

end TClifford
