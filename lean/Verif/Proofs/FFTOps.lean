import Verif.Model.FFT
import Verif.Proofs.Complexify
/-
What `fft`, `ifft` and the product of `FFTRepr` compute, in terms of the operations of the coefficient types only.
-/

set_option linter.unusedSectionVars false

namespace TClifford

open Finset

/-- Invariants of a loop over `0..n`. -/
theorem range_foldlM {α : Type} (P : Nat → α → Prop) (f : α → Nat → Res α) (n : Nat) (a : α) (h0 : P 0 a)
    (hs : ∀ i < n, ∀ x, P i x → ∃ y, f x i = .ok y ∧ P (i + 1) y) :
    ∃ y, (List.range n).foldlM (m := Res) f a = .ok y ∧ P n y := by
  induction n with
  | zero => exact ⟨a, rfl, h0⟩
  | succ n ih =>
    obtain ⟨y, h1, h2⟩ := ih (fun i hi => hs i (by omega))
    obtain ⟨z, h3, h4⟩ := hs n (by omega) y h2
    refine ⟨z, ?_, h4⟩
    rw [List.range_succ, List.foldlM_append, h1]
    show (List.foldlM (m := Res) f y [n]) = _
    rw [List.foldlM_cons, h3]
    rfl

/-- Half the number of non-null generators, rounded up. -/
abbrev ClAlg.half (A : ClAlg) : Nat := (A.nn + 1) / 2

/-- The coefficients of the blades with null part `w`. -/
def lay (p : Nat) {K : Type} (f : Nat → K) (w : Nat) : Nat → K := fun r => f (r + w * 2 ^ p)

theorem lay_zero {K : Type} (p : Nat) (f : Nat → K) : lay p f 0 = f := by funext r; simp [lay]

theorem add_mul_lt {p s r w : Nat} (hr : r < 2 ^ p) (hw : w < 2 ^ s) : r + w * 2 ^ p < 2 ^ (p + s) := by
  calc r + w * 2 ^ p < 2 ^ p + w * 2 ^ p := by omega
    _ = (w + 1) * 2 ^ p := by ring
    _ ≤ 2 ^ s * 2 ^ p := Nat.mul_le_mul_right _ hw
    _ = 2 ^ (p + s) := by rw [pow_add]; ring

section
variable {A : ClAlg}

theorem half_ge (A : ClAlg) : A.nn ≤ 2 * A.half := by unfold ClAlg.half; omega

theorem half_le (hA : A.WF) : 2 * A.half ≤ 64 := by
  have := hA.nn_le; have := hA.dim_le; unfold ClAlg.half; omega

theorem matrixSide_eq (hA : A.WF) (hd : A.dim < 63) : FFTRepr.matrixSide A = 2 ^ A.half := by
  unfold FFTRepr.matrixSide
  have := hA.nn_le
  rw [hA.countOnes_nn, ushl_one (by omega)]

theorem wcount_eq (hA : A.WF) (hd : A.dim < 63) : FFTRepr.wcount A = 2 ^ A.projDim := by
  unfold FFTRepr.wcount
  have := hA.dims
  rw [← hA.projDim_eq, ushl_one (by omega)]

end

section
variable {A : ClAlg} {K : Type} [Zero K] [One K] [Add K] [Sub K] [Neg K] [Mul K] [Div K] [DecidableEq K] [HasI K] [CoeffLaws K]

/-- The matrices that represent the coefficients `f`. -/
def FLO (m p : Nat) (f : Nat → K) (w : Nat) : Nat → Nat → K := ctrO m p (lay p f w)

/-- The coefficients (in the all-plus algebra) that a family of matrices represents. -/
def unflO (m p : Nat) (X : Nat → Nat → Nat → K) : Nat → K := fun k => ictrO m (X (k / 2 ^ p)) (k % 2 ^ p)

theorem ctrO_congr {m n : Nat} {x y : Nat → K} (h : ∀ i < 2 ^ n, x i = y i) : ctrO m n x = ctrO m n y := by
  unfold ctrO
  congr 1
  funext k
  unfold pscO
  split
  · rw [h k ‹_›]
  · rfl

theorem arr_val_ops {a : MV A (ArrayStorage K)} (ha : a.Valid) {i : Nat} (hi : i < 2 ^ A.dim) :
    a.val i = a.coeffs.array.get i := by
  show (if i < a.coeffs.array.len then _ else _) = _
  rw [if_pos]
  rw [ha.2.2]; exact hi

omit [One K] [Div K] [DecidableEq K] [HasI K] [CoeffLaws K] in
theorem mul_ops (hn : ∀ x : K, - -x = x) {r s : FFTRepr A K} {p m : Nat} (hr : r.arr.Is p m) (hs : s.arr.Is p m) :
    ∃ t, r.mul s = .ok t ∧ t.arr.Is p m ∧ WEq p m t.arr.get (WO m p r.arr.get s.arr.get) := by
  obtain ⟨t, h1, h2, h3⟩ := wmul_ops hn hr hs
  exact ⟨⟨t⟩, by unfold FFTRepr.mul; rw [h1]; rfl, h2, h3⟩

variable {T : Type} [Zero T] [One T] [Add T] [Sub T] [Neg T] [Mul T] [DecidableEq T] [CoeffLaws T]

theorem fft_ops [IntoComplex T K] (h0 : ∀ n, iPowNeg n * IntoComplex.into (0 : T) = (0 : K)) (hA : A.WF) (hd : A.dim < 63) {a : MV A (ArrayStorage T)} (ha : a.Valid) :
    ∃ r, (a.fft : Res (FFTRepr A K)) = .ok r ∧ r.arr.Is A.projDim A.half ∧
      WEq A.projDim A.half r.arr.get (FLO A.half A.nn (cx A a.val)) := by
  have hdim : A.nn + A.projDim = A.dim := hA.dims
  obtain ⟨c, e1, hc, hv⟩ := MV.complexify_ops (S' := ArrayStorage K) (K := K) h0 ha (show A.dim ≤ 63 by omega)
  have hcl : c.coeffs.array.len = 2 ^ A.dim := hc.2.2
  have hcv : ∀ k < 2 ^ A.dim, c.coeffs.array.get k = cx A a.val k := by
    intro k hk
    rw [← hv k hk]
    exact (arr_val_ops hc hk).symm
  have hstep : (A.realMask ||| A.imagMask) + 1 = 2 ^ A.nn := by
    rw [hA.nonnull]; exact Nat.sub_add_cancel (Nat.two_pow_pos _)
  obtain ⟨y, h1, h2, h3⟩ := range_foldlM
    (P := fun n (arr : Arr3 K) => arr.Is A.projDim A.half ∧
      ∀ w < n, MEq (2 ^ A.half) (2 ^ A.half) (arr.get w) (FLO A.half A.nn (cx A a.val) w))
    (f := fun (arr : Arr3 K) i => do
      let v ← c.coeffs.array.slice (i * 2 ^ A.nn) ((i + 1) * 2 ^ A.nn)
      let m ← unwrap (clifftInto v (arr.layer i))
      return arr.setLayer i m)
    (FFTRepr.wcount A) (Arr3.zeros (FFTRepr.wcount A) (FFTRepr.matrixSide A) (FFTRepr.matrixSide A))
    ⟨⟨wcount_eq hA hd, matrixSide_eq hA hd, matrixSide_eq hA hd⟩, fun w hw => absurd hw (by omega)⟩ (by
      intro i hi x hx
      rw [wcount_eq hA hd] at hi
      obtain ⟨⟨x0, x1, x2⟩, hx'⟩ := hx
      have hsl : c.coeffs.array.slice (i * 2 ^ A.nn) ((i + 1) * 2 ^ A.nn) =
          .ok ⟨(i + 1) * 2 ^ A.nn - i * 2 ^ A.nn, fun j => c.coeffs.array.get (j + i * 2 ^ A.nn)⟩ := by
        unfold Arr1.slice
        rw [if_pos]
        refine ⟨Nat.mul_le_mul_right _ (by omega), ?_⟩
        rw [hcl, ← hdim, pow_add, mul_comm (2 ^ A.nn)]
        exact Nat.mul_le_mul_right _ hi
      rw [hsl]
      have hnn := hA.nn_le
      obtain ⟨v, g1, g2, g3, g4⟩ := clifftInto_ops (K := K) (n := A.nn) (by omega)
        (⟨(i + 1) * 2 ^ A.nn - i * 2 ^ A.nn, fun j => c.coeffs.array.get (j + i * 2 ^ A.nn)⟩ : Arr1 K) (x.layer i)
        (by show (i + 1) * 2 ^ A.nn - i * 2 ^ A.nn = 2 ^ A.nn; rw [← Nat.sub_mul]; simp) x1 x2
      refine ⟨x.setLayer i v, ?_, ⟨x0, x1, x2⟩, ?_⟩
      · show (do let m ← unwrap (clifftInto _ (x.layer i)); return x.setLayer i m : Res (Arr3 K)) = _
        rw [g1]; rfl
      · intro w hw
        show MEq _ _ (if w = i then v.get else x.get w) _
        by_cases h : w = i
        · subst h
          rw [if_pos rfl]
          refine g4.trans ?_
          unfold FLO
          rw [ctrO_congr (y := lay A.nn (cx A a.val) w)]
          · exact MEq.rfl' _
          · intro j hj
            show c.coeffs.array.get (j + w * 2 ^ A.nn) = cx A a.val (j + w * 2 ^ A.nn)
            exact hcv _ (by rw [← hdim]; exact add_mul_lt hj hi)
        · rw [if_neg h]; exact hx' w (by omega))
  refine ⟨⟨y⟩, ?_, h2, ?_⟩
  · unfold MV.fft
    rw [e1]
    simp only [hstep]
    show (do let arr ← List.foldlM (m := Res) _ _ _; return ⟨arr⟩ : Res (FFTRepr A K)) = _
    rw [h1]; rfl
  · rw [wcount_eq hA hd] at h3; exact h3

theorem ifft_ops [FromComplex T K] (h0 : ∀ n, (FromComplex.from_ (iPow n * 0 : K) : T) = 0) (hA : A.WF) (hd : A.dim < 63) {r : FFTRepr A K}
    (hr : r.arr.Is A.projDim A.half) : MV.Denotes (r.ifft : Res (MV A (ArrayStorage T))) (dcx A (unflO A.half A.nn r.arr.get)) := by
  have hdim : A.nn + A.projDim = A.dim := hA.dims
  have hC := hA.complexification
  have hCd : A.complexification.dim < 63 := hd
  have hEn : A.complexification.even.nn = 2 * A.half := by rw [ClAlg.even_nn, hA.nn_complexification]
  have hEd : A.complexification.even.dim = 2 * A.half + A.projDim := by
    rw [hC.even_dim, hA.nn_complexification, hA.projDim_eq]; rfl
  have hE63 : A.complexification.even.dim ≤ 63 := by
    rw [hEd]; have := half_ge A; unfold ClAlg.half; omega
  obtain ⟨u, e1, hu, -⟩ := MV.default_denotes (A := A.complexification.even) (S := ArrayStorage K) (T := K) hE63
  have hul : u.coeffs.array.len = 2 ^ (2 * A.half + A.projDim) := by rw [← hEd]; exact hu.2.2
  have hstep : ushl 1 (A.complexification.even.realDim + A.complexification.even.imagDim) = 2 ^ (2 * A.half) := by
    have : A.complexification.even.realDim + A.complexification.even.imagDim = 2 * A.half := hEn
    rw [this, ushl_one (by omega)]
  obtain ⟨y, h1, h2, h3⟩ := range_foldlM
    (P := fun n (arr : Arr1 K) => arr.len = 2 ^ (2 * A.half + A.projDim) ∧
      ∀ w < n, ∀ j < 2 ^ (2 * A.half), arr.get (j + w * 2 ^ (2 * A.half)) = ictrO A.half (r.arr.get w) j)
    (f := fun (arr : Arr1 K) i => do
      let sl ← arr.slice (i * 2 ^ (2 * A.half)) ((i + 1) * 2 ^ (2 * A.half))
      let v ← unwrap (iclifftInto (r.arr.layer i) sl)
      return arr.setSlice (i * 2 ^ (2 * A.half)) v)
    r.arr.d0 u.coeffs.array ⟨hul, fun w hw => absurd hw (by omega)⟩ (by
      intro i hi x hx
      rw [hr.1] at hi
      have hsl : x.slice (i * 2 ^ (2 * A.half)) ((i + 1) * 2 ^ (2 * A.half)) =
          .ok ⟨(i + 1) * 2 ^ (2 * A.half) - i * 2 ^ (2 * A.half), fun j => x.get (j + i * 2 ^ (2 * A.half))⟩ := by
        unfold Arr1.slice
        rw [if_pos]
        refine ⟨Nat.mul_le_mul_right _ (by omega), ?_⟩
        rw [hx.1, pow_add, mul_comm (2 ^ (2 * A.half))]
        exact Nat.mul_le_mul_right _ hi
      rw [hsl]
      obtain ⟨v, g1, g2, g3⟩ := iclifftInto_ops (m := A.half) (by have := half_le hA; omega) (r.arr.layer i)
        (⟨(i + 1) * 2 ^ (2 * A.half) - i * 2 ^ (2 * A.half), fun j => x.get (j + i * 2 ^ (2 * A.half))⟩ : Arr1 K)
        hr.2.1 hr.2.2 (by show (i + 1) * 2 ^ (2 * A.half) - i * 2 ^ (2 * A.half) = _; rw [← Nat.sub_mul]; simp)
      refine ⟨x.setSlice (i * 2 ^ (2 * A.half)) v, ?_, hx.1, ?_⟩
      · show (do let v ← unwrap (iclifftInto (r.arr.layer i) _); return x.setSlice (i * 2 ^ (2 * A.half)) v : Res (Arr1 K)) = _
        rw [g1]; rfl
      · intro w hw j hj
        show (if i * 2 ^ (2 * A.half) ≤ j + w * 2 ^ (2 * A.half) ∧ j + w * 2 ^ (2 * A.half) < i * 2 ^ (2 * A.half) + v.len then _ else _) = _
        by_cases h : w = i
        · subst h
          rw [if_pos ⟨by omega, by rw [g2]; omega⟩, Nat.add_sub_cancel]
          exact g3 j hj
        · rw [if_neg]
          · exact hx.2 w (by omega) j hj
          · intro hc
            have : (w + 1) * 2 ^ (2 * A.half) ≤ i * 2 ^ (2 * A.half) := Nat.mul_le_mul_right _ (by omega)
            rw [add_mul] at this
            omega)
  rw [hr.1] at h3
  have hret : (⟨⟨u.coeffs.dim, y⟩⟩ : MV A.complexification.even (ArrayStorage K)).Valid := ⟨hE63, hu.2.1, by rw [hEd]; exact h2⟩
  have hD := MV.intoOriginal_denotes hC hCd hret (show A.complexification.dim ≤ 63 by omega)
  have hfin := hD.decomplexify_ops (A := A) (T := T) (S' := ArrayStorage T) h0 (show A.dim ≤ 63 by omega)
  have heq : (r.ifft : Res (MV A (ArrayStorage T))) =
      (do let a ← (⟨⟨u.coeffs.dim, y⟩⟩ : MV A.complexification.even (ArrayStorage K)).intoOriginal; a.decomplexify) := by
    unfold FFTRepr.ifft
    rw [e1]
    simp only [hstep]
    show (do
      let arr ← List.foldlM (m := Res) _ _ _
      let ret : MV A.complexification.even (ArrayStorage K) := ⟨⟨u.coeffs.dim, arr⟩⟩
      let orig ← ret.intoOriginal
      orig.decomplexify : Res (MV A (ArrayStorage T))) = _
    rw [h1]; rfl
  rw [heq]
  refine hfin.congr (fun k hk => dcx_congr ?_)
  rw [hA.nn_complexification]
  have hw : k / 2 ^ A.nn < 2 ^ A.projDim := by
    rw [Nat.div_lt_iff_lt_mul (Nat.two_pow_pos _), ← pow_add, add_comm, hdim]; exact hk
  have hr' : k % 2 ^ A.nn < 2 ^ (2 * A.half) :=
    lt_of_lt_of_le (Nat.mod_lt _ (Nat.two_pow_pos _)) (Nat.pow_le_pow_right (by norm_num) (half_ge A))
  have hidx : (if A.nn % 2 = 0 then k else ins A.nn k) = k % 2 ^ A.nn + k / 2 ^ A.nn * 2 ^ (2 * A.half) := by
    split
    · rename_i he
      rw [show 2 * A.half = A.nn by unfold ClAlg.half; omega, Nat.mod_add_div']
    · rename_i he
      rw [show 2 * A.half = A.nn + 1 by unfold ClAlg.half; omega]; rfl
  rw [hidx, arr_val_ops hret (by rw [hEd]; exact add_mul_lt hr' hw)]
  exact h3 _ hw _ hr'

end

end TClifford
