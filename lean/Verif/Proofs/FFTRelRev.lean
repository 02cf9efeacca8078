import Verif.Proofs.FFTRel
/-
Reversal, grade involution and powers in the transformed domain, for a relation between computed and exact numbers.
-/

set_option linter.unusedSectionVars false

namespace TClifford

open Finset

section
variable {K : Type} [Zero K] [One K] [Add K] [Sub K] [Neg K] [Mul K]

/-- `imaginary_flip_inplace` moves every entry to the opposite place and possibly negates it. -/
theorem imaginaryFlipInplace_rel (m : Nat) {P : Nat → Nat → K → ℂ → Prop} (hP : ∀ i j v z, P i j v z → P i j (-v) (-z))
    (M : Arr2 K) (N : Arr2 ℂ) (hr : M.rows = 2 ^ m) (hc : M.cols = 2 ^ m) (hr' : N.rows = 2 ^ m) (hc' : N.cols = 2 ^ m)
    (h : ∀ i < 2 ^ m, ∀ j < 2 ^ m, P i j (M.get i j) (N.get i j)) :
    (imaginaryFlipInplace M).rows = 2 ^ m ∧ (imaginaryFlipInplace M).cols = 2 ^ m ∧
    ∀ i < 2 ^ m, ∀ j < 2 ^ m, P (2 ^ m - 1 - i) (2 ^ m - 1 - j) ((imaginaryFlipInplace M).get i j) ((imaginaryFlipInplace N).get i j) := by
  induction m generalizing M N P with
  | zero =>
    unfold imaginaryFlipInplace
    rw [dif_pos (by simp [Arr2.size, hr, hc]), dif_pos (by simp [Arr2.size, hr', hc'])]
    refine ⟨hr, hc, fun i hi j hj => ?_⟩
    have e1 : i = 0 := by simpa using hi
    have e2 : j = 0 := by simpa using hj
    subst e1; subst e2
    exact h 0 (by norm_num) 0 (by norm_num)
  | succ m ih =>
    have hp : 2 ^ (m + 1) = 2 ^ m + 2 ^ m := by rw [pow_succ]; ring
    have hpos := Nat.two_pow_pos m
    have hsz : ∀ {a b : Nat}, a = 2 ^ (m + 1) → b = 2 ^ (m + 1) → ¬ a * b ≤ 1 := by
      rintro a b rfl rfl
      rw [two_pow_mul_self]
      have : 2 ^ 1 < 2 ^ (2 * (m + 1)) := Nat.pow_lt_pow_right (by norm_num) (by omega)
      omega
    have h1 : M.rows / 2 = 2 ^ m := by omega
    have h2 : M.cols / 2 = 2 ^ m := by omega
    have h1' : N.rows / 2 = 2 ^ m := by omega
    have h2' : N.cols / 2 = 2 ^ m := by omega
    unfold imaginaryFlipInplace
    rw [dif_neg (show ¬ M.size ≤ 1 from hsz hr hc), dif_neg (show ¬ N.size ≤ 1 from hsz hr' hc')]
    simp only [h1, h2, h1', h2']
    refine ⟨?_, ?_, ?_⟩
    · simp only [Arr2.joinQuarters, Arr2.quarters]; omega
    · simp only [Arr2.joinQuarters, Arr2.quarters]; omega
    · have key : ∀ (r c r' c' di dj : Nat) (g X : Nat → Nat → K) (g' X' : Nat → Nat → ℂ), r = 2 ^ m → c = 2 ^ m → r' = 2 ^ m → c' = 2 ^ m →
          (∀ i < 2 ^ m, ∀ j < 2 ^ m, P (i + di) (j + dj) (X i j) (X' i j)) →
          ∀ i < 2 ^ m, ∀ j < 2 ^ m, P (2 ^ m - 1 - i + di) (2 ^ m - 1 - j + dj)
            ((imaginaryFlipInplace (⟨r, c, fun i j => if i < 2 ^ m ∧ j < 2 ^ m then alpha (X i j) i j else g i j⟩ : Arr2 K)).get i j)
            ((imaginaryFlipInplace (⟨r', c', fun i j => if i < 2 ^ m ∧ j < 2 ^ m then alpha (X' i j) i j else g' i j⟩ : Arr2 ℂ)).get i j) := by
        intro r c r' c' di dj g X g' X' e1 e2 e3 e4 hX
        refine (ih (P := fun i j => P (i + di) (j + dj)) (fun i j => hP _ _) ⟨r, c, _⟩ ⟨r', c', _⟩ e1 e2 e3 e4 ?_).2.2
        intro i hi j hj
        simp only [hi, hj, and_self, if_true]
        unfold alpha
        split
        · exact hP _ _ _ _ (hX i hi j hj)
        · exact hX i hi j hj
      have ka := key (2 ^ m) (2 ^ m) (2 ^ m) (2 ^ m) (2 ^ m) (2 ^ m) M.get (fun i j => M.get (i + 2 ^ m) (j + 2 ^ m)) N.get
        (fun i j => N.get (i + 2 ^ m) (j + 2 ^ m)) rfl rfl rfl rfl (fun i hi j hj => h _ (by omega) _ (by omega))
      have kb := key (2 ^ m) (M.cols - 2 ^ m) (2 ^ m) (N.cols - 2 ^ m) (2 ^ m) 0 (fun i j => M.get i (j + 2 ^ m)) (fun i j => M.get (i + 2 ^ m) j)
        (fun i j => N.get i (j + 2 ^ m)) (fun i j => N.get (i + 2 ^ m) j) rfl (by omega) rfl (by omega)
        (fun i hi j hj => h _ (by omega) _ (by omega))
      have kc := key (M.rows - 2 ^ m) (2 ^ m) (N.rows - 2 ^ m) (2 ^ m) 0 (2 ^ m) (fun i j => M.get (i + 2 ^ m) j) (fun i j => M.get i (j + 2 ^ m))
        (fun i j => N.get (i + 2 ^ m) j) (fun i j => N.get i (j + 2 ^ m)) (by omega) rfl (by omega) rfl
        (fun i hi j hj => h _ (by omega) _ (by omega))
      have kd := key (M.rows - 2 ^ m) (M.cols - 2 ^ m) (N.rows - 2 ^ m) (N.cols - 2 ^ m) 0 0 (fun i j => M.get (i + 2 ^ m) (j + 2 ^ m)) M.get
        (fun i j => N.get (i + 2 ^ m) (j + 2 ^ m)) N.get (by omega) (by omega) (by omega) (by omega)
        (fun i hi j hj => h _ (by omega) _ (by omega))
      intro i hi j hj
      rw [hp] at hi hj
      simp only [Arr2.joinQuarters, Arr2.quarters]
      by_cases h3 : i < 2 ^ m <;> by_cases h4 : j < 2 ^ m
      · simp only [h3, h4, if_true]
        have := ka i h3 j h4
        rwa [show 2 ^ m - 1 - i + 2 ^ m = 2 ^ (m + 1) - 1 - i by omega, show 2 ^ m - 1 - j + 2 ^ m = 2 ^ (m + 1) - 1 - j by omega] at this
      · simp only [h3, h4, if_true, if_false]
        have := kb i h3 (j - 2 ^ m) (by omega)
        rwa [show 2 ^ m - 1 - i + 2 ^ m = 2 ^ (m + 1) - 1 - i by omega, show 2 ^ m - 1 - (j - 2 ^ m) + 0 = 2 ^ (m + 1) - 1 - j by omega] at this
      · simp only [h3, h4, if_true, if_false]
        have := kc (i - 2 ^ m) (by omega) j h4
        rwa [show 2 ^ m - 1 - (i - 2 ^ m) + 0 = 2 ^ (m + 1) - 1 - i by omega, show 2 ^ m - 1 - j + 2 ^ m = 2 ^ (m + 1) - 1 - j by omega] at this
      · simp only [h3, h4, if_false]
        have := kd (i - 2 ^ m) (by omega) (j - 2 ^ m) (by omega)
        rwa [show 2 ^ m - 1 - (i - 2 ^ m) + 0 = 2 ^ (m + 1) - 1 - i by omega,
          show 2 ^ m - 1 - (j - 2 ^ m) + 0 = 2 ^ (m + 1) - 1 - j by omega] at this

end

section
variable {K : Type} [Zero K] [One K] [Add K] [Sub K] [Neg K] [Mul K] [Div K] [HasI K] [DecidableEq K]

/-- One layer of `FFTRepr::rev`. -/
theorem revLayer_rel {m : Nat} (hm : m < 64) (w : Nat) {P : Nat → Nat → K → ℂ → Prop} (hP : ∀ i j v z, P i j v z → P i j (-v) (-z))
    {M : Arr2 K} {N : Arr2 ℂ} (hr : M.rows = 2 ^ m) (hc : M.cols = 2 ^ m) (hr' : N.rows = 2 ^ m) (hc' : N.cols = 2 ^ m)
    (h : ∀ i < 2 ^ m, ∀ j < 2 ^ m, P i j (M.get i j) (N.get i j)) {v' : Arr2 ℂ} (hv' : FFTRepr.revLayer w N = .ok v') :
    ∃ v, FFTRepr.revLayer w M = .ok v ∧ v.rows = 2 ^ m ∧ v.cols = 2 ^ m ∧
      ∀ i < 2 ^ m, ∀ j < 2 ^ m, P (2 ^ m - 1 - j) (2 ^ m - 1 - i) (v.get i j) (v'.get i j) := by
  obtain ⟨f1, f2, f3⟩ := imaginaryFlipInplace_rel m (P := fun i j => P j i) (fun i j => hP j i) M.transpose N.transpose hc hr hc' hr'
    (fun i hi j hj => h j hj i hi)
  have e : reversal M = .ok (imaginaryFlipInplace M.transpose) := by
    unfold reversal imaginaryFlip
    rw [badSquare_false (m := m) hc hr hm]; rfl
  have e' : reversal N = .ok (imaginaryFlipInplace N.transpose) := by
    unfold reversal imaginaryFlip
    rw [badSquare_false (m := m) hc' hr' hm]; rfl
  unfold FFTRepr.revLayer at hv' ⊢
  rw [e'] at hv'
  rw [e]
  simp only [unwrap, bind, Except.bind] at hv' ⊢
  have hc4 : countOnes w % 4 < 4 := Nat.mod_lt _ (by norm_num)
  revert hc4 hv'
  generalize countOnes w % 4 = c
  intro hv' hc4
  interval_cases c
  · cases hv'
    exact ⟨_, rfl, f1, f2, f3⟩
  · cases hv'
    refine ⟨_, rfl, f1, f2, fun i hi j hj => ?_⟩
    dsimp only
    split
    · exact hP _ _ _ _ (f3 i hi j hj)
    · exact f3 i hi j hj
  · cases hv'
    exact ⟨_, rfl, f1, f2, fun i hi j hj => hP _ _ _ _ (f3 i hi j hj)⟩
  · cases hv'
    refine ⟨_, rfl, f1, f2, fun i hi j hj => ?_⟩
    dsimp only
    split
    · exact hP _ _ _ _ (f3 i hi j hj)
    · exact f3 i hi j hj

end

namespace CxRel

variable {K : Type} [Zero K] [One K] [Add K] [Sub K] [Neg K] [Mul K] [Div K] [HasI K] [DecidableEq K] {Q : CxRel K} {A : ClAlg}

/-- `FFTRepr::flip`. -/
theorem Rep.flip (hA : A.WF) {l : Nat} {r : FFTRepr A K} {f : Nat → ℂ} {b : ℝ} (hr : Q.Rep A l r f b) :
    Q.Rep A l r.flip (flp A.dim f) b := by
  obtain ⟨h0, c, h1, h2⟩ := hr
  refine ⟨h0, c, h1, fun w hw => (h2 w hw).map fun i hi j hj c hc => ?_⟩
  have hd : A.nn + A.projDim = A.dim := hA.dims
  have e : FL A.half A.nn (flp A.dim f) w i j = alWO (FL A.half A.nn f) w i j := by
    rw [← hd]
    exact (FL_flp (half_ge A) A.projDim f w hw i hi j hj).trans (alWO_eq (s := A.projDim) (m := A.half) _ w hw i hi j hj).symm
  rw [e]
  exact Q.alW (V := r.arr.get) (X := FL A.half A.nn f) hc

/-- `FFTRepr::rev`. -/
theorem Rep.rev (hA : A.WF) (hd : A.dim < 63) {l : Nat} {r : FFTRepr A K} {f : Nat → ℂ} {b : ℝ} (hr : Q.Rep A l r f b) :
    ∃ t, r.rev = .ok t ∧ Q.Rep A l t (fun k => rsg A.dim k • f k) b := by
  obtain ⟨hI, c, h1, h2⟩ := hr
  have hdim : A.nn + A.projDim = A.dim := hA.dims
  have hm : A.half < 64 := by have := half_le hA; omega
  have hex : ∀ w < 2 ^ A.projDim, Q.Mat A.half l (r.arr.get w) (FL A.half A.nn f w) (c w) := h2
  obtain ⟨y, e1, e2, e3⟩ := range_foldlM
    (P := fun n (arr : Arr3 K) => arr.Is A.projDim A.half ∧
      ∀ w < n, Q.Mat A.half l (arr.get w) (FL A.half A.nn (fun k => rsg A.dim k • f k) w) (c w))
    (f := fun (arr : Arr3 K) i => do
      let v ← FFTRepr.revLayer i (r.arr.layer i)
      if i < arr.d0 ∧ v.rows = arr.d1 ∧ v.cols = arr.d2 then return arr.setLayer i v else .error .panic)
    r.arr.d0 (FFTRepr.zero : FFTRepr A K).arr
    ⟨⟨wcount_eq hA hd, matrixSide_eq hA hd, matrixSide_eq hA hd⟩, fun w hw => absurd hw (by omega)⟩ (by
      intro i hi x hx
      rw [hI.1] at hi
      obtain ⟨v', g1, -, -, g4⟩ := revLayer_spec (s := A.projDim) (m := A.half) hm hi
        (⟨2 ^ A.half, 2 ^ A.half, FL A.half A.nn f i⟩ : Arr2 ℂ) rfl rfl
      obtain ⟨v, k1, k2, k3, k4⟩ := revLayer_rel (P := fun i' j' v z => ∀ c, Q.R l (r.arr.get i i' j') (FL A.half A.nn f i i' j') c → Q.R l v z c)
        hm i (fun _ _ _ _ h c hc => Q.neg (h c hc)) (M := r.arr.layer i)
        (N := ⟨2 ^ A.half, 2 ^ A.half, FL A.half A.nn f i⟩) hI.2.1 hI.2.2 rfl rfl (fun _ _ _ _ c hc => hc) g1
      obtain ⟨⟨x0, x1, x2⟩, hx'⟩ := hx
      rw [k1]
      refine ⟨x.setLayer i v, if_pos ⟨by rw [x0]; exact hi, k2.trans x1.symm, k3.trans x2.symm⟩, ⟨x0, x1, x2⟩, ?_⟩
      intro w hw
      show Q.Mat _ _ (if w = i then v.get else x.get w) _ _
      by_cases h : w = i
      · subst h
        rw [if_pos rfl]
        refine (hex w hi).transpose fun i hi' j hj c hc => ?_
        have e : FL A.half A.nn (fun k => rsg A.dim k • f k) w i j = v'.get i j := by
          rw [← hdim]
          exact (FL_rev (half_ge A) A.projDim f w i hi' j hj).trans (g4 i hi' j hj).symm
        rw [e]
        exact k4 i hi' j hj c hc
      · rw [if_neg h]; exact hx' w (by omega))
  refine ⟨⟨y⟩, ?_, e2, c, h1, ?_⟩
  · unfold FFTRepr.rev
    simp only []
    rw [e1]; rfl
  · rw [hI.1] at e3; exact e3

end CxRel

end TClifford
