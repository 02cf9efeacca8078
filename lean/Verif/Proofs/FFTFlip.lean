import Verif.Props.SignExact
import Verif.Proofs.FFTOps
/-
The grade involution and the reverse of families of matrices (`FFTRepr`), for coefficients whose sums may be rounded.
-/

set_option linter.unusedSectionVars false

namespace TClifford

section
variable {K : Type} [Zero K] [One K] [Add K] [Sub K] [Neg K] [Mul K] [Div K] [DecidableEq K] [HasI K] [CoeffLaws K] [SumLaws K] [SignLaws K] [SignMul K]

theorem ng_zero_eq (b : Bool) : ng b (0 : K) = 0 := by
  cases b
  · rfl
  · exact SumLaws.neg_zero

/-- The grade involution of a family of matrices. -/
def flW (s m : Nat) (X : Nat → Nat → Nat → K) : Nat → Nat → Nat → K := fun w i j => ng (par s w ^^ (par m i ^^ par m j)) (X w i j)

theorem foldl_ng {X : Type} (b : Bool) (l : List X) (f g : X → K) (h : ∀ x ∈ l, g x = ng b (f x)) (z : K) :
    (l.map g).foldl (· + ·) (ng b z) = ng b ((l.map f).foldl (· + ·) z) := by
  induction l generalizing z with
  | nil => rfl
  | cons x xs ih =>
    simp only [List.map_cons, List.foldl_cons]
    rw [h x (by simp), ← ng_add]
    exact ih (fun x hx => h x (by simp [hx])) _

theorem mmO_ng {m : Nat} {X X' Y Y' : Nat → Nat → K} {i j : Nat} {b : Bool}
    (h : ∀ k < 2 ^ m, X' i k * Y' k j = ng b (X i k * Y k j)) : mmO m X' Y' i j = ng b (mmO m X Y i j) := by
  unfold mmO
  have := foldl_ng (K := K) b (List.range (2 ^ m)) (fun k => X i k * Y k j) (fun k => X' i k * Y' k j) (fun k hk => h k (List.mem_range.mp hk)) 0
  rwa [ng_zero_eq] at this

theorem mmO_alM (m : Nat) (X Y : Nat → Nat → K) : mmO m (alM m X) (alM m Y) = alM m (mmO m X Y) := by
  funext i j
  refine mmO_ng fun k _ => ?_
  unfold alM
  rw [ng_mul_ng]
  congr 1
  cases par m i <;> cases par m j <;> cases par m k <;> rfl

theorem alWO_flW {s m : Nat} (X : Nat → Nat → Nat → K) : WEq s m (alWO X) (flW s m X) := by
  intro w hw i hi j hj
  unfold alWO flW
  rw [Nat.and_one_is_mod, countOnes_eq_cnt hw, countOnes_eq_cnt (Nat.xor_lt_two_pow hi hj), ← par_xor, par_eq, par_eq]
  unfold ng
  rcases Nat.mod_two_eq_zero_or_one (cnt s w) with h | h <;>
    rcases Nat.mod_two_eq_zero_or_one (cnt m (i ^^^ j)) with h' | h' <;> simp [Nat.add_mod, h, h']

theorem alWO_ng (b : Bool) (X : Nat → Nat → Nat → K) : alWO (fun w i j => ng b (X w i j)) = fun w i j => ng b (alWO X w i j) := by
  funext w i j
  unfold alWO
  split
  · rw [ng_neg]
  · rfl

theorem WO_ng (m s : Nat) (b d : Bool) (X Y : Nat → Nat → Nat → K) :
    WO m s (fun w i j => ng b (X w i j)) (fun w i j => ng d (Y w i j)) = fun w i j => ng (b ^^ d) (WO m s X Y w i j) := by
  induction s generalizing X Y with
  | zero =>
    funext w i j
    exact mmO_ng (K := K) (X := X 0) (Y := Y 0) (X' := fun i j => ng b (X 0 i j)) (Y' := fun i j => ng d (Y 0 i j)) fun k _ => ng_mul_ng _ _ _ _
  | succ s ih =>
    have e1 : hiW s (fun w i j => ng b (X w i j)) = fun w i j => ng b (hiW s X w i j) := rfl
    have e2 : hiW s (fun w i j => ng d (Y w i j)) = fun w i j => ng d (hiW s Y w i j) := rfl
    funext w i j
    unfold WO
    rw [ih, e1, ih, alWO_ng, e2, ih]
    beta_reduce
    split
    · rfl
    · rw [ng_add]

theorem flW_low {s m : Nat} (X : Nat → Nat → Nat → K) : WEq s m (flW (s + 1) m X) (flW s m X) := by
  intro w hw i hi j hj
  unfold flW
  rw [par_low hw]

theorem flW_high {s m : Nat} (X : Nat → Nat → Nat → K) : WEq s m (hiW s (flW (s + 1) m X)) (fun w i j => ng true (flW s m (hiW s X) w i j)) := by
  intro w hw i hi j hj
  unfold flW hiW
  beta_reduce
  rw [ng_ng, par_top hw, Bool.true_xor, Bool.not_xor]

theorem WEq.mono {s m : Nat} {X Y : Nat → Nat → Nat → K} (h : WEq (s + 1) m X Y) : WEq s m X Y :=
  fun w hw => h w (by rw [pow_succ]; omega)

theorem WO_flW (m s : Nat) (X Y : Nat → Nat → Nat → K) : WEq s m (WO m s (flW s m X) (flW s m Y)) (flW s m (WO m s X Y)) := by
  induction s generalizing X Y with
  | zero =>
    intro w hw i hi j hj
    have hw0 : w = 0 := by simpa using hw
    subst hw0
    have e : ∀ Z : Nat → Nat → Nat → K, flW 0 m Z 0 = alM m (Z 0) := by intro Z; funext i j; unfold flW alM; rw [par_zero, Bool.false_xor]
    show mmO m (flW 0 m X 0) (flW 0 m Y 0) i j = flW 0 m (WO m 0 X Y) 0 i j
    rw [e, e, e, mmO_alM]
    rfl
  | succ s ih =>
    intro w hw
    by_cases h : w < 2 ^ s
    · intro i hi j hj
      have e1 : WO m (s + 1) (flW (s + 1) m X) (flW (s + 1) m Y) w i j = WO m s (flW (s + 1) m X) (flW (s + 1) m Y) w i j := by
        conv_lhs => unfold WO
        rw [if_pos h]
      have e2 : WO m (s + 1) X Y w i j = WO m s X Y w i j := by
        conv_lhs => unfold WO
        rw [if_pos h]
      rw [e1, WO_congr (flW_low X) (flW_low Y) w h i hi j hj, ih X Y w h i hi j hj]
      show ng _ _ = ng _ _
      rw [e2, par_low h]
    · obtain ⟨v, hv, rfl⟩ := two_pow_succ_half hw h
      intro i hi j hj
      have e1 : ∀ X Y : Nat → Nat → Nat → K, WO m (s + 1) X Y (v + 2 ^ s) i j =
          WO m s (hiW s X) Y v i j + WO m s (alWO X) (hiW s Y) v i j := by
        intro X Y
        conv_lhs => unfold WO
        rw [if_neg h]
        rw [Nat.add_sub_cancel]
      have t1 : WO m s (hiW s (flW (s + 1) m X)) (flW (s + 1) m Y) v i j = ng true (flW s m (WO m s (hiW s X) Y) v i j) := by
        rw [WO_congr (flW_high X) (flW_low Y) v hv i hi j hj]
        have := congrFun (congrFun (congrFun (WO_ng m s true false (flW s m (hiW s X)) (flW s m Y)) v) i) j
        refine this.trans ?_
        rw [Bool.xor_false, ih _ _ v hv i hi j hj]
      have t2 : WO m s (alWO (flW (s + 1) m X)) (hiW s (flW (s + 1) m Y)) v i j = ng true (flW s m (WO m s (alWO X) (hiW s Y)) v i j) := by
        have c : WEq s m (alWO (flW (s + 1) m X)) (flW s m (alWO X)) := by
          refine (alWO_congr (flW_low X)).trans ?_
          intro w hw i hi j hj
          rw [alWO_flW (m := m) (flW s m X) w hw i hi j hj]
          unfold flW
          congr 1
          exact (alWO_flW (m := m) X w hw i hi j hj).symm
        rw [WO_congr c (flW_high Y) v hv i hi j hj]
        have := congrFun (congrFun (congrFun (WO_ng m s false true (flW s m (alWO X)) (flW s m (hiW s Y))) v) i) j
        refine this.trans ?_
        rw [Bool.false_xor, ih _ _ v hv i hi j hj]
      rw [e1, t1, t2]
      show _ = ng (par (s + 1) (v + 2 ^ s) ^^ (par m i ^^ par m j)) (WO m (s + 1) X Y (v + 2 ^ s) i j)
      rw [e1, par_top hv]
      unfold flW
      rw [ng_ng, ng_ng, ← ng_add, Bool.true_xor, Bool.not_xor]

/-! ### `reversal` twice -/

theorem iflO_iflO (m : Nat) (M : Nat → Nat → K) : MEq (2 ^ m) (2 ^ m) (iflO m (iflO m M)) M := by
  induction m generalizing M with
  | zero => exact MEq.rfl' _
  | succ m ih =>
    have hb : M = blk m M (q01 m M) (q10 m M) (q11 m M) := by
      funext i j
      unfold blk q01 q10 q11
      by_cases h1 : i < 2 ^ m <;> by_cases h2 : j < 2 ^ m
      · simp only [h1, h2, if_true]
      · simp only [h1, h2, if_true, if_false, Nat.sub_add_cancel (Nat.le_of_not_lt h2)]
      · simp only [h1, h2, if_true, if_false, Nat.sub_add_cancel (Nat.le_of_not_lt h1)]
      · simp only [h1, h2, if_false, Nat.sub_add_cancel (Nat.le_of_not_lt h1), Nat.sub_add_cancel (Nat.le_of_not_lt h2)]
    have e : ∀ X : Nat → Nat → K, MEq (2 ^ m) (2 ^ m) (iflO m (alM m (iflO m (alM m X)))) X := by
      intro X
      have h1 := iflO_congr (iflO_alM m (alM m X)).symm
      rw [alM_alM] at h1
      exact h1.trans (ih X)
    have h2 : MEq (2 ^ (m + 1)) (2 ^ (m + 1)) (iflO (m + 1) (iflO (m + 1) M)) (blk m M (q01 m M) (q10 m M) (q11 m M)) := by
      rw [iflO_succ m M]
      exact (iflO_blk m _ _ _ _).trans (blk_congr (e _) (e _) (e _) (e _))
    rw [← hb] at h2
    exact h2

theorem iflO_transpose (m : Nat) (M : Nat → Nat → K) : (fun i j => iflO m M j i) = iflO m (fun i j => M j i) := by
  induction m generalizing M with
  | zero => rfl
  | succ m ih =>
    have a : ∀ X : Nat → Nat → K, (fun i j => iflO m (alM m X) j i) = iflO m (alM m fun i j => X j i) := by
      intro X
      rw [ih]
      congr 1
      funext i j
      unfold alM
      rw [Bool.xor_comm]
    rw [iflO_succ, iflO_succ]
    have q1 : q11 m (fun i j => M j i) = fun i j => q11 m M j i := rfl
    have q2 : q10 m (fun i j => M j i) = fun i j => q01 m M j i := rfl
    have q3 : q01 m (fun i j => M j i) = fun i j => q10 m M j i := rfl
    rw [q1, q2, q3, ← a (q11 m M), ← a (q01 m M), ← a (q10 m M), ← a M]
    funext i j
    unfold blk
    split <;> split <;> rfl

theorem revO_congr (s w : Nat) {m : Nat} {M N : Nat → Nat → K} (h : MEq (2 ^ m) (2 ^ m) M N) : MEq (2 ^ m) (2 ^ m) (revO s m w M) (revO s m w N) := by
  have h1 : MEq (2 ^ m) (2 ^ m) (iflO m fun i j => M j i) (iflO m fun i j => N j i) := iflO_congr fun i hi j hj => h j hj i hi
  intro i hi j hj
  unfold revO
  rw [h1 i hi j hj, alM_congr h1 i hi j hj]

theorem revO_revO (s m w : Nat) (M : Nat → Nat → K) : MEq (2 ^ m) (2 ^ m) (revO s m w (revO s m w M)) M := by
  have c : ∀ (b : Bool) (X : Nat → Nat → K), iflO m (fun i j => ng b (X i j)) = fun i j => ng b (iflO m X i j) := by
    intro b X
    cases b
    · rfl
    · exact iflO_neg m X
  have hi : ∀ X : Nat → Nat → K, MEq (2 ^ m) (2 ^ m) (iflO m (fun i j => iflO m (fun i j => X j i) j i)) X := by
    intro X
    rw [iflO_transpose]
    exact iflO_iflO m X
  by_cases h : par s w = true
  · have e : ∀ N : Nat → Nat → K, revO s m w N = fun i j => ng (rb s w) (alM m (iflO m (fun i j => N j i)) i j) := by
      intro N; funext i j; unfold revO; rw [if_pos h]
    have e2 : (fun i j => alM m (iflO m fun i j => M j i) j i) = alM m (iflO m M) := by
      funext i j
      unfold alM
      rw [Bool.xor_comm, ← iflO_transpose]
    rw [e, e, c]
    intro i hi' j hj
    have e3 : alM m (iflO m (alM m (iflO m M))) i j = M i j := by
      rw [alM_congr (iflO_alM m (iflO m M)) i hi' j hj, alM_alM, iflO_iflO m M i hi' j hj]
    rw [e2]
    show ng (rb s w) (ng _ (ng (rb s w) _)) = _
    rw [ng_comm _ (rb s w), ng_self]
    exact e3
  · have e : ∀ N : Nat → Nat → K, revO s m w N = fun i j => ng (rb s w) (iflO m (fun i j => N j i) i j) := by
      intro N; funext i j; unfold revO; rw [if_neg h]
    rw [e, e, c]
    intro i hi' j hj
    beta_reduce
    rw [ng_self]
    exact hi M i hi' j hj

theorem revO_flp (s m w : Nat) (b : Bool) (M : Nat → Nat → K) :
    MEq (2 ^ m) (2 ^ m) (revO s m w fun i j => ng b (alM m M i j)) (fun i j => ng b (alM m (revO s m w M) i j)) := by
  have c : ∀ X : Nat → Nat → K, iflO m (fun i j => ng b (X i j)) = fun i j => ng b (iflO m X i j) := by
    intro X
    cases b
    · rfl
    · exact iflO_neg m X
  have e2 : (fun i j => alM m M j i) = alM m fun i j => M j i := by
    funext i j
    unfold alM
    rw [Bool.xor_comm]
  have h1 : MEq (2 ^ m) (2 ^ m) (iflO m fun i j => ng b (alM m M j i)) (fun i j => ng b (alM m (iflO m fun i j => M j i) i j)) := by
    rw [c, e2]
    intro i hi j hj
    beta_reduce
    rw [iflO_alM m _ i hi j hj]
  intro i hi j hj
  unfold revO
  beta_reduce
  by_cases h : par s w = true
  · rw [if_pos h, alM_congr h1 i hi j hj]
    unfold alM
    beta_reduce
    rw [if_pos h, ng_comm (par m i ^^ par m j) b, ng_comm (rb s w) b, ng_comm (par m i ^^ par m j) (rb s w)]
  · rw [if_neg h, h1 i hi j hj]
    unfold alM
    beta_reduce
    rw [if_neg h, ng_comm (rb s w) b, ng_comm (par m i ^^ par m j) (rb s w)]

end

end TClifford
