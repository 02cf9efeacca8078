import Verif.Proofs.FFTRepr
import Verif.Proofs.FloatMV
/-
The transform and the sign changes (reversal, grade involution, reflection of generators), for coefficients whose sums may be
rounded: only laws about signs are used, so that the equalities are exact for floating point numbers.
-/

set_option linter.unusedSectionVars false

namespace TClifford

/-- Laws of signs that hold for rounded sums and differences. -/
class SignLaws (K : Type) [Add K] [Sub K] [Neg K] : Prop where
  neg_neg : ∀ x : K, - -x = x
  neg_add : ∀ x y : K, -(x + y) = -x + -y
  neg_sub : ∀ x y : K, -(x - y) = -x - -y
  add_neg : ∀ x y : K, x + -y = x - y
  sub_neg : ∀ x y : K, x - -y = x + y
  add_comm : ∀ x y : K, x + y = y + x

/-- Sign change. -/
def ng {K : Type} [Neg K] (b : Bool) (x : K) : K := if b then -x else x

section
variable {K : Type} [Zero K] [Add K] [Sub K] [Neg K] [SignLaws K]

theorem ng_false (x : K) : ng false x = x := rfl
theorem ng_true (x : K) : ng true x = -x := rfl

theorem ng_ng (a b : Bool) (x : K) : ng a (ng b x) = ng (a ^^ b) x := by
  cases a <;> cases b <;> simp [ng, SignLaws.neg_neg]

theorem ng_self (a : Bool) (x : K) : ng a (ng a x) = x := by rw [ng_ng]; simp [ng]

theorem ng_comm (a b : Bool) (x : K) : ng a (ng b x) = ng b (ng a x) := by rw [ng_ng, ng_ng, Bool.xor_comm]

theorem ng_neg (a : Bool) (x : K) : ng a (-x) = -ng a x := ng_comm a true x

theorem ng_not (a : Bool) (x : K) : ng (!a) x = -ng a x := by rw [← ng_true, ng_ng]; simp

theorem ng_add (a : Bool) (x y : K) : ng a (x + y) = ng a x + ng a y := by
  cases a
  · rfl
  · exact SignLaws.neg_add x y

theorem ng_sub (a : Bool) (x y : K) : ng a (x - y) = ng a x - ng a y := by
  cases a
  · rfl
  · exact SignLaws.neg_sub x y

theorem neg_sub_neg' (x y : K) : -x - -y = -(x - y) := (SignLaws.neg_sub x y).symm

theorem sub_swap (x y : K) : x - y = -(y - x) := by
  rw [SignLaws.neg_sub, SignLaws.sub_neg, ← SignLaws.add_neg, SignLaws.add_comm]

theorem alpha_ng {m i j : Nat} (hi : i < 2 ^ m) (hj : j < 2 ^ m) (c : K) : alpha c i j = ng (par m i ^^ par m j) c := by
  unfold alpha
  rw [Nat.and_one_is_mod, countOnes_eq_cnt (Nat.xor_lt_two_pow hi hj), ← par_xor, par_eq]
  unfold ng
  by_cases h : cnt m (i ^^^ j) % 2 = 1 <;> simp [h]

theorem alpha_zero_ng {n k : Nat} (hk : k < 2 ^ n) (c : K) : alpha c k 0 = ng (par n k) c := by
  rw [alpha_ng hk (Nat.two_pow_pos n), par_zero, Bool.xor_false]

/-- Whether the reversal changes the sign. -/
def rb (n k : Nat) : Bool := decide (rsg n k = -1)

theorem sg_rb (n k : Nat) : sg (rb n k) = rsg n k := by
  unfold rb
  rcases MV.rsg_unit n k with h | h <;> rw [h] <;> rfl

theorem sg_inj {a b : Bool} (h : sg a = sg b) : a = b := by
  cases a <;> cases b <;> first | rfl | exact absurd h (by decide)

theorem rb_lo {n k : Nat} (hk : k < 2 ^ n) : rb (n + 1) k = rb n k := by unfold rb; rw [rsg_lo hk]

theorem rb_hi {n k : Nat} (hk : k < 2 ^ n) : rb (n + 1) (k + 2 ^ n) = (rb n k ^^ par n k) :=
  sg_inj (by rw [sg_xor, sg_rb, sg_rb, rsg_hi hk])

/-- Whether the transposition changes the sign. -/
def tb (m k : Nat) : Bool := rb (2 * m) k ^^ opar m k

theorem tb_00 {m k : Nat} (hk : k < 2 ^ (2 * m)) : tb (m + 1) k = tb m k := by
  unfold tb
  rw [show 2 * (m + 1) = 2 * m + 1 + 1 by ring, rb_lo (lt_four_pow hk), rb_lo hk, opar_00 hk]

theorem tb_01 {m k : Nat} (hk : k < 2 ^ (2 * m)) : tb (m + 1) (k + 2 ^ (2 * m)) = (par (2 * m) k ^^ tb m k) := by
  unfold tb
  rw [show 2 * (m + 1) = 2 * m + 1 + 1 by ring, rb_lo (add_two_pow_lt hk), rb_hi hk, opar_01 hk]
  cases rb (2 * m) k <;> cases par (2 * m) k <;> cases opar m k <;> rfl

theorem tb_10 {m k : Nat} (hk : k < 2 ^ (2 * m)) : tb (m + 1) (k + 2 ^ (2 * m + 1)) = !(par (2 * m) k ^^ tb m k) := by
  unfold tb
  rw [show 2 * (m + 1) = 2 * m + 1 + 1 by ring, rb_hi (lt_four_pow hk), rb_lo hk, opar_10 hk, par_succ,
    Nat.testBit_lt_two_pow hk, Bool.xor_false]
  cases rb (2 * m) k <;> cases par (2 * m) k <;> cases opar m k <;> rfl

theorem tb_11 {m k : Nat} (hk : k < 2 ^ (2 * m)) : tb (m + 1) (k + 2 ^ (2 * m) + 2 ^ (2 * m + 1)) = tb m k := by
  unfold tb
  rw [show 2 * (m + 1) = 2 * m + 1 + 1 by ring, rb_hi (add_two_pow_lt hk), rb_hi hk, opar_11 hk, par_succ,
    testBit_top hk, Bool.xor_true, par_add hk]
  cases rb (2 * m) k <;> cases par (2 * m) k <;> cases opar m k <;> rfl

theorem par_00 {m k : Nat} (hk : k < 2 ^ (2 * m)) : par (2 * (m + 1)) k = par (2 * m) k := by
  show par (2 * m + 1 + 1) k = _
  rw [par_succ, par_succ, Nat.testBit_lt_two_pow hk, Nat.testBit_lt_two_pow (lt_four_pow hk)]; simp

theorem par_01 {m k : Nat} (hk : k < 2 ^ (2 * m)) : par (2 * (m + 1)) (k + 2 ^ (2 * m)) = !par (2 * m) k := by
  show par (2 * m + 1 + 1) _ = _
  rw [par_succ, par_succ, Nat.testBit_lt_two_pow (add_two_pow_lt hk), testBit_top hk, par_add hk]; simp

theorem par_10 {m k : Nat} (hk : k < 2 ^ (2 * m)) : par (2 * (m + 1)) (k + 2 ^ (2 * m + 1)) = !par (2 * m) k := by
  show par (2 * m + 1 + 1) _ = _
  rw [par_succ, testBit_top (lt_four_pow hk), par_add (lt_four_pow hk), par_succ, Nat.testBit_lt_two_pow hk]; simp

theorem par_11 {m k : Nat} (hk : k < 2 ^ (2 * m)) : par (2 * (m + 1)) (k + 2 ^ (2 * m) + 2 ^ (2 * m + 1)) = par (2 * m) k := by
  show par (2 * m + 1 + 1) _ = _
  rw [par_succ, testBit_top (add_two_pow_lt hk), par_add (add_two_pow_lt hk), par_succ, testBit_top hk, par_add hk]; simp

/-- Entries of odd parity are negated. -/
def alM (m : Nat) (X : Nat → Nat → K) : Nat → Nat → K := fun i j => ng (par m i ^^ par m j) (X i j)

theorem alM_alM (m : Nat) (X : Nat → Nat → K) : alM m (alM m X) = X := by funext i j; exact ng_self _ _

theorem alM_congr {m r c : Nat} {X Y : Nat → Nat → K} (h : MEq r c X Y) : MEq r c (alM m X) (alM m Y) :=
  fun i hi j hj => by unfold alM; rw [h i hi j hj]

theorem cnnO_alM (m : Nat) (x : Nat → K) : MEq (2 ^ (m + 1)) (2 ^ (m + 1)) (cnnO (m + 1) x) (blk m
      (fun i j => cnnO m x i j + cnnO m (hi (2 * m) (hi (2 * m + 1) x)) i j)
      (alM m fun i j => cnnO m (hi (2 * m) x) i j + cnnO m (hi (2 * m + 1) x) i j)
      (fun i j => cnnO m (hi (2 * m) x) i j - cnnO m (hi (2 * m + 1) x) i j)
      (alM m fun i j => cnnO m x i j - cnnO m (hi (2 * m) (hi (2 * m + 1) x)) i j)) :=
  blk_congr (MEq.rfl' _) (fun _ hi _ hj => alpha_ng hi hj _) (MEq.rfl' _) (fun _ hi _ hj => alpha_ng hi hj _)

theorem par_top {m i : Nat} (hi : i < 2 ^ m) : par (m + 1) (i + 2 ^ m) = !par m i := by
  rw [par_succ, testBit_top hi, par_add hi]; simp

theorem par_low {m i : Nat} (hi : i < 2 ^ m) : par (m + 1) i = par m i := by
  rw [par_succ, Nat.testBit_lt_two_pow hi]; simp

theorem alM_blk (m : Nat) (A B C D : Nat → Nat → K) : MEq (2 ^ (m + 1)) (2 ^ (m + 1)) (alM (m + 1) (blk m A B C D))
    (blk m (alM m A) (fun i j => -alM m B i j) (fun i j => -alM m C i j) (alM m D)) := by
  intro i hi j hj
  rw [pow_succ] at hi hj
  unfold blk alM
  by_cases h1 : i < 2 ^ m <;> by_cases h2 : j < 2 ^ m
  · simp only [h1, h2, if_true, par_low]
  · obtain ⟨j, rfl⟩ := Nat.exists_eq_add_of_le' (Nat.le_of_not_lt h2)
    have hj' : j < 2 ^ m := by omega
    simp only [h1, h2, if_true, if_false, par_low, par_top hj', Nat.add_sub_cancel, Bool.xor_not, ng_not]
  · obtain ⟨i, rfl⟩ := Nat.exists_eq_add_of_le' (Nat.le_of_not_lt h1)
    have hi' : i < 2 ^ m := by omega
    simp only [h1, h2, if_true, if_false, par_low, par_top hi', Nat.add_sub_cancel, Bool.not_xor, ng_not]
  · obtain ⟨j, rfl⟩ := Nat.exists_eq_add_of_le' (Nat.le_of_not_lt h2)
    obtain ⟨i, rfl⟩ := Nat.exists_eq_add_of_le' (Nat.le_of_not_lt h1)
    have hi' : i < 2 ^ m := by omega
    have hj' : j < 2 ^ m := by omega
    simp only [h1, h2, if_false, par_top hi', par_top hj', Nat.add_sub_cancel, Bool.not_xor, Bool.xor_not, Bool.not_not]

theorem cnnO_neg (m : Nat) (x : Nat → K) : cnnO m (fun k => -x k) = fun i j => -cnnO m x i j := by
  induction m generalizing x with
  | zero => rfl
  | succ m ih =>
    have e : ∀ n (x : Nat → K), hi n (fun k => -x k) = fun k => -hi n x k := fun _ _ => rfl
    funext i j
    rw [cnnO_succ, cnnO_succ, e, e, e, ih, ih, ih, ih]
    unfold blk
    split
    · split
      · rw [SignLaws.neg_add]
      · simp only [alpha]
        split <;> simp only [SignLaws.neg_add, SignLaws.neg_neg]
    · split
      · rw [SignLaws.neg_sub]
      · simp only [alpha]
        split <;> simp only [SignLaws.neg_sub, SignLaws.neg_neg]

theorem cnnO_ng (m : Nat) (b : Bool) (x : Nat → K) : cnnO m (fun k => ng b (x k)) = fun i j => ng b (cnnO m x i j) := by
  cases b
  · rfl
  · exact cnnO_neg m x

/-- Grade involution. -/
theorem cnnO_flp (m : Nat) (x : Nat → K) :
    MEq (2 ^ m) (2 ^ m) (cnnO m (fun k => ng (par (2 * m) k) (x k))) (alM m (cnnO m x)) := by
  induction m generalizing x with
  | zero => intro i _ j _; rfl
  | succ m ih =>
    have e00 : cnnO m (fun k => ng (par (2 * (m + 1)) k) (x k)) = cnnO m (fun k => ng (par (2 * m) k) (x k)) :=
      cnnO_congr fun k hk => by simp only [par_00 hk]
    have e01 : cnnO m (hi (2 * m) fun k => ng (par (2 * (m + 1)) k) (x k)) =
        fun i j => -cnnO m (fun k => ng (par (2 * m) k) (hi (2 * m) x k)) i j := by
      rw [← cnnO_neg]
      exact cnnO_congr fun k hk => by simp only [hi, par_01 hk, ng_not]
    have e10 : cnnO m (hi (2 * m + 1) fun k => ng (par (2 * (m + 1)) k) (x k)) =
        fun i j => -cnnO m (fun k => ng (par (2 * m) k) (hi (2 * m + 1) x k)) i j := by
      rw [← cnnO_neg]
      exact cnnO_congr fun k hk => by simp only [hi, par_10 hk, ng_not]
    have e11 : cnnO m (hi (2 * m) (hi (2 * m + 1) fun k => ng (par (2 * (m + 1)) k) (x k))) =
        cnnO m (fun k => ng (par (2 * m) k) (hi (2 * m) (hi (2 * m + 1) x) k)) :=
      cnnO_congr fun k hk => by simp only [hi, par_11 hk]
    refine (cnnO_alM m _).trans (MEq.trans ?_ ((alM_congr (cnnO_alM m x)).trans (alM_blk m _ _ _ _)).symm)
    rw [e00, e01, e10, e11]
    refine blk_congr ?_ ?_ ?_ ?_
    · intro i hi j hj
      simp only [ih _ i hi j hj, alM, ng_add]
    · intro i hi j hj
      rw [alM_alM]
      simp only [alM, ih _ i hi j hj, ng_add, ng_neg, ng_self, SignLaws.neg_add]
    · intro i hi j hj
      simp only [ih _ i hi j hj, alM, ng_sub, neg_sub_neg']
    · intro i hi j hj
      rw [alM_alM]
      simp only [alM, ih _ i hi j hj, ng_sub, ng_self]

/-- Transposition. -/
theorem cnnO_transpose (m : Nat) (x : Nat → K) :
    MEq (2 ^ m) (2 ^ m) (cnnO m (fun k => ng (tb m k) (x k))) (fun i j => cnnO m x j i) := by
  induction m generalizing x with
  | zero => intro i _ j _; rfl
  | succ m ih =>
    have e00 : cnnO m (fun k => ng (tb (m + 1) k) (x k)) = cnnO m (fun k => ng (tb m k) (x k)) :=
      cnnO_congr fun k hk => by simp only [tb_00 hk]
    have e01 : cnnO m (hi (2 * m) fun k => ng (tb (m + 1) k) (x k)) =
        cnnO m (fun k => ng (par (2 * m) k) (ng (tb m k) (hi (2 * m) x k))) :=
      cnnO_congr fun k hk => by simp only [hi, tb_01 hk, ng_ng]
    have e10 : cnnO m (hi (2 * m + 1) fun k => ng (tb (m + 1) k) (x k)) =
        fun i j => -cnnO m (fun k => ng (par (2 * m) k) (ng (tb m k) (hi (2 * m + 1) x k))) i j := by
      rw [← cnnO_neg]
      exact cnnO_congr fun k hk => by simp only [hi, tb_10 hk, ng_ng, ng_not]
    have e11 : cnnO m (hi (2 * m) (hi (2 * m + 1) fun k => ng (tb (m + 1) k) (x k))) =
        cnnO m (fun k => ng (tb m k) (hi (2 * m) (hi (2 * m + 1) x) k)) :=
      cnnO_congr fun k hk => by simp only [hi, tb_11 hk]
    have ihf : ∀ x : Nat → K, MEq (2 ^ m) (2 ^ m) (cnnO m (fun k => ng (par (2 * m) k) (ng (tb m k) (x k)))) (alM m (fun i j => cnnO m x j i)) :=
      fun x => (cnnO_flp m _).trans (alM_congr (ih x))
    have ht : MEq (2 ^ (m + 1)) (2 ^ (m + 1)) (fun i j => cnnO (m + 1) x j i) (blk m
        (fun i j => cnnO m x j i + cnnO m (hi (2 * m) (hi (2 * m + 1) x)) j i)
        (fun i j => cnnO m (hi (2 * m) x) j i - cnnO m (hi (2 * m + 1) x) j i)
        (alM m fun i j => cnnO m (hi (2 * m) x) j i + cnnO m (hi (2 * m + 1) x) j i)
        (alM m fun i j => cnnO m x j i - cnnO m (hi (2 * m) (hi (2 * m + 1) x)) j i)) := by
      intro i hi j hj
      refine (cnnO_alM m x j hj i hi).trans ?_
      unfold blk alM
      split <;> split <;> simp only [Bool.xor_comm]
    refine (cnnO_alM m _).trans (MEq.trans ?_ ht.symm)
    rw [e00, e01, e10, e11]
    refine blk_congr ?_ ?_ ?_ ?_
    · intro i hi j hj
      simp only [ih _ i hi j hj]
    · intro i hi j hj
      simp only [alM, ihf _ i hi j hj, SignLaws.add_neg, ng_sub, ng_self]
    · intro i hi j hj
      simp only [alM, ihf _ i hi j hj, SignLaws.sub_neg, ng_add]
    · intro i hi j hj
      simp only [alM, ih _ i hi j hj]

/-! ### `imaginary_flip` -/

/-- The matrix operation of `imaginary_flip`. -/
def iflO : Nat → (Nat → Nat → K) → Nat → Nat → K
  | 0, M => M
  | m + 1, M => blk m (iflO m (alM m (q11 m M))) (iflO m (alM m (q10 m M))) (iflO m (alM m (q01 m M))) (iflO m (alM m M))

theorem iflO_succ (m : Nat) (M : Nat → Nat → K) : iflO (m + 1) M =
    blk m (iflO m (alM m (q11 m M))) (iflO m (alM m (q10 m M))) (iflO m (alM m (q01 m M))) (iflO m (alM m M)) := rfl

theorem iflO_congr {m : Nat} {M N : Nat → Nat → K} (h : MEq (2 ^ m) (2 ^ m) M N) : MEq (2 ^ m) (2 ^ m) (iflO m M) (iflO m N) := by
  induction m generalizing M N with
  | zero => exact h
  | succ m ih =>
    have hp : 2 ^ (m + 1) = 2 ^ m + 2 ^ m := by rw [pow_succ]; omega
    rw [hp] at h
    rw [iflO_succ, iflO_succ]
    refine blk_congr ?_ ?_ ?_ ?_
    · exact ih (alM_congr fun i hi j hj => h (i + 2 ^ m) (by omega) (j + 2 ^ m) (by omega))
    · exact ih (alM_congr fun i hi j hj => h (i + 2 ^ m) (by omega) j (by omega))
    · exact ih (alM_congr fun i hi j hj => h i (by omega) (j + 2 ^ m) (by omega))
    · exact ih (alM_congr fun i hi j hj => h i (by omega) j (by omega))

theorem quarters_blkO (m : Nat) (A B C D : Nat → Nat → K) : MEq (2 ^ m) (2 ^ m) (blk m A B C D) A ∧
    MEq (2 ^ m) (2 ^ m) (q01 m (blk m A B C D)) B ∧ MEq (2 ^ m) (2 ^ m) (q10 m (blk m A B C D)) C ∧
    MEq (2 ^ m) (2 ^ m) (q11 m (blk m A B C D)) D := by
  refine ⟨?_, ?_, ?_, ?_⟩ <;> intro i hi j hj <;> simp [q01, q10, q11, blk, hi, hj]

theorem iflO_blk (m : Nat) (A B C D : Nat → Nat → K) : MEq (2 ^ (m + 1)) (2 ^ (m + 1)) (iflO (m + 1) (blk m A B C D))
    (blk m (iflO m (alM m D)) (iflO m (alM m C)) (iflO m (alM m B)) (iflO m (alM m A))) := by
  obtain ⟨h1, h2, h3, h4⟩ := quarters_blkO m A B C D
  exact blk_congr (iflO_congr (alM_congr h4)) (iflO_congr (alM_congr h3)) (iflO_congr (alM_congr h2)) (iflO_congr (alM_congr h1))

theorem iflO_neg (m : Nat) (M : Nat → Nat → K) : iflO m (fun i j => -M i j) = fun i j => -iflO m M i j := by
  induction m generalizing M with
  | zero => rfl
  | succ m ih =>
    have a : ∀ X : Nat → Nat → K, alM m (fun i j => -X i j) = fun i j => -alM m X i j := by
      intro X; funext i j; exact ng_neg _ _
    have a1 : q01 m (fun i j => -M i j) = fun i j => -q01 m M i j := rfl
    have a2 : q10 m (fun i j => -M i j) = fun i j => -q10 m M i j := rfl
    have a3 : q11 m (fun i j => -M i j) = fun i j => -q11 m M i j := rfl
    rw [iflO_succ, iflO_succ, a1, a2, a3, a, a, a, a, ih, ih, ih, ih]
    funext i j
    unfold blk
    split <;> split <;> rfl

theorem iflO_op (op : K → K → K) (hop : ∀ a x y, ng a (op x y) = op (ng a x) (ng a y)) (m : Nat) (M N : Nat → Nat → K) :
    iflO m (fun i j => op (M i j) (N i j)) = fun i j => op (iflO m M i j) (iflO m N i j) := by
  induction m generalizing M N with
  | zero => rfl
  | succ m ih =>
    have a : ∀ X Y : Nat → Nat → K, alM m (fun i j => op (X i j) (Y i j)) = fun i j => op (alM m X i j) (alM m Y i j) := by
      intro X Y; funext i j; exact hop _ _ _
    have a1 : q01 m (fun i j => op (M i j) (N i j)) = fun i j => op (q01 m M i j) (q01 m N i j) := rfl
    have a2 : q10 m (fun i j => op (M i j) (N i j)) = fun i j => op (q10 m M i j) (q10 m N i j) := rfl
    have a3 : q11 m (fun i j => op (M i j) (N i j)) = fun i j => op (q11 m M i j) (q11 m N i j) := rfl
    rw [iflO_succ, a1, a2, a3, a, a, a, a, ih, ih, ih, ih, iflO_succ, iflO_succ]
    funext i j
    unfold blk
    split <;> split <;> rfl

theorem iflO_alM (m : Nat) (M : Nat → Nat → K) : MEq (2 ^ m) (2 ^ m) (iflO m (alM m M)) (alM m (iflO m M)) := by
  induction m generalizing M with
  | zero => intro i _ j _; rfl
  | succ m ih =>
    have hb : M = blk m M (q01 m M) (q10 m M) (q11 m M) := by
      funext i j
      unfold blk q01 q10 q11
      by_cases h1 : i < 2 ^ m <;> by_cases h2 : j < 2 ^ m
      · simp only [h1, h2, if_true]
      · simp only [h1, h2, if_true, if_false, Nat.sub_add_cancel (Nat.le_of_not_lt h2)]
      · simp only [h1, h2, if_true, if_false, Nat.sub_add_cancel (Nat.le_of_not_lt h1)]
      · simp only [h1, h2, if_false, Nat.sub_add_cancel (Nat.le_of_not_lt h1), Nat.sub_add_cancel (Nat.le_of_not_lt h2)]
    have e : MEq (2 ^ (m + 1)) (2 ^ (m + 1)) (alM (m + 1) M)
        (blk m (alM m M) (fun i j => -alM m (q01 m M) i j) (fun i j => -alM m (q10 m M) i j) (alM m (q11 m M))) := by
      have := alM_blk m M (q01 m M) (q10 m M) (q11 m M)
      rwa [← hb] at this
    refine (iflO_congr e).trans ((iflO_blk m _ _ _ _).trans ?_)
    rw [iflO_succ]
    refine MEq.trans ?_ (alM_blk m _ _ _ _).symm
    have an : ∀ X : Nat → Nat → K, alM m (fun i j => -X i j) = fun i j => -alM m X i j := by
      intro X; funext i j; exact ng_neg _ _
    simp only [an, iflO_neg, alM_alM]
    have : ∀ X : Nat → Nat → K, MEq (2 ^ m) (2 ^ m) (iflO m X) (alM m (iflO m (alM m X))) := by
      intro X
      have := alM_congr (m := m) (ih X)
      rw [alM_alM] at this
      exact this.symm
    refine blk_congr (this _) ?_ ?_ (this _)
    · intro i hi j hj; simp only [this _ i hi j hj]
    · intro i hi j hj; simp only [this _ i hi j hj]

theorem cnnO_ifl (m : Nat) (x : Nat → K) :
    MEq (2 ^ m) (2 ^ m) (cnnO m (fun k => ng (opar m k) (x k))) (iflO m (cnnO m x)) := by
  induction m generalizing x with
  | zero => intro i _ j _; rfl
  | succ m ih =>
    have e00 : cnnO m (fun k => ng (opar (m + 1) k) (x k)) = cnnO m (fun k => ng (opar m k) (x k)) :=
      cnnO_congr fun k hk => by simp only [opar_00 hk]
    have e01 : cnnO m (hi (2 * m) fun k => ng (opar (m + 1) k) (x k)) = cnnO m (fun k => ng (opar m k) (hi (2 * m) x k)) :=
      cnnO_congr fun k hk => by simp only [hi, opar_01 hk]
    have e10 : cnnO m (hi (2 * m + 1) fun k => ng (opar (m + 1) k) (x k)) =
        fun i j => -cnnO m (fun k => ng (opar m k) (hi (2 * m + 1) x k)) i j := by
      rw [← cnnO_neg]
      exact cnnO_congr fun k hk => by simp only [hi, opar_10 hk, ng_not]
    have e11 : cnnO m (hi (2 * m) (hi (2 * m + 1) fun k => ng (opar (m + 1) k) (x k))) =
        fun i j => -cnnO m (fun k => ng (opar m k) (hi (2 * m) (hi (2 * m + 1) x) k)) i j := by
      rw [← cnnO_neg]
      exact cnnO_congr fun k hk => by simp only [hi, opar_11 hk, ng_not]
    refine (cnnO_alM m _).trans (MEq.trans ?_ ((iflO_congr (cnnO_alM m x)).trans (iflO_blk m _ _ _ _)).symm)
    rw [e00, e01, e10, e11]
    refine blk_congr ?_ ?_ ?_ ?_
    · intro i hi j hj
      rw [alM_alM, iflO_op (· - ·) ng_sub]
      simp only [ih _ i hi j hj, SignLaws.add_neg]
    · refine MEq.trans ?_ (iflO_alM m _).symm
      refine alM_congr ?_
      intro i hi j hj
      rw [iflO_op (· - ·) ng_sub]
      simp only [ih _ i hi j hj, SignLaws.add_neg]
    · intro i hi j hj
      rw [alM_alM, iflO_op (· + ·) ng_add]
      simp only [ih _ i hi j hj, SignLaws.sub_neg]
    · refine MEq.trans ?_ (iflO_alM m _).symm
      refine alM_congr ?_
      intro i hi j hj
      rw [iflO_op (· + ·) ng_add]
      simp only [ih _ i hi j hj, SignLaws.sub_neg]

/-- Reversal is transposition followed by the reflection of the odd generators. -/
theorem cnnO_rev (m : Nat) (x : Nat → K) :
    MEq (2 ^ m) (2 ^ m) (cnnO m (fun k => ng (rb (2 * m) k) (x k))) (iflO m (fun i j => cnnO m x j i)) := by
  have e : (fun k => ng (rb (2 * m) k) (x k)) = fun k => ng (opar m k) (ng (tb m k) (x k)) := by
    funext k
    rw [ng_ng]
    unfold tb
    cases rb (2 * m) k <;> cases opar m k <;> rfl
  rw [e]
  exact (cnnO_ifl m _).trans (iflO_congr (cnnO_transpose m x))

end

/-- Laws of signs for products and quotients. -/
class SignMul (K : Type) [Neg K] [Mul K] [Div K] : Prop where
  neg_mul : ∀ x y : K, -x * y = -(x * y)
  mul_neg : ∀ x y : K, x * -y = -(x * y)
  neg_div : ∀ x y : K, -x / y = -(x / y)

section
variable {K : Type} [Zero K] [One K] [Add K] [Sub K] [Neg K] [Mul K] [Div K] [HasI K] [DecidableEq K] [SignLaws K] [SignMul K]

theorem ng_mul (b : Bool) (x y : K) : ng b x * y = ng b (x * y) := by
  cases b
  · rfl
  · exact SignMul.neg_mul x y

theorem mul_ng (b : Bool) (x y : K) : x * ng b y = ng b (x * y) := by
  cases b
  · rfl
  · exact SignMul.mul_neg x y

theorem ng_div (b : Bool) (x y : K) : ng b x / y = ng b (x / y) := by
  cases b
  · rfl
  · exact SignMul.neg_div x y

theorem ng_zero (h0 : -(0 : K) = 0) (b : Bool) : ng b (0 : K) = 0 := by
  cases b
  · rfl
  · exact h0

/-! ### The inverse transform -/

theorem icnnO_quarters (m : Nat) (M : Nat → Nat → K) {k : Nat} (hk : k < 2 ^ (2 * m)) :
    icnnO (m + 1) M k = (icnnO m M k + ng (par (2 * m) k) (icnnO m (q11 m M) k)) / (1 + 1) ∧
    icnnO (m + 1) M (k + 2 ^ (2 * m)) = (ng (par (2 * m) k) (icnnO m (q01 m M) k) + icnnO m (q10 m M) k) / (1 + 1) ∧
    icnnO (m + 1) M (k + 2 ^ (2 * m + 1)) = (ng (par (2 * m) k) (icnnO m (q01 m M) k) - icnnO m (q10 m M) k) / (1 + 1) ∧
    icnnO (m + 1) M (k + 2 ^ (2 * m) + 2 ^ (2 * m + 1)) = (icnnO m M k - ng (par (2 * m) k) (icnnO m (q11 m M) k)) / (1 + 1) := by
  have h1 : ¬ k + 2 ^ (2 * m) < 2 ^ (2 * m) := by omega
  have h2 : ¬ k + 2 ^ (2 * m + 1) < 2 ^ (2 * m + 1) := by omega
  have h3 : ¬ k + 2 ^ (2 * m) + 2 ^ (2 * m + 1) < 2 ^ (2 * m + 1) := by omega
  have az : ∀ c : K, alpha c k 0 = ng (par (2 * m) k) c := fun c => alpha_zero_ng hk c
  simp only [icnnO, jn, hk, lt_four_pow hk, add_two_pow_lt hk, if_true, h1, h2, h3, if_false, Nat.add_sub_cancel, az, and_self]

theorem four_cases {m : Nat} {P : Nat → Prop} (h : ∀ k < 2 ^ (2 * m), P k ∧ P (k + 2 ^ (2 * m)) ∧ P (k + 2 ^ (2 * m + 1)) ∧
    P (k + 2 ^ (2 * m) + 2 ^ (2 * m + 1))) {k : Nat} (hk : k < 2 ^ (2 * (m + 1))) : P k := by
  have h4 : 2 ^ (2 * (m + 1)) = 2 ^ (2 * m) + 2 ^ (2 * m) + 2 ^ (2 * m) + 2 ^ (2 * m) := by
    rw [show 2 * (m + 1) = 2 * m + 1 + 1 by ring, pow_succ, pow_succ]; ring
  have h2 : 2 ^ (2 * m + 1) = 2 ^ (2 * m) + 2 ^ (2 * m) := by rw [pow_succ]; ring
  rw [h4] at hk
  rw [h2] at h
  by_cases c1 : k < 2 ^ (2 * m)
  · exact (h k c1).1
  by_cases c2 : k < 2 ^ (2 * m) + 2 ^ (2 * m)
  · have := (h (k - 2 ^ (2 * m)) (by omega)).2.1
    rwa [Nat.sub_add_cancel (by omega)] at this
  by_cases c3 : k < 2 ^ (2 * m) + 2 ^ (2 * m) + 2 ^ (2 * m)
  · have := (h (k - (2 ^ (2 * m) + 2 ^ (2 * m))) (by omega)).2.2.1
    rwa [Nat.sub_add_cancel (by omega)] at this
  · have := (h (k - (2 ^ (2 * m) + (2 ^ (2 * m) + 2 ^ (2 * m)))) (by omega)).2.2.2
    rwa [Nat.add_assoc, Nat.sub_add_cancel (by omega)] at this

theorem four_lt {m k : Nat} (hk : k < 2 ^ (2 * m)) : k < 2 ^ (2 * (m + 1)) ∧ k + 2 ^ (2 * m) < 2 ^ (2 * (m + 1)) ∧
    k + 2 ^ (2 * m + 1) < 2 ^ (2 * (m + 1)) ∧ k + 2 ^ (2 * m) + 2 ^ (2 * m + 1) < 2 ^ (2 * (m + 1)) := by
  have h4 : 2 ^ (2 * (m + 1)) = 2 ^ (2 * m) + 2 ^ (2 * m) + 2 ^ (2 * m) + 2 ^ (2 * m) := by
    rw [show 2 * (m + 1) = 2 * m + 1 + 1 by ring, pow_succ, pow_succ]; ring
  have h2 : 2 ^ (2 * m + 1) = 2 ^ (2 * m) + 2 ^ (2 * m) := by rw [pow_succ]; ring
  omega

theorem icnnO_congr {m : Nat} {M N : Nat → Nat → K} (h : MEq (2 ^ m) (2 ^ m) M N) {k : Nat} (hk : k < 2 ^ (2 * m)) :
    icnnO m M k = icnnO m N k := by
  induction m generalizing M N k with
  | zero => exact h 0 (by norm_num) 0 (by norm_num)
  | succ m ih =>
    have hp : 2 ^ (m + 1) = 2 ^ m + 2 ^ m := by rw [pow_succ]; omega
    rw [hp] at h
    refine four_cases (P := fun k => icnnO (m + 1) M k = icnnO (m + 1) N k) (fun k hk => ?_) hk
    obtain ⟨a1, a2, a3, a4⟩ := icnnO_quarters m M hk
    obtain ⟨b1, b2, b3, b4⟩ := icnnO_quarters m N hk
    have c1 := ih (M := M) (N := N) (fun i hi j hj => h i (by omega) j (by omega)) hk
    have c2 := ih (M := q01 m M) (N := q01 m N) (fun i hi j hj => h i (by omega) (j + 2 ^ m) (by omega)) hk
    have c3 := ih (M := q10 m M) (N := q10 m N) (fun i hi j hj => h (i + 2 ^ m) (by omega) j (by omega)) hk
    have c4 := ih (M := q11 m M) (N := q11 m N) (fun i hi j hj => h (i + 2 ^ m) (by omega) (j + 2 ^ m) (by omega)) hk
    rw [a1, a2, a3, a4, b1, b2, b3, b4, c1, c2, c3, c4]
    exact ⟨rfl, rfl, rfl, rfl⟩

theorem icnnO_ng (m : Nat) (b : Bool) (M : Nat → Nat → K) {k : Nat} (hk : k < 2 ^ (2 * m)) :
    icnnO m (fun i j => ng b (M i j)) k = ng b (icnnO m M k) := by
  induction m generalizing M k with
  | zero => rfl
  | succ m ih =>
    refine four_cases (P := fun k => icnnO (m + 1) (fun i j => ng b (M i j)) k = ng b (icnnO (m + 1) M k)) (fun k hk => ?_) hk
    obtain ⟨a1, a2, a3, a4⟩ := icnnO_quarters m (fun i j => ng b (M i j)) hk
    obtain ⟨b1, b2, b3, b4⟩ := icnnO_quarters m M hk
    have c1 := ih M hk
    have c2 : icnnO m (q01 m fun i j => ng b (M i j)) k = ng b (icnnO m (q01 m M) k) := ih (q01 m M) hk
    have c3 : icnnO m (q10 m fun i j => ng b (M i j)) k = ng b (icnnO m (q10 m M) k) := ih (q10 m M) hk
    have c4 : icnnO m (q11 m fun i j => ng b (M i j)) k = ng b (icnnO m (q11 m M) k) := ih (q11 m M) hk
    rw [a1, a2, a3, a4, b1, b2, b3, b4, c1, c2, c3, c4]
    have cm : ∀ x : K, ng (par (2 * m) k) (ng b x) = ng b (ng (par (2 * m) k) x) := fun x => ng_comm _ _ x
    simp only [cm, ← ng_add, ← ng_sub, ng_div, and_self]

theorem icnnO_alM (m : Nat) (M : Nat → Nat → K) {k : Nat} (hk : k < 2 ^ (2 * m)) :
    icnnO m (alM m M) k = ng (par (2 * m) k) (icnnO m M k) := by
  induction m generalizing M k with
  | zero => rfl
  | succ m ih =>
    refine four_cases (P := fun k => icnnO (m + 1) (alM (m + 1) M) k = ng (par (2 * (m + 1)) k) (icnnO (m + 1) M k)) (fun k hk => ?_) hk
    have hb : M = blk m M (q01 m M) (q10 m M) (q11 m M) := by
      funext i j
      unfold blk q01 q10 q11
      by_cases h1 : i < 2 ^ m <;> by_cases h2 : j < 2 ^ m
      · simp only [h1, h2, if_true]
      · simp only [h1, h2, if_true, if_false, Nat.sub_add_cancel (Nat.le_of_not_lt h2)]
      · simp only [h1, h2, if_true, if_false, Nat.sub_add_cancel (Nat.le_of_not_lt h1)]
      · simp only [h1, h2, if_false, Nat.sub_add_cancel (Nat.le_of_not_lt h1), Nat.sub_add_cancel (Nat.le_of_not_lt h2)]
    have e : MEq (2 ^ (m + 1)) (2 ^ (m + 1)) (alM (m + 1) M)
        (blk m (alM m M) (fun i j => -alM m (q01 m M) i j) (fun i j => -alM m (q10 m M) i j) (alM m (q11 m M))) := by
      have := alM_blk m M (q01 m M) (q10 m M) (q11 m M)
      rwa [← hb] at this
    obtain ⟨e1, e2, e3, e4⟩ := quarters_blkO m (alM m M) (fun i j => -alM m (q01 m M) i j) (fun i j => -alM m (q10 m M) i j) (alM m (q11 m M))
    have hc : ∀ k < 2 ^ (2 * (m + 1)), icnnO (m + 1) (alM (m + 1) M) k =
      icnnO (m + 1) (blk m (alM m M) (fun i j => -alM m (q01 m M) i j) (fun i j => -alM m (q10 m M) i j) (alM m (q11 m M))) k := fun k hk => icnnO_congr e hk
    have lt := fun (k : Nat) (hk : k < 2 ^ (2 * m)) => four_lt hk
    obtain ⟨l1, l2, l3, l4⟩ := lt k hk
    obtain ⟨a1, a2, a3, a4⟩ := icnnO_quarters m (blk m (alM m M) (fun i j => -alM m (q01 m M) i j) (fun i j => -alM m (q10 m M) i j) (alM m (q11 m M))) hk
    obtain ⟨b1, b2, b3, b4⟩ := icnnO_quarters m M hk
    have c2 : icnnO m (fun i j => -alM m (q01 m M) i j) k = -ng (par (2 * m) k) (icnnO m (q01 m M) k) := by
      rw [← ih _ hk]; exact icnnO_ng m true _ hk
    have c3 : icnnO m (fun i j => -alM m (q10 m M) i j) k = -ng (par (2 * m) k) (icnnO m (q10 m M) k) := by
      rw [← ih _ hk]; exact icnnO_ng m true _ hk
    rw [hc _ l1, hc _ l2, hc _ l3, hc _ l4, a1, a2, a3, a4, b1, b2, b3, b4, icnnO_congr e1 hk, icnnO_congr e2 hk, icnnO_congr e3 hk,
      icnnO_congr e4 hk, c2, c3, ih _ hk, ih _ hk, par_00 hk, par_01 hk, par_10 hk, par_11 hk]
    simp only [ng_not, ng_neg, ← ng_add, ← ng_sub, ← SignLaws.neg_add, ← SignLaws.neg_sub, ng_div, SignMul.neg_div, and_self]

theorem icnnO_rev (m : Nat) (M : Nat → Nat → K) {k : Nat} (hk : k < 2 ^ (2 * m)) :
    icnnO m (iflO m (fun i j => M j i)) k = ng (rb (2 * m) k) (icnnO m M k) := by
  induction m generalizing M k with
  | zero => rfl
  | succ m ih =>
    refine four_cases (P := fun k => icnnO (m + 1) (iflO (m + 1) fun i j => M j i) k = ng (rb (2 * (m + 1)) k) (icnnO (m + 1) M k)) (fun k hk => ?_) hk
    have t : ∀ X : Nat → Nat → K, (alM m fun i j => X j i) = fun i j => alM m X j i := by
      intro X; funext i j; unfold alM; rw [Bool.xor_comm]
    have ih' : ∀ X : Nat → Nat → K, icnnO m (iflO m (alM m fun i j => X j i)) k = ng (rb (2 * m) k) (ng (par (2 * m) k) (icnnO m X k)) := by
      intro X
      rw [t, ih (alM m X) hk, icnnO_alM m X hk]
    obtain ⟨e1, e2, e3, e4⟩ := quarters_blkO m (iflO m (alM m (q11 m fun i j => M j i))) (iflO m (alM m (q10 m fun i j => M j i)))
      (iflO m (alM m (q01 m fun i j => M j i))) (iflO m (alM m fun i j => M j i))
    rw [iflO_succ]
    obtain ⟨a1, a2, a3, a4⟩ := icnnO_quarters m (blk m (iflO m (alM m (q11 m fun i j => M j i))) (iflO m (alM m (q10 m fun i j => M j i)))
      (iflO m (alM m (q01 m fun i j => M j i))) (iflO m (alM m fun i j => M j i))) hk
    obtain ⟨b1, b2, b3, b4⟩ := icnnO_quarters m M hk
    have c1 : icnnO m (iflO m (alM m (q11 m fun i j => M j i))) k = ng (rb (2 * m) k) (ng (par (2 * m) k) (icnnO m (q11 m M) k)) := ih' (q11 m M)
    have c2 : icnnO m (iflO m (alM m (q10 m fun i j => M j i))) k = ng (rb (2 * m) k) (ng (par (2 * m) k) (icnnO m (q01 m M) k)) := ih' (q01 m M)
    have c3 : icnnO m (iflO m (alM m (q01 m fun i j => M j i))) k = ng (rb (2 * m) k) (ng (par (2 * m) k) (icnnO m (q10 m M) k)) := ih' (q10 m M)
    have r1 : rb (2 * (m + 1)) k = rb (2 * m) k := by
      rw [show 2 * (m + 1) = 2 * m + 1 + 1 by ring, rb_lo (lt_four_pow hk), rb_lo hk]
    have r2 : rb (2 * (m + 1)) (k + 2 ^ (2 * m)) = (rb (2 * m) k ^^ par (2 * m) k) := by
      rw [show 2 * (m + 1) = 2 * m + 1 + 1 by ring, rb_lo (add_two_pow_lt hk), rb_hi hk]
    have r3 : rb (2 * (m + 1)) (k + 2 ^ (2 * m + 1)) = (rb (2 * m) k ^^ par (2 * m) k) := by
      rw [show 2 * (m + 1) = 2 * m + 1 + 1 by ring, rb_hi (lt_four_pow hk), rb_lo hk, par_succ, Nat.testBit_lt_two_pow hk, Bool.xor_false]
    have r4 : rb (2 * (m + 1)) (k + 2 ^ (2 * m) + 2 ^ (2 * m + 1)) = !rb (2 * m) k := by
      rw [show 2 * (m + 1) = 2 * m + 1 + 1 by ring, rb_hi (add_two_pow_lt hk), rb_hi hk, par_succ, testBit_top hk, Bool.xor_true, par_add hk]
      cases rb (2 * m) k <;> cases par (2 * m) k <;> rfl
    rw [a1, a2, a3, a4, b1, b2, b3, b4, icnnO_congr e1 hk, icnnO_congr e2 hk, icnnO_congr e3 hk, icnnO_congr e4 hk, c1, c2, c3, ih' M,
      r1, r2, r3, r4]
    refine ⟨?_, ?_, ?_, ?_⟩
    · rw [ng_comm (par (2 * m) k) (rb (2 * m) k), ng_self, ← ng_add, ng_div, SignLaws.add_comm]
    · rw [ng_comm (par (2 * m) k) (rb (2 * m) k), ng_self, ← ng_add, ng_div, ← ng_ng, ← ng_div (par (2 * m) k), ng_add, ng_self]
    · rw [ng_comm (par (2 * m) k) (rb (2 * m) k), ng_self, ← ng_sub, ng_div, ← ng_ng, ← ng_div (par (2 * m) k), ng_sub, ng_self]
    · rw [ng_comm (par (2 * m) k) (rb (2 * m) k), ng_self, ← ng_sub, ng_div, sub_swap, SignMul.neg_div, ng_neg, ng_not]

/-! ### Layers -/

variable [CoeffLaws K]

theorem rb_split {p s r w : Nat} (hr : r < 2 ^ p) :
    rb (p + s) (r + w * 2 ^ p) = (rb s w ^^ ((par s w && par p r) ^^ rb p r)) :=
  sg_inj (by rw [sg_xor, sg_xor, sg_rb, sg_rb, sg_rb, rsg_split hr])

theorem pscO_ng (h0 : -(0 : K) = 0) (n : Nat) (b : Nat → Bool) (x : Nat → K) :
    pscO n (fun k => ng (b k) (x k)) = fun k => ng (b k) (pscO n x k) := by
  funext k
  unfold pscO
  split
  · exact ng_mul _ _ _
  · exact (ng_zero h0 _).symm

theorem ctrO_ng_congr (h0 : -(0 : K) = 0) {m n : Nat} {b c : Nat → Bool} (x : Nat → K) (h : ∀ k < 2 ^ n, b k = c k) :
    ctrO m n (fun k => ng (b k) (x k)) = cnnO m (fun k => ng (c k) (pscO n x k)) := by
  rw [← pscO_ng h0]
  exact ctrO_congr fun k hk => by rw [h k hk]

theorem par_of_lt {p q k : Nat} (hk : k < 2 ^ p) (h : p ≤ q) : par q k = par p k := by
  obtain ⟨d, rfl⟩ := Nat.exists_eq_add_of_le h
  induction d with
  | zero => rfl
  | succ d ih =>
    rw [← Nat.add_assoc, par_low (lt_of_lt_of_le hk (Nat.pow_le_pow_right (by norm_num) (Nat.le_add_right _ _))), ih (Nat.le_add_right _ _)]

theorem rb_of_lt {p q k : Nat} (hk : k < 2 ^ p) (h : p ≤ q) : rb q k = rb p k := by
  obtain ⟨d, rfl⟩ := Nat.exists_eq_add_of_le h
  induction d with
  | zero => rfl
  | succ d ih =>
    rw [← Nat.add_assoc, rb_lo (lt_of_lt_of_le hk (Nat.pow_le_pow_right (by norm_num) (Nat.le_add_right _ _))), ih (Nat.le_add_right _ _)]

/-- What `FFTRepr::rev` does to a layer. -/
def revO (s m w : Nat) (M : Nat → Nat → K) : Nat → Nat → K := fun i j =>
  ng (rb s w) (if par s w = true then alM m (iflO m (fun i j => M j i)) i j else iflO m (fun i j => M j i) i j)

theorem FLO_flp (h0 : -(0 : K) = 0) {m p : Nat} (hp : p ≤ 2 * m) (s : Nat) (f : Nat → K) (w : Nat) :
    MEq (2 ^ m) (2 ^ m) (FLO m p (fun k => ng (par (p + s) k) (f k)) w) (fun i j => ng (par s w) (alM m (FLO m p f w) i j)) := by
  have e : FLO m p (fun k => ng (par (p + s) k) (f k)) w =
      fun i j => ng (par s w) (cnnO m (fun k => ng (par (2 * m) k) (pscO p (lay p f w) k)) i j) := by
    rw [← cnnO_ng]
    unfold FLO
    rw [show lay p (fun k => ng (par (p + s) k) (f k)) w = fun r => ng (par (p + s) (r + w * 2 ^ p)) (lay p f w r) from rfl,
      ctrO_ng_congr h0 (c := fun k => par s w ^^ par (2 * m) k)]
    · congr 1; funext k; rw [ng_ng]
    · intro k hk
      rw [par_split hk, par_of_lt hk hp, Bool.xor_comm]
  rw [e]
  intro i hi j hj
  beta_reduce
  rw [cnnO_flp m _ i hi j hj]
  rfl

theorem FLO_rev (h0 : -(0 : K) = 0) {m p : Nat} (hp : p ≤ 2 * m) (s : Nat) (f : Nat → K) (w : Nat) :
    MEq (2 ^ m) (2 ^ m) (FLO m p (fun k => ng (rb (p + s) k) (f k)) w) (revO s m w (FLO m p f w)) := by
  have e : FLO m p (fun k => ng (rb (p + s) k) (f k)) w =
      fun i j => ng (rb s w) (cnnO m (fun k => ng (par s w && par (2 * m) k) (ng (rb (2 * m) k) (pscO p (lay p f w) k))) i j) := by
    rw [← cnnO_ng]
    unfold FLO
    rw [show lay p (fun k => ng (rb (p + s) k) (f k)) w = fun r => ng (rb (p + s) (r + w * 2 ^ p)) (lay p f w r) from rfl,
      ctrO_ng_congr h0 (c := fun k => rb s w ^^ ((par s w && par (2 * m) k) ^^ rb (2 * m) k))]
    · congr 1; funext k; rw [ng_ng, ng_ng, Bool.xor_assoc]
    · intro k hk
      rw [rb_split hk, par_of_lt hk hp, rb_of_lt hk hp]
  rw [e]
  intro i hi j hj
  show ng (rb s w) _ = ng (rb s w) _
  refine congrArg (ng (rb s w)) ?_
  by_cases h : par s w = true
  · rw [if_pos h, h]
    simp only [Bool.true_and]
    exact ((cnnO_flp m _).trans (alM_congr (cnnO_rev m _))) i hi j hj
  · rw [if_neg h, Bool.eq_false_iff.mpr h]
    simp only [Bool.false_and, ng_false]
    exact cnnO_rev m _ i hi j hj

theorem imaginaryFlipInplace_ops (m : Nat) (M : Arr2 K) (hr : M.rows = 2 ^ m) (hc : M.cols = 2 ^ m) :
    (imaginaryFlipInplace M).rows = 2 ^ m ∧ (imaginaryFlipInplace M).cols = 2 ^ m ∧
    MEq (2 ^ m) (2 ^ m) (imaginaryFlipInplace M).get (iflO m M.get) := by
  induction m generalizing M with
  | zero =>
    unfold imaginaryFlipInplace
    rw [dif_pos (by simp [Arr2.size, hr, hc])]
    exact ⟨hr, hc, MEq.rfl' _⟩
  | succ m ih =>
    have hp : 2 ^ (m + 1) = 2 ^ m + 2 ^ m := by rw [pow_succ]; ring
    have hpos := Nat.two_pow_pos m
    have hsz : ¬ M.size ≤ 1 := by
      unfold Arr2.size
      rw [hr, hc, two_pow_mul_self]
      have : 2 ^ 1 < 2 ^ (2 * (m + 1)) := Nat.pow_lt_pow_right (by norm_num) (by omega)
      omega
    have h1 : M.rows / 2 = 2 ^ m := by omega
    have h2 : M.cols / 2 = 2 ^ m := by omega
    unfold imaginaryFlipInplace
    rw [dif_neg hsz]
    simp only [h1, h2]
    refine ⟨?_, ?_, ?_⟩
    · simp only [Arr2.joinQuarters, Arr2.quarters]; omega
    · simp only [Arr2.joinQuarters, Arr2.quarters]; omega
    · have key : ∀ (r c : Nat) (g : Nat → Nat → K) (X : Nat → Nat → K), r = 2 ^ m → c = 2 ^ m → MEq (2 ^ m) (2 ^ m) g (alM m X) →
          MEq (2 ^ m) (2 ^ m) (imaginaryFlipInplace (⟨r, c, g⟩ : Arr2 K)).get (iflO m (alM m X)) := by
        intro r c g X h3 h4 h5
        exact (ih ⟨r, c, g⟩ h3 h4).2.2.trans (iflO_congr h5)
      have put : ∀ (X g : Nat → Nat → K), MEq (2 ^ m) (2 ^ m)
          (fun i j => if i < 2 ^ m ∧ j < 2 ^ m then alpha (X i j) i j else g i j) (alM m X) := by
        intro X g i hi j hj
        simp only [hi, hj, and_self, if_true]
        exact alpha_ng hi hj _
      have ka := key _ _ _ _ rfl rfl (put (q11 m M.get) M.get)
      have kb := key (2 ^ m) (M.cols - 2 ^ m) _ _ rfl (by omega) (put (q10 m M.get) (fun i j => M.get i (j + 2 ^ m)))
      have kc := key (M.rows - 2 ^ m) (2 ^ m) _ _ (by omega) rfl (put (q01 m M.get) (fun i j => M.get (i + 2 ^ m) j))
      have kd := key (M.rows - 2 ^ m) (M.cols - 2 ^ m) _ _ (by omega) (by omega) (put M.get (fun i j => M.get (i + 2 ^ m) (j + 2 ^ m)))
      intro i hi j hj
      rw [hp] at hi hj
      rw [iflO_succ]
      simp only [Arr2.joinQuarters, Arr2.quarters, blk]
      by_cases h3 : i < 2 ^ m <;> by_cases h4 : j < 2 ^ m
      · simp only [h3, h4, if_true]
        exact ka i h3 j h4
      · simp only [h3, h4, if_true, if_false]
        exact kb i h3 _ (by omega)
      · simp only [h3, h4, if_true, if_false]
        exact kc _ (by omega) j h4
      · simp only [h3, h4, if_false]
        exact kd _ (by omega) _ (by omega)

theorem revLayer_ops {s m w : Nat} (hm : m < 64) (hw : w < 2 ^ s) (M : Arr2 K) (hr : M.rows = 2 ^ m) (hc : M.cols = 2 ^ m) :
    ∃ v, FFTRepr.revLayer w M = .ok v ∧ v.rows = 2 ^ m ∧ v.cols = 2 ^ m ∧ MEq (2 ^ m) (2 ^ m) v.get (revO s m w M.get) := by
  obtain ⟨f1, f2, f3⟩ := imaginaryFlipInplace_ops m M.transpose hc hr
  have e : reversal M = .ok (imaginaryFlipInplace M.transpose) := by
    unfold reversal imaginaryFlip
    rw [badSquare_false (m := m) hc hr hm]; rfl
  have hx : ∀ {i j : Nat}, i < 2 ^ m → j < 2 ^ m → (countOnes (i ^^^ j) % 2 = 1 ↔ (par m i ^^ par m j) = true) := by
    intro i j hi hj
    rw [countOnes_eq_cnt (Nat.xor_lt_two_pow hi hj), ← par_xor, par_eq]; simp
  have hx' : ∀ {i j : Nat}, i < 2 ^ m → j < 2 ^ m → (countOnes (i ^^^ j) % 2 = 0 ↔ (par m i ^^ par m j) = false) := by
    intro i j hi hj
    rw [countOnes_eq_cnt (Nat.xor_lt_two_pow hi hj), ← par_xor, par_eq]
    simp
  unfold FFTRepr.revLayer revO
  rw [e]
  simp only [unwrap, bind, Except.bind]
  have hrb : rb s w = decide (¬ (countOnes w % 4 = 0 ∨ countOnes w % 4 = 1)) := by
    unfold rb; rw [rsg_eq, countOnes_eq_cnt hw]
    split <;> simp_all
  have hpw : par s w = decide (countOnes w % 4 % 2 = 1) := by
    rw [par_eq, countOnes_eq_cnt hw, Nat.mod_mod_of_dvd _ (by norm_num)]
  rw [hrb, hpw]
  have hc4 : countOnes w % 4 < 4 := Nat.mod_lt _ (by norm_num)
  revert hc4
  generalize countOnes w % 4 = c
  intro hc4
  interval_cases c
  · refine ⟨_, rfl, f1, f2, fun i hi j hj => ?_⟩
    exact f3 i hi j hj
  · refine ⟨_, rfl, f1, f2, fun i hi j hj => ?_⟩
    dsimp only
    rw [f3 i hi j hj]
    show _ = alM m (iflO m M.transpose.get) i j
    unfold alM ng
    by_cases h : (par m i ^^ par m j) = true
    · rw [if_pos ((hx hi hj).mpr h), if_pos h]
    · rw [if_neg (fun h' => h ((hx hi hj).mp h')), if_neg h]
  · refine ⟨_, rfl, f1, f2, fun i hi j hj => ?_⟩
    dsimp only
    rw [f3 i hi j hj]; rfl
  · refine ⟨_, rfl, f1, f2, fun i hi j hj => ?_⟩
    dsimp only
    rw [f3 i hi j hj]
    show _ = -alM m (iflO m M.transpose.get) i j
    unfold alM ng
    by_cases h : (par m i ^^ par m j) = true
    · rw [if_neg (fun h' => by rw [(hx' hi hj).mp h'] at h; cases h), if_pos h, SignLaws.neg_neg]
    · rw [if_pos ((hx' hi hj).mpr (Bool.eq_false_iff.mpr h)), if_neg h]

variable {A : ClAlg}

theorem rev_ops (hA : A.WF) (hd : A.dim < 63) {r : FFTRepr A K} (hI : r.arr.Is A.projDim A.half) :
    ∃ t, r.rev = .ok t ∧ t.arr.Is A.projDim A.half ∧
      WEq A.projDim A.half t.arr.get (fun w => revO A.projDim A.half w (r.arr.get w)) := by
  obtain ⟨y, h1, h2, h3⟩ := range_foldlM
    (P := fun n (arr : Arr3 K) => arr.Is A.projDim A.half ∧
      ∀ w < n, MEq (2 ^ A.half) (2 ^ A.half) (arr.get w) (revO A.projDim A.half w (r.arr.get w)))
    (f := fun (arr : Arr3 K) i => do
      let v ← FFTRepr.revLayer i (r.arr.layer i)
      if i < arr.d0 ∧ v.rows = arr.d1 ∧ v.cols = arr.d2 then return arr.setLayer i v else .error .panic)
    r.arr.d0 (FFTRepr.zero : FFTRepr A K).arr
    ⟨⟨wcount_eq hA hd, matrixSide_eq hA hd, matrixSide_eq hA hd⟩, fun w hw => absurd hw (by omega)⟩ (by
      intro i hi x hx
      rw [hI.1] at hi
      obtain ⟨v, e1, e2, e3, e4⟩ := revLayer_ops (s := A.projDim) (m := A.half) (by have := half_le hA; omega) hi (r.arr.layer i) hI.2.1 hI.2.2
      obtain ⟨⟨x0, x1, x2⟩, hx'⟩ := hx
      rw [e1]
      refine ⟨x.setLayer i v, if_pos ⟨by rw [x0]; exact hi, e2.trans x1.symm, e3.trans x2.symm⟩, ⟨x0, x1, x2⟩, ?_⟩
      intro w hw
      show MEq _ _ (if w = i then v.get else x.get w) _
      by_cases h : w = i
      · subst h
        rw [if_pos rfl]
        exact e4
      · rw [if_neg h]; exact hx' w (by omega))
  refine ⟨⟨y⟩, ?_, h2, ?_⟩
  · unfold FFTRepr.rev
    simp only []
    rw [h1]; rfl
  · rw [hI.1] at h3; exact h3

theorem flip_ops {r : FFTRepr A K} (hI : r.arr.Is A.projDim A.half) :
    r.flip.arr.Is A.projDim A.half ∧
      WEq A.projDim A.half r.flip.arr.get (fun w i j => ng (par A.projDim w) (alM A.half (r.arr.get w) i j)) := by
  refine ⟨hI, fun w hw i hi j hj => ?_⟩
  show (if (countOnes w + countOnes (i ^^^ j)) &&& 1 = 1 then -r.arr.get w i j else r.arr.get w i j) = _
  show _ = ng (par A.projDim w) (ng (par A.half i ^^ par A.half j) (r.arr.get w i j))
  rw [ng_ng, Nat.and_one_is_mod, countOnes_eq_cnt hw, countOnes_eq_cnt (Nat.xor_lt_two_pow hi hj), ← par_xor, par_eq, par_eq]
  unfold ng
  rcases Nat.mod_two_eq_zero_or_one (cnt A.projDim w) with h | h <;>
    rcases Nat.mod_two_eq_zero_or_one (cnt A.half (i ^^^ j)) with h' | h' <;> simp [Nat.add_mod, h, h']

end

end TClifford
