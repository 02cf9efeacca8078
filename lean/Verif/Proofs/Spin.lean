import Verif.Proofs.Generic
import Verif.Proofs.HalfSpin
import Mathlib.LinearAlgebra.Matrix.ToLin
/-
The half-spin representations: every matrix occurs, so they are irreducible.
-/

set_option linter.unusedSectionVars false

namespace TClifford

open Finset

variable {K : Type} [Field K] [DecidableEq K] [ImagUnit K]

local notation "𝐢" => (HasI.I : K)

/-- The blocks of the matrix of `x` with rows and columns of parity `q`. -/
def hs (m n q : Nat) (x : Nat → K) : Nat → Nat → K := fun i j => ctr m n x (nth q i) (nth q j)

/-- Even elements. -/
def EvenFn (n : Nat) (x : Nat → K) : Prop := ∀ k < 2 ^ n, countOnes k % 2 = 1 → x k = 0

/-- The even part. -/
def evPart (x : Nat → K) : Nat → K := fun k => if countOnes k % 2 = 0 then x k else 0

theorem evPart_even (n : Nat) (x : Nat → K) : EvenFn n (evPart x) := fun k _ h => if_neg (by omega)

theorem nth_lt {q c m : Nat} (h : c < 2 ^ m) : nth q c < 2 ^ (m + 1) := by
  rw [pow_succ, mul_comm]; exact nth_lt_two_mul.mpr h

theorem hs_evPart (h2 : (2 : K) ≠ 0) {m n q : Nat} (hq : q < 2) (hn : n ≤ 2 * (m + 1)) (x : Nat → K) :
    MEq (2 ^ m) (2 ^ m) (hs (m + 1) n q (evPart x)) (hs (m + 1) n q x) := by
  intro i hi j hj
  have := ctr_odd h2 hn (x := x - evPart x) (fun k hk h => by rw [Pi.sub_apply, evPart, if_pos h, sub_self])
    (nth_lt (q := q) hi) (nth_lt (q := q) hj) (by rw [countOnes_nth hq, countOnes_nth hq])
  rw [ctr_sub] at this
  exact (sub_eq_zero.mp this).symm

theorem hs_mul (h2 : (2 : K) ≠ 0) {m n q : Nat} (hm : 2 * (m + 1) ≤ 64) (hq : q < 2) (hn : n ≤ 2 * (m + 1)) {x : Nat → K}
    (hx : EvenFn n x) (y : Nat → K) :
    MEq (2 ^ m) (2 ^ m) (hs (m + 1) n q (geo (fun _ => 1) n x y)) (mm m (hs (m + 1) n q x) (hs (m + 1) n q y)) := by
  intro i hi j hj
  unfold hs mm
  rw [ctr_geo hm hn _ _ _ (nth_lt hi) _ (nth_lt hj)]
  unfold mm
  rw [pow_succ, mul_comm (2 ^ m) 2, sum_pairs (q := q)]
  intro k hk hne
  rw [ctr_even h2 hn hx (nth_lt hi) (by rw [pow_succ]; omega) (by rw [countOnes_nth hq]; exact fun h => hne h.symm), zero_mul]

theorem ctr_sum (m n : Nat) (x : Nat → K) (i j : Nat) :
    ctr m n x i j = ∑ k ∈ range (2 ^ n), x k * ctr m n (single k 1) i j := by
  have h : ∀ N, ctr m n (fun k => if k < N then x k else 0) i j = ∑ k ∈ range N, x k * ctr m n (single k 1) i j := by
    intro N
    induction N with
    | zero =>
      have : (fun k => if k < 0 then x k else 0) = (0 : Nat → K) := by funext k; simp
      rw [this, ctr_zero]; simp
    | succ N ih =>
      have : (fun k => if k < N + 1 then x k else 0) = (fun k => if k < N then x k else 0) + fun k => single N 1 k * x N := by
        funext k
        show _ = (if k < N then x k else 0) + (if k = N then (1 : K) else 0) * x N
        rcases lt_trichotomy k N with h | h | h
        · rw [if_pos (by omega), if_pos h, if_neg (by omega)]; ring
        · subst h; simp
        · rw [if_neg (by omega), if_neg (by omega), if_neg (by omega)]; ring
      rw [this, ctr_add, Pi.add_apply, Pi.add_apply, ih, sum_range_succ, ctr_smul]
      ring
  rw [← h, ctr_congr (y := fun k => if k < 2 ^ n then x k else 0) (fun k hk => (if_pos hk).symm)]

theorem hs_sum (m n q : Nat) (x : Nat → K) (i j : Nat) :
    hs m n q x i j = ∑ k ∈ range (2 ^ n), x k * hs m n q (single k 1) i j := ctr_sum m n x _ _

theorem nth_div_two (q c : Nat) : nth q c / 2 = c := by unfold nth; omega

/-- With an even number of generators, every pair of matrices occurs. -/
theorem hs_onto_pair (h2 : (2 : K) ≠ 0) (m : Nat) (X : Nat → Nat → Nat → K) :
    ∃ x, EvenFn (2 * (m + 1)) x ∧ ∀ q < 2, MEq (2 ^ m) (2 ^ m) (hs (m + 1) (2 * (m + 1)) q x) (X q) := by
  refine ⟨evPart (ictr (m + 1) (fun r c => X (countOnes r % 2) (r / 2) (c / 2))), evPart_even _ _, fun q hq i hi j hj => ?_⟩
  rw [hs_evPart h2 hq (le_refl _) _ i hi j hj]
  unfold hs
  rw [ctr_ictr h2 (m + 1) _ _ (nth_lt hi) _ (nth_lt hj), countOnes_nth hq, nth_div_two, nth_div_two]

theorem countOnes_add_two_pow {q r : Nat} (hr : r < 2 ^ q) : countOnes (r + 2 ^ q) = countOnes r + 1 := by
  have h : r + 2 ^ q < 2 ^ (q + 1) := by rw [pow_succ]; omega
  rw [countOnes_eq_cnt h, countOnes_eq_cnt hr, cnt_succ, testBit_add_two_pow hr]
  congr 1
  · refine cnt_congr fun i hi => ?_
    rw [testBit_add_two_pow hr, decide_eq_false (by omega), Bool.xor_false]
  · rw [Nat.testBit_lt_two_pow hr]; simp

/-- With an odd number of generators, every matrix occurs in each of the two representations. -/
theorem hs_onto_odd (h2 : (2 : K) ≠ 0) {m q : Nat} (hq : q < 2) (X : Nat → Nat → K) :
    ∃ x, EvenFn (2 * m + 1) x ∧ MEq (2 ^ m) (2 ^ m) (hs (m + 1) (2 * m + 1) q x) X := by
  let F : Nat → Nat → K := fun r c => X (r / 2) (c / 2)
  let A : Nat → Nat → K := fun i j => if countOnes i % 2 = q then F i j else F (i + 2 ^ m) (j + 2 ^ m)
  let B : Nat → Nat → K := fun i j => if countOnes i % 2 = q then -F i (j + 2 ^ m) else F (i + 2 ^ m) j
  obtain ⟨g, hg⟩ := ctr_blk_odd h2 m A B
  refine ⟨evPart g, evPart_even _ _, fun i hi j hj => ?_⟩
  rw [hs_evPart h2 hq (by omega) g i hi j hj]
  have hr := nth_lt (q := q) hi
  have hc := nth_lt (q := q) hj
  unfold hs
  rw [hg _ hr _ hc]
  have er := countOnes_nth hq i
  have ec := countOnes_nth hq j
  have hF : F (nth q i) (nth q j) = X i j := by
    show X _ _ = _
    rw [nth_div_two, nth_div_two]
  rw [← hF]
  generalize nth q i = r at *
  generalize nth q j = c at *
  have hp2 : 2 ^ (m + 1) = 2 ^ m + 2 ^ m := by rw [pow_succ]; ring
  rw [hp2] at hr hc
  have hpar : ∀ z, z < 2 ^ m → (par m z = decide (countOnes z % 2 = 1)) := fun z hz => by rw [par_eq, countOnes_eq_cnt hz]
  have hodd : ∀ z, 2 ^ m ≤ z → z < 2 ^ m + 2 ^ m → countOnes z = countOnes (z - 2 ^ m) + 1 := fun z h1 h3 => by
    have := countOnes_add_two_pow (q := m) (r := z - 2 ^ m) (by omega)
    rwa [Nat.sub_add_cancel h1] at this
  unfold blk al
  split <;> split
  · show (if _ then _ else _) = _
    rw [if_pos er]
  · rename_i h1 h3
    have := hodd c (by omega) hc
    have e1 : B r (c - 2 ^ m) = -F r c := by
      show (if _ then _ else _) = _
      rw [if_pos er, Nat.sub_add_cancel (by omega)]
    rw [e1, hpar r h1, hpar _ (by omega)]
    have : (decide (countOnes r % 2 = 1) ^^ decide (countOnes (c - 2 ^ m) % 2 = 1)) = true := by
      by_cases h : countOnes r % 2 = 1 <;> simp [h] <;> omega
    rw [this]; simp
  · rename_i h1 h3
    have := hodd r (by omega) hr
    show (if _ then _ else _) = _
    rw [if_neg (by omega), Nat.sub_add_cancel (by omega)]
  · rename_i h1 h3
    have e2 := hodd r (by omega) hr
    have e3 := hodd c (by omega) hc
    have e1 : A (r - 2 ^ m) (c - 2 ^ m) = F r c := by
      show (if _ then _ else _) = _
      rw [if_neg (by omega), Nat.sub_add_cancel (by omega), Nat.sub_add_cancel (by omega)]
    rw [e1, hpar _ (by omega), hpar _ (by omega)]
    have : (decide (countOnes (r - 2 ^ m) % 2 = 1) ^^ decide (countOnes (c - 2 ^ m) % 2 = 1)) = false := by
      have : countOnes (r - 2 ^ m) % 2 = countOnes (c - 2 ^ m) % 2 := by omega
      rw [this]; simp
    rw [this]; simp

/-- Every matrix occurs in each of the two representations. -/
theorem hs_onto (h2 : (2 : K) ≠ 0) {m n q : Nat} (hn : n = 2 * (m + 1) ∨ n = 2 * m + 1) (hq : q < 2) (X : Nat → Nat → K) :
    ∃ x, EvenFn n x ∧ MEq (2 ^ m) (2 ^ m) (hs (m + 1) n q x) X := by
  rcases hn with rfl | rfl
  · obtain ⟨x, h1, h3⟩ := hs_onto_pair h2 m (fun _ => X)
    exact ⟨x, h1, h3 q hq⟩
  · exact hs_onto_odd h2 hq X

/-! ### Invariant subspaces -/

/-- A matrix acting on a column. -/
def act {N : Nat} (X : Nat → Nat → K) (v : Fin N → K) : Fin N → K := fun r => ∑ c : Fin N, X r c * v c

theorem act_congr {N : Nat} {X Y : Nat → Nat → K} (h : MEq N N X Y) (v : Fin N → K) : act X v = act Y v := by
  funext r
  exact sum_congr rfl fun c _ => by rw [h r r.2 c c.2]

theorem act_mm {m : Nat} (X Y : Nat → Nat → K) (v : Fin (2 ^ m) → K) : act (mm m X Y) v = act X (act Y v) := by
  funext r
  unfold act mm
  simp only [sum_mul, mul_sum]
  rw [sum_comm, ← Fin.sum_univ_eq_sum_range (fun k => ∑ c : Fin (2 ^ m), X r k * Y k c * v c)]
  exact sum_congr rfl fun k _ => sum_congr rfl fun c _ => by ring

theorem act_smul {N : Nat} (a : K) (X : Nat → Nat → K) (v : Fin N → K) : act (fun i j => a * X i j) v = a • act X v := by
  funext r
  show ∑ c, _ = a * ∑ c, _
  rw [mul_sum]
  exact sum_congr rfl fun c _ => by ring

theorem act_sum {N : Nat} {ι : Type} (s : Finset ι) (X : ι → Nat → Nat → K) (v : Fin N → K) :
    act (fun i j => ∑ k ∈ s, X k i j) v = ∑ k ∈ s, act (X k) v := by
  funext r
  rw [Finset.sum_apply]
  unfold act
  simp only [sum_mul]
  rw [sum_comm]

/-- Subspaces that are invariant under all matrices. -/
theorem invariant_all {N : Nat} {W : Submodule K (Fin N → K)} (h : ∀ X : Nat → Nat → K, ∀ v ∈ W, act X v ∈ W) : W = ⊥ ∨ W = ⊤ := by
  rcases eq_or_ne W ⊥ with h0 | h0
  · exact .inl h0
  · right
    obtain ⟨v, hv, hv0⟩ := Submodule.exists_mem_ne_zero_of_ne_bot h0
    obtain ⟨j, hj⟩ : ∃ j, v j ≠ 0 := by
      by_contra hc
      push Not at hc
      exact hv0 (funext hc)
    rw [eq_top_iff]
    intro w _
    have := h (fun r c => if hr : r < N then (if c = j then w ⟨r, hr⟩ / v j else 0) else 0) v hv
    convert this using 1
    funext r
    show w r = ∑ c : Fin N, _
    rw [Finset.sum_eq_single j]
    · show w r = (if hr : _ then _ else _) * _
      rw [dif_pos r.2, if_pos rfl, div_mul_cancel₀ _ hj]
    · intro c _ hc
      show (if hr : (r : Nat) < N then (if (c : Nat) = j then w ⟨r, hr⟩ / v j else 0) else 0) * _ = 0
      rw [dif_pos r.2, if_neg (fun e => hc (Fin.ext e)), zero_mul]
    · exact fun h => absurd (mem_univ _) h

/-- Numbers with an even number of ones are built up from pairs of ones. -/
theorem even_induction {n : Nat} {P : Nat → Prop} (h0 : P 0)
    (hs : ∀ i j k, j < i → i < n → k < 2 ^ j → countOnes k % 2 = 0 → P k → P (2 ^ i ^^^ 2 ^ j ^^^ k)) :
    ∀ k < 2 ^ n, countOnes k % 2 = 0 → P k := by
  intro k
  induction k using Nat.strong_induction_on with
  | _ k ih =>
    intro hk he
    rcases Nat.eq_zero_or_pos k with hz | hpos
    · rw [hz]; exact h0
    · obtain ⟨i, hi1, hi2⟩ : ∃ i, 2 ^ i ≤ k ∧ k < 2 ^ (i + 1) := ⟨Nat.log2 k, Nat.log2_self_le hpos.ne', Nat.lt_log2_self⟩
      have hin : i < n := by
        by_contra h
        have := Nat.pow_le_pow_right (show 0 < 2 by norm_num) (show n ≤ i by omega)
        omega
      have hp2 : 2 ^ (i + 1) = 2 ^ i + 2 ^ i := by rw [pow_succ]; ring
      have c1 := countOnes_add_two_pow (q := i) (r := k - 2 ^ i) (by omega)
      rw [Nat.sub_add_cancel hi1] at c1
      have hpos' : 0 < k - 2 ^ i := by
        rcases Nat.eq_zero_or_pos (k - 2 ^ i) with h | h
        · rw [h, countOnes_zero] at c1; omega
        · exact h
      obtain ⟨j, hj1, hj2⟩ : ∃ j, 2 ^ j ≤ k - 2 ^ i ∧ k - 2 ^ i < 2 ^ (j + 1) :=
        ⟨Nat.log2 (k - 2 ^ i), Nat.log2_self_le hpos'.ne', Nat.lt_log2_self⟩
      have hp2' : 2 ^ (j + 1) = 2 ^ j + 2 ^ j := by rw [pow_succ]; ring
      have hji : j < i := by
        by_contra h
        have := Nat.pow_le_pow_right (show 0 < 2 by norm_num) (show i ≤ j by omega)
        omega
      have c2 := countOnes_add_two_pow (q := j) (r := k - 2 ^ i - 2 ^ j) (by omega)
      rw [Nat.sub_add_cancel hj1] at c2
      have hl : k - 2 ^ i - 2 ^ j < 2 ^ j := by omega
      have hkk := hs i j (k - 2 ^ i - 2 ^ j) hji hin hl (by omega) (ih _ (by omega) (by omega) (by omega))
      have e1 := two_pow_xor (q := j) hl
      have e2 := two_pow_xor (q := i) (r := k - 2 ^ i) (by omega)
      rw [Nat.sub_add_cancel hj1] at e1
      rw [Nat.sub_add_cancel hi1] at e2
      rwa [Nat.xor_assoc, Nat.xor_comm (2 ^ j), e1, Nat.xor_comm, e2] at hkk

theorem single_even {n k : Nat} (hk : countOnes k % 2 = 0) (c : K) : EvenFn n (single k c) := fun l _ h =>
  if_neg (fun e => by subst e; omega)

theorem single_eq (k : Nat) (c : K) : (single k c : Nat → K) = fun l => single k 1 l * c := by
  funext l
  unfold single
  split <;> simp

theorem hs_single (m n q k : Nat) (c : K) (i j : Nat) : hs m n q (single k c) i j = c * hs m n q (single k 1) i j := by
  unfold hs
  rw [single_eq, ctr_smul, mul_comm]

theorem countOnes_pair {i j : Nat} (h : j < i) : countOnes (2 ^ i ^^^ 2 ^ j) % 2 = 0 := by
  have hlt : 2 ^ j < 2 ^ i := Nat.pow_lt_pow_right (by norm_num) h
  rw [Nat.xor_comm, two_pow_xor hlt, countOnes_add_two_pow hlt]
  have := countOnes_add_two_pow (q := j) (r := 0) (Nat.two_pow_pos j)
  rw [zero_add, countOnes_zero] at this
  rw [this]

theorem fn_sum {n : Nat} {Q : (Nat → K) → Prop} (hcongr : ∀ x y, (∀ k < 2 ^ n, x k = y k) → Q x → Q y) (h0 : Q 0)
    (hadd : ∀ x y, Q x → Q y → Q (x + y)) {x : Nat → K} (hx : ∀ k < 2 ^ n, Q (single k (x k))) : Q x := by
  have h : ∀ N ≤ 2 ^ n, Q (fun k => if k < N then x k else 0) := by
    intro N hN
    induction N with
    | zero =>
      have : (fun k => if k < 0 then x k else 0) = (0 : Nat → K) := by funext k; simp
      rwa [this]
    | succ N ih =>
      have : (fun k => if k < N + 1 then x k else 0) = (fun k => if k < N then x k else 0) + single N (x N) := by
        funext k
        show _ = (if k < N then x k else 0) + (if k = N then x N else 0)
        rcases lt_trichotomy k N with h | h | h
        · rw [if_pos (by omega), if_pos h, if_neg (by omega)]; ring
        · subst h; simp
        · rw [if_neg (by omega), if_neg (by omega), if_neg (by omega)]; ring
      rw [this]
      exact hadd _ _ (ih (by omega)) (hx N (by omega))
  exact hcongr _ _ (fun k hk => if_pos hk) (h _ le_rfl)

/-- A property of all even elements, from the blades. -/
theorem even_span {n : Nat} {Q : (Nat → K) → Prop} (hcongr : ∀ x y, (∀ k < 2 ^ n, x k = y k) → Q x → Q y)
    (hadd : ∀ x y, Q x → Q y → Q (x + y)) (hsm : ∀ (a : K) x, Q x → Q (fun k => x k * a))
    (hb : ∀ k < 2 ^ n, countOnes k % 2 = 0 → Q (single k 1)) {x : Nat → K} (hx : EvenFn n x) : Q x := by
  have h0 : Q 0 := by
    have := hsm 0 _ (hb 0 (Nat.two_pow_pos n) (by rw [countOnes_zero]))
    refine hcongr _ _ (fun k _ => by simp) this
  refine fn_sum hcongr h0 hadd fun k hk => ?_
  by_cases he : countOnes k % 2 = 0
  · rw [single_eq]
    exact hsm _ _ (hb k hk he)
  · rw [hx k hk (by omega)]
    refine hcongr _ _ (fun l _ => ?_) h0
    unfold single; simp

/-- A property of all even elements, from the products of two generators. -/
theorem even_gen {n : Nat} {Q : (Nat → K) → Prop} (hcongr : ∀ x y, (∀ k < 2 ^ n, x k = y k) → Q x → Q y)
    (hadd : ∀ x y, Q x → Q y → Q (x + y)) (hsm : ∀ (a : K) x, Q x → Q (fun k => x k * a)) (h1 : Q (single 0 1))
    (hmul : ∀ i j y, j < i → i < n → Q y → Q (geo (fun _ => 1) n (single (2 ^ i ^^^ 2 ^ j) 1) y)) {x : Nat → K}
    (hx : EvenFn n x) : Q x := by
  refine even_span hcongr hadd hsm (even_induction h1 fun i j k hji hin hk he hPk => ?_) hx
  have hlt : 2 ^ i ^^^ 2 ^ j < 2 ^ n := Nat.xor_lt_two_pow (Nat.pow_lt_pow_right (by norm_num) hin)
    (Nat.pow_lt_pow_right (by norm_num) (by omega))
  have hk' : k < 2 ^ n := lt_of_lt_of_le hk (Nat.pow_le_pow_right (by norm_num) (by omega))
  have e := hmul i j _ hji hin hPk
  have hg : geo (fun _ => 1) n (single (2 ^ i ^^^ 2 ^ j) (1 : K)) (single k 1) =
      single (2 ^ i ^^^ 2 ^ j ^^^ k) (bsgn (fun _ => 1) n (2 ^ i ^^^ 2 ^ j) k • (1 : K)) := by
    funext l
    rw [geo_single_single _ hlt, mul_one]
  rw [hg] at e
  rcases mul_self_eq_one_iff.mp (bsgn_plus_sq n (2 ^ i ^^^ 2 ^ j) k) with h | h <;> rw [h] at e
  · rwa [one_smul] at e
  · have := hsm (-1) _ e
    refine hcongr _ _ (fun r _ => ?_) this
    rw [single_eq _ ((-1 : ℤ) • (1 : K))]
    simp

theorem hs_one {m n q : Nat} : MEq (2 ^ m) (2 ^ m) (hs (m + 1) n q (single 0 1 : Nat → K)) idm := by
  intro r hr c hc
  unfold hs
  rw [ctr_one (m + 1) n _ (nth_lt hr) _ (nth_lt hc)]
  unfold idm
  by_cases h : r = c
  · rw [if_pos h, if_pos (by rw [h])]
  · rw [if_neg h, if_neg (fun hc => h (nth_injective hc))]

theorem hs_add (m n q : Nat) (x y : Nat → K) : hs m n q (x + y) = hs m n q x + hs m n q y := by
  unfold hs; rw [ctr_add]; rfl

theorem hs_smul (m n q : Nat) (x : Nat → K) (a : K) : hs m n q (fun k => x k * a) = fun i j => a * hs m n q x i j := by
  unfold hs; rw [ctr_smul]
  funext i j
  exact mul_comm _ _

theorem hs_congr {m n q : Nat} {x y : Nat → K} (h : ∀ k < 2 ^ n, x k = y k) : hs m n q x = hs m n q y := by
  unfold hs; rw [ctr_congr h]

theorem act_add {N : Nat} (X Y : Nat → Nat → K) (v : Fin N → K) : act (X + Y) v = act X v + act Y v := by
  funext r
  show ∑ c : Fin N, (X r c + Y r c) * v c = ∑ c : Fin N, X r c * v c + ∑ c : Fin N, Y r c * v c
  rw [← sum_add_distrib]
  exact sum_congr rfl fun c _ => add_mul _ _ _

theorem act_idm {N : Nat} (v : Fin N → K) : act idm v = v := by
  funext r
  show ∑ c : Fin N, idm (r : Nat) c * v c = v r
  rw [Finset.sum_eq_single r]
  · unfold idm; rw [if_pos rfl, one_mul]
  · intro c _ hc
    unfold idm; rw [if_neg (fun e => hc (Fin.ext e.symm)), zero_mul]
  · exact fun h => absurd (mem_univ _) h

/-- Subspaces that are invariant under the products of two generators are trivial. -/
theorem hs_irreducible (h2 : (2 : K) ≠ 0) {m n q : Nat} (hm : 2 * (m + 1) ≤ 64) (hq : q < 2) (hn : n = 2 * (m + 1) ∨ n = 2 * m + 1)
    {W : Submodule K (Fin (2 ^ m) → K)}
    (hW : ∀ i j, j < i → i < n → ∀ v ∈ W, act (hs (m + 1) n q (single (2 ^ i ^^^ 2 ^ j) 1)) v ∈ W) : W = ⊥ ∨ W = ⊤ := by
  have hn' : n ≤ 2 * (m + 1) := by omega
  refine invariant_all fun X v hv => ?_
  obtain ⟨x, hx, hX⟩ := hs_onto h2 hn hq X
  rw [← act_congr hX]
  revert v
  refine even_gen (n := n) (Q := fun x => ∀ v ∈ W, act (hs (m + 1) n q x) v ∈ W) ?_ ?_ ?_ ?_ ?_ hx
  · intro x y h hx v hv
    rw [← hs_congr h]; exact hx v hv
  · intro x y hx hy v hv
    rw [hs_add, act_add]
    exact W.add_mem (hx v hv) (hy v hv)
  · intro a x hx v hv
    rw [hs_smul, act_smul]
    exact W.smul_mem _ (hx v hv)
  · intro v hv
    rwa [act_congr hs_one, act_idm]
  · intro i j y hji hin hy v hv
    rw [act_congr (hs_mul h2 hm hq hn' (single_even (countOnes_pair hji) 1) y), act_mm]
    exact hW i j hji hin _ (hy v hv)

/-! ### Intertwiners -/

theorem mm_idm (m : Nat) (X : Nat → Nat → K) : MEq (2 ^ m) (2 ^ m) (mm m X idm) X := fun i _ j hj => by
  unfold mm idm
  rw [Finset.sum_eq_single j]
  · rw [if_pos rfl, mul_one]
  · intro c _ hc; rw [if_neg hc, mul_zero]
  · exact fun h => absurd (mem_range.mpr hj) h

theorem idm_mm (m : Nat) (X : Nat → Nat → K) : MEq (2 ^ m) (2 ^ m) (mm m idm X) X := fun i hi j _ => by
  unfold mm idm
  rw [Finset.sum_eq_single i]
  · rw [if_pos rfl, one_mul]
  · intro c _ hc; rw [if_neg (Ne.symm hc), zero_mul]
  · exact fun h => absurd (mem_range.mpr hi) h

/-- In even dimension no non-zero matrix intertwines the two representations. -/
theorem hs_inequivalent (h2 : (2 : K) ≠ 0) {m : Nat} (hm : 2 * (m + 1) ≤ 64) {P : Nat → Nat → K}
    (hP : ∀ i j, j < i → i < 2 * (m + 1) →
      MEq (2 ^ m) (2 ^ m) (mm m P (hs (m + 1) (2 * (m + 1)) 0 (single (2 ^ i ^^^ 2 ^ j) 1)))
        (mm m (hs (m + 1) (2 * (m + 1)) 1 (single (2 ^ i ^^^ 2 ^ j) 1)) P)) :
    MEq (2 ^ m) (2 ^ m) P 0 := by
  have key : ∀ x, EvenFn (2 * (m + 1)) x → MEq (2 ^ m) (2 ^ m) (mm m P (hs (m + 1) (2 * (m + 1)) 0 x))
      (mm m (hs (m + 1) (2 * (m + 1)) 1 x) P) := by
    intro x hx
    refine even_gen (n := 2 * (m + 1)) (Q := fun x => MEq (2 ^ m) (2 ^ m) (mm m P (hs (m + 1) (2 * (m + 1)) 0 x))
      (mm m (hs (m + 1) (2 * (m + 1)) 1 x) P)) ?_ ?_ ?_ ?_ ?_ hx
    · intro x y h hx
      rwa [← hs_congr h, ← hs_congr h]
    · intro x y hx hy i hi j hj
      have e1 := hx i hi j hj
      have e2 := hy i hi j hj
      rw [hs_add, hs_add, mm_add_left, mm_add_right, Pi.add_apply, Pi.add_apply, Pi.add_apply, Pi.add_apply, e1, e2]
    · intro a x hx i hi j hj
      have e1 := hx i hi j hj
      rw [hs_smul, hs_smul]
      unfold mm at *
      simp only [mul_assoc, mul_left_comm _ a, ← mul_sum]
      rw [e1]
    · intro i hi j hj
      rw [mm_congr (MEq.rfl' _) hs_one i hi j hj, mm_congr hs_one (MEq.rfl' _) i hi j hj, mm_idm _ _ i hi j hj, idm_mm _ _ i hi j hj]
    · intro a b y hba han hy
      have he := single_even (n := 2 * (m + 1)) (countOnes_pair hba) (1 : K)
      refine MEq.trans (mm_congr (MEq.rfl' _) (hs_mul h2 hm (by norm_num) le_rfl he y)) ?_
      refine MEq.trans ?_ (mm_congr (hs_mul h2 hm (by norm_num) le_rfl he y) (MEq.rfl' _)).symm
      rw [← mm_assoc, mm_assoc _ _ _ P]
      refine MEq.trans (mm_congr (hP a b hba han) (MEq.rfl' _)) ?_
      rw [mm_assoc]
      exact mm_congr (MEq.rfl' _) hy
  obtain ⟨x, hx, hX⟩ := hs_onto_pair h2 m (fun q => if q = 0 then idm else 0)
  have e := key x hx
  have h0 := hX 0 (by norm_num)
  have h1 := hX 1 (by norm_num)
  rw [if_pos rfl] at h0
  rw [if_neg (by norm_num)] at h1
  refine MEq.trans (mm_idm m P).symm (MEq.trans (mm_congr (MEq.rfl' _) h0).symm (MEq.trans e (MEq.trans (mm_congr h1 (MEq.rfl' _)) ?_)))
  intro i _ j _
  unfold mm
  simp

theorem ctr_pad {m n : Nat} (x : Nat → K) : ctr m n x = ctr m (2 * m) (pad n x) := by
  unfold ctr
  refine cnn_congr fun k hk => ?_
  unfold psc
  have : pad (2 * m) (pad n x) k = pad n x k := if_pos hk
  rw [this]

/-- In odd dimension the two representations are equivalent: the next generator intertwines them. -/
theorem hs_equivalent (h2 : (2 : K) ≠ 0) {m : Nat} (hm : 2 * (m + 1) ≤ 64) : ∃ P P' : Nat → Nat → K,
    MEq (2 ^ m) (2 ^ m) (mm m P P') idm ∧ MEq (2 ^ m) (2 ^ m) (mm m P' P) idm ∧
    ∀ x, EvenFn (2 * m + 1) x →
      MEq (2 ^ m) (2 ^ m) (mm m P (hs (m + 1) (2 * m + 1) 0 x)) (mm m (hs (m + 1) (2 * m + 1) 1 x) P) := by
  let N := 2 * m + 1
  have hN : 2 * (m + 1) = N + 1 := by omega
  let e : Nat → K := single (2 ^ N) 1
  have hlt : 2 ^ N < 2 ^ (N + 1) := Nat.pow_lt_pow_right (by norm_num) (by omega)
  have hce : countOnes (2 ^ N) = 1 := by
    have := countOnes_add_two_pow (q := N) (r := 0) (Nat.two_pow_pos N)
    rwa [zero_add, countOnes_zero, zero_add] at this
  have hodd : ∀ {r c : Nat}, r < 2 ^ (m + 1) → c < 2 ^ (m + 1) → countOnes r % 2 = countOnes c % 2 →
      ctr (m + 1) (N + 1) e r c = 0 := fun hr hc h =>
    ctr_odd h2 (by omega) (fun k _ hk => if_neg (fun h => by subst h; omega)) hr hc h
  have hgeo := fun x y => ctr_geo (K := K) (m := m + 1) (n := N + 1) hm (by omega) x y
  let R : Nat → Nat → Nat → Nat → K := fun p q i j => ctr (m + 1) (N + 1) e (nth p i) (nth q j)
  -- products of off-diagonal blocks
  have hR : ∀ p q, p < 2 → q < 2 → p ≠ q → MEq (2 ^ m) (2 ^ m) (mm m (R p q) (R q p)) idm := by
    intro p q hp hq hpq i hi j hj
    have h := hgeo e e _ (nth_lt (q := p) hi) _ (nth_lt (q := p) hj)
    have hee : geo (fun _ => 1) (N + 1) e e = (single 0 1 : Nat → K) := by
      funext k
      show geo (fun _ => 1) (N + 1) (single (2 ^ N) (1 : K)) (single (2 ^ N) 1) k = _
      rw [geo_single_single _ hlt, Nat.xor_self]
      have := bsgn_hi_hi (σ := fun _ => 1) (n := N) (a := 0) (b := 0) (Nat.two_pow_pos N) (Nat.two_pow_pos N)
      rw [zero_add] at this
      rw [this]
      simp
    rw [hee, ctr_one _ _ _ (nth_lt hi) _ (nth_lt hj)] at h
    unfold mm at h
    rw [pow_succ, mul_comm (2 ^ m) 2, sum_pairs (q := q)] at h
    · rw [show mm m (R p q) (R q p) i j = _ from h.symm]
      unfold idm
      by_cases h : i = j
      · rw [if_pos h, if_pos (by rw [h])]
      · rw [if_neg h, if_neg (fun hc => h (nth_injective hc))]
    · intro k hk hne
      rw [hodd (nth_lt hi) (by rw [pow_succ]; omega) (by rw [countOnes_nth hp]; omega), zero_mul]
  refine ⟨R 1 0, R 0 1, hR 1 0 (by norm_num) (by norm_num) (by norm_num), hR 0 1 (by norm_num) (by norm_num) (by norm_num), ?_⟩
  intro x hx
  have hx' : EvenFn (N + 1) (pad N x) := fun k _ hk => by
    unfold pad
    split
    · exact hx k ‹_› hk
    · rfl
  have hc : ∀ k < 2 ^ (N + 1), geo (fun _ => 1) (N + 1) e (pad N x) k = geo (fun _ => 1) (N + 1) (pad N x) e k := by
    intro k hk
    show geo (fun _ => 1) (N + 1) (single (2 ^ N) (1 : K)) (pad N x) k = geo (fun _ => 1) (N + 1) (pad N x) (single (2 ^ N) (1 : K)) k
    rw [geo_single_left _ hlt, geo_single_right _ hlt _ _ hk, one_mul, mul_one]
    generalize 2 ^ N ^^^ k = l
    by_cases hl : l < 2 ^ N
    · by_cases he : countOnes l % 2 = 1
      · rw [show pad N x l = 0 by unfold pad; rw [if_pos hl]; exact hx l hl he, smul_zero, smul_zero]
      · have e1 := bsgn_hi_lo (σ := fun _ => 1) (n := N) (a := 0) (b := l) (Nat.two_pow_pos N) hl
        have e2 := bsgn_lo_hi (σ := fun _ => 1) (n := N) (a := l) (b := 0) hl (Nat.two_pow_pos N)
        rw [zero_add] at e1 e2
        rw [e1, e2, par_eq, ← countOnes_eq_cnt hl, bsgn_zero_left, bsgn_zero_right, decide_eq_false he]
        simp
    · rw [show pad N x l = 0 from if_neg hl, smul_zero, smul_zero]
  intro i hi j hj
  have h := ctr_congr (m := m + 1) hc
  have h1 := hgeo e (pad N x) _ (nth_lt (q := 1) hi) _ (nth_lt (q := 0) hj)
  have h3 := hgeo (pad N x) e _ (nth_lt (q := 1) hi) _ (nth_lt (q := 0) hj)
  rw [h, h3] at h1
  unfold mm at h1
  rw [pow_succ, mul_comm (2 ^ m) 2, sum_pairs (q := 1), sum_pairs (q := 0)] at h1
  · refine Eq.trans (sum_congr rfl fun k _ => ?_) (h1.symm.trans (sum_congr rfl fun k _ => ?_))
    all_goals
      unfold hs
      rw [show ctr (m + 1) (2 * m + 1) x = ctr (m + 1) (N + 1) (pad N x) by rw [ctr_pad, hN]]
  · intro k hk hne
    rw [hodd (nth_lt hi) (by rw [pow_succ]; omega) (by rw [countOnes_nth (by norm_num)]; omega), zero_mul]
  · intro k hk hne
    rw [hodd (by rw [pow_succ]; omega) (nth_lt hj) (by rw [countOnes_nth (by norm_num)]; omega), mul_zero]

end TClifford
