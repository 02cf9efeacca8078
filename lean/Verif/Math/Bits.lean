import Verif.Model.Basic
import Mathlib.Tactic.Ring
import Mathlib.Algebra.BigOperators.Group.Finset.Basic
/-
Bit-level lemmas: number of set bits below a position, parity, complements.
-/

namespace TClifford

/-- Number of set bits of `a` at positions below `n`. -/
def cnt : Nat → Nat → Nat
  | 0, _ => 0
  | n + 1, a => cnt n a + (a.testBit n).toNat

/-- Parity of the number of set bits of `a` at positions below `n`. -/
def par : Nat → Nat → Bool
  | 0, _ => false
  | n + 1, a => (par n a) ^^ (a.testBit n)

@[simp] theorem cnt_zero_left (a : Nat) : cnt 0 a = 0 := rfl
@[simp] theorem par_zero_left (a : Nat) : par 0 a = false := rfl
theorem cnt_succ (n a : Nat) : cnt (n + 1) a = cnt n a + (a.testBit n).toNat := rfl
theorem par_succ (n a : Nat) : par (n + 1) a = ((par n a) ^^ (a.testBit n)) := rfl

@[simp] theorem cnt_zero (n : Nat) : cnt n 0 = 0 := by
  induction n with
  | zero => rfl
  | succ n ih => simp [cnt_succ, ih]

@[simp] theorem par_zero (n : Nat) : par n 0 = false := by
  induction n with
  | zero => rfl
  | succ n ih => simp [par_succ, ih]

theorem cnt_le (n a : Nat) : cnt n a ≤ n := by
  induction n with
  | zero => simp
  | succ n ih => rw [cnt_succ]; cases a.testBit n <;> simp <;> omega

theorem par_eq (n a : Nat) : par n a = decide (cnt n a % 2 = 1) := by
  induction n with
  | zero => simp
  | succ n ih =>
    rw [par_succ, cnt_succ, ih]
    cases a.testBit n <;> simp
    have := Nat.mod_two_eq_zero_or_one (cnt n a)
    rcases this with h | h <;> simp [h] <;> omega

theorem cnt_congr {n a b : Nat} (h : ∀ i < n, a.testBit i = b.testBit i) : cnt n a = cnt n b := by
  induction n with
  | zero => rfl
  | succ n ih => rw [cnt_succ, cnt_succ, ih (fun i hi => h i (by omega)), h n (by omega)]

theorem par_congr {n a b : Nat} (h : ∀ i < n, a.testBit i = b.testBit i) : par n a = par n b := by
  rw [par_eq, par_eq, cnt_congr h]

theorem par_xor (n a b : Nat) : par n (a ^^^ b) = ((par n a) ^^ (par n b)) := by
  induction n with
  | zero => rfl
  | succ n ih =>
    rw [par_succ, par_succ, par_succ, ih, Nat.testBit_xor]
    cases par n a <;> cases par n b <;> cases a.testBit n <;> cases b.testBit n <;> rfl

theorem cnt_xor (n a b : Nat) : cnt n (a ^^^ b) + 2 * cnt n (a &&& b) = cnt n a + cnt n b := by
  induction n with
  | zero => rfl
  | succ n ih =>
    simp only [cnt_succ, Nat.testBit_xor, Nat.testBit_and]
    cases a.testBit n <;> cases b.testBit n <;> simp <;> omega

theorem cnt_or_of_disjoint {n a b : Nat} (h : a &&& b = 0) : cnt n (a ||| b) = cnt n a + cnt n b := by
  induction n with
  | zero => rfl
  | succ n ih =>
    simp only [cnt_succ, Nat.testBit_or]
    have : (a &&& b).testBit n = false := by rw [h]; simp
    rw [Nat.testBit_and] at this
    revert this
    cases a.testBit n <;> cases b.testBit n <;> simp <;> omega

theorem testBit_eq_false_of_lt {a n i : Nat} (h : a < 2 ^ n) (hi : n ≤ i) : a.testBit i = false :=
  Nat.testBit_lt_two_pow (lt_of_lt_of_le h (Nat.pow_le_pow_right (by norm_num) hi))

theorem cnt_of_le {n m a : Nat} (h : a < 2 ^ n) (hm : n ≤ m) : cnt m a = cnt n a := by
  induction m with
  | zero => simp_all
  | succ m ih =>
    rcases Nat.lt_or_ge m n with h1 | h1
    · have : n = m + 1 := by omega
      rw [this]
    · rw [cnt_succ, ih h1, testBit_eq_false_of_lt h h1]; simp

theorem cnt_succ' (n a : Nat) : cnt (n + 1) a = a % 2 + cnt n (a / 2) := by
  induction n with
  | zero => rw [cnt_succ]; simp [Nat.testBit_zero]; rcases Nat.mod_two_eq_zero_or_one a with h | h <;> simp [h]
  | succ n ih => rw [cnt_succ, ih, cnt_succ, Nat.testBit_succ]; ring

theorem popAux_eq {n a : Nat} (h : a < 2 ^ n) : ∀ fuel, a ≤ fuel → popAux fuel a = cnt n a := by
  induction n generalizing a with
  | zero =>
    intro fuel _
    have : a = 0 := by simpa using h
    subst this
    cases fuel <;> simp [popAux]
  | succ n ih =>
    intro fuel hf
    cases fuel with
    | zero =>
      have : a = 0 := by omega
      subst this; simp [popAux]
    | succ fuel =>
      rw [popAux, cnt_succ']
      split
      · subst_vars; simp
      · rw [ih (by rw [pow_succ] at h; omega) fuel (by omega)]

theorem countOnes_eq_cnt {n a : Nat} (h : a < 2 ^ n) : countOnes a = cnt n a := popAux_eq h a le_rfl

theorem countOnes_mod_two {n a : Nat} (h : a < 2 ^ n) : (countOnes a % 2 = 1) ↔ par n a = true := by
  rw [countOnes_eq_cnt h, par_eq]; simp

theorem countOnes_mod_two' {n a : Nat} (h : a < 2 ^ n) : (countOnes a % 2 = 0) ↔ par n a = false := by
  rw [countOnes_eq_cnt h, par_eq]; simp

@[simp] theorem countOnes_zero : countOnes 0 = 0 := rfl

theorem cnt_eq_sum (n a : Nat) : cnt n a = ∑ i ∈ Finset.range n, (a.testBit i).toNat := by
  induction n with
  | zero => simp
  | succ n ih => rw [cnt_succ, Finset.sum_range_succ, ih]

/-- Adding a bit on top. -/
theorem testBit_add_two_pow {n a i : Nat} (h : a < 2 ^ n) :
    (a + 2 ^ n).testBit i = (a.testBit i ^^ decide (i = n)) := by
  have : a + 2 ^ n = a ||| 2 ^ n := by
    have := Nat.two_pow_add_eq_or_of_lt h 1
    rw [Nat.mul_one] at this
    rw [Nat.or_comm, ← this, Nat.add_comm]
  rw [this, Nat.testBit_or, Nat.testBit_two_pow]
  by_cases hi : n = i
  · subst hi; simp [Nat.testBit_lt_two_pow h]
  · have : ¬ i = n := fun h => hi h.symm
    simp [hi, this]

theorem add_two_pow_xor {n a b : Nat} (ha : a < 2 ^ n) (hb : b < 2 ^ n) :
    (a + 2 ^ n) ^^^ b = (a ^^^ b) + 2 ^ n := by
  have hx := Nat.xor_lt_two_pow ha hb
  apply Nat.eq_of_testBit_eq
  intro i
  rw [Nat.testBit_xor, testBit_add_two_pow ha, testBit_add_two_pow hx, Nat.testBit_xor]
  cases a.testBit i <;> cases b.testBit i <;> cases decide (i = n) <;> rfl

theorem xor_add_two_pow {n a b : Nat} (ha : a < 2 ^ n) (hb : b < 2 ^ n) :
    a ^^^ (b + 2 ^ n) = (a ^^^ b) + 2 ^ n := by
  rw [Nat.xor_comm, add_two_pow_xor hb ha, Nat.xor_comm]

theorem add_two_pow_xor_add_two_pow {n a b : Nat} (ha : a < 2 ^ n) (hb : b < 2 ^ n) :
    (a + 2 ^ n) ^^^ (b + 2 ^ n) = a ^^^ b := by
  apply Nat.eq_of_testBit_eq
  intro i
  rw [Nat.testBit_xor, testBit_add_two_pow ha, testBit_add_two_pow hb, Nat.testBit_xor]
  cases a.testBit i <;> cases b.testBit i <;> cases decide (i = n) <;> rfl

theorem add_two_pow_lt {n a : Nat} (ha : a < 2 ^ n) : a + 2 ^ n < 2 ^ (n + 1) := by
  rw [pow_succ]; omega

theorem lt_succ_of_lt {n a : Nat} (ha : a < 2 ^ n) : a < 2 ^ (n + 1) := by
  rw [pow_succ]; omega

theorem xor_xor_cancel (a b : Nat) : a ^^^ (a ^^^ b) = b := by
  rw [← Nat.xor_assoc, Nat.xor_self, Nat.zero_xor]

/-! ### Machine-integer operations -/

theorem ushl_of_lt {a s n : Nat} (h : a <<< s < 2 ^ n) (hn : n ≤ 64) (hs : s < 64) : ushl a s = a <<< s := by
  unfold ushl usizeSize
  rw [Nat.mod_eq_of_lt hs, Nat.mod_eq_of_lt (lt_of_lt_of_le h (Nat.pow_le_pow_right (by norm_num) hn))]

@[simp] theorem ushl_one {s : Nat} (hs : s < 64) : ushl 1 s = 2 ^ s := by
  rw [ushl_of_lt (n := s + 1) _ (by omega) hs, Nat.one_shiftLeft]
  rw [Nat.one_shiftLeft, pow_succ]; have := Nat.two_pow_pos s; omega

theorem unot_testBit {a i : Nat} (hi : i < 64) : (unot a).testBit i = !(a.testBit i) := by
  unfold unot usizeSize
  rw [Nat.testBit_xor, Nat.testBit_two_pow_sub_one]
  simp [hi]

/-- `mask & !a` for the full mask of `n` bits is the complement. -/
theorem mask_and_unot {n a : Nat} (hn : n ≤ 64) (ha : a < 2 ^ n) : (2 ^ n - 1) &&& unot a = a ^^^ (2 ^ n - 1) := by
  apply Nat.eq_of_testBit_eq
  intro i
  rw [Nat.testBit_and, Nat.testBit_xor, Nat.testBit_two_pow_sub_one]
  by_cases hi : i < n
  · rw [unot_testBit (by omega)]; simp [hi]
  · simpa [hi] using testBit_eq_false_of_lt ha (by omega)

theorem xor_mask_lt {n a : Nat} (ha : a < 2 ^ n) : a ^^^ (2 ^ n - 1) < 2 ^ n :=
  Nat.xor_lt_two_pow ha (by have := Nat.two_pow_pos n; omega)

end TClifford
