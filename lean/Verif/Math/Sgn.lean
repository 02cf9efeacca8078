import Verif.Math.Bits
import Mathlib.Tactic.LinearCombination
import Mathlib.Tactic.IntervalCases
/-
The sign of a product of two basis blades, as a recursion on the highest generator, and its algebraic identities.

Blades are products of generators in descending order.  To multiply the blade of `a` by the blade of `b`, the highest
generator of `b` moves left past the lower generators of `a`, and contracts with the same generator of `a` if present.
-/

namespace TClifford

/-- `-1` if the condition holds, `1` otherwise. -/
def sg (x : Bool) : ℤ := cond x (-1) 1

@[simp] theorem sg_false : sg false = 1 := rfl
@[simp] theorem sg_true : sg true = -1 := rfl
theorem sg_xor (x y : Bool) : sg (x ^^ y) = sg x * sg y := by cases x <;> cases y <;> rfl
theorem sg_mul_self (x : Bool) : sg x * sg x = 1 := by cases x <;> rfl
theorem sg_ne_zero (x : Bool) : sg x ≠ 0 := by cases x <;> decide

/-- Sign of the product of two blades, with `σ i` the square of the generator `i`. -/
def bsgn (σ : Nat → ℤ) : Nat → Nat → Nat → ℤ
  | 0, _, _ => 1
  | n + 1, a, b =>
    bsgn σ n a b * sg (b.testBit n && par n a) * cond (a.testBit n && b.testBit n) (σ n) 1

theorem bsgn_succ (σ : Nat → ℤ) (n a b : Nat) : bsgn σ (n + 1) a b =
    bsgn σ n a b * sg (b.testBit n && par n a) * cond (a.testBit n && b.testBit n) (σ n) 1 := rfl

@[simp] theorem bsgn_zero_dim (σ : Nat → ℤ) (a b : Nat) : bsgn σ 0 a b = 1 := rfl

theorem bsgn_congr {σ τ : Nat → ℤ} {n a b a' b' : Nat} (hσ : ∀ i < n, σ i = τ i)
    (ha : ∀ i < n, a.testBit i = a'.testBit i) (hb : ∀ i < n, b.testBit i = b'.testBit i) :
    bsgn σ n a b = bsgn τ n a' b' := by
  induction n with
  | zero => rfl
  | succ n ih =>
    rw [bsgn_succ, bsgn_succ, ih (fun i hi => hσ i (by omega)) (fun i hi => ha i (by omega))
      (fun i hi => hb i (by omega)), ha n (by omega), hb n (by omega), hσ n (by omega),
      par_congr (fun i hi => ha i (by omega))]

@[simp] theorem bsgn_zero_left (σ : Nat → ℤ) (n b : Nat) : bsgn σ n 0 b = 1 := by
  induction n with
  | zero => rfl
  | succ n ih => rw [bsgn_succ, ih]; simp

@[simp] theorem bsgn_zero_right (σ : Nat → ℤ) (n a : Nat) : bsgn σ n a 0 = 1 := by
  induction n with
  | zero => rfl
  | succ n ih => rw [bsgn_succ, ih]; simp

/-- The cocycle identity, which makes the product associative. -/
theorem bsgn_cocycle (σ : Nat → ℤ) (n a b c : Nat) :
    bsgn σ n a b * bsgn σ n (a ^^^ b) c = bsgn σ n a (b ^^^ c) * bsgn σ n b c := by
  induction n with
  | zero => rfl
  | succ n ih =>
    simp only [bsgn_succ, Nat.testBit_xor, par_xor]
    cases a.testBit n <;> cases b.testBit n <;> cases c.testBit n <;> cases par n a <;> cases par n b <;>
      simp <;> first
        | linear_combination ih
        | linear_combination -ih
        | linear_combination (σ n) * ih

/-! ### Splitting off the highest generator -/

section top
variable {σ : Nat → ℤ} {n a b : Nat}

theorem bsgn_lo_lo (hb : b < 2 ^ n) : bsgn σ (n + 1) a b = bsgn σ n a b := by
  rw [bsgn_succ, Nat.testBit_lt_two_pow hb]; simp

theorem bsgn_add_left (ha : a < 2 ^ n) : bsgn σ n (a + 2 ^ n) b = bsgn σ n a b :=
  bsgn_congr (fun _ _ => rfl)
    (fun i hi => by rw [testBit_add_two_pow ha]; simp [Nat.ne_of_lt hi]) (fun _ _ => rfl)

theorem bsgn_add_right (hb : b < 2 ^ n) : bsgn σ n a (b + 2 ^ n) = bsgn σ n a b :=
  bsgn_congr (fun _ _ => rfl) (fun _ _ => rfl)
    (fun i hi => by rw [testBit_add_two_pow hb]; simp [Nat.ne_of_lt hi])

theorem par_add (ha : a < 2 ^ n) : par n (a + 2 ^ n) = par n a :=
  par_congr (fun i hi => by rw [testBit_add_two_pow ha]; simp [Nat.ne_of_lt hi])

theorem testBit_top (ha : a < 2 ^ n) : (a + 2 ^ n).testBit n = true := by
  rw [testBit_add_two_pow ha, Nat.testBit_lt_two_pow ha]; simp

theorem bsgn_hi_lo (ha : a < 2 ^ n) (hb : b < 2 ^ n) : bsgn σ (n + 1) (a + 2 ^ n) b = bsgn σ n a b := by
  rw [bsgn_succ, Nat.testBit_lt_two_pow hb, bsgn_add_left ha]; simp

theorem bsgn_lo_hi (ha : a < 2 ^ n) (hb : b < 2 ^ n) :
    bsgn σ (n + 1) a (b + 2 ^ n) = sg (par n a) * bsgn σ n a b := by
  rw [bsgn_succ, testBit_top hb, Nat.testBit_lt_two_pow ha, bsgn_add_right hb]; simp [mul_comm]

theorem bsgn_hi_hi (ha : a < 2 ^ n) (hb : b < 2 ^ n) :
    bsgn σ (n + 1) (a + 2 ^ n) (b + 2 ^ n) = σ n * (sg (par n a) * bsgn σ n a b) := by
  rw [bsgn_succ, testBit_top hb, testBit_top ha, bsgn_add_right hb, bsgn_add_left ha, par_add ha]
  simp; ring

end top

/-! ### Reversal -/

/-- Sign of the reversal of the blade `a`. -/
def rsg : Nat → Nat → ℤ
  | 0, _ => 1
  | n + 1, a => rsg n a * sg (a.testBit n && par n a)

theorem rsg_succ (n a : Nat) : rsg (n + 1) a = rsg n a * sg (a.testBit n && par n a) := rfl

theorem bsgn_rev (σ : Nat → ℤ) (n a b : Nat) :
    bsgn σ n a b * rsg n (a ^^^ b) = rsg n a * rsg n b * bsgn σ n b a := by
  induction n with
  | zero => rfl
  | succ n ih =>
    simp only [bsgn_succ, rsg_succ, Nat.testBit_xor, par_xor]
    cases a.testBit n <;> cases b.testBit n <;> cases par n a <;> cases par n b <;>
      simp <;> first
        | linear_combination ih
        | linear_combination -ih
        | linear_combination (σ n) * ih

theorem rsg_mul_self (n a : Nat) : rsg n a * rsg n a = 1 := by
  induction n with
  | zero => rfl
  | succ n ih =>
    rw [rsg_succ]; linear_combination (sg (a.testBit n && par n a)) ^ 2 * ih + sg_mul_self (a.testBit n && par n a)

theorem rsg_eq (n a : Nat) : rsg n a = if cnt n a % 4 = 0 ∨ cnt n a % 4 = 1 then 1 else -1 := by
  induction n with
  | zero => simp [rsg]
  | succ n ih =>
    rw [rsg_succ, ih, par_eq, cnt_succ]
    have h4 : cnt n a % 4 < 4 := Nat.mod_lt _ (by norm_num)
    have h2 : cnt n a % 2 = (cnt n a % 4) % 2 := by omega
    have h5 : (cnt n a + 1) % 4 = (cnt n a % 4 + 1) % 4 := by omega
    cases a.testBit n
    · simp
    · simp only [Bool.true_and, Bool.toNat_true, h2, h5]
      generalize cnt n a % 4 = k at *
      interval_cases k <;> simp

/-! ### Rescaling the generators -/

/-- Product of `l i` over the set bits of `a` below `n`. -/
def bprod {R : Type} [Monoid R] (l : Nat → R) : Nat → Nat → R
  | 0, _ => 1
  | n + 1, a => bprod l n a * cond (a.testBit n) (l n) 1

theorem bprod_succ {R : Type} [Monoid R] (l : Nat → R) (n a : Nat) :
    bprod l (n + 1) a = bprod l n a * cond (a.testBit n) (l n) 1 := rfl

theorem bprod_congr {R : Type} [Monoid R] {l l' : Nat → R} {n a b : Nat} (hl : ∀ i < n, l i = l' i)
    (h : ∀ i < n, a.testBit i = b.testBit i) : bprod l n a = bprod l' n b := by
  induction n with
  | zero => rfl
  | succ n ih =>
    rw [bprod_succ, bprod_succ, ih (fun i hi => hl i (by omega)) (fun i hi => h i (by omega)), h n (by omega),
      hl n (by omega)]

@[simp] theorem bprod_zero {R : Type} [Monoid R] (l : Nat → R) (n : Nat) : bprod l n 0 = 1 := by
  induction n with
  | zero => rfl
  | succ n ih => rw [bprod_succ, ih]; simp

/-- Multiplying generator `i` by the central scalar `l i` turns the metric `σ` into `σ'` with `σ' i = l i ^ 2 * σ i`. -/
theorem bsgn_scale {R : Type} [CommRing R] {σ σ' : Nat → ℤ} {l : Nat → R} {n : Nat}
    (h : ∀ i < n, ((σ' i : ℤ) : R) = l i * l i * ((σ i : ℤ) : R)) (a b : Nat) :
    ((bsgn σ' n a b : ℤ) : R) * bprod l n (a ^^^ b) = ((bsgn σ n a b : ℤ) : R) * (bprod l n a * bprod l n b) := by
  induction n with
  | zero => simp [bprod]
  | succ n ih =>
    have hn := h n (by omega)
    have ih := ih (fun i hi => h i (by omega))
    simp only [bsgn_succ, bprod_succ, Nat.testBit_xor]
    push_cast
    cases a.testBit n <;> cases b.testBit n <;>
      simp only [Bool.false_and, Bool.true_and, Bool.and_true, Bool.and_false, cond_true, cond_false, Bool.xor_false,
        Bool.xor_self, Bool.xor_true, Bool.not_false, mul_one, sg_false, Int.cast_one]
    · exact ih
    · linear_combination ((sg (par n a) : ℤ) : R) * l n * ih
    · linear_combination l n * ih
    · rw [hn]; linear_combination ((sg (par n a) : ℤ) : R) * (l n * l n * (σ n : R)) * ih

/-! ### Disjoint blades: the metric does not matter -/

theorem bsgn_disjoint (σ τ : Nat → ℤ) {n a b : Nat} (h : ∀ i < n, (a.testBit i && b.testBit i) = false) :
    bsgn σ n a b = bsgn τ n a b := by
  induction n with
  | zero => rfl
  | succ n ih =>
    rw [bsgn_succ, bsgn_succ, ih (fun i hi => h i (by omega)), h n (by omega)]
    simp

/-- With the zero metric the sign is zero exactly for blades with a common generator. -/
theorem bsgn_null {n a b : Nat} (h : ¬ ∀ i < n, (a.testBit i && b.testBit i) = false) :
    bsgn (fun _ => 0) n a b = 0 := by
  induction n with
  | zero => simp at h
  | succ n ih =>
    rw [bsgn_succ]
    by_cases hn : (a.testBit n && b.testBit n) = true
    · rw [hn]; simp
    · have hn : (a.testBit n && b.testBit n) = false := by simpa using hn
      rw [ih, zero_mul, zero_mul]
      intro hall
      apply h
      intro i hi
      rcases Nat.lt_succ_iff_lt_or_eq.mp hi with h1 | h1
      · exact hall i h1
      · rw [h1]; exact hn

theorem bsgn_plus_sq (n a b : Nat) : bsgn (fun _ => 1) n a b * bsgn (fun _ => 1) n a b = 1 := by
  induction n with
  | zero => rfl
  | succ n ih =>
    rw [bsgn_succ]
    have hc : cond (a.testBit n && b.testBit n) (1:ℤ) 1 = 1 := by cases (a.testBit n && b.testBit n) <;> rfl
    rw [hc]
    linear_combination (sg (b.testBit n && par n a)) ^ 2 * ih + sg_mul_self (b.testBit n && par n a)

/-- The sign splits into the anticommutation sign and the product of the squares of the common generators. -/
theorem bsgn_split (σ : Nat → ℤ) (n a b : Nat) :
    bsgn σ n a b = bsgn (fun _ => 1) n a b * bprod σ n (a &&& b) := by
  induction n with
  | zero => rfl
  | succ n ih =>
    rw [bsgn_succ, bsgn_succ, bprod_succ, ih, Nat.testBit_and]
    cases (a.testBit n && b.testBit n) <;> simp <;> ring

end TClifford
