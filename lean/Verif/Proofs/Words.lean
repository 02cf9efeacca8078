import Verif.Spec.Words
import Verif.Math.Geo
import Verif.Proofs.Declare
/-
Rewriting of generator words computes `bsgn`.
-/

namespace TClifford

open Spec

/-- Sign and mask of a word, computed from the left. -/
def evw (σ : Nat → ℤ) (n : Nat) : List Nat → ℤ × Nat
  | [] => (1, 0)
  | x :: w => (bsgn σ n (2 ^ x) (evw σ n w).2 * (evw σ n w).1, 2 ^ x ^^^ (evw σ n w).2)

theorem evw_append (σ : Nat → ℤ) (n : Nat) (u v : List Nat) :
    (evw σ n (u ++ v)).2 = (evw σ n u).2 ^^^ (evw σ n v).2 ∧
    (evw σ n (u ++ v)).1 = bsgn σ n (evw σ n u).2 (evw σ n v).2 * (evw σ n u).1 * (evw σ n v).1 := by
  induction u with
  | nil => simp [evw]
  | cons x u ih =>
    rw [List.cons_append]
    simp only [evw]
    rw [ih.1, ih.2]
    refine ⟨by rw [Nat.xor_assoc], ?_⟩
    have := bsgn_cocycle σ n (2 ^ x) (evw σ n u).2 (evw σ n v).2
    linear_combination -((evw σ n u).1 * (evw σ n v).1) * this

theorem par_two_pow_lt {n x : Nat} (h : n ≤ x) : par n (2 ^ x) = false := by
  rw [par_congr (b := 0), par_zero]
  intro i hi
  rw [Nat.testBit_two_pow]; simp; omega

theorem par_two_pow {n x : Nat} (h : x < n) : par n (2 ^ x) = true := by
  rw [par_eq, cnt_two_pow h]; rfl

theorem bsgn_two_pow_eq (σ : Nat → ℤ) {n x : Nat} (h : x < n) : bsgn σ n (2 ^ x) (2 ^ x) = σ x := by
  induction n with
  | zero => omega
  | succ n ih =>
    rw [bsgn_succ, Nat.testBit_two_pow]
    by_cases hx : x = n
    · subst hx
      rw [par_two_pow_lt (le_refl _), bsgn_congr (σ := σ) (τ := σ) (a' := 0) (b' := 0) (fun _ _ => rfl)]
      · simp
      · intro i hi; rw [Nat.testBit_two_pow]; simp; omega
      · intro i hi; rw [Nat.testBit_two_pow]; simp; omega
    · rw [ih (by omega)]; simp [hx]

theorem bsgn_two_pow_ne (σ : Nat → ℤ) {n x y : Nat} (hx : x < n) (hy : y < n) (h : x ≠ y) :
    bsgn σ n (2 ^ x) (2 ^ y) = if x < y then -1 else 1 := by
  induction n with
  | zero => omega
  | succ n ih =>
    rw [bsgn_succ, Nat.testBit_two_pow, Nat.testBit_two_pow]
    by_cases hxn : x = n
    · subst hxn
      have hy' : y < x := by omega
      rw [if_neg (by omega)]
      rw [bsgn_congr (σ := σ) (τ := σ) (a' := 0) (b' := 2 ^ y) (fun _ _ => rfl) _ (fun _ _ => rfl)]
      · simp [Ne.symm h]
      · intro i hi; rw [Nat.testBit_two_pow]; simp; omega
    · by_cases hyn : y = n
      · subst hyn
        rw [if_pos (by omega), par_two_pow (by omega)]
        rw [bsgn_congr (σ := σ) (τ := σ) (a' := 2 ^ x) (b' := 0) (fun _ _ => rfl) (fun _ _ => rfl)]
        · simp [h]
        · intro i hi; rw [Nat.testBit_two_pow]; simp; omega
      · rw [ih (by omega) (by omega)]; simp [hxn, hyn]

/-- Steps preserve the value of a signed word. -/
theorem step_inv {σ : Nat → ℤ} {n : Nat} {p q : ℤ × List Nat} (h : Step σ p q) (hp : ∀ x ∈ p.2, x < n) :
    (∀ x ∈ q.2, x < n) ∧ (evw σ n q.2).2 = (evw σ n p.2).2 ∧ q.1 * (evw σ n q.2).1 = p.1 * (evw σ n p.2).1 := by
  cases h with
  | swap s u v x y hne =>
    have hx : x < n := hp x (by simp)
    have hy : y < n := hp y (by simp)
    refine ⟨fun z hz => hp z (by simp at hz ⊢; tauto), ?_, ?_⟩
    · rw [(evw_append σ n u _).1, (evw_append σ n u _).1]
      simp only [evw]
      rw [← Nat.xor_assoc (2 ^ x), Nat.xor_comm (2 ^ x) (2 ^ y), Nat.xor_assoc]
    · simp only
      rw [(evw_append σ n u _).2, (evw_append σ n u _).2]
      simp only [evw]
      have h1 := bsgn_cocycle σ n (2 ^ x) (2 ^ y) (evw σ n v).2
      have h2 := bsgn_cocycle σ n (2 ^ y) (2 ^ x) (evw σ n v).2
      have e : 2 ^ y ^^^ (2 ^ x ^^^ (evw σ n v).2) = 2 ^ x ^^^ (2 ^ y ^^^ (evw σ n v).2) := by
        rw [← Nat.xor_assoc, Nat.xor_comm (2 ^ y), Nat.xor_assoc]
      have e3 : (2 ^ x ^^^ 2 ^ y) = (2 ^ y ^^^ 2 ^ x) := Nat.xor_comm _ _
      rw [e]
      have h3 : bsgn σ n (2 ^ x) (2 ^ y) = -bsgn σ n (2 ^ y) (2 ^ x) := by
        rw [bsgn_two_pow_ne σ hx hy hne, bsgn_two_pow_ne σ hy hx (Ne.symm hne)]
        split <;> split <;> first | rfl | omega
      rw [e3, h3] at h1
      linear_combination (s * bsgn σ n (evw σ n u).2 (2 ^ x ^^^ (2 ^ y ^^^ (evw σ n v).2)) * (evw σ n u).1 * (evw σ n v).1) * (h1 + h2)
  | contract s u v x =>
    have hx : x < n := hp x (by simp)
    refine ⟨fun z hz => hp z (by simp at hz ⊢; tauto), ?_, ?_⟩
    · rw [(evw_append σ n u _).1, (evw_append σ n u _).1]
      simp only [evw]
      rw [xor_xor_cancel]
    · simp only
      rw [(evw_append σ n u _).2, (evw_append σ n u _).2]
      simp only [evw]
      rw [xor_xor_cancel]
      have h1 := bsgn_cocycle σ n (2 ^ x) (2 ^ x) (evw σ n v).2
      rw [Nat.xor_self, bsgn_zero_left, bsgn_two_pow_eq σ hx] at h1
      linear_combination (s * bsgn σ n (evw σ n u).2 (evw σ n v).2 * (evw σ n u).1 * (evw σ n v).1) * h1

theorem rewrites_inv {σ : Nat → ℤ} {n : Nat} {p q : ℤ × List Nat} (h : Rewrites σ p q) (hp : ∀ x ∈ p.2, x < n) :
    (∀ x ∈ q.2, x < n) ∧ (evw σ n q.2).2 = (evw σ n p.2).2 ∧ q.1 * (evw σ n q.2).1 = p.1 * (evw σ n p.2).1 := by
  induction h with
  | refl => exact ⟨hp, rfl, rfl⟩
  | tail _ hs ih =>
    have := step_inv hs ih.1
    exact ⟨this.1, this.2.1.trans ih.2.1, this.2.2.trans ih.2.2⟩

/-- Descending words have sign one. -/
theorem evw_sorted (σ : Nat → ℤ) (n : Nat) {w : List Nat} (hw : w.Pairwise (· > ·)) (hn : ∀ x ∈ w, x < n) :
    (evw σ n w).1 = 1 ∧ ∀ i, (evw σ n w).2.testBit i = decide (i ∈ w) := by
  induction w with
  | nil => simp [evw]
  | cons x w ih =>
    rw [List.pairwise_cons] at hw
    obtain ⟨h1, h2⟩ := ih hw.2 (fun y hy => hn y (by simp [hy]))
    have hlt : (evw σ n w).2 < 2 ^ x := by
      apply Nat.lt_pow_two_of_testBit
      intro i hi
      rw [h2]; simp
      intro hc
      have := hw.1 i hc
      omega
    constructor
    · simp only [evw]
      rw [h1, mul_one]
      have hx : x < n := hn x (by simp)
      -- no generator of the rest exceeds x
      clear hn h1 h2 ih hw
      generalize (evw σ n w).2 = m at *
      induction n with
      | zero => omega
      | succ n ih =>
        rw [bsgn_succ, Nat.testBit_two_pow]
        by_cases hxn : x = n
        · subst hxn
          rw [Nat.testBit_lt_two_pow hlt]
          rw [bsgn_congr (σ := σ) (τ := σ) (a' := 0) (b' := m) (fun _ _ => rfl) _ (fun _ _ => rfl)]
          · simp
          · intro i hi; rw [Nat.testBit_two_pow]; simp; omega
        · rw [ih (by omega), testBit_eq_false_of_lt hlt (by omega)]; simp
    · intro i
      simp only [evw]
      rw [Nat.testBit_xor, h2, Nat.testBit_two_pow]
      by_cases hi : i = x
      · subst hi
        have : i ∉ w := fun hc => absurd (hw.1 i hc) (by omega)
        simp [this]
      · simp [hi, Ne.symm hi]

theorem mem_word {n a x : Nat} : x ∈ word n a ↔ x < n ∧ a.testBit x = true := by
  unfold word; simp

theorem word_sorted (n a : Nat) : (word n a).Pairwise (· > ·) := by
  unfold word
  rw [List.pairwise_reverse]
  exact List.Pairwise.filter _ (List.pairwise_lt_range)

theorem evw_word (σ : Nat → ℤ) {n a : Nat} (ha : a < 2 ^ n) : evw σ n (word n a) = (1, a) := by
  obtain ⟨h1, h2⟩ := evw_sorted σ n (word_sorted n a) (fun x hx => (mem_word.mp hx).1)
  refine Prod.ext h1 ?_
  apply Nat.eq_of_testBit_eq
  intro i
  rw [h2]
  by_cases hi : i < n
  · simp [mem_word, hi]
  · rw [testBit_eq_false_of_lt ha (by omega)]; simp [mem_word, hi]

theorem sorted_ext {v w : List Nat} (hv : v.Pairwise (· > ·)) (hw : w.Pairwise (· > ·)) (h : ∀ x, x ∈ v ↔ x ∈ w) : v = w := by
  induction v generalizing w with
  | nil =>
    cases w with
    | nil => rfl
    | cons y w => exact absurd ((h y).mpr (by simp)) (by simp)
  | cons x v ih =>
    cases w with
    | nil => exact absurd ((h x).mp (by simp)) (by simp)
    | cons y w =>
      rw [List.pairwise_cons] at hv hw
      have hxy : x = y := by
        have h1 := (h x).mp (by simp)
        have h2 := (h y).mpr (by simp)
        rcases List.mem_cons.mp h1 with h1 | h1
        · exact h1
        · rcases List.mem_cons.mp h2 with h2 | h2
          · exact h2.symm
          · have := hw.1 x h1; have := hv.1 y h2; omega
      subst hxy
      congr 1
      apply ih hv.2 hw.2
      intro z
      constructor
      · intro hz
        rcases List.mem_cons.mp ((h z).mp (by simp [hz])) with rfl | h'
        · have := hv.1 z hz; omega
        · exact h'
      · intro hz
        rcases List.mem_cons.mp ((h z).mpr (by simp [hz])) with rfl | h'
        · have := hw.1 z hz; omega
        · exact h'

theorem step_cons {σ : Nat → ℤ} (z : Nat) {p q : ℤ × List Nat} (h : Step σ p q) :
    Step σ (p.1, z :: p.2) (q.1, z :: q.2) := by
  cases h with
  | swap s u v x y hne => exact Step.swap s (z :: u) v x y hne
  | contract s u v x => exact Step.contract s (z :: u) v x

theorem rewrites_cons {σ : Nat → ℤ} (z : Nat) {p q : ℤ × List Nat} (h : Rewrites σ p q) :
    Rewrites σ (p.1, z :: p.2) (q.1, z :: q.2) := by
  induction h with
  | refl => exact .refl
  | tail _ hs ih => exact ih.tail (step_cons z hs)

/-- Inserting a generator into a descending word. -/
theorem rewrites_insert {σ : Nat → ℤ} (s : ℤ) (x : Nat) (w : List Nat) (hw : w.Pairwise (· > ·)) :
    ∃ t w', Rewrites σ (s, x :: w) (t, w') ∧ w'.Pairwise (· > ·) ∧ ∀ z ∈ w', z = x ∨ z ∈ w := by
  induction w generalizing s with
  | nil => exact ⟨s, [x], .refl, by simp, by simp⟩
  | cons y w ih =>
    rw [List.pairwise_cons] at hw
    rcases lt_trichotomy x y with h | h | h
    · obtain ⟨t, w', h1, h2, h3⟩ := ih (-s) hw.2
      refine ⟨t, y :: w', ?_, ?_, ?_⟩
      · have hs : Step σ (s, x :: y :: w) (-s, y :: x :: w) := Step.swap s [] w x y (by omega)
        exact (Relation.ReflTransGen.single hs).trans (rewrites_cons y h1)
      · rw [List.pairwise_cons]
        refine ⟨?_, h2⟩
        intro z hz
        rcases h3 z hz with rfl | hz
        · exact h
        · exact hw.1 z hz
      · intro z hz
        rcases List.mem_cons.mp hz with rfl | hz
        · simp
        · rcases h3 z hz with h | h <;> simp [h]
    · subst h
      refine ⟨s * σ x, w, ?_, hw.2, fun z hz => by simp [hz]⟩
      exact .single (Step.contract s [] w x)
    · refine ⟨s, x :: y :: w, .refl, ?_, by simp⟩
      rw [List.pairwise_cons]
      refine ⟨?_, List.pairwise_cons.mpr hw⟩
      intro z hz
      rcases List.mem_cons.mp hz with rfl | hz
      · exact h
      · have := hw.1 z hz; omega

/-- Every signed word can be rewritten to a descending one. -/
theorem rewrites_normal {σ : Nat → ℤ} (s : ℤ) (u : List Nat) :
    ∃ t w, Rewrites σ (s, u) (t, w) ∧ w.Pairwise (· > ·) := by
  induction u generalizing s with
  | nil => exact ⟨s, [], .refl, by simp⟩
  | cons x u ih =>
    obtain ⟨t, w, h1, h2⟩ := ih s
    obtain ⟨t', w', h3, h4, _⟩ := rewrites_insert (σ := σ) t x w h2
    exact ⟨t', w', (rewrites_cons x h1).trans h3, h4⟩

theorem rewrites_product {σ : Nat → ℤ} {n a b : Nat} (ha : a < 2 ^ n) (hb : b < 2 ^ n) {t : ℤ} {w : List Nat}
    (h : Rewrites σ (1, word n a ++ word n b) (t, w)) (hw : w.Pairwise (· > ·)) :
    t = bsgn σ n a b ∧ w = word n (a ^^^ b) := by
  have hp : ∀ x ∈ ((1 : ℤ), word n a ++ word n b).2, x < n := by
    intro x hx
    rcases List.mem_append.mp hx with hx | hx
    · exact (mem_word.mp hx).1
    · exact (mem_word.mp hx).1
  obtain ⟨h1, h2, h3⟩ := rewrites_inv h hp
  simp only at h1 h2 h3
  have hs := evw_sorted σ n hw h1
  rw [hs.1, mul_one, one_mul, (evw_append σ n _ _).2, evw_word σ ha, evw_word σ hb] at h3
  simp only [mul_one] at h3
  refine ⟨h3, ?_⟩
  rw [(evw_append σ n _ _).1, evw_word σ ha, evw_word σ hb] at h2
  apply sorted_ext hw (word_sorted _ _)
  intro x
  have := hs.2 x
  rw [h2] at this
  rw [mem_word]
  constructor
  · intro hx; exact ⟨h1 x hx, by rw [this]; simp [hx]⟩
  · rintro ⟨_, hx⟩; rw [hx] at this; simpa using this.symm

theorem rewrites_product_exists {σ : Nat → ℤ} {n a b : Nat} (ha : a < 2 ^ n) (hb : b < 2 ^ n) :
    Rewrites σ (1, word n a ++ word n b) (bsgn σ n a b, word n (a ^^^ b)) := by
  obtain ⟨t, w, h1, h2⟩ := rewrites_normal (σ := σ) 1 (word n a ++ word n b)
  obtain ⟨rfl, rfl⟩ := rewrites_product ha hb h1 h2
  exact h1

theorem squareOf_eq {sig : List Sym} {names : List String} {A : ClAlg} (h : declareAlgebra sig names = some A) {i : Nat}
    (hi : i < sig.length) : A.sigma i = squareOf sig i := by
  rw [declareAlgebra_sigma h hi]
  unfold squareOf
  rw [List.getElem?_eq_getElem hi]
  cases sig[i] <;> rfl

end TClifford
