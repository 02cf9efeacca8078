import Verif.Proofs.Wedge
/-
`ArrayStorage::from_array`: C68.
-/

set_option linter.unusedSectionVars false

namespace TClifford

variable {T : Type} [Ring T] [DecidableEq T]

/-- **C68.** `from_array` accepts exactly the arrays whose length is a power of two. -/
theorem C68_ok_iff {a : Arr1 T} (h : a.len < 2 ^ 64) (h0 : a.len ≠ 0) :
    (∃ s, ArrayStorage.fromArray a = .ok (some s)) ↔ ∃ n, a.len = 2 ^ n := by
  have hl : Nat.log2 a.len < 64 := (Nat.log2_lt h0).mpr h
  unfold ArrayStorage.fromArray
  rw [if_neg h0, ushl_one hl]
  constructor
  · rintro ⟨s, hs⟩
    split at hs
    · exact absurd hs (by simp)
    · rename_i h1
      exact ⟨_, (not_not.mp h1).symm⟩
  · rintro ⟨n, hn⟩
    rw [if_neg (by rw [hn, Nat.log2_two_pow]; simp)]
    exact ⟨_, rfl⟩

/-- **C68.** An array of `2^n` entries becomes a storage for `n` generators with the entries as coefficients; the storage is as good as
one made with `new`. -/
theorem C68_entries {a : Arr1 T} {n : Nat} (hn : n < 64) (h : a.len = 2 ^ n) :
    ∃ s, ArrayStorage.fromArray a = .ok (some s) ∧ s.dim = n ∧ (∀ i < 2 ^ n, s.getByIdx i = .ok (a.get i)) ∧
      (n ≤ 63 → LawfulStorage.Valid (T := T) n s) := by
  have h0 : a.len ≠ 0 := by rw [h]; exact (Nat.two_pow_pos n).ne'
  refine ⟨⟨n, a⟩, ?_, rfl, fun i hi => ?_, fun hn => ⟨hn, rfl, h⟩⟩
  · unfold ArrayStorage.fromArray
    rw [if_neg h0, h, Nat.log2_two_pow, ushl_one hn, if_neg (by simp)]
  · show (if i > a.len then .ok 0 else a.index i) = _
    rw [if_neg (by omega)]
    exact if_pos (by omega)

/-- **C68.** Other lengths are reported as an error, except that the empty array panics. -/
theorem C68_err {a : Arr1 T} (h : a.len < 2 ^ 64) :
    (a.len = 0 → ArrayStorage.fromArray a = .error .panic) ∧
    (a.len ≠ 0 → (¬ ∃ n, a.len = 2 ^ n) → ArrayStorage.fromArray a = .ok none) := by
  constructor
  · intro h0
    unfold ArrayStorage.fromArray
    rw [if_pos h0]
  · intro h0 hn
    unfold ArrayStorage.fromArray
    rw [if_neg h0, ushl_one ((Nat.log2_lt h0).mpr h), if_pos fun e => hn ⟨_, e.symm⟩]

example : ∃ s, ArrayStorage.fromArray (⟨8, fun i => (i : ℤ) - 3⟩ : Arr1 ℤ) = .ok (some s) := (C68_ok_iff (by decide) (by decide)).mpr ⟨3, rfl⟩

example : ∃ s, ArrayStorage.fromArray (⟨8, fun i => (i : ℤ) - 3⟩ : Arr1 ℤ) = .ok (some s) ∧ s.dim = 3 ∧
    (∀ i < 2 ^ 3, s.getByIdx i = .ok ((i : ℤ) - 3)) ∧ (3 ≤ 63 → LawfulStorage.Valid (T := ℤ) 3 s) := C68_entries (by decide) rfl

example : ArrayStorage.fromArray (⟨6, fun i => (i : ℤ) - 3⟩ : Arr1 ℤ) = .ok none :=
  (C68_err (by decide)).2 (by decide) (by
    rintro ⟨n, hn⟩
    have hn : 6 = 2 ^ n := hn
    have : n < 3 := (Nat.pow_lt_pow_iff_right (by decide : 1 < 2)).mp (by omega)
    interval_cases n <;> omega)

end TClifford
