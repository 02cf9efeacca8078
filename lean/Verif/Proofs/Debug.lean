import Verif.Model.Debug
import Verif.Proofs.ClifftOps
/-
The debug build of the transforms does what the release build does.
-/

set_option linter.unusedSectionVars false

namespace TClifford

theorem uaddD_ok {a b : Nat} (h : a + b < 2 ^ 64) : uaddD a b = .ok (a + b) := if_pos h
theorem umulD_ok {a b : Nat} (h : a * b < 2 ^ 64) : umulD a b = .ok (a * b) := if_pos h
theorem ushlD_ok {a s : Nat} (h : s < 64) : ushlD a s = .ok (ushl a s) := if_pos h
theorem debugAssert_ok {p : Prop} [Decidable p] (h : p) : debugAssert p = .ok () := if_pos h

theorem debugAssert_true [Decidable True] : debugAssert True = .ok () := if_pos trivial
theorem ok_bind' {α β : Type} (x : α) (f : α → Res β) : ((Except.ok x : Res α) >>= f) = f x := rfl

theorem clDimD_eq {size : Nat} (h : size < 2 ^ 64) : clDimD size = clDim size := by
  unfold clDimD clDim
  split
  · rfl
  · rename_i h0
    rw [ushlD_ok ((Nat.log2_lt h0).mpr h)]
    rfl

section add
variable {T : Type} [Zero T] [Add T] [Sub T] [Neg T]

theorem clifftAllocD_eq {coeffs : Arr1 T} (h : coeffs.len < 2 ^ 64) : clifftAllocD coeffs = clifftAlloc coeffs := by
  unfold clifftAllocD clifftAlloc
  rw [clDimD_eq h]
  cases hd : clDim coeffs.len with
  | error e => rfl
  | ok dim =>
    have := (clDim_ok h hd).2
    show (do let mside ← ushlD 1 (dim / 2); _) = _
    rw [ushlD_ok (by omega)]
    rfl

theorem clifftNnIntoD_eq (m : Nat) (hm : 2 * m < 64) (coeffs : Arr1 T) (dest : Arr2 T) (hl : coeffs.len = 2 ^ (2 * m)) :
    clifftNnIntoD coeffs dest = clifftNnInto coeffs dest := by
  induction m generalizing coeffs dest with
  | zero =>
    unfold clifftNnInto clifftNnIntoD
    rw [if_pos (show coeffs.len = 1 by simpa using hl), if_pos (show coeffs.len = 1 by simpa using hl)]
  | succ m ih =>
    have hpos := Nat.two_pow_pos (2 * m)
    have h4 : 2 ^ (2 * (m + 1)) = 4 * 2 ^ (2 * m) := by
      rw [show 2 * (m + 1) = 2 * m + 1 + 1 by ring, pow_succ, pow_succ]; ring
    have hp : 2 ^ (m + 1) = 2 * 2 ^ m := by rw [pow_succ]; ring
    have hlt : coeffs.len < 2 ^ 64 := by rw [hl]; exact Nat.pow_lt_pow_right (by norm_num) hm
    have hdD : clDimD coeffs.len = .ok (2 * (m + 1)) := by rw [clDimD_eq hlt, hl, clDim_two_pow hm]
    have hdR : clDim coeffs.len = .ok (2 * (m + 1)) := by rw [hl, clDim_two_pow hm]
    have key : ∀ v : Arr1 T, v.len = 2 ^ (2 * m) → (do let d ← clifftAllocD v; clifftNnIntoD v d) =
        (do let d ← clifftAlloc v; clifftNnInto v d) := by
      intro v hv
      rw [clifftAllocD_eq (by rw [hv]; exact Nat.pow_lt_pow_right (by norm_num) (by omega))]
      cases clifftAlloc v with
      | error e => rfl
      | ok d => exact ih (by omega) v d hv
    unfold clifftNnInto clifftNnIntoD
    rw [if_neg (by omega), if_neg (by omega)]
    split
    · rename_i e he; rw [hdD] at he; exact absurd he (by simp)
    rename_i dim hd
    rw [hdD] at hd
    have hd : 2 * (m + 1) = dim := by simpa using hd
    subst hd
    split
    · rename_i e he; rw [hdR] at he; exact absurd he (by simp)
    rename_i dim hd
    rw [hdR] at hd
    have hd : 2 * (m + 1) = dim := by simpa using hd
    subst hd
    have hmm : 2 ^ m * 2 ^ m = 2 ^ (2 * m) := by rw [← pow_add, two_mul]
    have hs : ushl 1 (2 * (m + 1) / 2) = 2 * 2 ^ m := by
      rw [ushl_one (by omega), show 2 * (m + 1) / 2 = m + 1 by omega, hp]
    have h1 : umulD (2 * 2 ^ m) (2 * 2 ^ m) = .ok coeffs.len := by
      have : 2 * 2 ^ m * (2 * 2 ^ m) = coeffs.len := by rw [hl, h4, ← hmm]; ring
      rw [umulD_ok (by rw [this]; exact hlt), this]
    have h2 : umulD (2 * 2 ^ m / 2) (2 * 2 ^ m / 2) = .ok (coeffs.len / 4) := by
      have : 2 * 2 ^ m / 2 * (2 * 2 ^ m / 2) = coeffs.len / 4 := by
        rw [show 2 * 2 ^ m / 2 = 2 ^ m by omega, hmm]; omega
      rw [umulD_ok (by rw [this]; omega), this]
    rw [ushlD_ok (show 2 * (m + 1) / 2 < 64 by omega), hs]
    simp only [ok_bind', h1, h2]
    simp only [debugAssert_true, ok_bind', ← bind_assoc]
    rw [key ⟨coeffs.len / 4, _⟩ (show coeffs.len / 4 = _ by omega),
      key ⟨coeffs.len / 2 - coeffs.len / 4, _⟩ (show coeffs.len / 2 - coeffs.len / 4 = _ by omega),
      key ⟨coeffs.len / 4, _⟩ (show coeffs.len / 4 = _ by omega),
      key ⟨coeffs.len - coeffs.len / 2 - coeffs.len / 4, _⟩ (show coeffs.len - coeffs.len / 2 - coeffs.len / 4 = _ by omega)]

theorem clifftNnD_eq (m : Nat) (hm : 2 * m < 64) (coeffs : Arr1 T) (hl : coeffs.len = 2 ^ (2 * m)) :
    clifftNnD coeffs = clifftNn coeffs := by
  unfold clifftNnD clifftNn
  rw [clifftAllocD_eq (by rw [hl]; exact Nat.pow_lt_pow_right (by norm_num) hm)]
  cases clifftAlloc coeffs with
  | error e => rfl
  | ok d => exact clifftNnIntoD_eq m hm coeffs d hl

/-- An odd number of generators violates the assertion. -/
theorem clifftNnIntoD_odd (m : Nat) (hm : 2 * m + 1 < 64) (coeffs : Arr1 T) (dest : Arr2 T) (hl : coeffs.len = 2 ^ (2 * m + 1)) :
    clifftNnIntoD coeffs dest = .error .panic := by
  have hlt : coeffs.len < 2 ^ 64 := by rw [hl]; exact Nat.pow_lt_pow_right (by norm_num) hm
  have hdD : clDimD coeffs.len = .ok (2 * m + 1) := by rw [clDimD_eq hlt, hl, clDim_two_pow hm]
  have hpos := Nat.two_pow_pos (2 * m)
  have h2 : 2 ^ (2 * m + 1) = 2 * 2 ^ (2 * m) := by rw [pow_succ]; ring
  have hmm : 2 ^ m * 2 ^ m = 2 ^ (2 * m) := by rw [← pow_add, two_mul]
  unfold clifftNnIntoD
  rw [if_neg (by omega)]
  split
  · rename_i e he; rw [hdD] at he; exact absurd he (by simp)
  rename_i dim hd
  rw [hdD] at hd
  have hd : 2 * m + 1 = dim := by simpa using hd
  subst hd
  rw [ushlD_ok (show (2 * m + 1) / 2 < 64 by omega), ushl_one (by omega), show (2 * m + 1) / 2 = m by omega]
  simp only [ok_bind']
  rw [umulD_ok (by omega), hmm]
  simp only [ok_bind']
  rw [show debugAssert (2 ^ (2 * m) = coeffs.len) = .error .panic from if_neg (by omega)]
  rfl

end add

section div
variable {T : Type} [Zero T] [One T] [Add T] [Sub T] [Neg T] [Div T]

theorem iclifftNnIntoD_eq (M : Arr2 T) (hM : M.rows < 2 ^ 32) (dest : Arr1 T) :
    iclifftNnIntoD M dest = iclifftNnInto M dest := by
  induction hr : M.rows using Nat.strong_induction_on generalizing M dest with
  | _ r ih =>
    unfold iclifftNnIntoD iclifftNnInto
    by_cases hb : badSquare M = true
    · rw [if_pos hb, if_pos hb]
    rw [if_neg hb, if_neg hb]
    by_cases hd : dest.len < M.rows * M.rows
    · rw [if_pos hd, if_pos hd]
    rw [if_neg hd, if_neg hd]
    by_cases h1 : M.rows = 1
    · rw [dif_pos h1, dif_pos h1]
    rw [dif_neg h1, dif_neg h1]
    by_cases h0 : M.rows = 0
    · rw [dif_pos h0, dif_pos h0]
    rw [dif_neg h0, dif_neg h0]
    obtain ⟨m, hm, -⟩ := badSquare_eq_false (M := M) (by simpa using hb)
    obtain ⟨k, rfl⟩ : ∃ k, m = k + 1 := by
      cases m with
      | zero => exact absurd (by simpa using hm) h1
      | succ k => exact ⟨k, rfl⟩
    have hp : 2 ^ (k + 1) = 2 * 2 ^ k := by rw [pow_succ]; ring
    have hk : 2 ^ k * 2 ^ k < 2 ^ 31 * 2 ^ 31 := Nat.mul_lt_mul'' (by omega) (by omega)
    have e1 : M.rows * M.rows = 4 * (2 ^ k * 2 ^ k) := by rw [hm, hp]; ring
    have e2 : M.rows / 2 * (M.rows / 2) = 2 ^ k * 2 ^ k := by rw [show M.rows / 2 = 2 ^ k by omega]
    have u1 : umulD M.rows M.rows = .ok (M.rows * M.rows) := umulD_ok (by omega)
    have u2 : umulD (M.rows / 2) (M.rows / 2) = .ok (M.rows / 2 * (M.rows / 2)) := umulD_ok (by omega)
    have u3 : debugAssert (M.rows / 2 * (M.rows / 2) = M.rows * M.rows / 4) = .ok () := debugAssert_ok (by omega)
    simp only [u1, u2, ok_bind']
    rw [u3]
    simp only [ok_bind']
    have g : ∀ (a : Arr2 T) (d : Arr1 T), a.rows < M.rows → iclifftNnIntoD a d = iclifftNnInto a d :=
      fun a d ha => ih a.rows (by omega) a (by omega) d rfl
    rw [g ⟨M.rows / 2, _, _⟩ _ (show M.rows / 2 < M.rows by omega), g ⟨M.rows / 2, _, _⟩ _ (show M.rows / 2 < M.rows by omega),
      g ⟨M.rows - M.rows / 2, _, _⟩ _ (show M.rows - M.rows / 2 < M.rows by omega),
      g ⟨M.rows - M.rows / 2, _, _⟩ _ (show M.rows - M.rows / 2 < M.rows by omega)]

end div
end TClifford
