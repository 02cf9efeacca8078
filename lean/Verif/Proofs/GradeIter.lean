import Verif.Model.IndexUtils
import Verif.Math.Bits
import Mathlib.Data.Nat.Choose.Basic
/-
The resumable iterator of src/index_utils.rs enumerates the blades of a grade (helper lemmas for C22).
-/

namespace TClifford

/-- All numbers below `2^len` with `w` binary digits 1, in decreasing order. -/
def comb : Nat → Nat → List Nat
  | 0, _ => [0]
  | _ + 1, 0 => []
  | w + 1, len + 1 => (comb w len).map (2 ^ len ||| ·) ++ comb (w + 1) len

theorem comb_nil : ∀ {w len : Nat}, len < w → comb w len = []
  | w + 1, 0, _ => rfl
  | w + 1, len + 1, h => by
    rw [comb, comb_nil (by omega), comb_nil (by omega)]; rfl

theorem mem_comb {w len x : Nat} : x ∈ comb w len ↔ x < 2 ^ len ∧ cnt len x = w := by
  induction len generalizing w x with
  | zero =>
    cases w with
    | zero => simp [comb]
    | succ w => simp [comb]
  | succ len ih =>
    cases w with
    | zero =>
      simp only [comb, List.mem_singleton]
      constructor
      · rintro rfl; exact ⟨Nat.two_pow_pos _, cnt_zero _⟩
      · rintro ⟨h1, h2⟩
        rw [cnt_succ] at h2
        have hb : x.testBit len = false := by
          cases h : x.testBit len
          · rfl
          · rw [h] at h2; simp at h2
        have hlt : x < 2 ^ len := Nat.lt_pow_two_of_testBit x (fun i hi => by
          rcases Nat.eq_or_lt_of_le hi with rfl | h
          · exact hb
          · exact testBit_eq_false_of_lt h1 h)
        have := (ih (w := 0) (x := x)).mpr ⟨hlt, by omega⟩
        cases len <;> simpa [comb] using this
    | succ w =>
      rw [comb, List.mem_append, List.mem_map, ih]
      constructor
      · rintro (⟨y, hy, rfl⟩ | ⟨h1, h2⟩)
        · rw [ih] at hy
          have e : 2 ^ len ||| y = y + 2 ^ len := by
            have := Nat.two_pow_add_eq_or_of_lt hy.1 1
            rw [Nat.mul_one] at this; omega
          rw [e]
          refine ⟨add_two_pow_lt hy.1, ?_⟩
          rw [cnt_succ, testBit_add_two_pow hy.1, Nat.testBit_lt_two_pow hy.1]
          rw [cnt_congr (b := y), hy.2]
          · simp
          · intro i hi; rw [testBit_add_two_pow hy.1]; simp [Nat.ne_of_lt hi]
        · refine ⟨lt_succ_of_lt h1, ?_⟩
          rw [cnt_succ, Nat.testBit_lt_two_pow h1, h2]; rfl
      · rintro ⟨h1, h2⟩
        by_cases hx : x < 2 ^ len
        · right
          refine ⟨hx, ?_⟩
          rw [cnt_succ, Nat.testBit_lt_two_pow hx] at h2
          simpa using h2
        · left
          have hy : x - 2 ^ len < 2 ^ len := by rw [pow_succ] at h1; omega
          obtain ⟨y, rfl⟩ : ∃ y, x = y + 2 ^ len := ⟨x - 2 ^ len, by omega⟩
          rw [Nat.add_sub_cancel] at hy
          refine ⟨y, ?_, ?_⟩
          · rw [ih]
            refine ⟨hy, ?_⟩
            rw [cnt_succ, testBit_add_two_pow hy, Nat.testBit_lt_two_pow hy] at h2
            rw [cnt_congr (b := y)] at h2
            · simpa using h2
            · intro i hi; rw [testBit_add_two_pow hy]; simp [Nat.ne_of_lt hi]
          · have := Nat.two_pow_add_eq_or_of_lt hy 1
            rw [Nat.mul_one] at this; omega

theorem comb_sorted (w len : Nat) : (comb w len).Pairwise (· > ·) := by
  induction len generalizing w with
  | zero => cases w <;> simp [comb]
  | succ len ih =>
    cases w with
    | zero => simp [comb]
    | succ w =>
      rw [comb, List.pairwise_append]
      have e : ∀ y ∈ comb w len, 2 ^ len ||| y = y + 2 ^ len := by
        intro y hy
        have := Nat.two_pow_add_eq_or_of_lt (mem_comb.mp hy).1 1
        rw [Nat.mul_one] at this; omega
      refine ⟨?_, ih _, ?_⟩
      · rw [List.pairwise_map]
        apply List.Pairwise.imp_of_mem _ (ih w)
        intro x y hx hy hxy
        rw [e x hx, e y hy]; omega
      · intro x hx y hy
        rw [List.mem_map] at hx
        obtain ⟨z, hz, rfl⟩ := hx
        rw [e z hz]
        have := (mem_comb.mp hy).1
        omega

theorem comb_nodup (w len : Nat) : (comb w len).Nodup :=
  (comb_sorted w len).imp (fun h => Nat.ne_of_gt h)

theorem comb_length (w len : Nat) : (comb w len).length = len.choose w := by
  induction len generalizing w with
  | zero => cases w <;> rfl
  | succ len ih =>
    cases w with
    | zero => simp [comb]
    | succ w => rw [comb, List.length_append, List.length_map, ih, ih, Nat.choose_succ_succ]

/-! ### Iterator states -/

/-- What an iterator state still has to produce. -/
def rem : (w : Nat) → GradeIter w → List Nat
  | 0, pos => let pos : Int := pos; if pos + 1 < 0 then [] else [0]
  | w + 1, (pos, sub) =>
    if pos + 1 < (w + 1 : Int) then []
    else (match sub with
      | none => comb w pos.toNat
      | some s => rem w s).map (2 ^ pos.toNat ||| ·) ++ comb (w + 1) pos.toNat

theorem rem_zero_eq (pos : Int) : rem 0 pos = if pos + 1 < 0 then [] else [0] := rfl

theorem rem_done {w : Nat} {pos : Int} (sub : Option (GradeIter w)) (h : pos + 1 < (w + 1 : Int)) :
    rem (w + 1) (pos, sub) = [] := by
  show (if pos + 1 < (w + 1 : Int) then [] else _) = []
  rw [if_pos h]

theorem rem_none {w : Nat} {pos : Int} (h : ¬ pos + 1 < (w + 1 : Int)) :
    rem (w + 1) (pos, none) = (comb w pos.toNat).map (2 ^ pos.toNat ||| ·) ++ comb (w + 1) pos.toNat := by
  show (if pos + 1 < (w + 1 : Int) then [] else _) = _
  rw [if_neg h]

theorem rem_some {w : Nat} {pos : Int} (s : GradeIter w) (h : ¬ pos + 1 < (w + 1 : Int)) :
    rem (w + 1) (pos, some s) = (rem w s).map (2 ^ pos.toNat ||| ·) ++ comb (w + 1) pos.toNat := by
  show (if pos + 1 < (w + 1 : Int) then [] else _) = _
  rw [if_neg h]

/-- All positions are below 64. -/
def okState : (w : Nat) → GradeIter w → Prop
  | 0, pos => let pos : Int := pos; pos < 64
  | w + 1, (pos, sub) => pos < 64 ∧ match sub with
    | none => True
    | some s => okState w s

theorem okState_gradeIter (w : Nat) {len : Int} (h : len ≤ 64) : okState w (gradeIter w len) := by
  cases w with
  | zero => show len - 1 < 64; omega
  | succ w => exact ⟨by omega, trivial⟩

theorem okState_refresh : (w : Nat) → (it : GradeIter w) → {len : Int} → len ≤ 64 → okState w (GradeIter.refresh w it len)
  | 0, _, len, h => by show len - 1 < 64; omega
  | w + 1, (_, none), len, h => ⟨by omega, trivial⟩
  | w + 1, (_, some s), len, h => ⟨by omega, okState_refresh w s (by omega)⟩

theorem rem_fresh_aux {w : Nat} {len : Int} (l : List Nat) (hl : 0 ≤ len - 1 → l = comb w (len - 1).toNat) :
    (if len - 1 + 1 < (w + 1 : Int) then [] else l.map (2 ^ (len - 1).toNat ||| ·) ++ comb (w + 1) (len - 1).toNat) =
      if len < 0 then [] else comb (w + 1) len.toNat := by
  split
  · split
    · rfl
    · rw [comb_nil (by omega)]
  · rw [if_neg (by omega), hl (by omega)]
    obtain ⟨n, hn⟩ : ∃ n : Nat, len.toNat = n + 1 := ⟨len.toNat - 1, by omega⟩
    have : (len - 1).toNat = n := by omega
    rw [hn, this, comb]

theorem rem_gradeIter (w : Nat) (len : Int) : rem w (gradeIter w len) = if len < 0 then [] else comb w len.toNat := by
  cases w with
  | zero => show (if len - 1 + 1 < 0 then [] else [0]) = _; simp [comb]
  | succ w => exact rem_fresh_aux _ (fun _ => rfl)

theorem rem_refresh : (w : Nat) → (it : GradeIter w) → (len : Int) →
    rem w (GradeIter.refresh w it len) = if len < 0 then [] else comb w len.toNat
  | 0, it, len => by show (if len - 1 + 1 < 0 then [] else [0]) = _; simp [comb]
  | w + 1, (p, none), len => rem_fresh_aux _ (fun _ => rfl)
  | w + 1, (p, some s), len => rem_fresh_aux _ (fun h => by
    show rem w (GradeIter.refresh w s (len - 1)) = _
    rw [rem_refresh w s, if_neg (by omega)])

theorem next_zero (pos : Int) : GradeIter.next 0 pos = if pos + 1 < 0 then (none, pos) else (some 0, (-2 : Int)) := GradeIter.next.eq_1 pos

theorem next_spec_zero (pos : Int) (hok : okState 0 pos) :
    (GradeIter.next 0 pos).1 = (rem 0 pos).head? ∧ rem 0 (GradeIter.next 0 pos).2 = (rem 0 pos).tail ∧
      okState 0 (GradeIter.next 0 pos).2 := by
  by_cases h : pos + 1 < 0
  · have hn : GradeIter.next 0 pos = (none, pos) := by rw [next_zero, if_pos h]
    have hr : rem 0 pos = [] := by rw [rem_zero_eq, if_pos h]
    rw [hn, hr]
    exact ⟨rfl, rfl, hok⟩
  · have hn : GradeIter.next 0 pos = (some 0, (-2 : Int)) := by rw [next_zero, if_neg h]
    have hr : rem 0 pos = [0] := by rw [rem_zero_eq, if_neg h]
    rw [hn, hr]
    refine ⟨rfl, ?_, ?_⟩
    · exact (rem_zero_eq (-2)).trans (by simp)
    · show (-2 : Int) < 64; omega

/-- The specification of one call of `next`. -/
theorem next_spec : (w : Nat) → (it : GradeIter w) → okState w it →
    (GradeIter.next w it).1 = (rem w it).head? ∧ rem w (GradeIter.next w it).2 = (rem w it).tail ∧
      okState w (GradeIter.next w it).2
  | 0, pos, hok => by
    exact next_spec_zero pos hok
  | w + 1, (pos, subiter), hok => by
    rw [GradeIter.next]
    by_cases h : pos + 1 < (w + 1 : Int)
    · have hr : rem (w + 1) (pos, subiter) = [] := rem_done subiter h
      rw [dif_pos h]
      refine ⟨?_, ?_, hok⟩
      · rw [hr]; rfl
      · rw [hr]; rfl
    · rw [dif_neg h]
      have hpos : 0 ≤ pos := by omega
      have hsub_ok : okState w (subiter.getD (gradeIter w pos)) := by
        cases subiter with
        | none => exact okState_gradeIter w (le_of_lt hok.1)
        | some s => exact hok.2
      have hsub_rem : rem (w + 1) (pos, subiter) =
          (rem w (subiter.getD (gradeIter w pos))).map (2 ^ pos.toNat ||| ·) ++ comb (w + 1) pos.toNat := by
        cases subiter with
        | none =>
          rw [Option.getD_none, rem_gradeIter, if_neg (by omega)]
          exact rem_none h
        | some s => exact rem_some s h
      have ih := next_spec w (subiter.getD (gradeIter w pos)) hsub_ok
      rw [hsub_rem]
      generalize subiter.getD (gradeIter w pos) = sub at *
      simp only
      rcases hn : GradeIter.next w sub with ⟨r, sub'⟩
      rw [hn] at ih
      simp only at ih
      rcases hl : rem w sub with _ | ⟨x, xs⟩
      · rw [hl] at ih
        rcases r with _ | y
        · simp only
          have hr := next_spec (w + 1) (pos - 1, some (GradeIter.refresh w sub' (pos - 1)))
            ⟨by have := hok.1; omega, okState_refresh w sub' (by have := hok.1; omega)⟩
          have e : rem (w + 1) (pos - 1, some (GradeIter.refresh w sub' (pos - 1))) = comb (w + 1) pos.toNat := by
            have := rem_fresh_aux (w := w) (len := pos) (rem w (GradeIter.refresh w sub' (pos - 1)))
              (fun h => by rw [rem_refresh, if_neg (by omega)])
            rw [if_neg (by omega : ¬ pos < 0)] at this
            exact this
          rw [e] at hr
          simpa using hr
        · exact absurd ih.1 (by simp)
      · rw [hl] at ih
        rcases r with _ | y
        · exact absurd ih.1 (by simp)
        · have hy : y = x := by simpa using ih.1
          subst hy
          simp only
          refine ⟨?_, ?_, ?_⟩
          · rw [ushl_one (by have := hok.1; omega)]; simp
          · refine (rem_some sub' h).trans ?_
            rw [ih.2.1]; simp
          · exact ⟨hok.1, ih.2.2⟩
  termination_by w it => (w, match w, it with | 0, _ => 0 | _ + 1, (pos, _) => (pos + 1).toNat)
  decreasing_by
    · exact Prod.Lex.left _ _ (Nat.lt_succ_self w)
    · apply Prod.Lex.right
      omega

theorem collect_eq (w : Nat) : ∀ (fuel : Nat) (it : GradeIter w), okState w it →
    GradeIter.collect fuel w it = (rem w it).take fuel
  | 0, _, _ => by simp [GradeIter.collect]
  | fuel + 1, it, hok => by
    have hs := next_spec w it hok
    unfold GradeIter.collect
    rcases hn : GradeIter.next w it with ⟨r, it'⟩
    rw [hn] at hs
    simp only at hs
    rcases hl : rem w it with _ | ⟨x, xs⟩
    · rw [hl] at hs
      rcases r with _ | y
      · simp
      · exact absurd hs.1 (by simp)
    · rw [hl] at hs
      rcases r with _ | y
      · exact absurd hs.1 (by simp)
      · have hy : y = x := by simpa using hs.1
        subst hy
        simp only
        rw [collect_eq w fuel it' hs.2.2, hs.2.1]; simp

theorem choose_le_two_pow (n k : Nat) : n.choose k ≤ 2 ^ n := by
  induction n generalizing k with
  | zero => cases k <;> simp
  | succ n ih =>
    cases k with
    | zero => simp; exact Nat.one_le_two_pow
    | succ k => rw [Nat.choose_succ_succ', pow_succ]; have := ih k; have := ih (k + 1); omega

theorem gradeIterList_eq {len w : Nat} (h : len ≤ 64) : gradeIterList len w = comb w len := by
  unfold gradeIterList
  rw [collect_eq _ _ _ (okState_gradeIter w (by omega)), rem_gradeIter, if_neg (by omega), Int.toNat_natCast]
  apply List.take_of_length_le
  rw [comb_length]
  have := choose_le_two_pow len w
  omega

theorem mem_gradeIterList {len w x : Nat} (h : len ≤ 64) : x ∈ gradeIterList len w ↔ x < 2 ^ len ∧ countOnes x = w := by
  rw [gradeIterList_eq h, mem_comb]
  constructor
  · rintro ⟨h1, h2⟩; exact ⟨h1, by rw [countOnes_eq_cnt h1, h2]⟩
  · rintro ⟨h1, h2⟩; exact ⟨h1, by rw [← countOnes_eq_cnt h1, h2]⟩

end TClifford
