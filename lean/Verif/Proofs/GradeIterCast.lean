import Verif.Model.GradeIterCast
import Verif.Proofs.GradeIter
/-
The iterator with machine integers agrees with the one with exact integers for weights below `2^63`, and does not return
from `next` for other weights.
-/

namespace TClifford

theorem isz_ok {chk : Bool} {x : Int} (h1 : -2 ^ 63 ≤ x) (h2 : x < 2 ^ 63) : isz chk x = .ok x := by
  unfold isz; rw [if_pos ⟨h1, h2⟩]

theorem asIsize_small {n : Nat} (h : n < 2 ^ 63) : asIsize n = n := by
  unfold asIsize
  rw [Int.bmod_def]
  have : ((n : Int)) % ((2 ^ 64 : Nat) : Int) = n := by omega
  rw [this]
  split <;> omega

theorem asIsize_big {n : Nat} (h : 2 ^ 63 ≤ n) (h2 : n < 2 ^ 64) : asIsize n = n - 2 ^ 64 := by
  unfold asIsize
  rw [Int.bmod_def]
  have : ((n : Int)) % ((2 ^ 64 : Nat) : Int) = n := by omega
  rw [this]
  split <;> omega

theorem asIsize_asUsize {x : Int} (h1 : -2 ^ 63 ≤ x) (h2 : x < 2 ^ 63) : asIsize (asUsize x) = x := by
  unfold asIsize asUsize
  rw [Int.bmod_def]
  have h3 : ((x % 2 ^ 64).toNat : Int) = x % 2 ^ 64 := Int.toNat_of_nonneg (by omega)
  rw [h3]
  split <;> omega

/-- The state with machine integers. -/
def toG : (w : Nat) → GradeIter w → GIter
  | 0, pos => .leaf 0 pos
  | w + 1, (pos, none) => .leaf (w + 1) pos
  | w + 1, (pos, some s) => .node (w + 1) pos (toG w s)

/-- The states that occur; positions stay small. -/
def Good : (w : Nat) → GradeIter w → Prop
  | 0, pos => let pos : Int := pos; -2 ≤ pos ∧ pos < 64
  | _ + 1, (pos, none) => -1 ≤ pos ∧ pos < 64
  | w + 1, (pos, some s) => (w : Int) - 1 ≤ pos ∧ pos < 64 ∧ Good w s

theorem toG_new (chk : Bool) (w : Nat) {len : Nat} (h : len ≤ 64) :
    GIter.new chk len w = .ok (toG w (gradeIter w len)) := by
  unfold GIter.new
  rw [asIsize_small (by omega), isz_ok (by omega) (by omega)]
  cases w <;> rfl

theorem good_new (w : Nat) {len : Nat} (h : len ≤ 64) : Good w (gradeIter w len) := by
  cases w with
  | zero => show -2 ≤ (len : Int) - 1 ∧ (len : Int) - 1 < 64; omega
  | succ w => show -1 ≤ (len : Int) - 1 ∧ (len : Int) - 1 < 64; omega

theorem toG_refresh (chk : Bool) : (w : Nat) → (it : GradeIter w) → Good w it → (len : Int) → (w : Int) - 1 ≤ len → len < 65 →
    (toG w it).refresh chk len = .ok (toG w (GradeIter.refresh w it len)) ∧ Good w (GradeIter.refresh w it len)
  | 0, pos, _, len, h1, h2 => by
    constructor
    · show (do let p ← isz chk (len - 1); return GIter.leaf 0 p : Res GIter) = _
      rw [isz_ok (by omega) (by omega)]; rfl
    · show -2 ≤ len - 1 ∧ len - 1 < 64
      omega
  | w + 1, (pos, none), _, len, h1, h2 => by
    constructor
    · show (do let p ← isz chk (len - 1); return GIter.leaf (w + 1) p : Res GIter) = _
      rw [isz_ok (by omega) (by omega)]; rfl
    · show -1 ≤ len - 1 ∧ len - 1 < 64
      push_cast at h1; omega
  | w + 1, (pos, some s), hg, len, h1, h2 => by
    obtain ⟨i1, i2⟩ := toG_refresh chk w s hg.2.2 (len - 1) (by push_cast at h1; omega) (by omega)
    constructor
    · show (do let p ← isz chk (len - 1); let s ← (toG w s).refresh chk p; return GIter.node (w + 1) p s : Res GIter) = _
      rw [isz_ok (by omega) (by omega)]
      show (do let s ← (toG w s).refresh chk (len - 1); return GIter.node (w + 1) (len - 1) s : Res GIter) = _
      rw [i1]; rfl
    · exact ⟨by push_cast at h1; omega, by omega, i2⟩

theorem toG_weight : (w : Nat) → (it : GradeIter w) → (toG w it).weight = w
  | 0, _ => rfl
  | _ + 1, (_, none) => rfl
  | _ + 1, (_, some _) => rfl

theorem gnext_done {chk : Bool} {it : GIter} (h1 : -2 ^ 63 ≤ it.pos + 1) (h2 : it.pos + 1 < 2 ^ 63)
    (h : it.pos + 1 < asIsize it.weight) (fuel : Nat) : it.next chk (fuel + 1) = some (.ok (none, it)) := by
  rw [GIter.next, isz_ok h1 h2]
  simp only [if_pos h]

theorem gnext_zero {chk : Bool} {it : GIter} (h1 : -2 ^ 63 ≤ it.pos + 1) (h2 : it.pos + 1 < 2 ^ 63)
    (h : ¬ it.pos + 1 < asIsize it.weight) (hw : it.weight = 0) (fuel : Nat) :
    it.next chk (fuel + 1) = some (.ok (some 0, it.setPos (-2))) := by
  rw [GIter.next, isz_ok h1 h2]
  simp only [if_neg h, if_pos hw]

theorem gnext_some {chk : Bool} {it sub sub' : GIter} {x : Nat} (h1 : 0 ≤ it.pos) (h2 : it.pos < 64)
    (h : ¬ it.pos + 1 < asIsize it.weight) (hw : it.weight ≠ 0) (hs : it.getSub chk = .ok sub) {fuel : Nat}
    (hn : sub.next chk fuel = some (.ok (some x, sub'))) :
    it.next chk (fuel + 1) = some (.ok (some (ushl 1 it.pos.toNat ||| x), .node it.weight it.pos sub')) := by
  rw [GIter.next, isz_ok (by omega) (by omega), hs]
  have : shlI chk it.pos = .ok (ushl 1 it.pos.toNat) := by unfold shlI; rw [if_pos (by omega)]
  simp only [if_neg h, if_neg hw, hn, this]

theorem gnext_none {chk : Bool} {it sub sub' it' : GIter} (h1 : -2 ^ 63 ≤ it.pos + 1) (h2 : it.pos + 1 < 2 ^ 63)
    (h : ¬ it.pos + 1 < asIsize it.weight) (hw : it.weight ≠ 0) (hs : it.getSub chk = .ok sub) {fuel : Nat}
    (hn : sub.next chk fuel = some (.ok (none, sub'))) (hi : GIter.shift chk it.weight it.pos sub' = .ok it') :
    it.next chk (fuel + 1) = it'.next chk fuel := by
  rw [GIter.next, isz_ok h1 h2, hs]
  simp only [if_neg h, if_neg hw, hn, hi]

theorem gnext_stuck {chk : Bool} {it sub : GIter} (h1 : -2 ^ 63 ≤ it.pos + 1) (h2 : it.pos + 1 < 2 ^ 63)
    (h : ¬ it.pos + 1 < asIsize it.weight) (hw : it.weight ≠ 0) (hs : it.getSub chk = .ok sub) {fuel : Nat}
    (hn : sub.next chk fuel = none) : it.next chk (fuel + 1) = none := by
  rw [GIter.next, isz_ok h1 h2, hs]
  simp only [if_neg h, if_neg hw, hn]

theorem toG_next_zero (chk : Bool) (pos : Int) (hg : -2 ≤ pos ∧ pos < 64) :
    Good 0 (GradeIter.next 0 pos).2 ∧ ∃ n, ∀ fuel ≥ n,
      (toG 0 pos).next chk fuel = some (.ok ((GradeIter.next 0 pos).1, toG 0 (GradeIter.next 0 pos).2)) := by
  have h0 : asIsize 0 = 0 := asIsize_small (by norm_num)
  by_cases h : pos + 1 < 0
  · have e : GradeIter.next 0 pos = (none, pos) := by rw [next_zero, if_pos h]
    rw [e]
    refine ⟨hg, 1, fun fuel hf => ?_⟩
    obtain ⟨f, rfl⟩ : ∃ f, fuel = f + 1 := ⟨fuel - 1, by omega⟩
    exact gnext_done (it := .leaf 0 pos) (show _ ≤ pos + 1 by omega) (show pos + 1 < _ by omega)
      (show pos + 1 < asIsize 0 by rw [h0]; exact h) f
  · have e : GradeIter.next 0 pos = (some 0, (-2 : Int)) := by rw [next_zero, if_neg h]
    rw [e]
    refine ⟨show -2 ≤ (-2 : Int) ∧ (-2 : Int) < 64 by omega, 1, fun fuel hf => ?_⟩
    obtain ⟨f, rfl⟩ : ∃ f, fuel = f + 1 := ⟨fuel - 1, by omega⟩
    exact gnext_zero (it := .leaf 0 pos) (show _ ≤ pos + 1 by omega) (show pos + 1 < _ by omega)
      (show ¬ pos + 1 < asIsize 0 by rw [h0]; exact h) rfl f

/-- One call of `next`: the machine gives the result of the exact iterator. -/
theorem toG_next (chk : Bool) : (w : Nat) → (it : GradeIter w) → w < 2 ^ 63 → Good w it →
    Good w (GradeIter.next w it).2 ∧ ∃ n, ∀ fuel ≥ n,
      (toG w it).next chk fuel = some (.ok ((GradeIter.next w it).1, toG w (GradeIter.next w it).2))
  | 0, pos, _, hg => toG_next_zero chk pos hg
  | w + 1, (pos, subiter), hw, hg => by
    have hp : -1 ≤ pos ∧ pos < 64 := by
      cases subiter with
      | none => exact hg
      | some s => exact ⟨by have := hg.1; omega, hg.2.1⟩
    have hpos : (toG (w + 1) (pos, subiter)).pos = pos := by cases subiter <;> rfl
    have hwt : (toG (w + 1) (pos, subiter)).weight = w + 1 := by cases subiter <;> rfl
    have has : asIsize (w + 1) = w + 1 := by rw [asIsize_small hw]; push_cast; rfl
    rw [GradeIter.next]
    by_cases h : pos + 1 < (w + 1 : Int)
    · rw [dif_pos h]
      refine ⟨hg, 1, fun fuel hf => ?_⟩
      obtain ⟨f, rfl⟩ : ∃ f, fuel = f + 1 := ⟨fuel - 1, by omega⟩
      exact gnext_done (by rw [hpos]; omega) (by rw [hpos]; omega) (by rw [hpos, hwt, has]; exact h) f
    · rw [dif_neg h]
      have hsub : (toG (w + 1) (pos, subiter)).getSub chk = .ok (toG w (subiter.getD (gradeIter w pos))) := by
        cases subiter with
        | some s => rfl
        | none =>
          show GIter.new chk (asUsize pos) w = _
          have : pos = ((asUsize pos : Nat) : Int) := by unfold asUsize; omega
          rw [toG_new chk w (by unfold asUsize; omega), ← this]; rfl
      have hsg : Good w (subiter.getD (gradeIter w pos)) := by
        cases subiter with
        | some s => exact hg.2.2
        | none =>
          have : pos = ((pos.toNat : Nat) : Int) := by omega
          show Good w (gradeIter w pos)
          rw [this]
          exact good_new w (by omega)
      obtain ⟨i1, n, i2⟩ := toG_next chk w (subiter.getD (gradeIter w pos)) (by omega) hsg
      generalize subiter.getD (gradeIter w pos) = sub at *
      have h' : ¬ (toG (w + 1) (pos, subiter)).pos + 1 < asIsize (toG (w + 1) (pos, subiter)).weight := by
        rw [hpos, hwt, has]; exact h
      have hw0 : (toG (w + 1) (pos, subiter)).weight ≠ 0 := by rw [hwt]; omega
      generalize toG (w + 1) (pos, subiter) = it at *
      simp only
      rcases hn : GradeIter.next w sub with ⟨r, sub'⟩
      rw [hn] at i1 i2
      cases r with
      | some x =>
        refine ⟨⟨by omega, hp.2, i1⟩, n + 1, fun fuel hf => ?_⟩
        obtain ⟨f, rfl⟩ : ∃ f, fuel = f + 1 := ⟨fuel - 1, by omega⟩
        have := gnext_some (by rw [hpos]; omega) (by rw [hpos]; omega) h' hw0 hsub (i2 f (by omega))
        rw [hpos, hwt] at this
        exact this
      | none =>
        obtain ⟨r1, r2⟩ := toG_refresh chk w sub' i1 (pos - 1) (by omega) (by omega)
        have hs : GIter.shift chk it.weight it.pos (toG w sub') =
            .ok (toG (w + 1) (pos - 1, some (GradeIter.refresh w sub' (pos - 1)))) := by
          unfold GIter.shift
          rw [hpos, hwt, isz_ok (by omega) (by omega)]
          show (do let s ← (toG w sub').refresh chk (pos - 1); return GIter.node (w + 1) (pos - 1) s : Res GIter) = _
          rw [r1]; rfl
        obtain ⟨j1, m, j2⟩ := toG_next chk (w + 1) (pos - 1, some (GradeIter.refresh w sub' (pos - 1))) hw
          ⟨by omega, by omega, r2⟩
        refine ⟨j1, max n m + 1, fun fuel hf => ?_⟩
        obtain ⟨f, rfl⟩ : ∃ f, fuel = f + 1 := ⟨fuel - 1, by omega⟩
        rw [gnext_none (by rw [hpos]; omega) (by rw [hpos]; omega) h' hw0 hsub (i2 f (by omega)) hs]
        exact j2 f (by omega)
  termination_by w it => (w, match w, it with | 0, _ => 0 | _ + 1, (pos, _) => (pos + 1).toNat)
  decreasing_by
    · exact Prod.Lex.left _ _ (Nat.lt_succ_self w)
    · apply Prod.Lex.right
      omega

/-- The states that are reached for weights of at least `2^63`. -/
def Stuck (fuel : Nat) : GIter → Prop
  | .leaf w p => 2 ^ 63 ≤ w ∧ w < 2 ^ 64 ∧ (w : Int) - 2 ^ 64 ≤ p + 1 ∧ p < 64 ∧ (fuel : Int) + 2 ≤ p + 2 ^ 63
  | .node w p s => w = 2 ^ 63 ∧ p < 64 ∧ (fuel : Int) + 2 ≤ p + 2 ^ 63 ∧ s = .leaf (w - 1) (p - 1)

/-- For weights of at least `2^63` the call of `next` does not return. -/
theorem next_stuck (chk : Bool) (fuel : Nat) (it : GIter) (h : Stuck fuel it) : it.next chk fuel = none := by
  induction fuel generalizing it with
  | zero => rfl
  | succ fuel ih =>
    -- an iterator of weight 2^63, whose sub-iterator is always empty
    have key : ∀ (it : GIter) (p : Int) (w : Nat), it.pos = p → it.weight = w → w = 2 ^ 63 → it.getSub chk = .ok (.leaf (w - 1) (p - 1)) →
        p < 64 → (fuel : Int) + 1 + 2 ≤ p + 2 ^ 63 → it.next chk (fuel + 1) = none := by
      intro it p w hp hiw hw hsub h1 h2
      have hlt : ¬ it.pos + 1 < asIsize it.weight := by
        rw [hp, hiw, asIsize_big (by omega) (by omega)]; omega
      have hw0 : it.weight ≠ 0 := by omega
      cases fuel with
      | zero => exact gnext_stuck (by rw [hp]; omega) (by rw [hp]; omega) hlt hw0 hsub (GIter.next.eq_1 chk _)
      | succ f =>
        have e : GIter.next chk (f + 1) (.leaf (w - 1) (p - 1)) = some (.ok (none, .leaf (w - 1) (p - 1))) := by
          have e1 : (GIter.leaf (w - 1) (p - 1)).pos = p - 1 := rfl
          have e2 : (GIter.leaf (w - 1) (p - 1)).weight = w - 1 := rfl
          refine gnext_done (by rw [e1]; omega) (by rw [e1]; omega) ?_ f
          rw [e1, e2, asIsize_small (by omega)]; omega
        have hs : GIter.shift chk it.weight it.pos (.leaf (w - 1) (p - 1)) =
            .ok (.node w (p - 1) (.leaf (w - 1) (p - 1 - 1))) := by
          have hr : GIter.refresh chk (.leaf (w - 1) (p - 1)) (p - 1) = .ok (.leaf (w - 1) (p - 1 - 1)) := by
            rw [GIter.refresh, isz_ok (by push_cast at h2; omega) (by omega)]; rfl
          unfold GIter.shift
          rw [hp, hiw, isz_ok (by omega) (by omega)]
          show (do let s ← GIter.refresh chk (.leaf (w - 1) (p - 1)) (p - 1); return GIter.node w (p - 1) s : Res GIter) = _
          rw [hr]; rfl
        rw [gnext_none (by rw [hp]; omega) (by rw [hp]; omega) hlt hw0 hsub e hs]
        exact ih _ ⟨hw, by omega, by push_cast at h2 ⊢; omega, rfl⟩
    cases it with
    | leaf w p =>
      obtain ⟨h1, h2, h3, h4, h5⟩ := h
      push_cast at h5
      have hn : GIter.getSub chk (.leaf w p) = .ok (.leaf (w - 1) (p - 1)) := by
        rw [GIter.getSub, GIter.new, asIsize_asUsize (by omega) (by omega), isz_ok (by omega) (by omega)]; rfl
      by_cases hw : w = 2 ^ 63
      · exact key (.leaf w p) p w rfl rfl hw hn h4 h5
      · have e1 : (GIter.leaf w p).pos = p := rfl
        have e2 : (GIter.leaf w p).weight = w := rfl
        refine gnext_stuck (by rw [e1]; omega) (by rw [e1]; omega) ?_
          (by rw [e2]; omega) hn (ih (.leaf (w - 1) (p - 1)) ⟨by omega, by omega, by omega, by omega, by omega⟩)
        rw [e1, e2, asIsize_big h1 h2]; omega
    | node w p s =>
      obtain ⟨hw, h4, h5, hs⟩ := h
      push_cast at h5
      exact key (.node w p s) p w rfl rfl hw (by rw [GIter.getSub, hs]) h4 h5

end TClifford
