import Verif.Props.NonFinite
import Verif.Props.FFTFloat
import Verif.Props.FloatComplex
/-
C95: infinities and NaNs in products through the transforms.
-/

set_option linter.unusedSectionVars false

namespace TClifford

open MV Finset FloatModel

/-- A quotient with a dividend that is not finite is not finite. -/
class FinAbsorbDiv (F : Type) [Zero F] [One F] [Add F] [Sub F] [Neg F] [Mul F] [Div F] [FloatModel F] : Prop extends FinAbsorb F where
  div : ∀ {x y : F}, fin (x / y) → fin x

instance {f : Fmt} : FinAbsorbDiv (Flt f) where
  div {x y} h := by
    cases x <;> cases y <;> first | exact Flt.fin_num _ | exact absurd rfl h

section
variable {F : Type} [Zero F] [One F] [Add F] [Sub F] [Neg F] [Mul F] [Div F] [FloatModel F] [FinAbsorbDiv F]

namespace Cx

/-- one part is an infinity or NaN -/
def Bad (v : Cx F) : Prop := ¬ fin v.re ∨ ¬ fin v.im

/-- both parts are infinities or NaNs -/
def Bad2 (v : Cx F) : Prop := ¬ fin v.re ∧ ¬ fin v.im

theorem Bad2.bad {v : Cx F} (h : v.Bad2) : v.Bad := .inl h.1

theorem Bad.neg {v : Cx F} (h : v.Bad) : (-v).Bad := h.imp (mt FinAbsorb.neg) (mt FinAbsorb.neg)
theorem Bad.add {v : Cx F} (h : v.Bad) (w : Cx F) : (v + w).Bad := h.imp (mt fun g => (FinAbsorb.add g).1) (mt fun g => (FinAbsorb.add g).1)
theorem Bad.add' {w : Cx F} (h : w.Bad) (v : Cx F) : (v + w).Bad := h.imp (mt fun g => (FinAbsorb.add g).2) (mt fun g => (FinAbsorb.add g).2)
theorem Bad.sub {v : Cx F} (h : v.Bad) (w : Cx F) : (v - w).Bad := h.imp (mt fun g => (FinAbsorb.sub g).1) (mt fun g => (FinAbsorb.sub g).1)
theorem Bad.sub' {w : Cx F} (h : w.Bad) (v : Cx F) : (v - w).Bad := h.imp (mt fun g => (FinAbsorb.sub g).2) (mt fun g => (FinAbsorb.sub g).2)

theorem Bad2.neg {v : Cx F} (h : v.Bad2) : (-v).Bad2 := ⟨mt FinAbsorb.neg h.1, mt FinAbsorb.neg h.2⟩
theorem Bad2.add {v : Cx F} (h : v.Bad2) (w : Cx F) : (v + w).Bad2 := ⟨mt (fun g => (FinAbsorb.add g).1) h.1, mt (fun g => (FinAbsorb.add g).1) h.2⟩
theorem Bad2.add' {w : Cx F} (h : w.Bad2) (v : Cx F) : (v + w).Bad2 := ⟨mt (fun g => (FinAbsorb.add g).2) h.1, mt (fun g => (FinAbsorb.add g).2) h.2⟩
theorem Bad2.sub {v : Cx F} (h : v.Bad2) (w : Cx F) : (v - w).Bad2 := ⟨mt (fun g => (FinAbsorb.sub g).1) h.1, mt (fun g => (FinAbsorb.sub g).1) h.2⟩

/-- A product spoils both parts. -/
theorem Bad.mul {v : Cx F} (h : v.Bad) (w : Cx F) : (v * w).Bad2 := by
  refine ⟨fun g => ?_, fun g => ?_⟩
  · obtain ⟨g1, g2⟩ := FinAbsorb.sub (x := v.re * w.re) (y := v.im * w.im) g
    exact h.elim (fun h => h (FinAbsorb.mul g1).1) (fun h => h (FinAbsorb.mul g2).1)
  · obtain ⟨g1, g2⟩ := FinAbsorb.add (x := v.re * w.im) (y := v.im * w.re) g
    exact h.elim (fun h => h (FinAbsorb.mul g1).1) (fun h => h (FinAbsorb.mul g2).1)

theorem Bad.mul' {w : Cx F} (h : w.Bad) (v : Cx F) : (v * w).Bad2 := by
  refine ⟨fun g => ?_, fun g => ?_⟩
  · obtain ⟨g1, g2⟩ := FinAbsorb.sub (x := v.re * w.re) (y := v.im * w.im) g
    exact h.elim (fun h => h (FinAbsorb.mul g1).2) (fun h => h (FinAbsorb.mul g2).2)
  · obtain ⟨g1, g2⟩ := FinAbsorb.add (x := v.re * w.im) (y := v.im * w.re) g
    exact h.elim (fun h => h (FinAbsorb.mul g2).2) (fun h => h (FinAbsorb.mul g1).2)

theorem Bad.div {v : Cx F} (h : v.Bad) (w : Cx F) : (v / w).Bad2 := by
  refine ⟨fun g => ?_, fun g => ?_⟩
  · obtain ⟨g1, g2⟩ := FinAbsorb.add (FinAbsorbDiv.div (x := v.re * w.re + v.im * w.im) (y := w.normSq) g)
    exact h.elim (fun h => h (FinAbsorb.mul g1).1) (fun h => h (FinAbsorb.mul g2).1)
  · obtain ⟨g1, g2⟩ := FinAbsorb.sub (FinAbsorbDiv.div (x := v.im * w.re - v.re * w.im) (y := w.normSq) g)
    exact h.elim (fun h => h (FinAbsorb.mul g2).1) (fun h => h (FinAbsorb.mul g1).1)

theorem Bad.alpha {v : Cx F} (h : v.Bad) (i j : Nat) : (TClifford.alpha v i j).Bad := by
  unfold TClifford.alpha
  split
  · exact h.neg
  · exact h

theorem Bad2.alpha {v : Cx F} (h : v.Bad2) (i j : Nat) : (TClifford.alpha v i j).Bad2 := by
  unfold TClifford.alpha
  split
  · exact h.neg
  · exact h

end Cx

/-- every row and every column of a matrix of side `2^m` has a bad entry -/
def MBad (m : Nat) (X : Nat → Nat → Cx F) : Prop :=
  (∀ i < 2 ^ m, ∃ j < 2 ^ m, (X i j).Bad) ∧ ∀ j < 2 ^ m, ∃ i < 2 ^ m, (X i j).Bad

/-- The transform of a bad coefficient has a bad entry in every row and in every column. -/
theorem cnnO_bad (m : Nat) {v : Nat → Cx F} {k : Nat} (hk : k < 2 ^ (2 * m)) (h : (v k).Bad) : MBad m (cnnO m v) := by
  induction m generalizing v k with
  | zero =>
    have : k = 0 := by simpa using hk
    subst this
    exact ⟨fun i _ => ⟨0, by norm_num, h⟩, fun j _ => ⟨0, by norm_num, h⟩⟩
  | succ m ih =>
    obtain ⟨h4, h2⟩ := four_pow m
    have hp : 2 ^ (m + 1) = 2 ^ m + 2 ^ m := by rw [pow_succ]; omega
    rw [h4] at hk
    rw [cnnO_succ]
    -- blocks with bad entries on the diagonal, or off it
    have diag : ∀ (A B C D : Nat → Nat → Cx F), MBad m A → MBad m D → MBad (m + 1) (blk m A B C D) := by
      intro A B C D hA hD
      refine ⟨fun i hi => ?_, fun j hj => ?_⟩
      · by_cases hi' : i < 2 ^ m
        · obtain ⟨j, hj, hb⟩ := hA.1 i hi'
          exact ⟨j, by omega, by simpa only [blk, hi', hj, if_true] using hb⟩
        · obtain ⟨j, hj, hb⟩ := hD.1 (i - 2 ^ m) (by omega)
          exact ⟨j + 2 ^ m, by omega, by
            simpa only [blk, hi', show ¬ j + 2 ^ m < 2 ^ m by omega, if_false, Nat.add_sub_cancel] using hb⟩
      · by_cases hj' : j < 2 ^ m
        · obtain ⟨i, hi, hb⟩ := hA.2 j hj'
          exact ⟨i, by omega, by simpa only [blk, hj', hi, if_true] using hb⟩
        · obtain ⟨i, hi, hb⟩ := hD.2 (j - 2 ^ m) (by omega)
          exact ⟨i + 2 ^ m, by omega, by
            simpa only [blk, hj', show ¬ i + 2 ^ m < 2 ^ m by omega, if_false, Nat.add_sub_cancel] using hb⟩
    have off : ∀ (A B C D : Nat → Nat → Cx F), MBad m B → MBad m C → MBad (m + 1) (blk m A B C D) := by
      intro A B C D hB hC
      refine ⟨fun i hi => ?_, fun j hj => ?_⟩
      · by_cases hi' : i < 2 ^ m
        · obtain ⟨j, hj, hb⟩ := hB.1 i hi'
          exact ⟨j + 2 ^ m, by omega, by
            simpa only [blk, hi', if_true, show ¬ j + 2 ^ m < 2 ^ m by omega, if_false, Nat.add_sub_cancel] using hb⟩
        · obtain ⟨j, hj, hb⟩ := hC.1 (i - 2 ^ m) (by omega)
          exact ⟨j, by omega, by simpa only [blk, hi', if_false, hj, if_true] using hb⟩
      · by_cases hj' : j < 2 ^ m
        · obtain ⟨i, hi, hb⟩ := hC.2 j hj'
          exact ⟨i + 2 ^ m, by omega, by
            simpa only [blk, hj', if_true, show ¬ i + 2 ^ m < 2 ^ m by omega, if_false, Nat.add_sub_cancel] using hb⟩
        · obtain ⟨i, hi, hb⟩ := hB.2 (j - 2 ^ m) (by omega)
          exact ⟨i, by omega, by simpa only [blk, hj', if_false, hi, if_true] using hb⟩
    have map : ∀ (X Y : Nat → Nat → Cx F), MBad m X → (∀ i j, (X i j).Bad → (Y i j).Bad) → MBad m Y := fun X Y h g =>
      ⟨fun i hi => (h.1 i hi).imp fun j hj => ⟨hj.1, g i j hj.2⟩, fun j hj => (h.2 j hj).imp fun i hi => ⟨hi.1, g i j hi.2⟩⟩
    by_cases k1 : k < 2 ^ (2 * m + 1)
    · by_cases k2 : k < 2 ^ (2 * m)
      · have := ih k2 h
        exact diag _ _ _ _ (map _ _ this fun i j hb => hb.add _) (map _ _ this fun i j hb => (hb.sub _).alpha _ _)
      · have := ih (v := hi (2 * m) v) (k := k - 2 ^ (2 * m)) (by omega) (by
          unfold hi; rw [Nat.sub_add_cancel (by omega)]; exact h)
        exact off _ _ _ _ (map _ _ this fun i j hb => (hb.add _).alpha _ _) (map _ _ this fun i j hb => hb.sub _)
    · by_cases k2 : k - 2 ^ (2 * m + 1) < 2 ^ (2 * m)
      · have := ih (v := hi (2 * m + 1) v) k2 (by unfold hi; rw [Nat.sub_add_cancel (by omega)]; exact h)
        exact off _ _ _ _ (map _ _ this fun i j hb => (hb.add' _).alpha _ _) (map _ _ this fun i j hb => hb.sub' _)
      · have := ih (v := hi (2 * m) (hi (2 * m + 1) v)) (k := k - 2 ^ (2 * m + 1) - 2 ^ (2 * m)) (by omega) (by
          unfold hi; rw [Nat.sub_add_cancel (by omega), Nat.sub_add_cancel (by omega)]; exact h)
        exact diag _ _ _ _ (map _ _ this fun i j hb => hb.add' _) (map _ _ this fun i j hb => (hb.sub' _).alpha _ _)

theorem foldl_bad2 {l : List (Cx F)} {z : Cx F} (h : z.Bad2 ∨ ∃ v ∈ l, v.Bad2) : (l.foldl (· + ·) z).Bad2 := by
  induction l generalizing z with
  | nil => exact h.elim id fun ⟨v, hv, _⟩ => absurd hv List.not_mem_nil
  | cons v l ih =>
    refine ih ?_
    rcases h with h | ⟨w, hw, h⟩
    · exact .inl (h.add _)
    · rcases List.mem_cons.mp hw with rfl | hw
      · exact .inl (h.add' _)
      · exact .inr ⟨w, hw, h⟩

/-- Every entry of the product is bad. -/
theorem mmO_bad {m : Nat} {X Y : Nat → Nat → Cx F} (h : MBad m X ∨ MBad m Y) {i j : Nat} (hi : i < 2 ^ m) (hj : j < 2 ^ m) :
    (mmO m X Y i j).Bad2 := by
  refine foldl_bad2 (.inr ?_)
  rcases h with h | h
  · obtain ⟨k, hk, hb⟩ := h.1 i hi
    exact ⟨_, List.mem_map.mpr ⟨k, List.mem_range.mpr hk, rfl⟩, hb.mul _⟩
  · obtain ⟨k, hk, hb⟩ := h.2 j hj
    exact ⟨_, List.mem_map.mpr ⟨k, List.mem_range.mpr hk, rfl⟩, hb.mul' _⟩

theorem MBad.alWO {m w : Nat} {X : Nat → Nat → Nat → Cx F} (h : MBad m (X w)) : MBad m (TClifford.alWO X w) := by
  have key : ∀ i j, (X w i j).Bad → (TClifford.alWO X w i j).Bad := by
    intro i j hb
    unfold TClifford.alWO
    split
    · exact hb.neg
    · exact hb
  exact ⟨fun i hi => (h.1 i hi).imp fun j hj => ⟨hj.1, key i j hj.2⟩, fun j hj => (h.2 j hj).imp fun i hi => ⟨hi.1, key i j hi.2⟩⟩

/-- The matrices of the product whose number contains `w` are bad everywhere. -/
theorem WO_bad (m s : Nat) {X Y : Nat → Nat → Nat → Cx F} {w u : Nat} (hw : w < 2 ^ s) (hu : u < 2 ^ s) (hwu : w &&& u = w)
    (h : MBad m (X w) ∨ MBad m (Y w)) {i j : Nat} (hi : i < 2 ^ m) (hj : j < 2 ^ m) : (WO m s X Y u i j).Bad2 := by
  induction s generalizing X Y w u with
  | zero =>
    have : w = 0 := by simpa using hw
    subst this
    exact mmO_bad h hi hj
  | succ s ih =>
    have hb : ∀ {x : Nat}, x < 2 ^ s → x &&& (2 ^ s) = 0 := fun hx => by
      rw [Nat.and_two_pow, Nat.testBit_lt_two_pow hx]; simp
    have hp : 2 ^ (s + 1) = 2 ^ s + 2 ^ s := by rw [pow_succ]; omega
    have hadd : ∀ {x : Nat}, x < 2 ^ s → x + 2 ^ s = x ||| 2 ^ s := fun hx => by
      have := Nat.two_pow_add_eq_or_of_lt hx 1
      rw [Nat.mul_one] at this
      rw [Nat.add_comm, this, Nat.or_comm]
    unfold WO
    by_cases hu' : u < 2 ^ s
    · simp only [hu', if_true]
      have hw' : w < 2 ^ s := lt_of_le_of_lt (by rw [← hwu]; exact Nat.and_le_right) hu'
      exact ih hw' hu' hwu h
    · simp only [hu', if_false]
      obtain ⟨v, hv, rfl⟩ := two_pow_succ_half hu hu'
      rw [Nat.add_sub_cancel]
      by_cases hw' : w < 2 ^ s
      · have hwv : w &&& v = w := by
          rw [hadd hv, Nat.and_or_distrib_left, hb hw', Nat.or_zero] at hwu
          exact hwu
        rcases h with h | h
        · exact (ih (X := alWO X) (Y := hiW s Y) hw' hv hwv (.inl h.alWO)).add' _
        · exact (ih (X := hiW s X) (Y := Y) hw' hv hwv (.inr h)).add _
      · obtain ⟨x, hx, rfl⟩ := two_pow_succ_half hw hw'
        have hxv : x &&& v = x := by
          have := congrArg (fun t => t % 2 ^ s) hwu
          simp only [Nat.and_mod_two_pow, Nat.add_mod_right, Nat.mod_eq_of_lt hx, Nat.mod_eq_of_lt hv] at this
          exact this
        rcases h with h | h
        · exact (ih (X := hiW s X) (Y := Y) hx hv hxv (.inl h)).add _
        · exact (ih (X := alWO X) (Y := hiW s Y) hx hv hxv (.inr h)).add' _

/-- The inverse transform of a matrix that is bad everywhere. -/
theorem icnnO_bad (m : Nat) {V : Nat → Nat → Cx F} (h : ∀ i < 2 ^ m, ∀ j < 2 ^ m, (V i j).Bad2) {k : Nat} (hk : k < 2 ^ (2 * m)) :
    (icnnO m V k).Bad2 := by
  induction m generalizing V k with
  | zero => exact h 0 (by norm_num) 0 (by norm_num)
  | succ m ih =>
    obtain ⟨h4, h2⟩ := four_pow m
    have hp : 2 ^ (m + 1) = 2 ^ m + 2 ^ m := by rw [pow_succ]; omega
    have hA : ∀ k < 2 ^ (2 * m), (icnnO m V k).Bad2 := fun k hk => ih (fun i hi j hj => h i (by omega) j (by omega)) hk
    have hB : ∀ k < 2 ^ (2 * m), (icnnO m (q01 m V) k).Bad2 := fun k hk => ih (fun i hi j hj => h i (by omega) (j + 2 ^ m) (by omega)) hk
    rw [h4] at hk
    unfold icnnO
    simp only [jn]
    by_cases k1 : k < 2 ^ (2 * m + 1)
    · simp only [k1, if_true]
      by_cases k2 : k < 2 ^ (2 * m)
      · simp only [k2, if_true]; exact ((hA k k2).add _).bad.div _
      · simp only [k2, if_false]; exact (((hB _ (by omega)).alpha _ _).add _).bad.div _
    · simp only [k1, if_false]
      by_cases k2 : k - 2 ^ (2 * m + 1) < 2 ^ (2 * m)
      · simp only [k2, if_true]; exact (((hB _ k2).alpha _ _).sub _).bad.div _
      · simp only [k2, if_false]; exact ((hA _ (by omega)).sub _).bad.div _

variable [DecidableEq F] {T : Type} [Zero T] [One T] [Add T] [Sub T] [Neg T] [Mul T] [DecidableEq T] [CoeffLaws T]
  [IntoComplex T (Cx F)] [FromComplex T (Cx F)] {A : ClAlg}

/-- The product through the transforms, for conditions `bad` on the coefficients of the factors and `bad'` on those of
the product. -/
theorem mulFFT_bad {bad bad' : T → Prop} (hn : ∀ x : Cx F, - -x = x) (h0 : ∀ n, iPowNeg n * IntoComplex.into (0 : T) = (0 : Cx F))
    (h0' : ∀ n, (FromComplex.from_ (iPow n * 0 : Cx F) : T) = 0)
    (hin : ∀ x : T, bad x → (IntoComplex.into x : Cx F).Bad) (hout : ∀ v : Cx F, v.Bad2 → bad' (FromComplex.from_ v))
    (hA : A.WF) (hd : A.dim < 63) {a b : MV A (ArrayStorage T)} (ha : a.Valid) (hb : b.Valid)
    {i k : Nat} (hi : i < 2 ^ A.dim) (hk : k < 2 ^ A.dim) (hik : i &&& A.projMask &&& k = i &&& A.projMask)
    (hbad : bad (a.val i) ∨ bad (b.val i)) : ∃ u, a.mulFFT F b = .ok u ∧ u.Valid ∧ bad' (u.val k) := by
  obtain ⟨r, r1, r2, r3⟩ := fft_ops (K := Cx F) h0 hA hd ha
  obtain ⟨s, s1, s2, s3⟩ := fft_ops (K := Cx F) h0 hA hd hb
  obtain ⟨t, t1, t2, t3⟩ := mul_ops hn r2 s2
  obtain ⟨u, u1, u2, u3⟩ := ifft_ops (T := T) h0' hA hd t2
  refine ⟨u, by unfold MV.mulFFT; simp only [r1, s1, bind, Except.bind, t1, u1], u2, ?_⟩
  have hdim : A.nn + A.projDim = A.dim := hA.dims
  have hq : ∀ {x : Nat}, x < 2 ^ A.dim → x / 2 ^ A.nn < 2 ^ A.projDim := fun hx => by
    rw [Nat.div_lt_iff_lt_mul (Nat.two_pow_pos _), ← pow_add, add_comm, hdim]; exact hx
  have hm : ∀ x : Nat, x % 2 ^ A.nn < 2 ^ (2 * A.half) := fun x =>
    lt_of_lt_of_le (Nat.mod_lt _ (Nat.two_pow_pos _)) (Nat.pow_le_pow_right (by norm_num) (half_ge A))
  have hsub : i / 2 ^ A.nn &&& (k / 2 ^ A.nn) = i / 2 ^ A.nn := by
    apply Nat.eq_of_testBit_eq
    intro l
    have := congrArg (fun x => x.testBit (l + A.nn)) hik
    simp only [Nat.testBit_and, hA.testBit_proj] at this
    rw [Nat.testBit_and, Nat.testBit_div_two_pow, Nat.testBit_div_two_pow]
    by_cases hl : l + A.nn < A.dim
    · simpa [hl] using this
    · rw [Nat.testBit_lt_two_pow (lt_of_lt_of_le hi (Nat.pow_le_pow_right (by norm_num) (by omega)))]; rfl
  -- the matrix of the operand
  have one : ∀ (c : MV A (ArrayStorage T)) (q : FFTRepr A (Cx F)), WEq A.projDim A.half q.arr.get (FLO A.half A.nn (cx A c.val)) →
      bad (c.val i) → MBad A.half (q.arr.get (i / 2 ^ A.nn)) := by
    intro c q hq' hc
    have hb1 : (cx A c.val i : Cx F).Bad := ((hin _ hc).mul' _).bad
    have hb2 : (pscO A.nn (lay A.nn (cx A c.val : Nat → Cx F) (i / 2 ^ A.nn)) (i % 2 ^ A.nn)).Bad := by
      unfold pscO
      rw [if_pos (Nat.mod_lt _ (Nat.two_pow_pos _))]
      unfold lay
      rw [Nat.mod_add_div']
      exact (hb1.mul _).bad
    have hb3 := cnnO_bad A.half (hm i) hb2
    have he : MEq (2 ^ A.half) (2 ^ A.half) (q.arr.get (i / 2 ^ A.nn)) (cnnO A.half (pscO A.nn (lay A.nn (cx A c.val) (i / 2 ^ A.nn)))) :=
      hq' _ (hq hi)
    exact ⟨fun x hx => (hb3.1 x hx).imp fun y hy => ⟨hy.1, by rw [he x hx y hy.1]; exact hy.2⟩,
      fun y hy => (hb3.2 y hy).imp fun x hx => ⟨hx.1, by rw [he x hx.1 y hy]; exact hx.2⟩⟩
  have hW : ∀ x < 2 ^ A.half, ∀ y < 2 ^ A.half, (t.arr.get (k / 2 ^ A.nn) x y).Bad2 := by
    intro x hx y hy
    rw [t3 _ (hq hk) x hx y hy]
    exact WO_bad A.half A.projDim (hq hi) (hq hk) hsub (hbad.imp (one a r r3) (one b s s3)) hx hy
  rw [u3 k hk]
  refine hout _ (Cx.Bad.mul' ?_ _)
  exact ((icnnO_bad A.half hW (hm k)).bad.mul _).bad

end

section
variable {F : Type} [Zero F] [One F] [Add F] [Sub F] [Neg F] [Mul F] [Div F] [FloatModel F] [DecidableEq F] [FinAbsorbDiv F] [FloatSigns F]
variable {A : ClAlg}

/-- **C95, products through the transforms.** If the coefficient of `a` or that of `b` number `i` is an infinity or NaN, then so
are all coefficients of `(a.fft() * b.fft()).ifft()` whose blades contain the generators of the blade `i` that square to zero:
all coefficients, if there are none of these. -/
theorem C95_fft (hM : 0 ≤ M F) (hA : A.WF) (hd : A.dim < 63) {a b : MV A (ArrayStorage F)} {x y : Nat → F} (ha : a.Valid) (hb : b.Valid)
    (hx : Coefs (.ok a) x) (hy : Coefs (.ok b) y) {i k : Nat} (hi : i < 2 ^ A.dim) (hk : k < 2 ^ A.dim)
    (hik : i &&& A.projMask &&& k = i &&& A.projMask) (hf : ¬ fin (x i) ∨ ¬ fin (y i)) : Spoilt (a.mulFFT F b) k := by
  obtain ⟨u, u1, u2, u3⟩ := mulFFT_bad (F := F) (T := F) (bad := fun v => ¬ fin v) (bad' := fun v => ¬ fin v) Cx.neg_neg' ConvModel.fft_zero
    (ConvModel.ifft_zero hM) (fun v hv => .inl hv) (fun v hv => hv.1) hA hd ha hb hi hk hik (by
      rwa [Coefs.val ha hx hi, Coefs.val hb hy hi])
  exact ⟨u, _, u1, u2.get hk, u3⟩

/-- **C95, `Complex64` through the transforms.** One part that is an infinity or NaN spoils both parts. -/
theorem C95_fft_complex (hM : 0 ≤ M F) (hA : A.WF) (hd : A.dim < 63) {a b : MV A (ArrayStorage (Cx F))} {x y : Nat → Cx F} (ha : a.Valid)
    (hb : b.Valid) (hx : Coefs (.ok a) x) (hy : Coefs (.ok b) y) {i k : Nat} (hi : i < 2 ^ A.dim) (hk : k < 2 ^ A.dim)
    (hik : i &&& A.projMask &&& k = i &&& A.projMask) (hf : ¬ (fin (x i).re ∧ fin (x i).im) ∨ ¬ (fin (y i).re ∧ fin (y i).im)) :
    ∃ u v, a.mulFFT F b = .ok u ∧ u.getByIdx k = .ok v ∧ ¬ fin v.re ∧ ¬ fin v.im := by
  obtain ⟨u, u1, u2, u3⟩ := mulFFT_bad (F := F) (T := Cx F) (bad := fun v => v.Bad) (bad' := fun v => v.Bad2) Cx.neg_neg' ConvC.fft_zero
    (ConvC.ifft_zero hM) (fun v hv => hv) (fun v hv => hv) hA hd ha hb hi hk hik (by
      rw [Coefs.val ha hx hi, Coefs.val hb hy hi]
      exact hf.imp not_and_or.mp not_and_or.mp)
  exact ⟨u, _, u1, u2.get hk, u3⟩

end

/-- **C95, `f32` through the transforms**, which are computed in `f64`. -/
theorem C95_fft_f32 {A : ClAlg} (hA : A.WF) (hd : A.dim < 63) {a b : MV A (ArrayStorage F32)} {x y : Nat → F32} (ha : a.Valid) (hb : b.Valid)
    (hx : Coefs (.ok a) x) (hy : Coefs (.ok b) y) {i k : Nat} (hi : i < 2 ^ A.dim) (hk : k < 2 ^ A.dim)
    (hik : i &&& A.projMask &&& k = i &&& A.projMask) (hf : ¬ fin (x i) ∨ ¬ fin (y i)) : Spoilt (a.mulFFT F64 b) k := by
  have hin : ∀ v : F32, ¬ fin v → ¬ fin (v.cast : F64) := by
    intro v hv
    cases v with
    | num v => exact absurd (Flt.fin_num _) hv
    | nonFinite => exact fun h => h rfl
  have hout : ∀ v : F64, ¬ fin v → ¬ fin (v.cast : F32) := by
    intro v hv
    cases v with
    | num v => exact absurd (Flt.fin_num _) hv
    | nonFinite => exact fun h => h rfl
  obtain ⟨u, u1, u2, u3⟩ := mulFFT_bad (F := F64) (T := F32) (bad := fun v => ¬ fin v) (bad' := fun v => ¬ fin v) Cx.neg_neg'
    ConvModel.fft_zero (ConvModel.ifft_zero (by rw [C69_f32.2.2.1]; positivity)) (fun v hv => .inl (hin v hv))
    (fun v hv => hout v.re hv.1) hA hd ha hb hi hk hik (by rwa [Coefs.val ha hx hi, Coefs.val hb hy hi])
  exact ⟨u, _, u1, u2.get hk, u3⟩

open Ex in
/-- **C95.** It is not true that the product through the transforms has the same finite coefficients as `a * b`: for `∞` times
the zero multivector the latter is zero and the former has no finite coefficient. -/
theorem C95_fft_false : ∃ (a b : MV E (ArrayStorage F64)), a.Valid ∧ b.Valid ∧ a.naiveMulImpl b ≈ᵣ MV.default (A := E) (S := ArrayStorage F64) ∧
    ∀ k < 8, Spoilt (a.mulFFT F64 b) k :=
  ⟨dense64 xInf, dense64 fun _ => 0, dense64_valid _, dense64_valid _,
    (C95_zero (dense64_valid xInf) (dense64_valid _) (dense64_coefs fun _ => 0) (C95_dense_no_zeros _)).1,
    fun _ hk => C95_fft (by rw [C69_f64.2.2.1]; positivity) E_wf (by decide) (dense64_valid _) (dense64_valid _) xInf_coefs
      (dense64_coefs _) (i := 0) (by decide) hk (by simp) (.inl fun h => h rfl)⟩

namespace Ex

/-- `∞ e2` times the sum of all blades in an algebra with a generator `e2` that squares to zero: the coefficients of the four blades with `e2` are
spoilt, the others are not. -/
example : ((⟨⟨3, ⟨8, fun i => if i = 4 then .nonFinite else 0⟩⟩⟩ : MV M (ArrayStorage F64)).mulFFT F64 ⟨⟨3, ⟨8, fun _ => n64 1⟩⟩⟩).toOption.map
    (fun r => (List.range 8).map fun i => decide (r.getByIdx i = .ok .nonFinite)) =
    some [false, false, false, false, true, true, true, true] := by decide +kernel

example : Spoilt ((⟨⟨3, ⟨8, fun i => if i = 5 then .nonFinite else 0⟩⟩⟩ : MV M (ArrayStorage F64)).mulFFT F64 ⟨⟨3, ⟨8, fun _ => n64 1⟩⟩⟩) 6 := by
  have h : ∀ x : Nat → F64, MV.Valid (⟨⟨3, ⟨8, x⟩⟩⟩ : MV M (ArrayStorage F64)) := fun x => ⟨by decide, rfl, rfl⟩
  have c : ∀ x : Nat → F64, Coefs (.ok (⟨⟨3, ⟨8, x⟩⟩⟩ : MV M (ArrayStorage F64))) x := fun x =>
    ⟨_, rfl, fun i hi => by rw [(h x).get hi]; exact congrArg _ (arr_val' (h x) hi)⟩
  exact C95_fft (by rw [C69_f64.2.2.1]; positivity) M_wf (by decide) (h _) (h _) (c _) (c _) (i := 5) (by decide) (by decide) (by decide)
    (.inl fun h => h rfl)

example : Spoilt ((⟨⟨3, ⟨8, fun i => if i = 5 then .nonFinite else 0⟩⟩⟩ : MV M (ArrayStorage F32)).mulFFT F64 ⟨⟨3, ⟨8, fun _ => 1⟩⟩⟩) 6 := by
  have h : ∀ x : Nat → F32, MV.Valid (⟨⟨3, ⟨8, x⟩⟩⟩ : MV M (ArrayStorage F32)) := fun x => ⟨by decide, rfl, rfl⟩
  have c : ∀ x : Nat → F32, Coefs (.ok (⟨⟨3, ⟨8, x⟩⟩⟩ : MV M (ArrayStorage F32))) x := fun x =>
    ⟨_, rfl, fun i hi => by rw [(h x).get hi]; exact congrArg _ (arr_val' (h x) hi)⟩
  exact C95_fft_f32 M_wf (by decide) (h _) (h _) (c _) (c _) (i := 5) (by decide) (by decide) (by decide) (.inl fun h => h rfl)

/-- The imaginary part of the scalar part is an infinity. -/
example : ∃ u v, (⟨⟨3, ⟨8, fun i => if i = 0 then ⟨0, .nonFinite⟩ else 0⟩⟩⟩ : MV M (ArrayStorage (TClifford.Cx F64))).mulFFT F64 ⟨⟨3, ⟨8, fun _ => 1⟩⟩⟩ = .ok u ∧
    u.getByIdx 6 = .ok v ∧ ¬ fin v.re ∧ ¬ fin v.im := by
  have h : ∀ x : Nat → TClifford.Cx F64, MV.Valid (⟨⟨3, ⟨8, x⟩⟩⟩ : MV M (ArrayStorage (TClifford.Cx F64))) := fun x => ⟨by decide, rfl, rfl⟩
  have c : ∀ x : Nat → TClifford.Cx F64, Coefs (.ok (⟨⟨3, ⟨8, x⟩⟩⟩ : MV M (ArrayStorage (TClifford.Cx F64)))) x := fun x =>
    ⟨_, rfl, fun i hi => by rw [(h x).get hi]; exact congrArg _ (arr_val' (h x) hi)⟩
  exact C95_fft_complex (by rw [C69_f64.2.2.1]; positivity) M_wf (by decide) (h _) (h _) (c _) (c _) (i := 0) (by decide) (by decide) (by decide)
    (.inl fun h => h.2 rfl)

end Ex

end TClifford
