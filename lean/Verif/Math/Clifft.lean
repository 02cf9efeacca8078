import Verif.Math.Geo
/-
The fast Clifford transform on coefficient functions and matrices given as functions of two indices.
-/

set_option linter.unusedSectionVars false

namespace TClifford

open Finset

variable {T : Type} [Ring T]

omit [Ring T] in
/-- The matrix with four blocks of side `2^m`. -/
def blk (m : Nat) (A B C D : Nat → Nat → T) : Nat → Nat → T := fun i j =>
  if i < 2 ^ m then (if j < 2 ^ m then A i j else B i (j - 2 ^ m))
  else (if j < 2 ^ m then C (i - 2 ^ m) j else D (i - 2 ^ m) (j - 2 ^ m))

/-- Entries at positions of odd parity are negated. -/
def al (m : Nat) (X : Nat → Nat → T) : Nat → Nat → T := fun i j => sg (par m i ^^ par m j) • X i j

/-- Product of matrices of side `2^m`. -/
def mm (m : Nat) (X Y : Nat → Nat → T) : Nat → Nat → T := fun i j => ∑ k ∈ range (2 ^ m), X i k * Y k j

/-- The transform of `2^(2m)` coefficients. -/
def cnn : Nat → (Nat → T) → Nat → Nat → T
  | 0, x => fun _ _ => x 0
  | m + 1, x => blk m
      (cnn m x + cnn m (hi (2 * m) (hi (2 * m + 1) x)))
      (al m (cnn m (hi (2 * m) x) + cnn m (hi (2 * m + 1) x)))
      (cnn m (hi (2 * m) x) - cnn m (hi (2 * m + 1) x))
      (al m (cnn m x - cnn m (hi (2 * m) (hi (2 * m + 1) x))))

theorem cnn_succ (m : Nat) (x : Nat → T) : cnn (m + 1) x = blk m
      (cnn m x + cnn m (hi (2 * m) (hi (2 * m + 1) x)))
      (al m (cnn m (hi (2 * m) x) + cnn m (hi (2 * m + 1) x)))
      (cnn m (hi (2 * m) x) - cnn m (hi (2 * m + 1) x))
      (al m (cnn m x - cnn m (hi (2 * m) (hi (2 * m + 1) x)))) := rfl

/-- The metric of the transform: even positions square to 1, odd positions to -1. -/
def spm (i : Nat) : ℤ := if i % 2 = 0 then 1 else -1

theorem spm_even (m : Nat) : spm (2 * m) = 1 := by simp [spm]
theorem spm_odd (m : Nat) : spm (2 * m + 1) = -1 := by simp [spm, Nat.add_mod]

/-! ### Blocks -/

theorem blk_add (m : Nat) (A B C D A' B' C' D' : Nat → Nat → T) :
    blk m A B C D + blk m A' B' C' D' = blk m (A + A') (B + B') (C + C') (D + D') := by
  funext i j; simp only [blk, Pi.add_apply]; split <;> split <;> rfl

theorem blk_neg (m : Nat) (A B C D : Nat → Nat → T) : -blk m A B C D = blk m (-A) (-B) (-C) (-D) := by
  funext i j; simp only [blk, Pi.neg_apply]; split <;> split <;> rfl

theorem blk_map {U : Type} [Ring U] (m : Nat) (f : T → U) (A B C D : Nat → Nat → T) : (fun i j => f (blk m A B C D i j)) =
    blk m (fun i j => f (A i j)) (fun i j => f (B i j)) (fun i j => f (C i j)) (fun i j => f (D i j)) := by
  funext i j; simp only [blk]; split <;> split <;> rfl

omit [Ring T] in
/-- Agreement on `r × c` matrices. -/
def MEq (r c : Nat) (X Y : Nat → Nat → T) : Prop := ∀ i < r, ∀ j < c, X i j = Y i j

omit [Ring T] in
theorem MEq.rfl' {r c : Nat} (X : Nat → Nat → T) : MEq r c X X := fun _ _ _ _ => rfl
omit [Ring T] in
theorem MEq.symm {r c : Nat} {X Y : Nat → Nat → T} (h : MEq r c X Y) : MEq r c Y X := fun i hi j hj => (h i hi j hj).symm
omit [Ring T] in
theorem MEq.trans {r c : Nat} {X Y Z : Nat → Nat → T} (h : MEq r c X Y) (h' : MEq r c Y Z) : MEq r c X Z :=
  fun i hi j hj => (h i hi j hj).trans (h' i hi j hj)

omit [Ring T] in
theorem blk_congr {m : Nat} {A B C D A' B' C' D' : Nat → Nat → T} (hA : MEq (2 ^ m) (2 ^ m) A A')
    (hB : MEq (2 ^ m) (2 ^ m) B B') (hC : MEq (2 ^ m) (2 ^ m) C C') (hD : MEq (2 ^ m) (2 ^ m) D D') :
    MEq (2 ^ (m + 1)) (2 ^ (m + 1)) (blk m A B C D) (blk m A' B' C' D') := by
  intro i hi j hj
  rw [pow_succ] at hi hj
  unfold blk
  split
  · split
    · exact hA i (by omega) j (by omega)
    · exact hB i (by omega) _ (by omega)
  · split
    · exact hC _ (by omega) j (by omega)
    · exact hD _ (by omega) _ (by omega)

theorem blk_inj {m : Nat} {A B C D A' B' C' D' : Nat → Nat → T}
    (h : MEq (2 ^ (m + 1)) (2 ^ (m + 1)) (blk m A B C D) (blk m A' B' C' D')) :
    MEq (2 ^ m) (2 ^ m) A A' ∧ MEq (2 ^ m) (2 ^ m) B B' ∧ MEq (2 ^ m) (2 ^ m) C C' ∧ MEq (2 ^ m) (2 ^ m) D D' := by
  have hp : 2 ^ (m + 1) = 2 ^ m + 2 ^ m := by rw [pow_succ]; omega
  rw [hp] at h
  refine ⟨fun i hi j hj => ?_, fun i hi j hj => ?_, fun i hi j hj => ?_, fun i hi j hj => ?_⟩
  · have := h i (by omega) j (by omega)
    simpa [blk, hi, hj] using this
  · have := h i (by omega) (j + 2 ^ m) (by omega)
    simpa [blk, hi, hj] using this
  · have := h (i + 2 ^ m) (by omega) j (by omega)
    simpa [blk, hi, hj] using this
  · have := h (i + 2 ^ m) (by omega) (j + 2 ^ m) (by omega)
    simpa [blk, hi, hj] using this

theorem mm_blk (m : Nat) (A B C D A' B' C' D' : Nat → Nat → T) :
    mm (m + 1) (blk m A B C D) (blk m A' B' C' D') =
      blk m (mm m A A' + mm m B C') (mm m A B' + mm m B D') (mm m C A' + mm m D C') (mm m C B' + mm m D D') := by
  funext i j
  unfold mm
  rw [sum_two_pow_succ]
  have h1 : ∀ k ∈ range (2 ^ m), (k < 2 ^ m ↔ True) := fun k hk => iff_true_intro (mem_range.mp hk)
  by_cases hi : i < 2 ^ m <;> by_cases hj : j < 2 ^ m
  all_goals
    simp only [blk, hi, hj, if_true, if_false, Pi.add_apply]
    congr 1
    · refine sum_congr rfl fun k hk => ?_
      rw [if_pos (mem_range.mp hk), if_pos (mem_range.mp hk)]
    · refine sum_congr rfl fun k hk => ?_
      rw [if_neg (by omega), if_neg (by omega), Nat.add_sub_cancel]

theorem mm_add_left (m : Nat) (X X' Y : Nat → Nat → T) : mm m (X + X') Y = mm m X Y + mm m X' Y := by
  funext i j; simp only [mm, Pi.add_apply, add_mul, sum_add_distrib]
theorem mm_add_right (m : Nat) (X Y Y' : Nat → Nat → T) : mm m X (Y + Y') = mm m X Y + mm m X Y' := by
  funext i j; simp only [mm, Pi.add_apply, mul_add, sum_add_distrib]
theorem mm_sub_left (m : Nat) (X X' Y : Nat → Nat → T) : mm m (X - X') Y = mm m X Y - mm m X' Y := by
  funext i j; simp only [mm, Pi.sub_apply, sub_mul, sum_sub_distrib]
theorem mm_sub_right (m : Nat) (X Y Y' : Nat → Nat → T) : mm m X (Y - Y') = mm m X Y - mm m X Y' := by
  funext i j; simp only [mm, Pi.sub_apply, mul_sub, sum_sub_distrib]

theorem mm_congr {m r c : Nat} {X X' Y Y' : Nat → Nat → T} (h : MEq r (2 ^ m) X X') (h' : MEq (2 ^ m) c Y Y') :
    MEq r c (mm m X Y) (mm m X' Y') := fun i hi j hj => sum_congr rfl fun k hk => by
  rw [h i hi k (mem_range.mp hk), h' k (mem_range.mp hk) j hj]

theorem mm_assoc (m : Nat) (X Y Z : Nat → Nat → T) : mm m (mm m X Y) Z = mm m X (mm m Y Z) := by
  funext i j
  simp only [mm, sum_mul, mul_sum, mul_assoc]
  exact sum_comm

theorem al_add (m : Nat) (X Y : Nat → Nat → T) : al m (X + Y) = al m X + al m Y := by
  funext i j; simp only [al, Pi.add_apply, smul_add]
theorem al_sub (m : Nat) (X Y : Nat → Nat → T) : al m (X - Y) = al m X - al m Y := by
  funext i j; simp only [al, Pi.sub_apply, smul_sub]
theorem al_neg (m : Nat) (X : Nat → Nat → T) : al m (-X) = -al m X := by
  funext i j; simp only [al, Pi.neg_apply, smul_neg]
theorem al_al (m : Nat) (X : Nat → Nat → T) : al m (al m X) = X := by
  funext i j; simp only [al, smul_smul, sg_mul_self, one_smul]
theorem al_congr {m r c : Nat} {X Y : Nat → Nat → T} (h : MEq r c X Y) : MEq r c (al m X) (al m Y) :=
  fun i hi j hj => by simp only [al, h i hi j hj]

theorem mm_al (m : Nat) (X Y : Nat → Nat → T) : mm m (al m X) (al m Y) = al m (mm m X Y) := by
  funext i j
  simp only [mm, al, smul_sum]
  refine sum_congr rfl fun k _ => ?_
  rw [smul_mul_smul_comm, ← sg_xor]
  congr 2
  cases par m i <;> cases par m j <;> cases par m k <;> rfl

theorem mm_al_right (m : Nat) (X Y : Nat → Nat → T) : mm m X (al m Y) = al m (mm m (al m X) Y) := by
  rw [← mm_al, al_al]

theorem al_blk (m : Nat) (A B C D : Nat → Nat → T) :
    MEq (2 ^ (m + 1)) (2 ^ (m + 1)) (al (m + 1) (blk m A B C D)) (blk m (al m A) (-al m B) (-al m C) (al m D)) := by
  intro i hi j hj
  rw [pow_succ] at hi hj
  have key : ∀ i, i < 2 ^ m * 2 → par (m + 1) i = if i < 2 ^ m then par m i else !(par m (i - 2 ^ m)) := by
    intro i hi
    split
    · rename_i h
      rw [par_succ, Nat.testBit_lt_two_pow h]; simp
    · rename_i h
      obtain ⟨k, rfl⟩ : ∃ k, i = k + 2 ^ m := ⟨i - 2 ^ m, by omega⟩
      rw [Nat.add_sub_cancel, par_succ, testBit_top (by omega), par_add (by omega)]; simp
  unfold al blk
  rw [key i hi, key j hj]
  by_cases h1 : i < 2 ^ m <;> by_cases h2 : j < 2 ^ m
  all_goals simp only [h1, h2, if_true, if_false, Pi.neg_apply]
  · cases par m i <;> cases par m (j - 2 ^ m) <;> simp
  · cases par m (i - 2 ^ m) <;> cases par m j <;> simp
  · cases par m (i - 2 ^ m) <;> cases par m (j - 2 ^ m) <;> simp

/-! ### Linearity of the transform -/

theorem hi_add (n : Nat) (f g : Nat → T) : hi n (f + g) = hi n f + hi n g := rfl
theorem hi_sub (n : Nat) (f g : Nat → T) : hi n (f - g) = hi n f - hi n g := rfl

theorem cnn_add (m : Nat) (f g : Nat → T) : cnn m (f + g) = cnn m f + cnn m g := by
  induction m generalizing f g with
  | zero => rfl
  | succ m ih =>
    simp only [cnn_succ, hi_add, ih, blk_add, al_add, al_sub]
    congr 1 <;> abel

theorem cnn_map {U : Type} [Ring U] {f : T → U} (hadd : ∀ x y, f (x + y) = f x + f y) (m : Nat) (x : Nat → T) :
    cnn m (fun i => f (x i)) = fun i j => f (cnn m x i j) := by
  have h0 : f 0 = 0 := by simpa using hadd 0 0
  have hneg : ∀ x, f (-x) = -f x := fun x => by
    have := hadd x (-x)
    rw [add_neg_cancel, h0] at this
    exact eq_neg_of_add_eq_zero_right this.symm
  have hsub : ∀ x y, f (x - y) = f x - f y := fun x y => by rw [sub_eq_add_neg, hadd, hneg, ← sub_eq_add_neg]
  have hal : ∀ (m : Nat) (X : Nat → Nat → T) i j, al m (fun i j => f (X i j)) i j = f (al m X i j) := by
    intro m X i j
    unfold al
    cases (par m i ^^ par m j) <;> simp [hneg]
  induction m generalizing x with
  | zero => rfl
  | succ m ih =>
    rw [cnn_succ, cnn_succ, blk_map]
    have e1 : hi (2 * m) (fun i => f (x i)) = fun i => f (hi (2 * m) x i) := rfl
    have e2 : hi (2 * m + 1) (fun i => f (x i)) = fun i => f (hi (2 * m + 1) x i) := rfl
    have e3 : hi (2 * m) (fun i => f (hi (2 * m + 1) x i)) = fun i => f (hi (2 * m) (hi (2 * m + 1) x) i) := rfl
    rw [e1, e2, e3, ih, ih, ih, ih]
    congr 1
    · funext i j; exact (hadd _ _).symm
    · funext i j
      rw [← hal]
      congr 1
      funext i j; exact (hadd _ _).symm
    · funext i j; exact (hsub _ _).symm
    · funext i j
      rw [← hal]
      congr 1
      funext i j; exact (hsub _ _).symm

theorem cnn_neg (m : Nat) (f : Nat → T) : cnn m (-f) = -cnn m f := cnn_map (f := fun x => -x) (fun x y => neg_add x y) m f

theorem cnn_sub (m : Nat) (f g : Nat → T) : cnn m (f - g) = cnn m f - cnn m g := by
  rw [sub_eq_add_neg, cnn_add, cnn_neg, sub_eq_add_neg]

theorem cnn_zero (m : Nat) : cnn m (0 : Nat → T) = 0 := by
  have := cnn_sub m (0 : Nat → T) 0
  rw [sub_self, sub_self] at this
  exact this

theorem cnn_congr {m : Nat} {f g : Nat → T} (h : ∀ i < 2 ^ (2 * m), f i = g i) : cnn m f = cnn m g := by
  induction m generalizing f g with
  | zero => funext i j; exact h 0 (by norm_num)
  | succ m ih =>
    have h4 : 2 ^ (2 * (m + 1)) = 2 ^ (2 * m) + 2 ^ (2 * m) + 2 ^ (2 * m) + 2 ^ (2 * m) := by
      rw [show 2 * (m + 1) = 2 * m + 1 + 1 by ring, pow_succ, pow_succ]; ring
    have h2 : 2 ^ (2 * m + 1) = 2 ^ (2 * m) + 2 ^ (2 * m) := by rw [pow_succ]; ring
    rw [h4] at h
    rw [cnn_succ, cnn_succ, ih (f := f) (g := g) (fun i hi => h i (by omega)),
      ih (f := hi (2 * m) f) (g := hi (2 * m) g) (fun i hi => h _ (by omega)),
      ih (f := hi (2 * m + 1) f) (g := hi (2 * m + 1) g) (fun i hi => h _ (by omega)),
      ih (f := hi (2 * m) (hi (2 * m + 1) f)) (g := hi (2 * m) (hi (2 * m + 1) g)) (fun i hi => h _ (by omega))]

theorem lt_four_pow {m k : Nat} (hk : k < 2 ^ (2 * m)) : k < 2 ^ (2 * m + 1) := lt_succ_of_lt hk

/-- The grade involution becomes the sign change of the odd entries. -/
theorem cnn_flp (m : Nat) (f : Nat → T) : MEq (2 ^ m) (2 ^ m) (cnn m (flp (2 * m) f)) (al m (cnn m f)) := by
  induction m generalizing f with
  | zero => intro i _ j _; simp [cnn, al, flp]
  | succ m ih =>
    have e00 : cnn m (flp (2 * (m + 1)) f) = cnn m (flp (2 * m) f) := cnn_congr fun k hk => by
      show flp (2 * m + 1 + 1) f k = _
      rw [flp_lo _ _ (lt_four_pow hk), flp_lo _ _ hk]
    have e01 : cnn m (hi (2 * m) (flp (2 * (m + 1)) f)) = -cnn m (flp (2 * m) (hi (2 * m) f)) := by
      rw [← cnn_neg]
      refine cnn_congr fun k hk => ?_
      show flp (2 * m + 1 + 1) f (k + 2 ^ (2 * m)) = _
      rw [flp_lo _ _ (add_two_pow_lt hk), flp_hi _ _ hk]; rfl
    have e10 : cnn m (hi (2 * m + 1) (flp (2 * (m + 1)) f)) = -cnn m (flp (2 * m) (hi (2 * m + 1) f)) := by
      rw [← cnn_neg]
      refine cnn_congr fun k hk => ?_
      show flp (2 * m + 1 + 1) f (k + 2 ^ (2 * m + 1)) = _
      rw [flp_hi _ _ (lt_four_pow hk), flp_lo _ _ hk]; rfl
    have e11 : cnn m (hi (2 * m) (hi (2 * m + 1) (flp (2 * (m + 1)) f))) =
        cnn m (flp (2 * m) (hi (2 * m) (hi (2 * m + 1) f))) := cnn_congr fun k hk => by
      show flp (2 * m + 1 + 1) f (k + 2 ^ (2 * m) + 2 ^ (2 * m + 1)) = _
      rw [flp_hi _ _ (add_two_pow_lt hk), flp_hi _ _ hk, neg_neg]
    rw [cnn_succ, cnn_succ, e00, e01, e10, e11]
    refine MEq.trans ?_ (al_blk m _ _ _ _).symm
    refine blk_congr ?_ ?_ ?_ ?_
    · intro i hi j hj
      simp only [Pi.add_apply, al_add, ih _ i hi j hj]
    · intro i hi j hj
      rw [al_al]
      simp only [al, Pi.add_apply, Pi.neg_apply, ih _ i hi j hj, smul_add, smul_neg, smul_smul, sg_mul_self, one_smul]
      abel
    · intro i hi j hj
      simp only [Pi.sub_apply, Pi.neg_apply, ih _ i hi j hj, al_sub]
      abel
    · intro i hi j hj
      rw [al_al]
      simp only [al, Pi.sub_apply, ih _ i hi j hj, smul_sub, smul_smul, sg_mul_self, one_smul]

/-! ### Multiplicativity -/

section quarters
variable (m : Nat) (f g : Nat → T)

local notation "G" => geo spm (2 * m)
local notation "F" => flp (2 * m)

theorem geo_q0 {k : Nat} (hk : k < 2 ^ (2 * m)) : geo spm (2 * m + 1) f g k = G f g k + G (F (hi (2 * m) f)) (hi (2 * m) g) k := by
  rw [geo_lo _ _ _ _ hk, spm_even, one_smul]

theorem geo_q0f {k : Nat} (hk : k < 2 ^ (2 * m)) :
    geo spm (2 * m + 1) (flp (2 * m + 1) f) g k = G (F f) g k - G (hi (2 * m) f) (hi (2 * m) g) k := by
  rw [geo_q0 _ _ _ hk, geo_congr (fun _ _ => rfl) (fun i hi => flp_lo (2 * m) f hi) (fun _ _ => rfl) hk, sub_eq_add_neg, ← geo_neg_left]
  congr 1
  refine geo_congr (fun _ _ => rfl) (fun i hi' => ?_) (fun _ _ => rfl) hk
  have : F (hi (2 * m) (flp (2 * m + 1) f)) i = sg (par (2 * m) i) • flp (2 * m + 1) f (i + 2 ^ (2 * m)) := rfl
  rw [this, flp_hi _ _ hi', smul_neg]
  congr 1
  exact flp_flp _ _ _

theorem geo_q1f {k : Nat} (hk : k < 2 ^ (2 * m)) :
    geo spm (2 * m + 1) (flp (2 * m + 1) f) g (k + 2 ^ (2 * m)) = -G (F (hi (2 * m) f)) g k + G f (hi (2 * m) g) k := by
  rw [geo_hi _ _ _ _ hk, ← geo_neg_left]
  congr 1
  · exact geo_congr (fun _ _ => rfl) (fun i hi => flp_hi (2 * m) f hi) (fun _ _ => rfl) hk
  · refine geo_congr (fun _ _ => rfl) (fun i hi => ?_) (fun _ _ => rfl) hk
    have : F (flp (2 * m + 1) f) i = sg (par (2 * m) i) • flp (2 * m + 1) f i := rfl
    rw [this, flp_lo _ _ hi]
    exact flp_flp _ _ _

theorem geo_00 {k : Nat} (hk : k < 2 ^ (2 * m)) : geo spm (2 * m + 1 + 1) f g k =
    G f g k + G (F (hi (2 * m) f)) (hi (2 * m) g) k - (G (F (hi (2 * m + 1) f)) (hi (2 * m + 1) g) k -
      G (hi (2 * m) (hi (2 * m + 1) f)) (hi (2 * m) (hi (2 * m + 1) g)) k) := by
  rw [geo_lo _ _ _ _ (lt_four_pow hk), spm_odd, geo_q0 _ _ _ hk, geo_q0f _ _ _ hk, neg_one_zsmul, ← sub_eq_add_neg]

theorem geo_01 {k : Nat} (hk : k < 2 ^ (2 * m)) : geo spm (2 * m + 1 + 1) f g (k + 2 ^ (2 * m)) =
    G (hi (2 * m) f) g k + G (F f) (hi (2 * m) g) k - (-G (F (hi (2 * m) (hi (2 * m + 1) f))) (hi (2 * m + 1) g) k +
      G (hi (2 * m + 1) f) (hi (2 * m) (hi (2 * m + 1) g)) k) := by
  rw [geo_lo _ _ _ _ (add_two_pow_lt hk), spm_odd, geo_hi _ _ _ _ hk, geo_q1f _ _ _ hk, neg_one_zsmul, ← sub_eq_add_neg]

theorem geo_10 {k : Nat} (hk : k < 2 ^ (2 * m)) : geo spm (2 * m + 1 + 1) f g (k + 2 ^ (2 * m + 1)) =
    G (hi (2 * m + 1) f) g k + G (F (hi (2 * m) (hi (2 * m + 1) f))) (hi (2 * m) g) k + (G (F f) (hi (2 * m + 1) g) k -
      G (hi (2 * m) f) (hi (2 * m) (hi (2 * m + 1) g)) k) := by
  rw [geo_hi _ _ _ _ (lt_four_pow hk), geo_q0 _ _ _ hk, geo_q0f _ _ _ hk]

theorem geo_11 {k : Nat} (hk : k < 2 ^ (2 * m)) : geo spm (2 * m + 1 + 1) f g (k + 2 ^ (2 * m) + 2 ^ (2 * m + 1)) =
    G (hi (2 * m) (hi (2 * m + 1) f)) g k + G (F (hi (2 * m + 1) f)) (hi (2 * m) g) k +
      (-G (F (hi (2 * m) f)) (hi (2 * m + 1) g) k + G f (hi (2 * m) (hi (2 * m + 1) g)) k) := by
  rw [geo_hi _ _ _ _ (add_two_pow_lt hk), geo_hi _ _ _ _ hk, geo_q1f _ _ _ hk]

end quarters

/-- The transform of a product is the matrix product of the transforms. -/
theorem cnn_geo (m : Nat) (f g : Nat → T) :
    MEq (2 ^ m) (2 ^ m) (cnn m (geo spm (2 * m) f g)) (mm m (cnn m f) (cnn m g)) := by
  induction m generalizing f g with
  | zero => intro i _ j _; simp [cnn, mm, geo]
  | succ m ih =>
    have ihf : ∀ f g : Nat → T, MEq (2 ^ m) (2 ^ m) (cnn m (geo spm (2 * m) (flp (2 * m) f) g)) (mm m (al m (cnn m f)) (cnn m g)) :=
      fun f g => (ih _ _).trans (mm_congr (cnn_flp m f) (MEq.rfl' _))
    have e00 : cnn m (geo spm (2 * (m + 1)) f g) = _ := cnn_congr fun k hk => geo_00 m f g hk
    have e01 : cnn m (hi (2 * m) (geo spm (2 * (m + 1)) f g)) = _ := cnn_congr fun k hk => geo_01 m f g hk
    have e10 : cnn m (hi (2 * m + 1) (geo spm (2 * (m + 1)) f g)) = _ := cnn_congr fun k hk => geo_10 m f g hk
    have e11 : cnn m (hi (2 * m) (hi (2 * m + 1) (geo spm (2 * (m + 1)) f g))) = _ := cnn_congr fun k hk => geo_11 m f g hk
    have add' : ∀ u v : Nat → T, cnn m (fun k => u k + v k) = cnn m u + cnn m v := cnn_add m
    have sub' : ∀ u v : Nat → T, cnn m (fun k => u k - v k) = cnn m u - cnn m v := cnn_sub m
    have neg' : ∀ u : Nat → T, cnn m (fun k => -u k) = -cnn m u := cnn_neg m
    rw [cnn_succ, cnn_succ m f, cnn_succ m g, mm_blk, e00, e01, e10, e11]
    simp only [add', sub', neg']
    refine blk_congr ?_ ?_ ?_ ?_
    · intro i hi j hj
      simp only [Pi.add_apply, Pi.sub_apply, Pi.neg_apply, ihf _ _ i hi j hj]
      simp only [ih _ _ i hi j hj, mm_add_left, mm_add_right, Pi.add_apply, Pi.sub_apply, mm_sub_right, al_add]
      abel
    · rw [mm_al_right, mm_al, ← al_add]
      refine al_congr ?_
      intro i hi j hj
      simp only [Pi.add_apply, Pi.sub_apply, Pi.neg_apply, ihf _ _ i hi j hj]
      simp only [ih _ _ i hi j hj, mm_add_left, mm_add_right, Pi.add_apply, Pi.sub_apply, mm_sub_right, al_add]
      abel
    · intro i hi j hj
      simp only [Pi.add_apply, Pi.sub_apply, Pi.neg_apply, ihf _ _ i hi j hj]
      simp only [ih _ _ i hi j hj, mm_add_right, Pi.add_apply, Pi.sub_apply, mm_sub_left, mm_sub_right, al_sub]
      abel
    · rw [mm_al_right, mm_al, ← al_add]
      refine al_congr ?_
      intro i hi j hj
      simp only [Pi.add_apply, Pi.sub_apply, Pi.neg_apply, ihf _ _ i hi j hj]
      simp only [ih _ _ i hi j hj, mm_add_right, Pi.add_apply, Pi.sub_apply, mm_sub_left, mm_sub_right, al_sub]
      abel

/-! ### Unit and trace -/

/-- The identity matrix. -/
def idm : Nat → Nat → T := fun i j => if i = j then 1 else 0

theorem cnn_one (m : Nat) : MEq (2 ^ m) (2 ^ m) (cnn m (single 0 (1 : T))) idm := by
  induction m with
  | zero =>
    intro i hi j hj
    have : i = 0 := by simpa using hi
    have : j = 0 := by simpa using hj
    subst i j
    simp [cnn, single, idm]
  | succ m ih =>
    have h0 : ∀ n, hi n (single 0 (1 : T)) = 0 := by
      intro n; funext i
      have := Nat.two_pow_pos n
      simp [hi, single]
    have h1 : ∀ n, hi n (0 : Nat → T) = 0 := fun n => rfl
    rw [cnn_succ, h0, h0, h1, cnn_zero]
    have hI : MEq (2 ^ (m + 1)) (2 ^ (m + 1)) (idm : Nat → Nat → T) (blk m idm 0 0 idm) := by
      intro i hi j hj
      unfold blk idm
      by_cases h1 : i < 2 ^ m <;> by_cases h2 : j < 2 ^ m <;> simp only [h1, h2, if_true, if_false, Pi.zero_apply]
      · rw [if_neg (by omega)]
      · rw [if_neg (by omega)]
      · have : (i = j) ↔ (i - 2 ^ m = j - 2 ^ m) := by omega
        simp only [this]
    refine MEq.trans (blk_congr ?_ ?_ ?_ ?_) hI.symm
    · intro i hi j hj; simp [ih i hi j hj]
    · intro i hi j hj; simp [al]
    · intro i hi j hj; simp
    · intro i hi j hj
      simp only [al, sub_zero, ih i hi j hj, idm]
      split
      · rename_i h; subst h; simp
      · simp

theorem cnn_trace (m : Nat) (x : Nat → T) : ∑ i ∈ range (2 ^ m), cnn m x i i = (2 ^ m) • x 0 := by
  induction m generalizing x with
  | zero => simp [cnn]
  | succ m ih =>
    rw [sum_two_pow_succ, ← sum_add_distrib]
    have : ∀ i ∈ range (2 ^ m), cnn (m + 1) x i i + cnn (m + 1) x (i + 2 ^ m) (i + 2 ^ m) = cnn m x i i + cnn m x i i := by
      intro i hi
      rw [mem_range] at hi
      rw [cnn_succ]
      simp only [blk, hi, if_true, show ¬ i + 2 ^ m < 2 ^ m by omega, if_false, Nat.add_sub_cancel, Pi.add_apply, al, Bool.xor_self,
        sg_false, one_smul, Pi.sub_apply]
      abel
    rw [sum_congr rfl this, sum_add_distrib, ih, pow_succ, mul_smul, two_smul, smul_add]

/-! ### Inversion -/

omit [Ring T] in
/-- Concatenation of two coefficient functions. -/
def jn (n : Nat) (a b : Nat → T) : Nat → T := fun k => if k < 2 ^ n then a k else b (k - 2 ^ n)

theorem cnn_jn (m : Nat) (p q r s : Nat → T) : cnn (m + 1) (jn (2 * m + 1) (jn (2 * m) p q) (jn (2 * m) r s)) =
    blk m (cnn m p + cnn m s) (al m (cnn m q + cnn m r)) (cnn m q - cnn m r) (al m (cnn m p - cnn m s)) := by
  have h2 : 2 ^ (2 * m + 1) = 2 ^ (2 * m) + 2 ^ (2 * m) := by rw [pow_succ]; ring
  rw [cnn_succ]
  have e1 : cnn m (jn (2 * m + 1) (jn (2 * m) p q) (jn (2 * m) r s)) = cnn m p := cnn_congr fun k hk => by
    simp only [jn, hk, lt_four_pow hk, if_true]
  have e2 : cnn m (hi (2 * m) (jn (2 * m + 1) (jn (2 * m) p q) (jn (2 * m) r s))) = cnn m q := cnn_congr fun k hk => by
    simp only [jn, hi, add_two_pow_lt hk, if_true, show ¬ k + 2 ^ (2 * m) < 2 ^ (2 * m) by omega, if_false, Nat.add_sub_cancel]
  have e3 : cnn m (hi (2 * m + 1) (jn (2 * m + 1) (jn (2 * m) p q) (jn (2 * m) r s))) = cnn m r := cnn_congr fun k hk => by
    simp only [jn, hi, hk, if_true, show ¬ k + 2 ^ (2 * m + 1) < 2 ^ (2 * m + 1) by omega, if_false, Nat.add_sub_cancel]
  have e4 : cnn m (hi (2 * m) (hi (2 * m + 1) (jn (2 * m + 1) (jn (2 * m) p q) (jn (2 * m) r s)))) = cnn m s :=
    cnn_congr fun k hk => by
      simp only [jn, hi, show ¬ k + 2 ^ (2 * m) + 2 ^ (2 * m + 1) < 2 ^ (2 * m + 1) by omega, if_false, Nat.add_sub_cancel,
        show ¬ k + 2 ^ (2 * m) < 2 ^ (2 * m) by omega]
  rw [e1, e2, e3, e4]

omit [Ring T] in
/-- The blocks of a matrix. -/
def q01 (m : Nat) (M : Nat → Nat → T) : Nat → Nat → T := fun i j => M i (j + 2 ^ m)
omit [Ring T] in
/-- See `q01`. -/
def q10 (m : Nat) (M : Nat → Nat → T) : Nat → Nat → T := fun i j => M (i + 2 ^ m) j
omit [Ring T] in
/-- See `q01`. -/
def q11 (m : Nat) (M : Nat → Nat → T) : Nat → Nat → T := fun i j => M (i + 2 ^ m) (j + 2 ^ m)

omit [Ring T] in
theorem blk_quarters (m : Nat) (M : Nat → Nat → T) : blk m M (q01 m M) (q10 m M) (q11 m M) = M := by
  funext i j
  unfold blk q01 q10 q11
  split <;> split
  · rfl
  · rw [Nat.sub_add_cancel (by omega)]
  · rw [Nat.sub_add_cancel (by omega)]
  · rw [Nat.sub_add_cancel (by omega), Nat.sub_add_cancel (by omega)]

section inverse
variable {T : Type} [DivisionRing T]

/-- The inverse transform. -/
def icnn : Nat → (Nat → Nat → T) → Nat → T
  | 0, M => fun _ => M 0 0
  | m + 1, M =>
    let A := icnn m M
    let B := flp (2 * m) (icnn m (q01 m M))
    let C := icnn m (q10 m M)
    let D := flp (2 * m) (icnn m (q11 m M))
    jn (2 * m + 1) (jn (2 * m) (fun k => (A k + D k) / (1 + 1)) (fun k => (B k + C k) / (1 + 1)))
      (jn (2 * m) (fun k => (B k - C k) / (1 + 1)) (fun k => (A k - D k) / (1 + 1)))

theorem two_halves (h2 : (1 + 1 : T) ≠ 0) (x y : T) : (x + y) / (1 + 1) + (x - y) / (1 + 1) = x ∧ (x + y) / (1 + 1) - (x - y) / (1 + 1) = y := by
  constructor
  · rw [← add_div, add_add_sub_cancel, ← mul_one x, ← mul_add, mul_div_assoc, div_self h2, mul_one]
  · rw [← sub_div, add_sub_sub_cancel, ← mul_one y, ← mul_add, mul_div_assoc, div_self h2, mul_one]

theorem cnn_icnn (h2 : (1 + 1 : T) ≠ 0) (m : Nat) (M : Nat → Nat → T) : MEq (2 ^ m) (2 ^ m) (cnn m (icnn m M)) M := by
  induction m generalizing M with
  | zero =>
    intro i hi j hj
    have : i = 0 := by simpa using hi
    have : j = 0 := by simpa using hj
    subst i j
    rfl
  | succ m ih =>
    have ihf : ∀ M : Nat → Nat → T, MEq (2 ^ m) (2 ^ m) (cnn m (flp (2 * m) (icnn m M))) (al m M) := fun M =>
      (cnn_flp m _).trans (al_congr (ih M))
    have hdiv : ∀ u : Nat → T, cnn m (fun k => u k / (1 + 1)) = fun i j => cnn m u i j / (1 + 1) := fun u =>
      cnn_map (f := fun x => x / (1 + 1)) (fun x y => add_div x y _) m u
    have hA : ∀ u v : Nat → T, cnn m (fun k => (u k + v k) / (1 + 1)) = fun i j => (cnn m u i j + cnn m v i j) / (1 + 1) := by
      intro u v
      rw [hdiv]
      have := cnn_add m u v
      have e : (fun k => u k + v k) = u + v := rfl
      rw [e, this]; rfl
    have hS : ∀ u v : Nat → T, cnn m (fun k => (u k - v k) / (1 + 1)) = fun i j => (cnn m u i j - cnn m v i j) / (1 + 1) := by
      intro u v
      rw [hdiv]
      have := cnn_sub m u v
      have e : (fun k => u k - v k) = u - v := rfl
      rw [e, this]; rfl
    have e : cnn (m + 1) (icnn (m + 1) M) = _ := cnn_jn m _ _ _ _
    rw [e, hA, hA, hS, hS]
    conv => right; rw [← blk_quarters m M]
    refine blk_congr ?_ ?_ ?_ ?_
    · intro i hi j hj
      simp only [Pi.add_apply]
      rw [(two_halves h2 _ _).1, ih _ i hi j hj]
    · intro i hi j hj
      simp only [al, Pi.add_apply]
      rw [(two_halves h2 _ _).1, ihf _ i hi j hj, al, smul_smul, sg_mul_self, one_smul]
    · intro i hi j hj
      simp only [Pi.sub_apply]
      rw [(two_halves h2 _ _).2, ih _ i hi j hj]
    · intro i hi j hj
      simp only [al, Pi.sub_apply]
      rw [(two_halves h2 _ _).2, ihf _ i hi j hj, al, smul_smul, sg_mul_self, one_smul]

theorem cnn_injective (h2 : (1 + 1 : T) ≠ 0) {m : Nat} {f g : Nat → T} (h : MEq (2 ^ m) (2 ^ m) (cnn m f) (cnn m g)) :
    ∀ k < 2 ^ (2 * m), f k = g k := by
  induction m generalizing f g with
  | zero =>
    intro k hk
    have : k = 0 := by simpa using hk
    subst this
    exact h 0 (by norm_num) 0 (by norm_num)
  | succ m ih =>
    rw [cnn_succ, cnn_succ] at h
    obtain ⟨hA, hB, hC, hD⟩ := blk_inj h
    have half : ∀ {x y x' y' : T}, x + y = x' + y' → x - y = x' - y' → x = x' ∧ y = y' := by
      intro x y x' y' h1 h3
      have h4 := (two_halves h2 x y).1
      have h5 := (two_halves h2 x' y').1
      have h6 := (two_halves h2 x y).2
      have h7 := (two_halves h2 x' y').2
      rw [h1, h3] at h4 h6
      exact ⟨h4.symm.trans h5, h6.symm.trans h7⟩
    have unal : ∀ {X Y : Nat → Nat → T}, MEq (2 ^ m) (2 ^ m) (al m X) (al m Y) → MEq (2 ^ m) (2 ^ m) X Y := by
      intro X Y h
      have := al_congr (m := m) h
      rwa [al_al, al_al] at this
    have hB' := unal hB
    have hD' := unal hD
    have i00 := ih (f := f) (g := g) fun i hi j hj => (half (hA i hi j hj) (hD' i hi j hj)).1
    have i11 := ih (f := hi (2 * m) (hi (2 * m + 1) f)) (g := hi (2 * m) (hi (2 * m + 1) g))
      fun i hi j hj => (half (hA i hi j hj) (hD' i hi j hj)).2
    have i01 := ih (f := hi (2 * m) f) (g := hi (2 * m) g) fun i hi j hj => (half (hB' i hi j hj) (hC i hi j hj)).1
    have i10 := ih (f := hi (2 * m + 1) f) (g := hi (2 * m + 1) g) fun i hi j hj => (half (hB' i hi j hj) (hC i hi j hj)).2
    intro k hk
    have h4 : 2 ^ (2 * (m + 1)) = 2 ^ (2 * m) + 2 ^ (2 * m) + 2 ^ (2 * m) + 2 ^ (2 * m) := by
      rw [show 2 * (m + 1) = 2 * m + 1 + 1 by ring, pow_succ, pow_succ]; ring
    have h2 : 2 ^ (2 * m + 1) = 2 ^ (2 * m) + 2 ^ (2 * m) := by rw [pow_succ]; ring
    rw [h4] at hk
    by_cases k1 : k < 2 ^ (2 * m)
    · exact i00 k k1
    · by_cases k2 : k < 2 ^ (2 * m + 1)
      · have := i01 (k - 2 ^ (2 * m)) (by omega)
        unfold hi at this
        rwa [Nat.sub_add_cancel (by omega)] at this
      · by_cases k3 : k < 2 ^ (2 * m + 1) + 2 ^ (2 * m)
        · have := i10 (k - 2 ^ (2 * m + 1)) (by omega)
          unfold hi at this
          rwa [Nat.sub_add_cancel (by omega)] at this
        · have := i11 (k - 2 ^ (2 * m + 1) - 2 ^ (2 * m)) (by omega)
          unfold hi at this
          rwa [Nat.sub_add_cancel (by omega), Nat.sub_add_cancel (by omega)] at this

theorem icnn_cnn (h2 : (1 + 1 : T) ≠ 0) (m : Nat) (f : Nat → T) {k : Nat} (hk : k < 2 ^ (2 * m)) : icnn m (cnn m f) k = f k :=
  cnn_injective h2 (cnn_icnn h2 m _) k hk

theorem icnn_congr {m : Nat} {M N : Nat → Nat → T} (h : MEq (2 ^ m) (2 ^ m) M N) : icnn m M = icnn m N := by
  induction m generalizing M N with
  | zero => funext _; exact h 0 (by norm_num) 0 (by norm_num)
  | succ m ih =>
    have hp : 2 ^ (m + 1) = 2 ^ m + 2 ^ m := by rw [pow_succ]; omega
    rw [hp] at h
    unfold icnn
    rw [ih (M := M) (N := N) (fun i hi j hj => h i (by omega) j (by omega)),
      ih (M := q01 m M) (N := q01 m N) (fun i hi j hj => h i (by omega) (j + 2 ^ m) (by omega)),
      ih (M := q10 m M) (N := q10 m N) (fun i hi j hj => h (i + 2 ^ m) (by omega) j (by omega)),
      ih (M := q11 m M) (N := q11 m N) (fun i hi j hj => h (i + 2 ^ m) (by omega) (j + 2 ^ m) (by omega))]

end inverse

/-! ### Reflection of the odd generators, and transposition -/

/-- The matrix operation of `imaginary_flip`. -/
def ifl : Nat → (Nat → Nat → T) → Nat → Nat → T
  | 0, M => M
  | m + 1, M => blk m (ifl m (al m (q11 m M))) (ifl m (al m (q10 m M))) (ifl m (al m (q01 m M))) (ifl m (al m M))

theorem ifl_succ (m : Nat) (M : Nat → Nat → T) : ifl (m + 1) M =
    blk m (ifl m (al m (q11 m M))) (ifl m (al m (q10 m M))) (ifl m (al m (q01 m M))) (ifl m (al m M)) := rfl

theorem ifl_congr {m : Nat} {M N : Nat → Nat → T} (h : MEq (2 ^ m) (2 ^ m) M N) : MEq (2 ^ m) (2 ^ m) (ifl m M) (ifl m N) := by
  induction m generalizing M N with
  | zero => exact h
  | succ m ih =>
    have hp : 2 ^ (m + 1) = 2 ^ m + 2 ^ m := by rw [pow_succ]; omega
    rw [hp] at h
    rw [ifl_succ, ifl_succ]
    refine blk_congr ?_ ?_ ?_ ?_
    · exact ih (al_congr fun i hi j hj => h (i + 2 ^ m) (by omega) (j + 2 ^ m) (by omega))
    · exact ih (al_congr fun i hi j hj => h (i + 2 ^ m) (by omega) j (by omega))
    · exact ih (al_congr fun i hi j hj => h i (by omega) (j + 2 ^ m) (by omega))
    · exact ih (al_congr fun i hi j hj => h i (by omega) j (by omega))

theorem quarters_blk (m : Nat) (A B C D : Nat → Nat → T) : MEq (2 ^ m) (2 ^ m) (blk m A B C D) A ∧
    MEq (2 ^ m) (2 ^ m) (q01 m (blk m A B C D)) B ∧ MEq (2 ^ m) (2 ^ m) (q10 m (blk m A B C D)) C ∧
    MEq (2 ^ m) (2 ^ m) (q11 m (blk m A B C D)) D := by
  refine ⟨?_, ?_, ?_, ?_⟩ <;> intro i hi j hj <;> simp [q01, q10, q11, blk, hi, hj]

theorem ifl_blk (m : Nat) (A B C D : Nat → Nat → T) : MEq (2 ^ (m + 1)) (2 ^ (m + 1)) (ifl (m + 1) (blk m A B C D))
    (blk m (ifl m (al m D)) (ifl m (al m C)) (ifl m (al m B)) (ifl m (al m A))) := by
  obtain ⟨h1, h2, h3, h4⟩ := quarters_blk m A B C D
  exact blk_congr (ifl_congr (al_congr h4)) (ifl_congr (al_congr h3)) (ifl_congr (al_congr h2)) (ifl_congr (al_congr h1))

theorem ifl_neg (m : Nat) (M : Nat → Nat → T) : ifl m (-M) = -ifl m M := by
  induction m generalizing M with
  | zero => rfl
  | succ m ih =>
    have a1 : q01 m (-M) = -q01 m M := rfl
    have a2 : q10 m (-M) = -q10 m M := rfl
    have a3 : q11 m (-M) = -q11 m M := rfl
    rw [ifl_succ, ifl_succ, a1, a2, a3, al_neg, al_neg, al_neg, al_neg, ih, ih, ih, ih, blk_neg]

theorem ifl_add (m : Nat) (M N : Nat → Nat → T) : ifl m (M + N) = ifl m M + ifl m N := by
  induction m generalizing M N with
  | zero => rfl
  | succ m ih =>
    have a1 : q01 m (M + N) = q01 m M + q01 m N := rfl
    have a2 : q10 m (M + N) = q10 m M + q10 m N := rfl
    have a3 : q11 m (M + N) = q11 m M + q11 m N := rfl
    rw [ifl_succ, ifl_succ, ifl_succ, a1, a2, a3, al_add, al_add, al_add, al_add, ih, ih, ih, ih, blk_add]

theorem ifl_sub (m : Nat) (M N : Nat → Nat → T) : ifl m (M - N) = ifl m M - ifl m N := by
  rw [sub_eq_add_neg, ifl_add, ifl_neg, sub_eq_add_neg]

theorem ifl_al (m : Nat) (M : Nat → Nat → T) : MEq (2 ^ m) (2 ^ m) (ifl m (al m M)) (al m (ifl m M)) := by
  induction m generalizing M with
  | zero => intro i _ j _; simp [ifl]
  | succ m ih =>
    have e : MEq (2 ^ (m + 1)) (2 ^ (m + 1)) (al (m + 1) M) (blk m (al m M) (-al m (q01 m M)) (-al m (q10 m M)) (al m (q11 m M))) := by
      have := al_blk m M (q01 m M) (q10 m M) (q11 m M)
      rwa [blk_quarters] at this
    refine (ifl_congr e).trans ((ifl_blk m _ _ _ _).trans ?_)
    rw [ifl_succ]
    refine MEq.trans ?_ (al_blk m _ _ _ _).symm
    simp only [al_neg, ifl_neg, al_al]
    have : ∀ X : Nat → Nat → T, MEq (2 ^ m) (2 ^ m) (ifl m X) (al m (ifl m (al m X))) := by
      intro X
      have := al_congr (m := m) (ih X)
      rw [al_al] at this
      exact this.symm
    refine blk_congr (this _) ?_ ?_ (this _)
    · intro i hi j hj; simp only [Pi.neg_apply, this _ i hi j hj]
    · intro i hi j hj; simp only [Pi.neg_apply, this _ i hi j hj]

/-- Parity of the set bits at odd positions below `2m`. -/
def opar : Nat → Nat → Bool
  | 0, _ => false
  | m + 1, k => opar m k ^^ k.testBit (2 * m + 1)

theorem opar_congr {m k l : Nat} (h : ∀ i < 2 * m, k.testBit i = l.testBit i) : opar m k = opar m l := by
  induction m with
  | zero => rfl
  | succ m ih => rw [opar, opar, ih (fun i hi => h i (by omega)), h (2 * m + 1) (by omega)]

theorem opar_00 {m k : Nat} (hk : k < 2 ^ (2 * m)) : opar (m + 1) k = opar m k := by
  rw [opar, Nat.testBit_lt_two_pow (lt_four_pow hk)]; simp

theorem opar_01 {m k : Nat} (hk : k < 2 ^ (2 * m)) : opar (m + 1) (k + 2 ^ (2 * m)) = opar m k := by
  rw [opar, Nat.testBit_lt_two_pow (add_two_pow_lt hk)]
  rw [opar_congr (l := k)]
  · simp
  · intro i hi
    rw [testBit_add_two_pow hk]; simp [Nat.ne_of_lt hi]

theorem opar_10 {m k : Nat} (hk : k < 2 ^ (2 * m)) : opar (m + 1) (k + 2 ^ (2 * m + 1)) = !(opar m k) := by
  rw [opar, testBit_top (lt_four_pow hk)]
  rw [opar_congr (l := k)]
  · simp
  · intro i hi
    rw [testBit_add_two_pow (lt_four_pow hk)]; simp [show ¬ i = 2 * m + 1 by omega]

theorem opar_11 {m k : Nat} (hk : k < 2 ^ (2 * m)) : opar (m + 1) (k + 2 ^ (2 * m) + 2 ^ (2 * m + 1)) = !(opar m k) := by
  rw [opar, testBit_top (add_two_pow_lt hk)]
  rw [opar_congr (l := k)]
  · simp
  · intro i hi
    rw [testBit_add_two_pow (add_two_pow_lt hk), testBit_add_two_pow hk]
    simp [show ¬ i = 2 * m + 1 by omega, Nat.ne_of_lt hi]

theorem sg_not (b : Bool) : sg (!b) = -sg b := by cases b <;> rfl

theorem cnn_ifl (m : Nat) (x : Nat → T) :
    MEq (2 ^ m) (2 ^ m) (cnn m (fun k => sg (opar m k) • x k)) (ifl m (cnn m x)) := by
  induction m generalizing x with
  | zero => intro i _ j _; simp [cnn, opar, ifl]
  | succ m ih =>
    set y : Nat → T := fun k => sg (opar (m + 1) k) • x k with hy
    have e00 : cnn m y = cnn m (fun k => sg (opar m k) • x k) := cnn_congr fun k hk => by
      simp only [hy, opar_00 hk]
    have e01 : cnn m (hi (2 * m) y) = cnn m (fun k => sg (opar m k) • hi (2 * m) x k) := cnn_congr fun k hk => by
      simp only [hy, hi, opar_01 hk]
    have e10 : cnn m (hi (2 * m + 1) y) = -cnn m (fun k => sg (opar m k) • hi (2 * m + 1) x k) := by
      rw [← cnn_neg]
      exact cnn_congr fun k hk => by
        simp only [hy, hi, opar_10 hk, Pi.neg_apply, sg_not, neg_smul]
    have e11 : cnn m (hi (2 * m) (hi (2 * m + 1) y)) = -cnn m (fun k => sg (opar m k) • hi (2 * m) (hi (2 * m + 1) x) k) := by
      rw [← cnn_neg]
      exact cnn_congr fun k hk => by
        simp only [hy, hi, opar_11 hk, Pi.neg_apply, sg_not, neg_smul]
    rw [cnn_succ, cnn_succ, e00, e01, e10, e11]
    refine MEq.trans ?_ (ifl_blk m _ _ _ _).symm
    refine blk_congr ?_ ?_ ?_ ?_
    · intro i hi j hj
      rw [al_al, ifl_sub]
      simp only [Pi.add_apply, Pi.sub_apply, Pi.neg_apply, ih _ i hi j hj]
      abel
    · refine MEq.trans ?_ (ifl_al m _).symm
      refine al_congr ?_
      intro i hi j hj
      rw [ifl_sub]
      simp only [Pi.add_apply, Pi.sub_apply, Pi.neg_apply, ih _ i hi j hj]
      abel
    · intro i hi j hj
      rw [al_al, ifl_add]
      simp only [Pi.add_apply, Pi.sub_apply, Pi.neg_apply, ih _ i hi j hj]
      abel
    · refine MEq.trans ?_ (ifl_al m _).symm
      refine al_congr ?_
      intro i hi j hj
      rw [ifl_add]
      simp only [Pi.add_apply, Pi.sub_apply, Pi.neg_apply, ih _ i hi j hj]
      abel

theorem rsg_lo {n k : Nat} (hk : k < 2 ^ n) : rsg (n + 1) k = rsg n k := by
  rw [rsg_succ, Nat.testBit_lt_two_pow hk]; simp

theorem rsg_congr {n a b : Nat} (h : ∀ i < n, a.testBit i = b.testBit i) : rsg n a = rsg n b := by
  rw [rsg_eq, rsg_eq, cnt_congr h]

theorem rsg_hi {n k : Nat} (hk : k < 2 ^ n) : rsg (n + 1) (k + 2 ^ n) = rsg n k * sg (par n k) := by
  rw [rsg_succ, testBit_top hk, par_add hk, rsg_congr (b := k)]
  · simp
  · intro i hi; rw [testBit_add_two_pow hk]; simp [Nat.ne_of_lt hi]

/-- The sign of the anti-automorphism that fixes the even generators and negates the odd ones. -/
def tsg (m k : Nat) : ℤ := rsg (2 * m) k * sg (opar m k)

theorem cnn_transpose (m : Nat) (x : Nat → T) : MEq (2 ^ m) (2 ^ m) (cnn m (fun k => tsg m k • x k)) (fun i j => cnn m x j i) := by
  induction m generalizing x with
  | zero => intro i _ j _; simp [cnn, opar, tsg, rsg]
  | succ m ih =>
    set y : Nat → T := fun k => tsg (m + 1) k • x k with hy
    have e00 : cnn m y = cnn m (fun k => tsg m k • x k) := cnn_congr fun k hk => by
      have : tsg (m + 1) k = tsg m k := by
        unfold tsg
        rw [show 2 * (m + 1) = 2 * m + 1 + 1 by ring, rsg_lo (lt_four_pow hk), rsg_lo hk, opar_00 hk]
      simp only [hy, this]
    have e01 : cnn m (hi (2 * m) y) = cnn m (flp (2 * m) (fun k => tsg m k • hi (2 * m) x k)) := cnn_congr fun k hk => by
      have : tsg (m + 1) (k + 2 ^ (2 * m)) = sg (par (2 * m) k) * tsg m k := by
        unfold tsg
        rw [show 2 * (m + 1) = 2 * m + 1 + 1 by ring, rsg_lo (add_two_pow_lt hk), rsg_hi hk, opar_01 hk]; ring
      simp only [hy, hi, this, flp, mul_smul]
    have e10 : cnn m (hi (2 * m + 1) y) = -cnn m (flp (2 * m) (fun k => tsg m k • hi (2 * m + 1) x k)) := by
      rw [← cnn_neg]
      refine cnn_congr fun k hk => ?_
      have : tsg (m + 1) (k + 2 ^ (2 * m + 1)) = -(sg (par (2 * m) k) * tsg m k) := by
        unfold tsg
        rw [show 2 * (m + 1) = 2 * m + 1 + 1 by ring, rsg_hi (lt_four_pow hk), rsg_lo hk, opar_10 hk, sg_not, par_succ,
          Nat.testBit_lt_two_pow hk, Bool.xor_false]; ring
      simp only [hy, hi, this, flp, mul_smul, neg_smul, Pi.neg_apply]
    have e11 : cnn m (hi (2 * m) (hi (2 * m + 1) y)) = cnn m (fun k => tsg m k • hi (2 * m) (hi (2 * m + 1) x) k) := by
      refine cnn_congr fun k hk => ?_
      have : tsg (m + 1) (k + 2 ^ (2 * m) + 2 ^ (2 * m + 1)) = tsg m k := by
        unfold tsg
        rw [show 2 * (m + 1) = 2 * m + 1 + 1 by ring, rsg_hi (add_two_pow_lt hk), rsg_hi hk, opar_11 hk, sg_not, par_succ,
          testBit_top hk, Bool.xor_true, par_add hk, sg_not]
        have := sg_mul_self (par (2 * m) k)
        linear_combination (rsg (2 * m) k * sg (opar m k)) * this
      simp only [hy, hi, this]
    have ihf : ∀ x : Nat → T, MEq (2 ^ m) (2 ^ m) (cnn m (flp (2 * m) (fun k => tsg m k • x k))) (al m (fun i j => cnn m x j i)) :=
      fun x => (cnn_flp m _).trans (al_congr (ih x))
    rw [cnn_succ, e00, e01, e10, e11]
    have ht : (fun i j => cnn (m + 1) x j i) = blk m
      (fun i j => (cnn m x + cnn m (hi (2 * m) (hi (2 * m + 1) x))) j i)
      (fun i j => (cnn m (hi (2 * m) x) - cnn m (hi (2 * m + 1) x)) j i)
      (fun i j => al m (cnn m (hi (2 * m) x) + cnn m (hi (2 * m + 1) x)) j i)
      (fun i j => al m (cnn m x - cnn m (hi (2 * m) (hi (2 * m + 1) x))) j i) := by
      funext i j
      rw [cnn_succ]
      unfold blk
      split <;> split <;> rfl
    rw [ht]
    refine blk_congr ?_ ?_ ?_ ?_
    · intro i hi j hj
      simp only [Pi.add_apply, ih _ i hi j hj]
    · intro i hi j hj
      simp only [al, Pi.add_apply, Pi.sub_apply, Pi.neg_apply, ihf _ i hi j hj, smul_add, smul_neg, smul_smul, sg_mul_self, one_smul]
      abel
    · intro i hi j hj
      simp only [al, Pi.add_apply, Pi.sub_apply, Pi.neg_apply, ihf _ i hi j hj, smul_add, Bool.xor_comm (par m i)]
      abel
    · intro i hi j hj
      simp only [al, Pi.sub_apply, ih _ i hi j hj, Bool.xor_comm (par m i)]

/-- Reversal is transposition followed by the reflection of the odd generators. -/
theorem cnn_rev (m : Nat) (x : Nat → T) :
    MEq (2 ^ m) (2 ^ m) (cnn m (fun k => rsg (2 * m) k • x k)) (ifl m (fun i j => cnn m x j i)) := by
  have e : (fun k => rsg (2 * m) k • x k) = fun k => sg (opar m k) • (fun k => tsg m k • x k) k := by
    funext k
    simp only [smul_smul, tsg]
    congr 1
    have := sg_mul_self (opar m k)
    linear_combination (-rsg (2 * m) k) * this
  rw [e]
  exact (cnn_ifl m _).trans (ifl_congr (cnn_transpose m x))

end TClifford
