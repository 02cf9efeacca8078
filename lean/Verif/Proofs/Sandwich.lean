import Verif.Proofs.Blades
import Verif.Proofs.Pga
/-
Sandwich products with vectors and products of vectors preserve grades.
-/

set_option linter.unusedSectionVars false

namespace TClifford

open Finset

theorem eq_two_pow_of_cnt {n i : Nat} (hi : i < 2 ^ n) (h : cnt n i = 1) : ∃ p < n, i = 2 ^ p := by
  induction n with
  | zero => simp at h
  | succ n ih =>
    rw [cnt_succ] at h
    cases hb : i.testBit n
    · rw [hb] at h
      have hlt : i < 2 ^ n := by
        refine Nat.lt_pow_two_of_testBit i fun j hj => ?_
        rcases Nat.eq_or_lt_of_le hj with rfl | hj
        · exact hb
        · exact testBit_eq_false_of_lt hi (by omega)
      obtain ⟨p, hp, rfl⟩ := ih hlt (by simpa using h)
      exact ⟨p, by omega, rfl⟩
    · rw [hb] at h
      refine ⟨n, by omega, Nat.eq_of_testBit_eq fun j => ?_⟩
      have h0 : cnt n i = 0 := by simpa using h
      rcases Nat.lt_trichotomy j n with hj | rfl | hj
      · rw [cnt_eq_zero h0 j hj, Nat.testBit_two_pow_of_ne (by omega)]
      · rw [hb, Nat.testBit_two_pow_self]
      · rw [testBit_eq_false_of_lt hi (by omega), Nat.testBit_two_pow_of_ne (by omega)]

theorem cnt_flip_bit {n p K : Nat} (hp : p < n) :
    cnt n (2 ^ p ^^^ K) + (if K.testBit p then 1 else 0) = cnt n K + (if K.testBit p then 0 else 1) := by
  have h := cnt_xor n (2 ^ p) K
  rw [cnt_two_pow hp] at h
  have hand : 2 ^ p &&& K = if K.testBit p then 2 ^ p else 0 := by
    refine Nat.eq_of_testBit_eq fun j => ?_
    rw [Nat.testBit_and]
    by_cases hj : j = p
    · subst hj
      rw [Nat.testBit_two_pow_self]
      split
      · rename_i hb; rw [hb, Nat.testBit_two_pow_self]; rfl
      · rename_i hb; rw [Bool.not_eq_true] at hb; rw [hb]; simp
    · rw [Nat.testBit_two_pow_of_ne (by omega)]
      split
      · rw [Nat.testBit_two_pow_of_ne (by omega)]; rfl
      · simp
  rw [hand] at h
  split
  · rename_i hb
    rw [if_pos hb, cnt_two_pow hp] at h
    omega
  · rename_i hb
    rw [if_neg hb, cnt_zero] at h
    omega

namespace GA
variable {σ : Nat → ℤ} {n : Nat} {T : Type} [CommRing T]

/-- Elements of grade `k`. -/
def IsHom (k : Nat) (x : GA σ n T) : Prop := HomF n k x.fn

theorem fn_zero (i : Nat) : (0 : GA σ n T).fn i = 0 := by
  unfold fn
  split <;> rfl

theorem IsHom.zero (k : Nat) : IsHom k (0 : GA σ n T) := fun i _ _ => fn_zero i

theorem IsHom.add {k : Nat} {x y : GA σ n T} (hx : IsHom k x) (hy : IsHom k y) : IsHom k (x + y) := fun i hi hc => by
  rw [vfn_add, hx i hi hc, hy i hi hc, add_zero]

theorem IsHom.smul {k : Nat} {x : GA σ n T} (hx : IsHom k x) (c : T) : IsHom k (c • x) := fun i hi hc => by
  rw [vfn_smul, hx i hi hc, mul_zero]

theorem IsHom.sum {ι : Type} {k : Nat} (s : Finset ι) (f : ι → GA σ n T) (h : ∀ i ∈ s, IsHom k (f i)) : IsHom k (∑ i ∈ s, f i) :=
  Finset.sum_induction f (IsHom k) (fun _ _ => IsHom.add) (IsHom.zero k) h

theorem isHom_bl {a : Nat} (ha : a < 2 ^ n) : IsHom (cnt n a) (bl a : GA σ n T) := fun i hi hc => by
  unfold bl
  rw [fn_of _ hi]
  unfold single
  rw [if_neg]
  rintro rfl
  exact hc rfl

/-- Moving a generator past a blade. -/
theorem e_mul_bl {p K : Nat} (hp : p < n) (hK : K < 2 ^ n) :
    (e p * bl K : GA σ n T) = (sg (par n K) * (if K.testBit p then -1 else 1) : ℤ) • (bl K * e p) := by
  have h2 : (2 ^ p : Nat) < 2 ^ n := Nat.pow_lt_pow_right (by norm_num) hp
  have h : bsgn σ n (2 ^ p) K = (sg (par n K) * (if K.testBit p then -1 else 1)) * bsgn σ n K (2 ^ p) := by
    have hc := cnt_two_pow hp
    have hsq : ∀ b : Bool, sg b * sg b = 1 := by intro b; cases b <;> rfl
    by_cases hb : K.testBit p = true
    · have hd : ¬ ∀ i < n, ((2 ^ p).testBit i && K.testBit i) = false := fun h => by
        have := h p hp
        rw [Nat.testBit_two_pow_self, hb] at this
        simp at this
      have := bsgn_vec_mem σ hc hd
      rw [if_pos hb]
      linarith
    · have hd : ∀ i < n, ((2 ^ p).testBit i && K.testBit i) = false := fun i _ => by
        by_cases hi : i = p
        · subst hi; rw [Bool.not_eq_true] at hb; rw [hb]; simp
        · rw [Nat.testBit_two_pow_of_ne (by omega)]; rfl
      have := bsgn_vec_disjoint σ hc hd
      rw [if_neg hb, ← this]
      ring
  unfold e
  show bl (2 ^ p) * bl K = _ • (bl K * bl (2 ^ p))
  rw [bl_mul_bl h2, bl_mul_bl hK, h, Nat.xor_comm, ← Int.cast_smul_eq_zsmul T, smul_smul, Int.cast_mul]

theorem vec_eq_sum {w : GA σ n T} (hw : IsVec w) : w = ∑ p ∈ range n, w.fn (2 ^ p) • e p := by
  refine vext_fn fun i hi => ?_
  rw [fn_sum]
  have : ∀ p ∈ range n, ((w.fn (2 ^ p) • e p : GA σ n T)).fn i = if i = 2 ^ p then w.fn i else 0 := by
    intro p _
    rw [vfn_smul, e, fn_of _ hi]
    unfold single
    split
    · rename_i h; rw [mul_one, h]
    · rw [mul_zero]
  rw [sum_congr rfl this]
  by_cases hc : cnt n i = 1
  · obtain ⟨p, hp, rfl⟩ := eq_two_pow_of_cnt hi hc
    rw [sum_eq_single p]
    · simp
    · intro q _ hq
      rw [if_neg]
      intro h
      exact hq (Nat.pow_right_injective (le_refl 2) h).symm
    · intro h; rw [mem_range] at h; exact absurd hp h
  · rw [hw i hi hc]
    exact (sum_eq_zero fun p _ => by split <;> rfl).symm

/-- `e_p e_K e_q` without the grade of `e_K` cancels against `e_q e_K e_p`. -/
theorem pair_cancel {p q K : Nat} (hp : p < n) (hq : q < n) (hK : K < 2 ^ n) (hc : cnt n (2 ^ p ^^^ K ^^^ 2 ^ q) ≠ cnt n K) :
    p ≠ q ∧ (e p * bl K * e q + e q * bl K * e p : GA σ n T) = 0 := by
  have hpq : p ≠ q := by
    rintro rfl
    apply hc
    rw [Nat.xor_comm (2 ^ p) K]; simp
  have hb : K.testBit p = K.testBit q := by
    by_contra hne
    apply hc
    have h1 := cnt_flip_bit (K := K) hp
    have h2 := cnt_flip_bit (K := 2 ^ p ^^^ K) hq
    rw [Nat.testBit_xor, Nat.testBit_two_pow_of_ne (by omega), Bool.false_xor, Nat.xor_comm (2 ^ q)] at h2
    rcases hbp : K.testBit p <;> rcases hbq : K.testBit q <;> simp [hbp, hbq] at h1 h2 hne <;> omega
  refine ⟨hpq, ?_⟩
  rw [e_mul_bl hp hK, e_mul_bl hq hK, hb, smul_mul_assoc, smul_mul_assoc, ← smul_add, mul_assoc, mul_assoc, ← mul_add,
    e_anti hp hq hpq, neg_add_cancel, mul_zero, smul_zero]

/-- A vector sandwiching a blade. -/
theorem vec_sandwich_bl {w : GA σ n T} (hw : IsVec w) {K : Nat} (hK : K < 2 ^ n) : IsHom (cnt n K) (w * bl K * w) := by
  have e1 : w * bl K * w = ∑ x ∈ range n ×ˢ range n, (w.fn (2 ^ x.1) * w.fn (2 ^ x.2)) • (e x.1 * bl K * e x.2) := by
    conv_lhs => rw [vec_eq_sum hw]
    rw [sum_mul, sum_mul, sum_product]
    refine sum_congr rfl fun p _ => ?_
    rw [mul_sum]
    refine sum_congr rfl fun q _ => ?_
    rw [smul_mul_assoc, smul_mul_assoc, mul_smul_comm, smul_smul]
  rw [e1, ← sum_filter_add_sum_filter_not _ (fun x => cnt n (2 ^ x.1 ^^^ K ^^^ 2 ^ x.2) = cnt n K)]
  refine IsHom.add (IsHom.sum _ _ fun x hx => ?_) ?_
  · rw [mem_filter, mem_product, mem_range, mem_range] at hx
    obtain ⟨⟨h1, h2⟩, h3⟩ := hx
    have g1 : (2 ^ x.1 : Nat) < 2 ^ n := Nat.pow_lt_pow_right (by norm_num) h1
    have g2 : (2 ^ x.2 : Nat) < 2 ^ n := Nat.pow_lt_pow_right (by norm_num) h2
    have g3 := Nat.xor_lt_two_pow g1 hK
    refine IsHom.smul ?_ _
    unfold e
    show IsHom _ (bl (2 ^ x.1) * bl K * bl (2 ^ x.2))
    rw [bl_mul_bl g1, smul_mul_assoc, bl_mul_bl g3, ← h3]
    exact ((isHom_bl (Nat.xor_lt_two_pow g3 g2)).smul _).smul _
  · rw [sum_involution (fun x _ => (x.2, x.1))]
    · exact IsHom.zero _
    · intro x hx
      rw [mem_filter, mem_product, mem_range, mem_range] at hx
      rw [mul_comm (w.fn (2 ^ x.2)), ← smul_add, (pair_cancel hx.1.1 hx.1.2 hK hx.2).2, smul_zero]
    · intro x hx _ h
      rw [mem_filter, mem_product, mem_range, mem_range] at hx
      exact (pair_cancel (σ := σ) (T := T) hx.1.1 hx.1.2 hK hx.2).1 (congrArg Prod.snd h)
    · intro x hx
      rw [mem_filter, mem_product] at hx ⊢
      refine ⟨⟨hx.1.2, hx.1.1⟩, ?_⟩
      have : 2 ^ x.2 ^^^ K ^^^ 2 ^ x.1 = 2 ^ x.1 ^^^ K ^^^ 2 ^ x.2 := by
        rw [Nat.xor_assoc, Nat.xor_comm, Nat.xor_comm K]
      rw [this]; exact hx.2
    · intro x _; rfl

/-- A vector sandwiching an element of grade `k`. -/
theorem vec_sandwich {w : GA σ n T} (hw : IsVec w) {k : Nat} {x : GA σ n T} (hx : IsHom k x) : IsHom k (w * x * w) := by
  have e1 : w * x * w = ∑ K ∈ range (2 ^ n), x.fn K • (w * bl K * w) := by
    conv_lhs => rw [← of_fn x, of_eq_sum x.fn]
    rw [mul_sum, sum_mul]
    exact sum_congr rfl fun K _ => by rw [mul_smul_comm, smul_mul_assoc]
  rw [e1]
  refine IsHom.sum _ _ fun K hK => ?_
  rw [mem_range] at hK
  by_cases h : cnt n K = k
  · rw [← h]; exact (vec_sandwich_bl hw hK).smul _
  · rw [hx K hK h, zero_smul]; exact IsHom.zero _

/-- `V x V~`. -/
def swch (V x : GA σ n T) : GA σ n T := V * x * rev V

theorem swch_hom (l : List (GA σ n T)) (hl : ∀ v ∈ l, IsVec v) {k : Nat} {x : GA σ n T} (hx : IsHom k x) : IsHom k (swch l.prod x) := by
  unfold swch
  induction l with
  | nil => simpa [rev_one] using hx
  | cons v l ih =>
    have hv := hl v (by simp)
    have ih := ih fun w hw => hl w (by simp [hw])
    have h : (v :: l).prod * x * rev (v :: l).prod = v * (l.prod * x * rev l.prod) * v := by
      rw [List.prod_cons, rev_mul, hv.rev_eq]; simp only [mul_assoc]
    rw [h]
    exact vec_sandwich hv ih

/-- The part of grade `k`. -/
def gr (k : Nat) (x : GA σ n T) : GA σ n T := of (fun i => if cnt n i = k then x.fn i else 0)

theorem gr_hom (k : Nat) (x : GA σ n T) : IsHom k (gr k x) := fun i hi hc => by
  unfold gr; rw [fn_of _ hi, if_neg hc]

theorem gr_of_hom {k : Nat} {x : GA σ n T} (hx : IsHom k x) (j : Nat) : gr j x = if j = k then x else 0 := by
  refine vext_fn fun i hi => ?_
  unfold gr
  rw [fn_of _ hi]
  by_cases hc : cnt n i = k
  · by_cases hj : j = k
    · rw [if_pos hj, if_pos (by omega)]
    · rw [if_neg hj, if_neg (by omega), fn_zero]
  · rw [hx i hi hc]
    by_cases hj : j = k
    · rw [if_pos hj, hx i hi hc]; split <;> rfl
    · rw [if_neg hj, fn_zero]; split <;> rfl

theorem gr_add (k : Nat) (x y : GA σ n T) : gr k (x + y) = gr k x + gr k y := by
  refine vext_fn fun i hi => ?_
  rw [vfn_add]
  unfold gr
  rw [fn_of _ hi, fn_of _ hi, fn_of _ hi, vfn_add]
  split <;> simp

theorem gr_zero (k : Nat) : gr k (0 : GA σ n T) = 0 := by
  rw [gr_of_hom (IsHom.zero (k + 1)), if_neg (by omega)]

theorem gr_sum {ι : Type} (k : Nat) (s : Finset ι) (f : ι → GA σ n T) : gr k (∑ i ∈ s, f i) = ∑ i ∈ s, gr k (f i) := by
  classical
  induction s using Finset.induction_on with
  | empty => simp [gr_zero]
  | insert a s ha ih => rw [sum_insert ha, sum_insert ha, gr_add, ih]

theorem sum_gr (x : GA σ n T) : ∑ k ∈ range (n + 1), gr k x = x := by
  refine vext_fn fun i hi => ?_
  rw [fn_sum]
  have : ∀ k ∈ range (n + 1), (gr k x).fn i = if cnt n i = k then x.fn i else 0 := fun k _ => by unfold gr; rw [fn_of _ hi]
  rw [sum_congr rfl this, sum_ite_eq, if_pos]
  rw [mem_range]
  have := cnt_le n i
  omega

theorem swch_add (V x y : GA σ n T) : swch V (x + y) = swch V x + swch V y := by unfold swch; rw [mul_add, add_mul]
theorem swch_sum {ι : Type} (V : GA σ n T) (s : Finset ι) (f : ι → GA σ n T) : swch V (∑ i ∈ s, f i) = ∑ i ∈ s, swch V (f i) := by
  unfold swch; rw [mul_sum, sum_mul]

/-- Extracting a grade commutes with the sandwich. -/
theorem gr_swch (l : List (GA σ n T)) (hl : ∀ v ∈ l, IsVec v) (k : Nat) (x : GA σ n T) :
    gr k (swch l.prod x) = swch l.prod (gr k x) := by
  have hsum : ∀ j, gr k (swch l.prod (gr j x)) = if j = k then swch l.prod (gr k x) else 0 := by
    intro j
    rw [gr_of_hom (swch_hom l hl (gr_hom j x))]
    by_cases h : k = j
    · subst h; rw [if_pos rfl]
    · rw [if_neg h, if_neg (Ne.symm h)]
  by_cases hk : k < n + 1
  · conv_lhs => rw [← sum_gr x, swch_sum, gr_sum]
    rw [sum_congr rfl fun j _ => hsum j, sum_ite_eq', if_pos (mem_range.mpr hk)]
  · have h0 : ∀ y : GA σ n T, gr k y = 0 := by
      intro y
      refine vext_fn fun i hi => ?_
      unfold gr
      rw [fn_of _ hi, if_neg, fn_zero]
      have := cnt_le n i
      omega
    rw [h0, h0]
    unfold swch
    rw [mul_zero, zero_mul]

/-- Sandwiches multiply up to the norm. -/
theorem swch_mul (l : List (GA σ n T)) (hl : ∀ v ∈ l, IsVec v) (x y : GA σ n T) :
    swch l.prod x * swch l.prod y = normOf l • swch l.prod (x * y) := by
  unfold swch
  calc l.prod * x * rev l.prod * (l.prod * y * rev l.prod)
      = l.prod * x * (rev l.prod * l.prod) * y * rev l.prod := by simp only [mul_assoc]
    _ = _ := by rw [rev_mul_versor l hl]; simp only [mul_smul_comm, smul_mul_assoc, mul_one, mul_assoc]

theorem rev_rev (x : GA σ n T) : rev (rev x) = x := by
  induction x using ind with | h f => ?_
  rw [rev_of, rev_of]
  exact of_congr fun i _ => by rw [smul_smul, rsg_mul_self, one_smul]

theorem swch_rev (V x : GA σ n T) : rev (swch V x) = swch V (rev x) := by
  unfold swch
  rw [rev_mul, rev_mul, rev_rev, mul_assoc]

theorem gr_zero_eq (x : GA σ n T) : gr 0 x = x.fn 0 • (1 : GA σ n T) := by
  refine vext_fn fun i hi => ?_
  rw [vsmul_one_fn _ hi]
  unfold gr
  rw [fn_of _ hi]
  unfold single
  by_cases h : i = 0
  · subst h; rw [if_pos rfl, if_pos (cnt_zero n)]
  · rw [if_neg h, if_neg]
    exact fun h' => h (eq_zero_of_cnt hi h')

/-- The scalar part of a sandwich. -/
theorem swch_scalar (l : List (GA σ n T)) (hl : ∀ v ∈ l, IsVec v) (x : GA σ n T) :
    (swch l.prod x).fn 0 = normOf l * x.fn 0 := by
  have h := gr_swch l hl 0 x
  rw [gr_zero_eq, gr_zero_eq] at h
  have h2 : swch l.prod (x.fn 0 • (1 : GA σ n T)) = (normOf l * x.fn 0) • (1 : GA σ n T) := by
    unfold swch
    rw [mul_smul_comm, mul_one, smul_mul_assoc, versor_mul_rev l hl, smul_smul, mul_comm]
  rw [h2] at h
  have := congrArg (fun z => z.fn 0) h
  simpa only [fn_zero_smul_one] using this

theorem wdg_add_right (x y z : GA σ n T) : wdg x (y + z) = wdg x y + wdg x z := by
  induction x using ind with | h f => ?_
  induction y using ind with | h g => ?_
  induction z using ind with | h h => ?_
  rw [← of_add, ← of_wdg, ← of_wdg, ← of_wdg, ← of_add]
  exact of_congr fun i _ => geo_add_right _ _ _ _ _ i

theorem wdg_zero_left (x : GA σ n T) : wdg 0 x = 0 := by
  have := wdg_smul_left 0 0 x
  simpa using this

theorem wdg_sum_right {ι : Type} (s : Finset ι) (x : GA σ n T) (f : ι → GA σ n T) : wdg x (∑ i ∈ s, f i) = ∑ i ∈ s, wdg x (f i) := by
  classical
  induction s using Finset.induction_on with
  | empty => simp [wdg_zero_right]
  | insert a s ha ih => rw [sum_insert ha, sum_insert ha, wdg_add_right, ih]

theorem wdg_sum_left {ι : Type} (s : Finset ι) (x : GA σ n T) (f : ι → GA σ n T) : wdg (∑ i ∈ s, f i) x = ∑ i ∈ s, wdg (f i) x := by
  classical
  induction s using Finset.induction_on with
  | empty => simp [wdg_zero_left]
  | insert a s ha ih => rw [sum_insert ha, sum_insert ha, wdg_add_left, ih]

/-- The wedge is the top part of the product. -/
theorem gr_mul {p q : Nat} {x y : GA σ n T} (hx : IsHom p x) (hy : IsHom q y) : gr (p + q) (x * y) = wdg x y := by
  refine vext_fn fun k hk => ?_
  unfold gr wdg
  rw [fn_of _ hk, fn_of _ hk]
  by_cases h : cnt n k = p + q
  · rw [if_pos h, vmul_fn _ _ hk]; exact geo_top hx hy hk h
  · rw [if_neg h, geo_hom hx hy k hk h]

theorem gr_smul (k : Nat) (c : T) (x : GA σ n T) : gr k (c • x) = c • gr k x := by
  refine vext_fn fun i hi => ?_
  rw [vfn_smul]
  unfold gr
  rw [fn_of _ hi, fn_of _ hi, vfn_smul]
  split <;> simp

theorem swch_wdg_hom (l : List (GA σ n T)) (hl : ∀ v ∈ l, IsVec v) {p q : Nat} {x y : GA σ n T} (hx : IsHom p x) (hy : IsHom q y) :
    wdg (swch l.prod x) (swch l.prod y) = normOf l • swch l.prod (wdg x y) := by
  rw [← gr_mul (swch_hom l hl hx) (swch_hom l hl hy), ← gr_mul hx hy, swch_mul l hl, gr_smul, gr_swch l hl]

/-- Sandwiches and wedges. -/
theorem swch_wdg (l : List (GA σ n T)) (hl : ∀ v ∈ l, IsVec v) (x y : GA σ n T) :
    wdg (swch l.prod x) (swch l.prod y) = normOf l • swch l.prod (wdg x y) := by
  conv_lhs => rw [← sum_gr x, ← sum_gr y, swch_sum, swch_sum, wdg_sum_left]
  conv_rhs => rw [← sum_gr x, ← sum_gr y, wdg_sum_left, swch_sum, smul_sum]
  refine sum_congr rfl fun j _ => ?_
  rw [wdg_sum_right, wdg_sum_right, swch_sum, smul_sum]
  exact sum_congr rfl fun k _ => swch_wdg_hom l hl (gr_hom j x) (gr_hom k y)

end GA

end TClifford
