import Verif.Props.Grades
import Mathlib.Algebra.Order.BigOperators.Ring.Finset
import Mathlib.Algebra.Order.Ring.Basic
/-
Exterior products of vectors inside the geometric product: `2 (v ∧ B) = v B + B' v` (`B'` the grade involution of `B`),
orthogonalisation, and the dual as multiplication by the pseudoscalar.
-/

set_option linter.unusedSectionVars false

namespace TClifford

open Finset

/-! ### Signs -/

/-- With all squares one, the sign of a blade times itself is the sign of its reversal. -/
theorem bsgn_self_plus (n c : Nat) : bsgn (fun _ => 1) n c c = rsg n c := by
  induction n with
  | zero => rfl
  | succ n ih => rw [bsgn_succ, rsg_succ, ih]; simp

theorem dual_sign {n k : Nat} (hk : k < 2 ^ n) : bsgn (fun _ => 0) n k (k ^^^ (2 ^ n - 1)) =
    bsgn (fun _ => 1) n (2 ^ n - 1) ((2 ^ n - 1) ^^^ k) * rsg n ((2 ^ n - 1) ^^^ k) := by
  have hd : ∀ j < n, (k.testBit j && (k ^^^ (2 ^ n - 1)).testBit j) = false := by
    rw [← and_eq_zero_iff_testBit hk, Nat.and_comm]; exact MV.disjoint_compl hk
  rw [bsgn_disjoint (fun _ => 0) (fun _ => 1) hd, Nat.xor_comm (2 ^ n - 1) k]
  have h := bsgn_cocycle (fun _ => 1) n k (k ^^^ (2 ^ n - 1)) (k ^^^ (2 ^ n - 1))
  rw [xor_xor_cancel, Nat.xor_self, bsgn_zero_right, one_mul, bsgn_self_plus] at h
  rw [← h, mul_comm (bsgn _ n k _), ← mul_assoc, bsgn_plus_sq, one_mul]

theorem undual_sign {n k : Nat} (hk : k < 2 ^ n) : bsgn (fun _ => 0) n (k ^^^ (2 ^ n - 1)) k =
    bsgn (fun _ => 1) n ((2 ^ n - 1) ^^^ k) (2 ^ n - 1) * rsg n ((2 ^ n - 1) ^^^ k) := by
  have hd : ∀ j < n, ((k ^^^ (2 ^ n - 1)).testBit j && k.testBit j) = false := by
    rw [← and_eq_zero_iff_testBit (xor_mask_lt hk)]; exact MV.disjoint_compl hk
  rw [bsgn_disjoint (fun _ => 0) (fun _ => 1) hd, Nat.xor_comm (2 ^ n - 1) k]
  have h := bsgn_cocycle (fun _ => 1) n (k ^^^ (2 ^ n - 1)) (k ^^^ (2 ^ n - 1)) k
  have e : k ^^^ (2 ^ n - 1) ^^^ k = 2 ^ n - 1 := by rw [Nat.xor_comm k]; simp
  rw [Nat.xor_self, bsgn_zero_left, mul_one, bsgn_self_plus, e] at h
  rw [h, ← mul_assoc, bsgn_plus_sq, one_mul]

/-- Moving a generator past a blade. -/
theorem bsgn_vec_disjoint (σ : Nat → ℤ) {n a b : Nat} (ha : cnt n a = 1)
    (hd : ∀ i < n, (a.testBit i && b.testBit i) = false) : sg (par n b) * bsgn σ n b a = bsgn σ n a b := by
  have h := bsgn_rev σ n a b
  have hc := cnt_disjoint hd
  rw [rsg_eq n (a ^^^ b), rsg_eq n a, rsg_eq n b, hc, ha] at h
  rw [par_eq]
  have h4 : cnt n b % 4 < 4 := Nat.mod_lt _ (by norm_num)
  have e1 : (1 + cnt n b) % 4 = (1 + cnt n b % 4) % 4 := by omega
  have e2 : cnt n b % 2 = cnt n b % 4 % 2 := by omega
  rw [e1] at h
  rw [e2]
  generalize cnt n b % 4 = m at h h4 ⊢
  interval_cases m <;> simp [sg] at h ⊢ <;> omega

theorem bsgn_vec_mem (σ : Nat → ℤ) {n a b : Nat} (ha : cnt n a = 1)
    (hd : ¬ ∀ i < n, (a.testBit i && b.testBit i) = false) : sg (par n b) * bsgn σ n b a = -bsgn σ n a b := by
  have h := bsgn_rev σ n a b
  have hc := cnt_xor n a b
  have hle := cnt_and_le n a b
  have h0 : cnt n (a &&& b) ≠ 0 := fun h0 => hd fun i hi => by
    have := cnt_eq_zero h0 i hi
    rwa [Nat.testBit_and] at this
  have hc' : cnt n b = cnt n (a ^^^ b) + 1 := by omega
  rw [rsg_eq n (a ^^^ b), rsg_eq n a, rsg_eq n b, hc', ha] at h
  rw [par_eq, hc']
  have h4 : cnt n (a ^^^ b) % 4 < 4 := Nat.mod_lt _ (by norm_num)
  have e1 : (cnt n (a ^^^ b) + 1) % 4 = (cnt n (a ^^^ b) % 4 + 1) % 4 := by omega
  have e2 : (cnt n (a ^^^ b) + 1) % 2 = (cnt n (a ^^^ b) % 4 + 1) % 2 := by omega
  rw [e1] at h
  rw [e2]
  generalize cnt n (a ^^^ b) % 4 = m at h h4 ⊢
  interval_cases m <;> simp [sg] at h ⊢ <;> omega

section
variable {T : Type} [CommRing T]

/-- `2 (v ∧ B) = v B + B' v`. -/
theorem geo_vec_wedge (σ : Nat → ℤ) {n : Nat} {f g : Nat → T} (hf : HomF n 1 f) {k : Nat} (hk : k < 2 ^ n) :
    2 * geo (fun _ => 0) n f g k = geo σ n f g k + geo σ n (flp n g) f k := by
  unfold geo
  rw [← sum_xor hk (fun i => bsgn σ n i (i ^^^ k) • (flp n g i * f (i ^^^ k))), mul_sum, ← sum_add_distrib]
  refine sum_congr rfl fun i hi => ?_
  rw [mem_range] at hi
  have e : i ^^^ k ^^^ k = i := by simp
  rw [e]
  by_cases h1 : cnt n i = 1
  · have hflp : bsgn σ n (i ^^^ k) i • (flp n g (i ^^^ k) * f i) =
        (sg (par n (i ^^^ k)) * bsgn σ n (i ^^^ k) i) • (f i * g (i ^^^ k)) := by
      unfold flp
      rw [smul_mul_assoc, smul_smul, mul_comm (g _), mul_comm (bsgn _ _ _ _)]
    rw [hflp]
    by_cases hd : ∀ j < n, (i.testBit j && (i ^^^ k).testBit j) = false
    · rw [bsgn_vec_disjoint σ h1 hd, bsgn_disjoint (fun _ => 0) σ hd, two_mul]
    · rw [bsgn_vec_mem σ h1 hd, bsgn_null hd, neg_smul, zero_smul, mul_zero, add_neg_cancel]
  · rw [hf i hi h1]; simp

end

namespace GA
variable {σ : Nat → ℤ} {n : Nat} {T : Type} [CommRing T]

/-- The exterior product. -/
def wdg (x y : GA σ n T) : GA σ n T := of (geo (fun _ => 0) n x.fn y.fn)

/-- The grade involution. -/
def flip (x : GA σ n T) : GA σ n T := of (flp n x.fn)

/-- The unit pseudoscalar. -/
def psc : GA σ n T := bl (2 ^ n - 1)

theorem of_wdg (f g : Nat → T) : (of (geo (fun _ => 0) n f g) : GA σ n T) = wdg (of f) (of g) :=
  of_congr fun _ hi => geo_congr (fun _ _ => rfl) (fun _ hi => (fn_of f hi).symm) (fun _ hi => (fn_of g hi).symm) hi

theorem flip_of (f : Nat → T) : flip (of f : GA σ n T) = of (flp n f) :=
  of_congr fun i hi => by unfold flp; rw [fn_of f hi]

theorem flip_mul (x y : GA σ n T) : flip (x * y) = flip x * flip y := by
  induction x using ind with | h f => ?_
  induction y using ind with | h g => ?_
  rw [← of_mul, flip_of, flip_of, flip_of, ← of_mul]
  exact of_congr fun i _ => geo_flp _ _ _ _ i

theorem flip_one : flip (1 : GA σ n T) = 1 := by
  rw [one_def, flip_of]
  refine of_congr fun i _ => ?_
  unfold flp single
  split
  · rename_i h
    subst h
    rw [par_eq, cnt_zero]
    simp
  · rw [smul_zero]

theorem IsVec.flip_eq {v : GA σ n T} (hv : IsVec v) : flip v = -v := by
  rw [← of_fn v, flip_of, ← of_neg]
  refine of_congr fun i hi => ?_
  unfold flp
  by_cases h : cnt n i = 1
  · rw [par_eq, h]; simp
  · rw [hv i hi h]; simp

theorem wdg_add_left (x y z : GA σ n T) : wdg (x + y) z = wdg x z + wdg y z := by
  induction x using ind with | h f => ?_
  induction y using ind with | h g => ?_
  induction z using ind with | h h => ?_
  rw [← of_add, ← of_wdg, ← of_wdg, ← of_wdg, ← of_add]
  exact of_congr fun i _ => geo_add_left _ _ _ _ _ i

theorem wdg_smul_left (c : T) (x z : GA σ n T) : wdg (c • x) z = c • wdg x z := by
  induction x using ind with | h f => ?_
  induction z using ind with | h h => ?_
  rw [← of_smul, ← of_wdg, ← of_wdg, ← of_smul]
  exact of_congr fun i _ => geo_smul_left _ _ _ _ _ i

theorem wdg_zero_right (x : GA σ n T) : wdg x 0 = 0 := by
  induction x using ind with | h f => ?_
  rw [← of_zero, ← of_wdg]
  exact of_congr fun i _ => geo_zero_right _ _ _ i

/-- `2 (v ∧ B) = v B + B' v`. -/
theorem IsVec.wdg_eq {v : GA σ n T} (hv : IsVec v) (B : GA σ n T) : (2 : T) • wdg v B = v * B + flip B * v := by
  refine vext_fn fun k hk => ?_
  rw [vfn_smul, vfn_add, vmul_fn _ _ hk, vmul_fn _ _ hk]
  unfold wdg flip
  rw [fn_of _ hk, geo_vec_wedge σ hv hk]
  congr 1
  exact geo_congr (fun _ _ => rfl) (fun i hi => (fn_of _ hi).symm) (fun _ _ => rfl) hk

/-- Products of orthogonal vectors. -/
def Orth (l : List (GA σ n T)) : Prop := l.Pairwise fun v w => dot v w = 0

theorem orth_anti {v w : GA σ n T} (hv : IsVec v) (hw : IsVec w) (h : dot v w = 0) : v * w = -(w * v) := by
  have := hv.mul_add hw
  rw [h, mul_zero, zero_smul] at this
  exact eq_neg_of_add_eq_zero_left this

/-- A vector orthogonal to all factors. -/
theorem orth_mul {v : GA σ n T} (hv : IsVec v) (l : List (GA σ n T)) (hl : ∀ w ∈ l, IsVec w) (ho : ∀ w ∈ l, dot v w = 0) :
    flip l.prod * v = v * l.prod := by
  induction l with
  | nil => simp [flip_one]
  | cons w l ih =>
    have hw := hl w (by simp)
    have ih := ih (fun u hu => hl u (by simp [hu])) (fun u hu => ho u (by simp [hu]))
    rw [List.prod_cons, flip_mul, hw.flip_eq, mul_assoc, ih, ← mul_assoc, ← mul_assoc, orth_anti hv hw (ho w (by simp)), neg_mul]

/-- A factor wedged to a product of orthogonal vectors gives zero. -/
theorem factor_mul {v : GA σ n T} (l : List (GA σ n T)) (hl : ∀ w ∈ l, IsVec w) (ho : Orth l) (hv : v ∈ l) :
    v * l.prod + flip l.prod * v = 0 := by
  induction l with
  | nil => simp at hv
  | cons w l ih =>
    have hw := hl w (by simp)
    have hl' : ∀ u ∈ l, IsVec u := fun u hu => hl u (by simp [hu])
    unfold Orth at ho
    rw [List.pairwise_cons] at ho
    rw [List.prod_cons, flip_mul, hw.flip_eq]
    rcases List.mem_cons.mp hv with rfl | hv'
    · rw [mul_assoc, orth_mul hw l hl' ho.1, neg_mul, ← mul_assoc, add_neg_cancel]
    · have h2 := ih hl' ho.2 hv'
      have hvv := hl' v hv'
      have hd : dot v w = 0 := by rw [dot_comm hvv hw]; exact ho.1 v hv'
      rw [← mul_assoc, orth_anti hvv hw hd, neg_mul, neg_mul, neg_mul, mul_assoc, mul_assoc, ← neg_add, ← _root_.mul_add, h2, mul_zero, neg_zero]

/-! ### All squares one -/

theorem dual_eq (hσ : ∀ i < n, σ i = 1) (f : Nat → T) : (of (MV.dualF n f) : GA σ n T) = psc * rev (of f) := by
  unfold psc bl
  rw [rev_of, ← of_mul]
  refine of_congr fun k hk => ?_
  have hm : (2 ^ n - 1 : Nat) < 2 ^ n := by have := Nat.two_pow_pos n; omega
  rw [geo_congr hσ (fun _ _ => rfl) (fun _ _ => rfl) hk, geo_single_left _ hm, one_mul, smul_smul, ← dual_sign hk, Nat.xor_comm _ k]
  rfl

theorem undual_eq (hσ : ∀ i < n, σ i = 1) (f : Nat → T) : (of (MV.undualF n f) : GA σ n T) = rev (of f) * psc := by
  unfold psc bl
  rw [rev_of, ← of_mul]
  refine of_congr fun k hk => ?_
  have hm : (2 ^ n - 1 : Nat) < 2 ^ n := by have := Nat.two_pow_pos n; omega
  rw [geo_congr hσ (fun _ _ => rfl) (fun _ _ => rfl) hk, geo_single_right _ hm _ _ hk, mul_one, smul_smul, ← undual_sign hk, Nat.xor_comm _ k]
  rfl

end GA

namespace GA
variable {σ : Nat → ℤ} {n : Nat} {T : Type} [Field T] [LinearOrder T] [IsStrictOrderedRing T]

/-- With all squares one, `rev x * x` has the sum of the squares of the coefficients as its scalar part. -/
theorem mag2_plus (hσ : ∀ i < n, σ i = 1) (x : GA σ n T) : (rev x * x).fn 0 = ∑ i ∈ range (2 ^ n), x.fn i ^ 2 := by
  have h0 := Nat.two_pow_pos n
  rw [vmul_fn _ _ h0, geo_congr hσ (fun _ _ => rfl) (fun _ _ => rfl) h0]
  unfold geo
  refine sum_congr rfl fun i hi => ?_
  rw [mem_range] at hi
  have hr : (rev x).fn i = rsg n i • x.fn i := fn_of (fun i => rsg n i • x.fn i) hi
  rw [Nat.xor_zero, bsgn_self_plus, hr, smul_mul_assoc, smul_smul, rsg_mul_self, one_smul, sq]

theorem mag2_eq_zero (hσ : ∀ i < n, σ i = 1) (x : GA σ n T) (h : (rev x * x).fn 0 = 0) : x = 0 := by
  rw [mag2_plus hσ, sum_eq_zero_iff_of_nonneg fun i _ => sq_nonneg _] at h
  rw [← of_fn x, ← of_zero]
  exact of_congr fun i hi => pow_eq_zero_iff (two_ne_zero) |>.mp (h i (mem_range.mpr hi))

/-- The wedge of a list of vectors. -/
def wdgs (l : List (GA σ n T)) : GA σ n T := l.foldr wdg 1

theorem project {v : GA σ n T} (hv : IsVec v) (l : List (GA σ n T)) (hl : ∀ w ∈ l, IsVec w) (ho : Orth l) (h0 : ∀ w ∈ l, dot w w ≠ 0)
    (B : GA σ n T) (hB : ∀ w ∈ l, wdg w B = 0) :
    ∃ v', IsVec v' ∧ (∀ w ∈ l, dot v' w = 0) ∧ wdg v' B = wdg v B := by
  induction l with
  | nil => exact ⟨v, hv, by simp, rfl⟩
  | cons w l ih =>
    unfold Orth at ho
    rw [List.pairwise_cons] at ho
    obtain ⟨v', g1, g2, g3⟩ := ih (fun u hu => hl u (by simp [hu])) ho.2 (fun u hu => h0 u (by simp [hu])) (fun u hu => hB u (by simp [hu]))
    have hw := hl w (by simp)
    have hdot : ∀ (c : T) (u : GA σ n T), dot (v' + c • w) u = dot v' u + c * dot w u := by
      intro c u
      unfold dot
      rw [_root_.add_mul, smul_mul_assoc, vfn_add, vfn_smul]
    refine ⟨v' + (-(dot v' w / dot w w)) • w, g1.add (hw.smul _), ?_, ?_⟩
    · intro u hu
      rw [hdot]
      rcases List.mem_cons.mp hu with rfl | hu'
      · have := h0 u (by simp)
        rw [neg_mul, div_mul_cancel₀ _ this, add_neg_cancel]
      · rw [g2 u hu', ho.1 u hu', mul_zero, add_zero]
    · rw [wdg_add_left, wdg_smul_left, hB w (by simp), smul_zero, add_zero, g3]

theorem two_smul_inj {x y : GA σ n T} (h : (2 : T) • x = (2 : T) • y) : x = y := by
  have h2 := congrArg (fun z => (2 : T)⁻¹ • z) h
  simp only [smul_smul, inv_mul_cancel₀ (two_ne_zero (α := T)), one_smul] at h2
  exact h2

/-- Orthogonalisation: a wedge of vectors is a product of orthogonal vectors. -/
theorem wdgs_versor (hσ : ∀ i < n, σ i = 1) (l : List (GA σ n T)) (hl : ∀ v ∈ l, IsVec v) :
    ∃ ws : List (GA σ n T), (∀ w ∈ ws, IsVec w) ∧ Orth ws ∧ wdgs l = ws.prod := by
  induction l with
  | nil => exact ⟨[], by simp, List.Pairwise.nil, rfl⟩
  | cons v l ih =>
    obtain ⟨ws, h1, h2, h3⟩ := ih fun u hu => hl u (by simp [hu])
    have hv := hl v (by simp)
    show ∃ ws', _ ∧ _ ∧ wdg v (wdgs l) = _
    rw [h3]
    by_cases hz : ∃ w ∈ ws, dot w w = 0
    · obtain ⟨w, hw, hw0⟩ := hz
      have hw' : w = 0 := mag2_eq_zero hσ w (by rw [(h1 w hw).rev_eq]; exact hw0)
      have hp : ws.prod = 0 := List.prod_eq_zero (hw' ▸ hw)
      exact ⟨ws, h1, h2, by rw [hp, wdg_zero_right]⟩
    · have hz' : ∀ w ∈ ws, dot w w ≠ 0 := fun w hw h => hz ⟨w, hw, h⟩
      have hB : ∀ w ∈ ws, wdg w ws.prod = 0 := fun w hw => by
        have := (h1 w hw).wdg_eq ws.prod
        rw [factor_mul ws h1 h2 hw] at this
        exact two_smul_inj (this.trans (smul_zero _).symm)
      obtain ⟨v', g1, g2, g3⟩ := project hv ws h1 h2 hz' ws.prod hB
      refine ⟨v' :: ws, ?_, ?_, ?_⟩
      · intro u hu
        rcases List.mem_cons.mp hu with rfl | hu'
        exacts [g1, h1 u hu']
      · exact List.pairwise_cons.mpr ⟨g2, h2⟩
      · rw [← g3, List.prod_cons]
        have := g1.wdg_eq ws.prod
        rw [orth_mul g1 ws h1 g2, ← two_smul T] at this
        exact two_smul_inj this

end GA

end TClifford
