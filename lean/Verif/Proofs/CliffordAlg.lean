import Verif.Proofs.Words
import Verif.Spec.CliffordAlg
import Verif.Math.Geo
import Mathlib.LinearAlgebra.CliffordAlgebra.Fold
import Mathlib.LinearAlgebra.QuadraticForm.Basic
/-
Coefficient functions with the product `geo` are the Clifford algebra of the diagonal quadratic form.
-/

set_option linter.unusedSectionVars false

namespace TClifford

open Finset Spec

variable {T : Type} [CommRing T]

/-- Coefficient functions vanishing outside `[0, 2^n)`. -/
def coeffSub (T : Type) [CommRing T] (n : Nat) : Submodule T (Nat → T) where
  carrier := {f | ∀ i, 2 ^ n ≤ i → f i = 0}
  add_mem' hf hg i hi := by simp [hf i hi, hg i hi]
  zero_mem' _ _ := rfl
  smul_mem' c f hf i hi := by simp [hf i hi]

/-- The algebra of coefficient functions with the product `geo`. -/
def CoeffAlg (T : Type) [CommRing T] (_σ : Nat → ℤ) (n : Nat) : Type := coeffSub T n

namespace CoeffAlg
variable {σ : Nat → ℤ} {n : Nat}

instance : AddCommGroup (CoeffAlg T σ n) := inferInstanceAs (AddCommGroup (coeffSub T n))
instance : Module T (CoeffAlg T σ n) := inferInstanceAs (Module T (coeffSub T n))

/-- Coefficients. -/
def co (f : CoeffAlg T σ n) : Nat → T := f.1

/-- Truncation of a function. -/
def mk (f : Nat → T) : CoeffAlg T σ n := ⟨fun i => if i < 2 ^ n then f i else 0, fun i hi => if_neg (by omega)⟩

theorem co_mk (f : Nat → T) {i : Nat} (hi : i < 2 ^ n) : co (mk f : CoeffAlg T σ n) i = f i := if_pos hi

theorem ext {f g : CoeffAlg T σ n} (h : ∀ i < 2 ^ n, co f i = co g i) : f = g := by
  apply Subtype.ext
  funext i
  by_cases hi : i < 2 ^ n
  · exact h i hi
  · rw [f.2 i (by omega), g.2 i (by omega)]

theorem mk_co (f : CoeffAlg T σ n) : mk (co f) = f := ext fun _ hi => co_mk _ hi

theorem mk_congr {f g : Nat → T} (h : ∀ i < 2 ^ n, f i = g i) : (mk f : CoeffAlg T σ n) = mk g :=
  ext fun i hi => by rw [co_mk _ hi, co_mk _ hi, h i hi]

instance : Mul (CoeffAlg T σ n) := ⟨fun f g => mk (geo σ n (co f) (co g))⟩
instance : One (CoeffAlg T σ n) := ⟨mk (single 0 1)⟩

theorem mul_def (f g : CoeffAlg T σ n) : f * g = mk (geo σ n (co f) (co g)) := rfl
theorem one_def : (1 : CoeffAlg T σ n) = mk (single 0 1) := rfl
theorem co_add (f g : CoeffAlg T σ n) (i : Nat) : co (f + g) i = co f i + co g i := rfl
theorem co_zero (i : Nat) : co (0 : CoeffAlg T σ n) i = 0 := rfl
theorem co_smul (c : T) (f : CoeffAlg T σ n) (i : Nat) : co (c • f) i = c * co f i := rfl

theorem co_mul (f g : CoeffAlg T σ n) {i : Nat} (hi : i < 2 ^ n) : co (f * g) i = geo σ n (co f) (co g) i := co_mk _ hi

theorem mk_mul (f g : Nat → T) : (mk f * mk g : CoeffAlg T σ n) = mk (geo σ n f g) :=
  mk_congr fun _ hi => geo_congr (fun _ _ => rfl) (fun _ h => co_mk _ h) (fun _ h => co_mk _ h) hi

instance : Ring (CoeffAlg T σ n) where
  left_distrib f g h := ext fun i hi => by
    rw [co_mul _ _ hi, co_add, co_mul _ _ hi, co_mul _ _ hi]; exact geo_add_right σ n _ _ _ i
  right_distrib f g h := ext fun i hi => by
    rw [co_mul _ _ hi, co_add, co_mul _ _ hi, co_mul _ _ hi]; exact geo_add_left σ n _ _ _ i
  zero_mul f := ext fun i hi => by rw [co_mul _ _ hi, co_zero]; exact geo_zero_left σ n _ i
  mul_zero f := ext fun i hi => by rw [co_mul _ _ hi, co_zero]; exact geo_zero_right σ n _ i
  mul_assoc f g h := ext fun i hi => by
    rw [co_mul _ _ hi, co_mul _ _ hi,
      geo_congr (fun _ _ => rfl) (fun j hj => co_mul f g hj) (fun _ _ => rfl) hi, geo_assoc]
    exact (geo_congr (fun _ _ => rfl) (fun _ _ => rfl) (fun j hj => co_mul g h hj) hi).symm
  one_mul f := ext fun i hi => by
    rw [co_mul _ _ hi]
    exact (geo_congr (fun _ _ => rfl) (fun j hj => co_mk (σ := σ) (single 0 1) hj) (fun _ _ => rfl) hi).trans (geo_one_left σ n _ i)
  mul_one f := ext fun i hi => by
    rw [co_mul _ _ hi]
    exact (geo_congr (fun _ _ => rfl) (fun _ _ => rfl) (fun j hj => co_mk (σ := σ) (single 0 1) hj) hi).trans (geo_one_right σ n _ hi)
  neg_add_cancel f := neg_add_cancel f
  zsmul := fun k f => k • f
  zsmul_zero' f := SubNegMonoid.zsmul_zero' f
  zsmul_succ' k f := SubNegMonoid.zsmul_succ' k f
  zsmul_neg' k f := SubNegMonoid.zsmul_neg' k f
  nsmul := fun k f => k • f
  nsmul_zero f := AddMonoid.nsmul_zero f
  nsmul_succ k f := AddMonoid.nsmul_succ k f
  sub_eq_add_neg f g := sub_eq_add_neg f g

instance : Algebra T (CoeffAlg T σ n) := Algebra.ofModule
  (fun c f g => ext fun i hi => by
    rw [co_mul _ _ hi, co_smul, co_mul _ _ hi]
    exact geo_smul_left σ n c _ _ i)
  (fun c f g => ext fun i hi => by
    rw [co_mul _ _ hi, co_smul, co_mul _ _ hi, mul_comm, ← geo_smul_right]
    refine geo_congr (fun _ _ => rfl) (fun _ _ => rfl) (fun j _ => ?_) hi
    rw [co_smul, mul_comm])

/-- The generator `i`. -/
def e (i : Nat) : CoeffAlg T σ n := mk (single (2 ^ i) 1)

theorem e_mul (i j : Nat) (hi : i < n) :
    (e i * e j : CoeffAlg T σ n) = mk (single (2 ^ i ^^^ 2 ^ j) ((bsgn σ n (2 ^ i) (2 ^ j) : ℤ) : T)) := by
  unfold e
  rw [mk_mul]
  refine mk_congr fun k hk => ?_
  rw [geo_single_single _ (Nat.pow_lt_pow_right (by norm_num) hi)]
  simp

theorem algebraMap_eq (c : T) : algebraMap T (CoeffAlg T σ n) c = mk (single 0 c) := by
  rw [Algebra.algebraMap_eq_smul_one]
  refine ext fun i hi => ?_
  rw [co_smul, one_def, co_mk _ hi, co_mk _ hi]
  unfold single
  split <;> simp

theorem e_sq {i : Nat} (hi : i < n) : (e i * e i : CoeffAlg T σ n) = algebraMap T _ ((σ i : ℤ) : T) := by
  rw [e_mul i i hi, Nat.xor_self, bsgn_two_pow_eq _ hi, algebraMap_eq]

theorem e_anti {i j : Nat} (hi : i < n) (hj : j < n) (h : i ≠ j) : (e i * e j + e j * e i : CoeffAlg T σ n) = 0 := by
  rw [e_mul i j hi, e_mul j i hj, bsgn_two_pow_ne _ hi hj h, bsgn_two_pow_ne _ hj hi h.symm, Nat.xor_comm (2 ^ j)]
  refine ext fun k hk => ?_
  rw [co_add, co_mk _ hk, co_mk _ hk, co_zero]
  unfold single
  split
  · rcases Nat.lt_or_gt_of_ne h with h | h
    · rw [if_pos h, if_neg (by omega)]; simp
    · rw [if_neg (by omega), if_pos h]; simp
  · simp

end CoeffAlg

/-- The square of a sum of anticommuting elements. -/
theorem sum_sq_anti {R ι : Type} [Ring R] [DecidableEq ι] (s : Finset ι) (x : ι → R)
    (h : ∀ i ∈ s, ∀ j ∈ s, i ≠ j → x i * x j + x j * x i = 0) :
    (∑ i ∈ s, x i) * (∑ i ∈ s, x i) = ∑ i ∈ s, x i * x i := by
  induction s using Finset.induction_on with
  | empty => simp
  | insert a s ha ih =>
    rw [sum_insert ha, sum_insert ha, ← ih (fun i hi j hj => h i (by simp [hi]) j (by simp [hj]))]
    have hc : x a * (∑ i ∈ s, x i) + (∑ i ∈ s, x i) * x a = 0 := by
      rw [mul_sum, sum_mul, ← sum_add_distrib]
      refine sum_eq_zero fun i hi => ?_
      exact h a (by simp) i (by simp [hi]) (fun he => ha (he ▸ hi))
    rw [add_mul, mul_add, mul_add]
    calc _ = x a * x a + (x a * (∑ i ∈ s, x i) + (∑ i ∈ s, x i) * x a) + (∑ i ∈ s, x i) * (∑ i ∈ s, x i) := by abel
      _ = _ := by rw [hc, add_zero]

section iso
variable {n : Nat} {σ : Nat → ℤ} (Q : QuadraticForm T (Fin n → T))
  (hQ : ∀ v, Q v = ∑ i : Fin n, ((σ i : ℤ) : T) * (v i * v i))

/-- Vectors as coefficient functions. -/
def vecCA (T : Type) [CommRing T] (σ : Nat → ℤ) (n : Nat) : (Fin n → T) →ₗ[T] CoeffAlg T σ n where
  toFun v := ∑ i : Fin n, v i • CoeffAlg.e i
  map_add' v w := by simp only [Pi.add_apply, add_smul, sum_add_distrib]
  map_smul' c v := by
    simp only [Pi.smul_apply, smul_eq_mul, smul_sum, mul_smul, RingHom.id_apply]

include hQ in
theorem vecCA_sq (v : Fin n → T) : vecCA T σ n v * vecCA T σ n v = algebraMap T _ (Q v) := by
  show (∑ i : Fin n, v i • CoeffAlg.e i) * (∑ i : Fin n, v i • CoeffAlg.e i) = _
  rw [sum_sq_anti]
  · rw [hQ, map_sum]
    refine sum_congr rfl fun i _ => ?_
    rw [smul_mul_smul_comm, CoeffAlg.e_sq i.2, map_mul, ← Algebra.commutes, ← Algebra.smul_def]
  · intro i _ j _ hij
    rw [smul_mul_smul_comm, smul_mul_smul_comm, mul_comm (v j), ← smul_add,
      CoeffAlg.e_anti i.2 j.2 (fun h => hij (Fin.ext h)), smul_zero]

/-- The homomorphism to coefficient functions. -/
def clTo : CliffordAlgebra Q →ₐ[T] CoeffAlg T σ n := CliffordAlgebra.lift Q ⟨vecCA T σ n, vecCA_sq Q hQ⟩

theorem clTo_gen {i : Nat} (hi : i < n) : clTo Q hQ (gen Q i) = CoeffAlg.e i := by
  unfold clTo gen
  rw [dif_pos hi, CliffordAlgebra.lift_ι_apply]
  show ∑ j : Fin n, (Pi.single (⟨i, hi⟩ : Fin n) 1 : Fin n → T) j • CoeffAlg.e (T := T) (σ := σ) (n := n) j = _
  rw [sum_eq_single ⟨i, hi⟩]
  · rw [Pi.single_eq_same, one_smul]
  · intro j _ hj
    rw [Pi.single_eq_of_ne hj, zero_smul]
  · intro h; exact absurd (mem_univ _) h

theorem word_succ (k a : Nat) : word (k + 1) a = (if a.testBit k then [k] else []) ++ word k a := by
  unfold word
  rw [List.range_succ, List.filter_append, List.reverse_append]
  by_cases h : a.testBit k <;> simp [h]

theorem word_two_pow' (k i : Nat) : word k (2 ^ i) = if i < k then [i] else [] := by
  induction k with
  | zero => rfl
  | succ k ih =>
    rw [word_succ, ih, Nat.testBit_two_pow]
    rcases Nat.lt_trichotomy i k with h | h | h
    · simp [h, show ¬ i = k by omega, show i < k + 1 by omega]
    · subst h; simp
    · simp [show ¬ i = k by omega, show ¬ i < k by omega, show ¬ i < k + 1 by omega]

theorem word_two_pow {k i : Nat} (h : i < k) : word k (2 ^ i) = [i] := by rw [word_two_pow', if_pos h]

theorem clTo_blade {a : Nat} (ha : a < 2 ^ n) : clTo Q hQ (bladeC Q a) = CoeffAlg.mk (single a 1) := by
  unfold bladeC
  have key : ∀ k ≤ n, clTo Q hQ (((word k a).map (gen Q)).prod) = CoeffAlg.mk (single (a % 2 ^ k) 1) := by
    intro k
    induction k with
    | zero =>
      intro _
      rw [pow_zero, Nat.mod_one]
      show clTo Q hQ 1 = _
      rw [map_one, CoeffAlg.one_def]
    | succ k ih =>
      intro hk
      rw [word_succ]
      have hm : a % 2 ^ (k + 1) = (if a.testBit k then 2 ^ k else 0) ^^^ a % 2 ^ k := by
        apply Nat.eq_of_testBit_eq
        intro j
        rw [Nat.testBit_mod_two_pow, Nat.testBit_xor, Nat.testBit_mod_two_pow]
        rcases lt_trichotomy j k with h | h | h
        · have h1 : (if a.testBit k then 2 ^ k else 0).testBit j = false := by
            split
            · rw [Nat.testBit_two_pow]; simp; omega
            · exact Nat.zero_testBit _
          rw [h1]; simp [h, show j < k + 1 by omega]
        · subst h
          cases hb : a.testBit j <;> simp
        · have h1 : (if a.testBit k then 2 ^ k else 0).testBit j = false := by
            split
            · rw [Nat.testBit_two_pow]; simp; omega
            · exact Nat.zero_testBit _
          rw [h1]; simp [show ¬ j < k by omega, show ¬ j < k + 1 by omega]
      rw [hm]
      by_cases hb : a.testBit k = true
      · rw [if_pos hb, if_pos hb, List.map_append, List.prod_append, map_mul, ih (by omega)]
        rw [List.map_singleton, List.prod_singleton, clTo_gen Q hQ (by omega)]
        unfold CoeffAlg.e
        rw [CoeffAlg.mk_mul]
        refine CoeffAlg.mk_congr fun i _ => ?_
        rw [geo_single_single _ (Nat.pow_lt_pow_right (by norm_num) (by omega))]
        have : bsgn σ n (2 ^ k) (a % 2 ^ k) = 1 := by
          have aux : ∀ m, bsgn σ m (2 ^ k) (a % 2 ^ k) = 1 := by
            intro m
            induction m with
            | zero => rfl
            | succ m ihm =>
              rw [bsgn_succ, ihm, Nat.testBit_two_pow, Nat.testBit_mod_two_pow]
              by_cases hmk : m < k
              · have hp : par m (2 ^ k) = false := by
                  rw [par_congr (b := 0), par_zero]
                  intro i hi
                  rw [Nat.testBit_two_pow, Nat.zero_testBit]
                  simp; omega
                rw [hp]
                simp [show ¬ k = m by omega]
              · simp [hmk]
          exact aux n
        rw [this]; simp
      · rw [if_neg hb, if_neg hb, List.nil_append, ih (by omega), Nat.zero_xor]
  rw [key n le_rfl, Nat.mod_eq_of_lt ha]

theorem clTo_toCl (f : Nat → T) : clTo Q hQ (toCl Q f) = CoeffAlg.mk f := by
  unfold toCl
  rw [map_sum]
  refine CoeffAlg.ext fun i hi => ?_
  have hco : ∀ (s : Finset Nat) (g : Nat → CoeffAlg T σ n) (i : Nat), CoeffAlg.co (∑ j ∈ s, g j) i = ∑ j ∈ s, CoeffAlg.co (g j) i := by
    intro s g i
    induction s using Finset.induction_on with
    | empty => rfl
    | insert a s ha ih => rw [sum_insert ha, sum_insert ha, CoeffAlg.co_add, ih]
  rw [hco, CoeffAlg.co_mk _ hi]
  rw [sum_congr rfl (fun j hj => by
    rw [map_smul, CoeffAlg.co_smul, clTo_blade Q hQ (mem_range.mp hj), CoeffAlg.co_mk _ hi])]
  unfold single
  simp [hi]

include hQ in
theorem toCl_injective {f g : Nat → T} (h : toCl Q f = toCl Q g) : ∀ i < 2 ^ n, f i = g i := by
  intro i hi
  have := congrArg (clTo Q hQ) h
  rw [clTo_toCl, clTo_toCl] at this
  have := congrArg (fun x => CoeffAlg.co x i) this
  simpa [CoeffAlg.co_mk _ hi] using this

theorem gen_mul_gen {i j : Nat} (hi : i < n) (hj : j < n) (hij : i ≠ j) (hQ : ∀ v, Q v = ∑ i : Fin n, ((σ i : ℤ) : T) * (v i * v i)) :
    gen Q i * gen Q j = -(gen Q j * gen Q i) := by
  unfold gen
  rw [dif_pos hi, dif_pos hj]
  rw [eq_neg_iff_add_eq_zero, CliffordAlgebra.ι_mul_ι_add_swap]
  have : QuadraticMap.polar Q (Pi.single ⟨i, hi⟩ 1) (Pi.single ⟨j, hj⟩ 1) = 0 := by
    unfold QuadraticMap.polar
    rw [hQ, hQ, hQ, ← sum_sub_distrib, ← sum_sub_distrib]
    refine sum_eq_zero fun k _ => ?_
    rw [Pi.add_apply]
    have hne : (⟨i, hi⟩ : Fin n) ≠ ⟨j, hj⟩ := fun h => hij (by simpa using h)
    by_cases h1 : k = ⟨i, hi⟩
    · subst h1
      rw [Pi.single_eq_of_ne hne]; ring
    · rw [Pi.single_eq_of_ne h1]; ring
  rw [this, map_zero]

include hQ in
/-- Multiplication by a generator permutes the blades up to a factor. -/
theorem gen_mul_blade {i : Nat} (hi : i < n) (a : Nat) : ∃ c : T, gen Q i * bladeC Q a = c • bladeC Q (a ^^^ 2 ^ i) := by
  have key : ∀ k ≤ n, i < k → ∃ c : T, gen Q i * ((word k a).map (gen Q)).prod = c • ((word k (a ^^^ 2 ^ i)).map (gen Q)).prod := by
    intro k
    induction k with
    | zero => intro _ h; omega
    | succ k ih =>
      intro hk hik
      rw [word_succ, word_succ]
      by_cases hki : k = i
      · subst hki
        have hw : word k (a ^^^ 2 ^ k) = word k a := by
          unfold word
          congr 1
          apply List.filter_congr
          intro x hx
          rw [List.mem_range] at hx
          rw [Nat.testBit_xor, Nat.testBit_two_pow]
          simp [show ¬ k = x by omega]
        have hb : (a ^^^ 2 ^ k).testBit k = !(a.testBit k) := by
          rw [Nat.testBit_xor, Nat.testBit_two_pow_self]; simp
        rw [hw, hb]
        by_cases h : a.testBit k = true
        · refine ⟨Q (Pi.single ⟨k, hi⟩ 1), ?_⟩
          simp only [h, if_true, Bool.not_true, Bool.false_eq_true, if_false, List.nil_append, List.map_append,
            List.map_singleton, List.prod_append, List.prod_singleton]
          rw [← mul_assoc, Algebra.smul_def]
          congr 1
          unfold gen
          rw [dif_pos hi, CliffordAlgebra.ι_sq_scalar]
        · refine ⟨1, ?_⟩
          have h : a.testBit k = false := by simpa using h
          simp only [h, Bool.not_false, if_true, Bool.false_eq_true, if_false, List.nil_append, List.map_append,
            List.map_singleton, List.prod_append, List.prod_singleton, one_smul]
      · obtain ⟨c, hc⟩ := ih (by omega) (by omega)
        have hb : (a ^^^ 2 ^ i).testBit k = a.testBit k := by
          rw [Nat.testBit_xor, Nat.testBit_two_pow]; simp [show ¬ i = k by omega]
        rw [hb]
        by_cases h : a.testBit k = true
        · refine ⟨-c, ?_⟩
          simp only [h, if_true, List.map_append, List.map_singleton, List.prod_append, List.prod_singleton]
          rw [← mul_assoc, gen_mul_gen Q hi (by omega) (fun h => hki h.symm) hQ, neg_mul, mul_assoc, hc, mul_smul_comm, neg_smul]
        · refine ⟨c, ?_⟩
          have h : a.testBit k = false := by simpa using h
          simp only [h, Bool.false_eq_true, if_false, List.nil_append]
          exact hc
  exact key n le_rfl hi

theorem toCl_add (f g : Nat → T) : toCl Q f + toCl Q g = toCl Q (fun i => f i + g i) := by
  unfold toCl
  rw [← sum_add_distrib]
  exact sum_congr rfl fun i _ => (add_smul _ _ _).symm

theorem toCl_smul (c : T) (f : Nat → T) : c • toCl Q f = toCl Q (fun i => c * f i) := by
  unfold toCl
  rw [smul_sum]
  exact sum_congr rfl fun i _ => (mul_smul _ _ _).symm

theorem bladeC_mem {a : Nat} (ha : a < 2 ^ n) : bladeC Q a = toCl Q (single a 1) := by
  unfold toCl
  rw [sum_eq_single a]
  · simp [single]
  · intro j _ hj; simp [single, hj]
  · intro h; exact absurd (mem_range.mpr ha) h

include hQ in
theorem toCl_surjective (x : CliffordAlgebra Q) : ∃ f, toCl Q f = x := by
  have hzero : ∃ f, toCl Q f = 0 := ⟨fun _ => 0, by unfold toCl; simp⟩
  have hadd : ∀ x y, (∃ f, toCl Q f = x) → (∃ f, toCl Q f = y) → ∃ f, toCl Q f = x + y := by
    rintro _ _ ⟨f, rfl⟩ ⟨g, rfl⟩
    exact ⟨_, (toCl_add Q f g).symm⟩
  have hsum : ∀ {ι : Type} (s : Finset ι) (g : ι → CliffordAlgebra Q), (∀ j ∈ s, ∃ f, toCl Q f = g j) →
      ∃ f, toCl Q f = ∑ j ∈ s, g j := by
    classical
    intro ι s g hg
    induction s using Finset.induction_on with
    | empty => rw [sum_empty]; exact hzero
    | insert a s ha ih =>
      rw [sum_insert ha]
      exact hadd _ _ (hg a (by simp)) (ih (fun j hj => hg j (by simp [hj])))
  have hsm : ∀ (c : T) x, (∃ f, toCl Q f = x) → ∃ f, toCl Q f = c • x := by
    rintro c _ ⟨f, rfl⟩
    exact ⟨_, (toCl_smul Q c f).symm⟩
  induction x using CliffordAlgebra.left_induction with
  | algebraMap r =>
    refine ⟨fun i => r * single 0 1 i, ?_⟩
    rw [← toCl_smul, ← bladeC_mem Q (Nat.two_pow_pos n), Algebra.algebraMap_eq_smul_one]
    congr 1
    unfold bladeC word
    simp
  | add x y hx hy => exact hadd x y hx hy
  | ι_mul x m hx =>
    obtain ⟨f, rfl⟩ := hx
    have hm : CliffordAlgebra.ι Q m = ∑ i : Fin n, m i • gen Q i := by
      have : m = ∑ i : Fin n, m i • Pi.single i 1 := by
        funext j
        rw [Finset.sum_apply, sum_eq_single j]
        · simp
        · intro b _ hb; simp [Pi.single_eq_of_ne hb.symm]
        · intro h; exact absurd (mem_univ _) h
      conv_lhs => rw [this]
      rw [map_sum]
      refine sum_congr rfl fun i _ => ?_
      rw [map_smul]
      unfold gen
      rw [dif_pos i.2]
    rw [hm, sum_mul]
    refine hsum _ _ fun i _ => ?_
    rw [smul_mul_assoc]
    apply hsm
    unfold toCl
    rw [mul_sum]
    refine hsum _ _ fun j hj => ?_
    rw [mul_smul_comm]
    apply hsm
    obtain ⟨c, hc⟩ := gen_mul_blade Q hQ i.2 j
    rw [hc]
    apply hsm
    exact ⟨_, (bladeC_mem Q (Nat.xor_lt_two_pow (mem_range.mp hj) (Nat.pow_lt_pow_right (by norm_num) i.2))).symm⟩

include hQ in
/-- The product of coefficient functions is the product of the Clifford algebra. -/
theorem toCl_geo (f g : Nat → T) : toCl Q (geo σ n f g) = toCl Q f * toCl Q g := by
  obtain ⟨h, hh⟩ := toCl_surjective Q hQ (toCl Q f * toCl Q g)
  rw [← hh]
  have := congrArg (clTo Q hQ) hh
  rw [clTo_toCl, map_mul, clTo_toCl, clTo_toCl, CoeffAlg.mk_mul] at this
  unfold toCl
  refine sum_congr rfl fun i hi => ?_
  have := congrArg (fun x => CoeffAlg.co x i) this
  simp only [CoeffAlg.co_mk _ (mem_range.mp hi)] at this
  rw [this]

end iso

end TClifford
