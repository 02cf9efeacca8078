import Verif.Props.Exterior
import Verif.Props.Access
import Verif.Props.Product
import Verif.Proofs.GA
/-
Grades of products (C61) and products of vectors (C62).
-/

set_option linter.unusedSectionVars false

namespace TClifford

open MV Finset

/-! ### Counting generators -/

theorem cnt_and_or (n a b : Nat) : cnt n (a &&& b) + cnt n (a ||| b) = cnt n a + cnt n b := by
  induction n with
  | zero => rfl
  | succ n ih =>
    rw [cnt_succ, cnt_succ, cnt_succ, cnt_succ, Nat.testBit_and, Nat.testBit_or]
    cases a.testBit n <;> cases b.testBit n <;> simp <;> omega

theorem cnt_and_le (n a b : Nat) : cnt n (a &&& b) ≤ cnt n a := by
  induction n with
  | zero => exact le_rfl
  | succ n ih =>
    rw [cnt_succ, cnt_succ, Nat.testBit_and]
    cases a.testBit n <;> cases b.testBit n <;> simp <;> omega

theorem cnt_eq_zero {n a : Nat} (h : cnt n a = 0) : ∀ i < n, a.testBit i = false := by
  induction n with
  | zero => intro i hi; omega
  | succ n ih =>
    rw [cnt_succ] at h
    intro i hi
    by_cases hin : i = n
    · subst hin
      cases hb : a.testBit i
      · rfl
      · rw [hb] at h; simp at h
    · exact ih (by omega) i (by omega)

theorem eq_zero_of_cnt {n a : Nat} (ha : a < 2 ^ n) (h : cnt n a = 0) : a = 0 := by
  apply Nat.eq_of_testBit_eq
  intro i
  rw [Nat.zero_testBit]
  by_cases hi : i < n
  · exact cnt_eq_zero h i hi
  · exact Nat.testBit_lt_two_pow (lt_of_lt_of_le ha (Nat.pow_le_pow_right (by norm_num) (by omega)))

section
variable {T : Type} [Ring T]

/-- The grades in which a product of homogeneous elements can have coefficients. -/
theorem geo_grades {σ : Nat → ℤ} {n p q : Nat} {f g : Nat → T} (hf : HomF n p f) (hg : HomF n q g) {k : Nat} (hk : k < 2 ^ n)
    (h : geo σ n f g k ≠ 0) : ∃ c, c ≤ p ∧ c ≤ q ∧ p + q ≤ n + c ∧ cnt n k + 2 * c = p + q := by
  obtain ⟨i, hi, hne⟩ := Finset.exists_ne_zero_of_sum_ne_zero h
  rw [mem_range] at hi
  have h1 : cnt n i = p := by
    by_contra hc
    exact hne (by rw [hf i hi hc]; simp)
  have h2 : cnt n (i ^^^ k) = q := by
    by_contra hc
    exact hne (by rw [hg _ (Nat.xor_lt_two_pow hi hk) hc]; simp)
  have h3 := cnt_xor n i (i ^^^ k)
  rw [xor_xor_cancel, h1, h2] at h3
  have h4 := cnt_and_or n i (i ^^^ k)
  have h5 := cnt_le n (i ||| (i ^^^ k))
  have h6 := cnt_and_le n i (i ^^^ k)
  have h7 := cnt_and_le n (i ^^^ k) i
  rw [Nat.and_comm] at h7
  exact ⟨cnt n (i &&& (i ^^^ k)), by omega, by omega, by omega, h3⟩

/-- In the highest grade the metric does not matter. -/
theorem geo_top {σ τ : Nat → ℤ} {n p q : Nat} {f g : Nat → T} (hf : HomF n p f) (hg : HomF n q g) {k : Nat} (hk : k < 2 ^ n)
    (h : cnt n k = p + q) : geo σ n f g k = geo τ n f g k := by
  unfold geo
  refine sum_congr rfl fun i hi => ?_
  rw [mem_range] at hi
  by_cases h1 : cnt n i = p
  · by_cases h2 : cnt n (i ^^^ k) = q
    · have h3 := cnt_xor n i (i ^^^ k)
      rw [xor_xor_cancel, h1, h2] at h3
      rw [bsgn_disjoint σ τ]
      intro j hj
      have := cnt_eq_zero (show cnt n (i &&& (i ^^^ k)) = 0 by omega) j hj
      rwa [Nat.testBit_and] at this
    · rw [hg _ (Nat.xor_lt_two_pow hi hk) h2]; simp
  · rw [hf i hi h1]; simp

/-- The product of two vectors is their scalar product plus their wedge. -/
theorem geo_vectors {σ : Nat → ℤ} {n : Nat} {f g : Nat → T} (hf : HomF n 1 f) (hg : HomF n 1 g) {k : Nat} (hk : k < 2 ^ n) :
    geo σ n f g k = single 0 (geo σ n f g 0) k + geo (fun _ => 0) n f g k := by
  by_cases h0 : k = 0
  · subst h0
    rw [geo_hom hf hg 0 hk (by rw [cnt_zero]; norm_num)]
    simp [single]
  · by_cases h2 : cnt n k = 2
    · rw [geo_top (τ := fun _ => 0) hf hg hk h2]
      simp [single, h0]
    · rw [geo_hom hf hg k hk h2]
      simp only [single, if_neg h0, add_zero]
      by_contra hne
      obtain ⟨c, h3, h4, h5, h6⟩ := geo_grades hf hg hk hne
      have : cnt n k = 0 := by omega
      exact h0 (eq_zero_of_cnt hk this)

end

/-! ### C61 -/

section
variable {A : ClAlg} {S T : Type} [Ring T] [DecidableEq T] [CoeffStorage S T] [LawfulStorage S T]

/-- **C61.** The product of a grade-`p` and a grade-`q` multivector has coefficients only in the grades
`|p - q|, |p - q| + 2, …, min(p + q, 2n - p - q)`. -/
theorem C61_mul_grades (hA : A.WF) {p q : Nat} {a b : MV A S} (ha : a.Valid) (hb : b.Valid) (hp : IsGrade p a) (hq : IsGrade q b) :
    ∃ c, a.naiveMulImpl b = .ok c ∧ c.Valid ∧ ∀ k < 2 ^ A.dim, c.getByIdx k ≠ .ok 0 →
      p ≤ q + countOnes k ∧ q ≤ p + countOnes k ∧ countOnes k ≤ p + q ∧ countOnes k + (p + q) ≤ 2 * A.dim ∧
      countOnes k % 2 = (p + q) % 2 := by
  obtain ⟨c, h1, h2, h3⟩ := mul_denotes hA ha hb
  refine ⟨c, h1, h2, fun k hk hne => ?_⟩
  rw [h2.get hk, h3 k hk] at hne
  obtain ⟨d, g1, g2, g3, g4⟩ := geo_grades (hp.hom ha) (hq.hom hb) hk (fun h => hne (by rw [h]))
  rw [countOnes_eq_cnt hk]
  omega

/-- **C61.** The part of grade `p + q` of the product is the wedge. -/
theorem C61_top_is_wedge [WedgeProduct A S] [LawfulWedge A S] (hA : A.WF) {p q : Nat} (hpq : p + q < 2 ^ 32) {a b : MV A S} (ha : a.Valid)
    (hb : b.Valid) (hp : IsGrade p a) (hq : IsGrade q b) :
    (do let c ← a.naiveMulImpl b; c.gradeExtract (p + q)) ≈ᵣ a.wedge b := by
  refine Agree.of_denotes (gradeExtract_lift (mul_denotes hA ha hb) hpq) (LawfulWedge.wedge ha hb) fun k hk => ?_
  rw [countOnes_eq_cnt hk]
  by_cases h : cnt A.dim k = p + q
  · rw [if_pos h]
    exact geo_top (hp.hom ha) (hq.hom hb) hk h
  · rw [if_neg h, geo_hom (hp.hom ha) (hq.hom hb) k hk h]

/-- **C61.** For vectors, `u * v == u.vdot(v) + u.wedge(v)`. -/
theorem C61_vectors [WedgeProduct A S] [LawfulWedge A S] (hA : A.WF) {u v : MV A S} (hu : u.Valid) (hv : v.Valid) (h1 : IsGrade 1 u)
    (h2 : IsGrade 1 v) :
    u.naiveMulImpl v ≈ᵣ (do let d ← u.vdot v; let s ← fromScalar d; let w ← u.wedge v; s.add w) := by
  rw [vdot_ok hA hu hv]
  refine Agree.of_denotes (mul_denotes hA hu hv)
    (((fromScalar_denotes hu.supp _).bind fun s hs hsf => (LawfulWedge.wedge hu hv).bind fun w hw hwf =>
      (add_denotes hs hw).congr fun i hi => by rw [hsf i hi, hwf i hi]) : Denotes _ _) fun k hk => ?_
  exact geo_vectors (h1.hom hu) (h2.hom hv) hk

/-- **C61.** The product of two multivectors with only even grades has only even grades; likewise for odd times odd, and
the product of an even and an odd one has only odd grades. -/
theorem C61_parity (hA : A.WF) (p q : Nat) {a b : MV A S} (ha : a.Valid) (hb : b.Valid)
    (hp : ∀ i < 2 ^ A.dim, countOnes i % 2 ≠ p % 2 → a.getByIdx i = .ok 0)
    (hq : ∀ i < 2 ^ A.dim, countOnes i % 2 ≠ q % 2 → b.getByIdx i = .ok 0) :
    ∃ c, a.naiveMulImpl b = .ok c ∧ c.Valid ∧ ∀ k < 2 ^ A.dim, countOnes k % 2 ≠ (p + q) % 2 → c.getByIdx k = .ok 0 := by
  obtain ⟨c, h1, h2, h3⟩ := mul_denotes hA ha hb
  refine ⟨c, h1, h2, fun k hk hne => ?_⟩
  rw [h2.get hk, h3 k hk]
  congr 1
  refine sum_eq_zero fun i hi => ?_
  rw [mem_range] at hi
  have hx := Nat.xor_lt_two_pow hi hk
  have h4 := cnt_xor A.dim i (i ^^^ k)
  rw [xor_xor_cancel] at h4
  rw [countOnes_eq_cnt hk] at hne
  by_cases h5 : cnt A.dim i % 2 = p % 2
  · have h6 := hq _ hx (by rw [countOnes_eq_cnt hx]; omega)
    rw [hb.get hx] at h6
    injection h6 with h6
    rw [h6]; simp
  · have h6 := hp _ hi (by rw [countOnes_eq_cnt hi]; omega)
    rw [ha.get hi] at h6
    injection h6 with h6
    rw [h6]; simp

end

/-! ### C62 -/

namespace GA
variable {σ : Nat → ℤ} {n : Nat} {T : Type} [CommRing T]

/-- Elements of grade 1. -/
def IsVec (x : GA σ n T) : Prop := HomF n 1 x.fn

theorem isVec_of {f : Nat → T} (h : HomF n 1 f) : IsVec (of f : GA σ n T) := fun i hi hc => by rw [fn_of f hi, h i hi hc]

theorem vfn_add (x y : GA σ n T) (i : Nat) : (x + y).fn i = x.fn i + y.fn i := by
  unfold fn
  split
  · rfl
  · simp

theorem vfn_smul (c : T) (x : GA σ n T) (i : Nat) : (c • x).fn i = c * x.fn i := by
  unfold fn
  split
  · rfl
  · simp

theorem IsVec.add {x y : GA σ n T} (hx : IsVec x) (hy : IsVec y) : IsVec (x + y) := fun i hi hc => by
  rw [vfn_add, hx i hi hc, hy i hi hc, add_zero]

theorem IsVec.smul {x : GA σ n T} (hx : IsVec x) (c : T) : IsVec (c • x) := fun i hi hc => by
  rw [vfn_smul, hx i hi hc, mul_zero]

/-- The scalar product of vectors. -/
def dot (x y : GA σ n T) : T := (x * y).fn 0

theorem fn_zero_smul_one (c : T) : (c • (1 : GA σ n T)).fn 0 = c := by
  rw [vfn_smul, one_def, fn_of _ (Nat.two_pow_pos n)]
  simp [single]

theorem vmul_fn (x y : GA σ n T) {k : Nat} (hk : k < 2 ^ n) : (x * y).fn k = geo σ n x.fn y.fn k :=
  fn_of (geo σ n x.fn y.fn) hk

theorem IsVec.rev_eq {x : GA σ n T} (hx : IsVec x) : rev x = x := by
  rw [← of_fn x, rev_of]
  refine of_congr fun i hi => ?_
  by_cases h : cnt n i = 1
  · rw [rsg_eq, h]; simp
  · rw [hx i hi h, smul_zero]

theorem dot_comm {x y : GA σ n T} (hx : IsVec x) (hy : IsVec y) : dot x y = dot y x := by
  have h : rev (x * y) = y * x := by rw [rev_mul, hx.rev_eq, hy.rev_eq]
  unfold dot
  rw [← h, ← of_fn (x * y), rev_of, fn_of _ (Nat.two_pow_pos n), fn_of _ (Nat.two_pow_pos n), rsg_eq, cnt_zero]
  simp

theorem vext_fn {x y : GA σ n T} (h : ∀ k < 2 ^ n, x.fn k = y.fn k) : x = y := by
  rw [← of_fn x, ← of_fn y]; exact of_congr h

theorem vsmul_one_fn (c : T) {k : Nat} (hk : k < 2 ^ n) : (c • (1 : GA σ n T)).fn k = single 0 c k := by
  rw [vfn_smul, one_def, fn_of _ hk]
  unfold single
  split <;> simp

/-- `x y + y x = 2 (x · y)`. -/
theorem IsVec.mul_add {x y : GA σ n T} (hx : IsVec x) (hy : IsVec y) : x * y + y * x = (2 * dot x y) • (1 : GA σ n T) := by
  refine vext_fn fun k hk => ?_
  have h1 := geo_vectors (σ := σ) hx hy hk
  have h2 := geo_vectors (σ := σ) hy hx hk
  have h3 := geo_graded_comm hx hy hk
  have hd := dot_comm hx hy
  unfold dot at hd
  rw [vmul_fn _ _ (Nat.two_pow_pos n), vmul_fn _ _ (Nat.two_pow_pos n)] at hd
  rw [vfn_add, vmul_fn _ _ hk, vmul_fn _ _ hk, h1, h2, h3, vsmul_one_fn _ hk]
  unfold dot
  rw [vmul_fn _ _ (Nat.two_pow_pos n), ← hd]
  unfold single
  split
  · simp; ring
  · simp

/-- `x x = x · x`. -/
theorem IsVec.sq {x : GA σ n T} (hx : IsVec x) : x * x = dot x x • (1 : GA σ n T) := by
  refine vext_fn fun k hk => ?_
  rw [vmul_fn _ _ hk, geo_vectors hx hx hk, geo_vector_self hx hk, add_zero, vsmul_one_fn _ hk]
  unfold dot
  rw [vmul_fn _ _ (Nat.two_pow_pos n)]

/-- `v x v = 2 (v · x) v - (v · v) x`. -/
theorem IsVec.reflect {v x : GA σ n T} (hv : IsVec v) (hx : IsVec x) : v * x * v = (2 * dot v x) • v - dot v v • x := by
  have h : x * v = (2 * dot v x) • (1 : GA σ n T) - v * x := by rw [← hv.mul_add hx]; abel
  rw [mul_assoc, h, mul_sub, ← mul_assoc, hv.sq, mul_smul_comm, mul_one, smul_mul_assoc, one_mul]

theorem IsVec.sub {x y : GA σ n T} (hx : IsVec x) (hy : IsVec y) : IsVec (x - y) := by
  have h : x - y = x + (-1 : T) • y := by rw [neg_smul, one_smul, sub_eq_add_neg]
  rw [h]
  exact hx.add (hy.smul _)

/-- The product of the squares of the vectors of a list. -/
def normOf (l : List (GA σ n T)) : T := (l.map fun v => dot v v).prod

theorem rev_mul_versor (l : List (GA σ n T)) (hl : ∀ v ∈ l, IsVec v) : rev l.prod * l.prod = normOf l • (1 : GA σ n T) := by
  induction l with
  | nil => simp [normOf, rev_one]
  | cons v l ih =>
    have hv := hl v (by simp)
    have ih := ih fun w hw => hl w (by simp [hw])
    rw [List.prod_cons, rev_mul, hv.rev_eq, mul_assoc, ← mul_assoc v v, hv.sq, smul_mul_assoc, one_mul, mul_smul_comm, ih, smul_smul]
    simp [normOf]

theorem versor_mul_rev (l : List (GA σ n T)) (hl : ∀ v ∈ l, IsVec v) : l.prod * rev l.prod = normOf l • (1 : GA σ n T) := by
  induction l with
  | nil => simp [normOf, rev_one]
  | cons v l ih =>
    have hv := hl v (by simp)
    have ih := ih fun w hw => hl w (by simp [hw])
    rw [List.prod_cons, rev_mul, hv.rev_eq, mul_assoc, ← mul_assoc l.prod, ih, smul_mul_assoc, one_mul, mul_smul_comm, hv.sq, smul_smul]
    simp [normOf, mul_comm]

theorem versor_sandwich (l : List (GA σ n T)) (hl : ∀ v ∈ l, IsVec v) {x : GA σ n T} (hx : IsVec x) :
    IsVec (l.prod * x * rev l.prod) := by
  induction l with
  | nil => simpa [rev_one] using hx
  | cons v l ih =>
    have hv := hl v (by simp)
    have ih := ih fun w hw => hl w (by simp [hw])
    have h : (v :: l).prod * x * rev (v :: l).prod = v * (l.prod * x * rev l.prod) * v := by
      rw [List.prod_cons, rev_mul, hv.rev_eq]; simp only [mul_assoc]
    rw [h, hv.reflect ih]
    exact (hv.smul _).sub (ih.smul _)

theorem versor_sandwich_sq (l : List (GA σ n T)) (hl : ∀ v ∈ l, IsVec v) {x : GA σ n T} (hx : IsVec x) :
    dot (l.prod * x * rev l.prod) (l.prod * x * rev l.prod) = normOf l ^ 2 * dot x x := by
  have h : (l.prod * x * rev l.prod) * (l.prod * x * rev l.prod) = (normOf l ^ 2 * dot x x) • (1 : GA σ n T) := by
    calc (l.prod * x * rev l.prod) * (l.prod * x * rev l.prod)
        = l.prod * x * (rev l.prod * l.prod) * x * rev l.prod := by simp only [mul_assoc]
      _ = normOf l • (l.prod * (x * x) * rev l.prod) := by
          rw [rev_mul_versor l hl]; simp only [mul_smul_comm, smul_mul_assoc, mul_one, mul_assoc]
      _ = _ := by
          rw [hx.sq]
          simp only [mul_smul_comm, smul_mul_assoc, mul_one]
          rw [versor_mul_rev l hl, smul_smul, smul_smul]
          congr 1; ring
  have h2 := congrArg (fun z => z.fn 0) h
  simp only [fn_zero_smul_one] at h2
  exact h2

end GA

section
variable {A : ClAlg} {S T : Type} [CommRing T] [DecidableEq T] [CoeffStorage S T] [LawfulStorage S T]

/-- The product `v1 * (v2 * (… * 1))` of a list of multivectors, computed with the `Mul` implementation. -/
def versor : List (MV A S) → Res (MV A S)
  | [] => MV.one
  | v :: l => do let r ← versor l; v.naiveMulImpl r

theorem IsGrade.isVec {v : MV A S} (hv : v.Valid) (h : IsGrade 1 v) : GA.IsVec v.ga := GA.isVec_of (h.hom hv)

theorem mag2_ga (hA : A.WF) {a : MV A S} (ha : a.Valid) : a.mag2 = .ok ((GA.rev a.ga * a.ga).fn 0) := by
  rw [mag2_ok hA ha, MV.ga, GA.rev_of, ← GA.of_mul, GA.fn_of _ (Nat.two_pow_pos _)]

theorem mag2_vec (hA : A.WF) {v : MV A S} (hv : v.Valid) (h : IsGrade 1 v) : v.mag2 = .ok (GA.dot v.ga v.ga) := by
  rw [mag2_ga hA hv, (h.isVec hv).rev_eq]; rfl

theorem is_versor (hA : A.WF) (hS : LawfulStorage.Supp (S := S) (T := T) A.dim) (l : List (MV A S)) (hl : ∀ v ∈ l, v.Valid) :
    Is (versor l) (l.map MV.ga).prod := by
  induction l with
  | nil => exact Is.one hS
  | cons v l ih =>
    refine (ih fun w hw => hl w (by simp [hw])).bind fun u hu hug => ?_
    rw [List.map_cons, List.prod_cons, ← hug]
    exact is_mul hA (hl v (by simp)) hu

theorem mapM_mag2 (hA : A.WF) (l : List (MV A S)) (hl : ∀ v ∈ l, v.Valid ∧ IsGrade 1 v) :
    ∃ qs : List T, l.mapM (m := Res) MV.mag2 = .ok qs ∧ qs.prod = GA.normOf (l.map MV.ga) := by
  induction l with
  | nil => exact ⟨[], rfl, rfl⟩
  | cons v l ih =>
    obtain ⟨qs, h1, h2⟩ := ih fun w hw => hl w (by simp [hw])
    refine ⟨GA.dot v.ga v.ga :: qs, ?_, ?_⟩
    · rw [List.mapM_cons, mag2_vec hA (hl v (by simp)).1 (hl v (by simp)).2, h1]; rfl
    · rw [List.prod_cons, h2]; simp [GA.normOf]

theorem vecs_ga {l : List (MV A S)} (hl : ∀ v ∈ l, v.Valid ∧ IsGrade 1 v) : ∀ g ∈ l.map MV.ga, GA.IsVec g := by
  intro g hg
  obtain ⟨v, hv, rfl⟩ := List.mem_map.mp hg
  exact (hl v hv).2.isVec (hl v hv).1

/-- **C62.** For a product `V` of vectors, `V.rev() * V` and `V * V.rev()` are both the scalar `V.mag2()`, which is the
product of the `mag2` of the vectors. -/
theorem C62_versor (hA : A.WF) (hS : LawfulStorage.Supp (S := S) (T := T) A.dim) (l : List (MV A S))
    (hl : ∀ v ∈ l, v.Valid ∧ IsGrade 1 v) :
    ∃ V qs, versor l = .ok V ∧ V.Valid ∧ l.mapM (m := Res) MV.mag2 = .ok qs ∧ V.mag2 = .ok qs.prod ∧
      (do let r ← V.rev; r.naiveMulImpl V) ≈ᵣ MV.fromScalar qs.prod ∧
      (do let r ← V.rev; V.naiveMulImpl r) ≈ᵣ MV.fromScalar qs.prod := by
  obtain ⟨V, h1, h2, h3⟩ := (is_versor hA hS l fun v hv => (hl v hv).1).ok
  obtain ⟨qs, hq, hp⟩ := mapM_mag2 hA l hl
  have hv := vecs_ga hl
  refine ⟨V, qs, h1, h2, hq, ?_, ?_, ?_⟩
  · rw [mag2_ga hA h2, h3, GA.rev_mul_versor _ hv, GA.fn_zero_smul_one, hp]
  · refine Is.agree (g := GA.rev V.ga * V.ga) ((is_rev h2).bind fun r hr hrg => hrg ▸ is_mul hA hr h2) (Is.fromScalar hS _) ?_
    rw [h3, GA.rev_mul_versor _ hv, Algebra.algebraMap_eq_smul_one, hp]
  · refine Is.agree (g := V.ga * GA.rev V.ga) ((is_rev h2).bind fun r hr hrg => hrg ▸ is_mul hA h2 hr) (Is.fromScalar hS _) ?_
    rw [h3, GA.versor_mul_rev _ hv, Algebra.algebraMap_eq_smul_one, hp]

/-- **C62.** Reflection formula: `v * x * v == 2 (v.vdot(x)) v - v.vdot(v) x` for vectors. -/
theorem C62_reflection (hA : A.WF) {v x : MV A S} (hv : v.Valid) (hx : x.Valid) (h1 : IsGrade 1 v) (h2 : IsGrade 1 x) :
    (do let y ← v.naiveMulImpl x; y.naiveMulImpl v) ≈ᵣ
      (do let d ← v.vdot x; let q ← v.vdot v; let s ← v.smul (2 * d); let t ← x.smul q; s.sub t) := by
  have hd : ∀ {a b : MV A S}, a.Valid → b.Valid → a.vdot b = .ok (GA.dot a.ga b.ga) := by
    intro a b ha hb
    rw [vdot_ok hA ha hb, GA.dot, MV.ga, MV.ga, ← GA.of_mul, GA.fn_of _ (Nat.two_pow_pos _)]
  rw [hd hv hx, hd hv hv]
  refine Is.agree (g := v.ga * x.ga * v.ga) (g' := (2 * GA.dot v.ga x.ga) • v.ga - GA.dot v.ga v.ga • x.ga)
    ((is_mul hA hv hx).bind fun y hy hyg => hyg ▸ is_mul hA hy hv) ?_ ((h1.isVec hv).reflect (h2.isVec hx))
  exact (is_smul hv _).bind fun s hs hsg => (is_smul hx _).bind fun t ht htg => (is_sub hs ht).congr (by rw [hsg, htg])

/-- **C62.** The sandwich `V * x * V.rev()` of a vector by a product of vectors is a vector, and its `mag2` is
`V.mag2()² * x.mag2()`. -/
theorem C62_sandwich (hA : A.WF) (l : List (MV A S)) (hl : ∀ v ∈ l, v.Valid ∧ IsGrade 1 v) {x : MV A S} (hx : x.Valid)
    (h1 : IsGrade 1 x) :
    ∃ V y m q, versor l = .ok V ∧ (do let r ← V.rev; let z ← V.naiveMulImpl x; z.naiveMulImpl r) = .ok y ∧ y.Valid ∧ IsGrade 1 y ∧
      V.mag2 = .ok m ∧ x.mag2 = .ok q ∧ y.mag2 = .ok (m ^ 2 * q) := by
  obtain ⟨V, g1, g2, g3⟩ := (is_versor hA hx.supp l fun v hv => (hl v hv).1).ok
  have hv := vecs_ga hl
  have h : Is (do let r ← V.rev; let z ← V.naiveMulImpl x; z.naiveMulImpl r) (V.ga * x.ga * GA.rev V.ga) :=
    (is_rev g2).bind fun r hr hrg => (is_mul hA g2 hx).bind fun z hz hzg => (is_mul hA hz hr).congr (by rw [hrg, hzg])
  obtain ⟨y, y1, y2, y3⟩ := h.ok
  rw [g3] at y3
  have hyv := GA.versor_sandwich _ hv (h1.isVec hx)
  have hyg : IsGrade 1 y := by
    intro i hi hne
    rw [y2.get hi, ← ga_val hi, y3]
    exact congrArg _ (hyv i hi (by rwa [← countOnes_eq_cnt hi]))
  refine ⟨V, y, GA.normOf (l.map MV.ga), GA.dot x.ga x.ga, g1, y1, y2, hyg, ?_, mag2_vec hA hx h1, ?_⟩
  · rw [mag2_ga hA g2, g3, GA.rev_mul_versor _ hv, GA.fn_zero_smul_one]
  · rw [mag2_vec hA y2 hyg, y3, GA.versor_sandwich_sq _ hv (h1.isVec hx)]

end

section
variable {A : ClAlg} {S T : Type} [Field T] [DecidableEq T] [CoeffStorage S T] [LawfulStorage S T]

/-- **C62.** A product of vectors of non-zero `mag2` has the two-sided inverse `revm()`. -/
theorem C62_inverse (hA : A.WF) (hS : LawfulStorage.Supp (S := S) (T := T) A.dim) (l : List (MV A S))
    (hl : ∀ v ∈ l, v.Valid ∧ IsGrade 1 v) (h0 : ∀ v ∈ l, v.mag2 ≠ .ok 0) :
    ∃ V W, versor l = .ok V ∧ V.revm = .ok W ∧ W.Valid ∧ W.naiveMulImpl V ≈ᵣ MV.one ∧ V.naiveMulImpl W ≈ᵣ MV.one := by
  obtain ⟨V, g1, g2, g3⟩ := (is_versor hA hS l fun v hv => (hl v hv).1).ok
  have hv := vecs_ga hl
  have hm : V.mag2 = .ok (GA.normOf (l.map MV.ga)) := by rw [mag2_ga hA g2, g3, GA.rev_mul_versor _ hv, GA.fn_zero_smul_one]
  have hne : GA.normOf (l.map MV.ga) ≠ 0 := by
    refine List.prod_ne_zero fun h => ?_
    rw [List.map_map, List.mem_map] at h
    obtain ⟨v, hvl, hv0⟩ := h
    refine h0 v hvl ?_
    rw [mag2_vec hA (hl v hvl).1 (hl v hvl).2]
    exact congrArg _ hv0
  have hr : Is V.revm ((GA.normOf (l.map MV.ga))⁻¹ • GA.rev V.ga) := by
    refine (is_of_denotes (revm_denotes g2 hm hne)).congr ?_
    rw [MV.ga, GA.rev_of, ← GA.of_smul']
    exact GA.of_congr fun i _ => div_eq_mul_inv _ _
  obtain ⟨W, w1, w2, w3⟩ := hr.ok
  refine ⟨V, W, g1, w1, w2, (is_mul hA w2 g2).agree (Is.one hS) ?_, (is_mul hA g2 w2).agree (Is.one hS) ?_⟩
  · rw [w3, smul_mul_assoc, g3, GA.rev_mul_versor _ hv, smul_smul, inv_mul_cancel₀ hne, one_smul]
  · rw [w3, mul_smul_comm, g3, GA.versor_mul_rev _ hv, smul_smul, inv_mul_cancel₀ hne, one_smul]

end

/-! ### Examples -/

namespace Ex

/-- Vectors in the algebra with signature `+ - 0`. -/
def vU : MV M (ArrayStorage ℚ) := ⟨⟨3, ⟨8, fun i => if countOnes i = 1 then i + 1 else 0⟩⟩⟩
def vV : MV M (ArrayStorage ℚ) := ⟨⟨3, ⟨8, fun i => if countOnes i = 1 then 2 * i - 5 else 0⟩⟩⟩

theorem vU_valid : vU.Valid := ⟨by decide, rfl, rfl⟩
theorem vV_valid : vV.Valid := ⟨by decide, rfl, rfl⟩

theorem vU_grade : IsGrade 1 vU := by
  intro i hi hne
  rw [vU_valid.get hi, MV.arr_val vU_valid hi]
  show Except.ok (if countOnes i = 1 then (i : ℚ) + 1 else 0) = _
  rw [if_neg hne]

theorem vV_grade : IsGrade 1 vV := by
  intro i hi hne
  rw [vV_valid.get hi, MV.arr_val vV_valid hi]
  show Except.ok (if countOnes i = 1 then 2 * (i : ℚ) - 5 else 0) = _
  rw [if_neg hne]

theorem vs : ∀ v ∈ [vU, vV, vU], v.Valid ∧ IsGrade 1 v := by
  intro v hv
  simp only [List.mem_cons, List.not_mem_nil, or_false] at hv
  rcases hv with rfl | rfl | rfl
  exacts [⟨vU_valid, vU_grade⟩, ⟨vV_valid, vV_grade⟩, ⟨vU_valid, vU_grade⟩]

theorem vs_ne : ∀ v ∈ [vU, vV, vU], v.mag2 ≠ .ok 0 := by
  have hU : vU.mag2 = .ok (-5) := by decide +kernel
  have hV : vV.mag2 = .ok 8 := by decide +kernel
  intro v hv
  simp only [List.mem_cons, List.not_mem_nil, or_false] at hv
  rcases hv with rfl | rfl | rfl
  · rw [hU]; decide +kernel
  · rw [hV]; decide +kernel
  · rw [hU]; decide +kernel

end Ex

example : ∃ c, Ex.g2.naiveMulImpl Ex.g2 = .ok c ∧ c.Valid ∧ ∀ k < 2 ^ Ex.A7.dim, c.getByIdx k ≠ .ok 0 →
    2 ≤ 2 + countOnes k ∧ 2 ≤ 2 + countOnes k ∧ countOnes k ≤ 4 ∧ countOnes k + 4 ≤ 2 * Ex.A7.dim ∧ countOnes k % 2 = 4 % 2 :=
  C61_mul_grades Ex.A7_wf Ex.g2_valid Ex.g2_valid Ex.g2_grade Ex.g2_grade

example : (do let c ← Ex.g2.naiveMulImpl Ex.g2; c.gradeExtract 4) ≈ᵣ Ex.g2.wedge Ex.g2 :=
  C61_top_is_wedge Ex.A7_wf (p := 2) (q := 2) (by norm_num) Ex.g2_valid Ex.g2_valid Ex.g2_grade Ex.g2_grade

example : Ex.vU.naiveMulImpl Ex.vV ≈ᵣ (do let d ← Ex.vU.vdot Ex.vV; let s ← fromScalar d; let w ← Ex.vU.wedge Ex.vV; s.add w) :=
  C61_vectors Ex.M_wf Ex.vU_valid Ex.vV_valid Ex.vU_grade Ex.vV_grade

example : ∃ c, Ex.g2.naiveMulImpl Ex.g2 = .ok c ∧ c.Valid ∧ ∀ k < 2 ^ Ex.A7.dim, countOnes k % 2 ≠ 0 → c.getByIdx k = .ok 0 :=
  C61_parity Ex.A7_wf 0 0 Ex.g2_valid Ex.g2_valid (fun i hi h => Ex.g2_grade i hi (by omega)) (fun i hi h => Ex.g2_grade i hi (by omega))

example : ∃ V qs, versor [Ex.vU, Ex.vV, Ex.vU] = .ok V ∧ V.Valid ∧ [Ex.vU, Ex.vV, Ex.vU].mapM (m := Res) MV.mag2 = .ok qs ∧
    V.mag2 = .ok qs.prod ∧ (do let r ← V.rev; r.naiveMulImpl V) ≈ᵣ MV.fromScalar qs.prod ∧
    (do let r ← V.rev; V.naiveMulImpl r) ≈ᵣ MV.fromScalar qs.prod :=
  C62_versor Ex.M_wf Ex.vU_valid.supp _ Ex.vs

example : (do let y ← Ex.vU.naiveMulImpl Ex.vV; y.naiveMulImpl Ex.vU) ≈ᵣ
    (do let d ← Ex.vU.vdot Ex.vV; let q ← Ex.vU.vdot Ex.vU; let s ← Ex.vU.smul (2 * d); let t ← Ex.vV.smul q; s.sub t) :=
  C62_reflection Ex.M_wf Ex.vU_valid Ex.vV_valid Ex.vU_grade Ex.vV_grade

example : ∃ V y m q, versor [Ex.vU, Ex.vV, Ex.vU] = .ok V ∧
    (do let r ← V.rev; let z ← V.naiveMulImpl Ex.vV; z.naiveMulImpl r) = .ok y ∧ y.Valid ∧ IsGrade 1 y ∧
    V.mag2 = .ok m ∧ Ex.vV.mag2 = .ok q ∧ y.mag2 = .ok (m ^ 2 * q) :=
  C62_sandwich Ex.M_wf _ Ex.vs Ex.vV_valid Ex.vV_grade

example : ∃ V W, versor [Ex.vU, Ex.vV, Ex.vU] = .ok V ∧ V.revm = .ok W ∧ W.Valid ∧ W.naiveMulImpl V ≈ᵣ MV.one ∧
    V.naiveMulImpl W ≈ᵣ MV.one :=
  C62_inverse Ex.M_wf Ex.vU_valid.supp _ Ex.vs Ex.vs_ne

end TClifford
