import Verif.Props.Dual
import Verif.Props.Rotors
/-
C87, second part: the assertions of `dual_test` (tests/unit.rs:437-546) on random inputs, for all inputs with exact
coefficients, and C63 for all algebras whose generators have the same square.
-/

namespace TClifford
open MV Finset

/-! ### The dual twice -/

section
variable {A : ClAlg} {S T : Type} [CommRing T] [DecidableEq T] [CoeffStorage S T] [LawfulStorage S T]

theorem compl_sign {n c : Nat} (hc : c < 2 ^ n) :
    rsg n c * rsg n (c ^^^ (2 ^ n - 1)) * rsg n (2 ^ n - 1) = if n % 2 = 1 then 1 else sg (par n c) := by
  have hcm := cnt_compl hc
  have hfull := cnt_compl (Nat.two_pow_pos n)
  rw [Nat.zero_xor, cnt_zero, add_zero] at hfull
  have hg := rsg_grades n c (c ^^^ (2 ^ n - 1)) (2 ^ n - 1) _ _ rfl rfl (by rw [hfull]; omega)
  rw [hg, par_eq]
  by_cases h1 : n % 2 = 1
  · rw [if_pos h1, if_neg]; omega
  · rw [if_neg h1]
    by_cases h2 : cnt n c % 2 = 1
    · rw [if_pos (by omega), decide_eq_true h2]; rfl
    · rw [if_neg (by omega), decide_eq_false h2]; rfl

theorem dual_dual_sign {n c : Nat} (hc : c < 2 ^ n) :
    bsgn (fun _ => 0) n c (c ^^^ (2 ^ n - 1)) * bsgn (fun _ => 0) n (c ^^^ (2 ^ n - 1)) c = if n % 2 = 1 then 1 else sg (par n c) := by
  have h := bsgn_rev (fun _ => 0) n c (c ^^^ (2 ^ n - 1))
  rw [show c ^^^ (c ^^^ (2 ^ n - 1)) = 2 ^ n - 1 by rw [← Nat.xor_assoc]; simp] at h
  have hs := bsgn_compl_sq' hc
  have hm := rsg_mul_self n (2 ^ n - 1)
  rw [← compl_sign hc]
  calc bsgn (fun _ => 0) n c (c ^^^ (2 ^ n - 1)) * bsgn (fun _ => 0) n (c ^^^ (2 ^ n - 1)) c
      = (bsgn (fun _ => 0) n c (c ^^^ (2 ^ n - 1)) * rsg n (2 ^ n - 1)) * bsgn (fun _ => 0) n (c ^^^ (2 ^ n - 1)) c * rsg n (2 ^ n - 1) := by
        linear_combination -(bsgn (fun _ => 0) n c (c ^^^ (2 ^ n - 1)) * bsgn (fun _ => 0) n (c ^^^ (2 ^ n - 1)) c) * hm
    _ = _ := by rw [h]; linear_combination rsg n c * rsg n (c ^^^ (2 ^ n - 1)) * rsg n (2 ^ n - 1) * hs

/-- **C87** (tests/unit.rs:478-483). The dual of the dual is the multivector itself with an odd number of generators, and its grade involution with
an even number, in every metric. -/
theorem C87_dual_dual (hA : A.WF) {a : MV A S} (ha : a.Valid) :
    (do let d ← a.dual; d.dual) ≈ᵣ (if A.dim % 2 = 1 then .ok a else a.flip) := by
  have hf : Denotes (if A.dim % 2 = 1 then .ok a else a.flip) (fun i => (if A.dim % 2 = 1 then 1 else sg (par A.dim i)) • a.val i) := by
    split
    · exact (Denotes.of_valid ha).congr fun i _ => (one_smul _ _).symm
    · exact flip_denotes ha
  refine Agree.of_denotes (Denotes.dual hA (dual_denotes hA ha)) hf fun k hk => ?_
  unfold dualF
  simp only [xor_mask_xor_mask, smul_smul, dual_dual_sign hk]

/-- **C87** (tests/unit.rs:497-514). The product with the unit pseudoscalar gives a dual that knows the metric: the scalar part of the dual of
`a ∧ (b I)` is `a.vdot(b)`, for all multivectors and metrics. -/
theorem C87_metric_dual [WedgeProduct A S] [LawfulWedge A S] (hA : A.WF) {a b : MV A S} (ha : a.Valid) (hb : b.Valid) :
    (do let I ← blade (2 ^ A.dim - 1); let p ← b.naiveMulImpl I; let w ← a.wedge p; let d ← w.dual; d.scalarPart) = a.vdot b := by
  have hm : (2 ^ A.dim - 1 : Nat) < 2 ^ A.dim := by have := Nat.two_pow_pos A.dim; omega
  obtain ⟨I, I1, I2, I3⟩ := blade_denotes (A := A) (S := S) (T := T) ha.supp hm
  obtain ⟨p, p1, p2, p3⟩ := mul_denotes hA hb I2
  obtain ⟨w, w1, w2, w3⟩ := LawfulWedge.wedge ha p2
  obtain ⟨d, d1, d2, d3⟩ := dual_denotes hA w2
  rw [I1]; show (do let p ← b.naiveMulImpl I; let w ← a.wedge p; let d ← w.dual; d.scalarPart) = _
  rw [p1]; show (do let w ← a.wedge p; let d ← w.dual; d.scalarPart) = _
  rw [w1]; show (do let d ← w.dual; d.scalarPart) = _
  rw [d1]; show d.scalarPart = _
  have h0 := Nat.two_pow_pos A.dim
  unfold scalarPart
  rw [d2.get h0, d3 0 h0, vdot_ok hA ha hb]
  congr 1
  simp only [Nat.zero_xor, bsgn_zero_left, one_smul]
  rw [w3 _ hm]
  unfold geo
  refine sum_congr rfl fun i hi => ?_
  rw [mem_range] at hi
  have hi' := xor_mask_lt hi
  rw [p3 _ hi', geo_congr (fun _ _ => rfl) (fun _ _ => rfl) I3 hi', geo_single_right _ hm _ _ hi']
  have e1 : (2 ^ A.dim - 1) ^^^ (i ^^^ (2 ^ A.dim - 1)) = i := by
    rw [Nat.xor_comm i, ← Nat.xor_assoc]; simp
  rw [e1, mul_one, Nat.xor_zero, mul_smul_comm, smul_smul]
  congr 1
  have hd : ∀ j < A.dim, (i.testBit j && (i ^^^ (2 ^ A.dim - 1)).testBit j) = false := by
    rw [← and_eq_zero_iff_testBit hi, Nat.and_comm]; exact MV.disjoint_compl hi
  have h := bsgn_cocycle A.sigma A.dim i i (i ^^^ (2 ^ A.dim - 1))
  rw [show i ^^^ (i ^^^ (2 ^ A.dim - 1)) = 2 ^ A.dim - 1 by rw [← Nat.xor_assoc]; simp, Nat.xor_self, bsgn_zero_left, mul_one] at h
  have hs := bsgn_compl_sq hi
  rw [bsgn_disjoint (fun _ => 0) A.sigma hd] at hs ⊢
  linear_combination -h

end

/-! ### The dual of a rotated multivector -/

namespace GA
variable {σ : Nat → ℤ} {n : Nat} {T : Type} [CommRing T]

theorem psc_comm (hn : n % 2 = 1) (x : GA σ n T) : x * psc = psc * x := by
  induction x using ind with | h f => ?_
  unfold psc bl
  rw [← of_mul, ← of_mul]
  refine of_congr fun k hk => ?_
  have hm : (2 ^ n - 1 : Nat) < 2 ^ n := by have := Nat.two_pow_pos n; omega
  have hc : (2 ^ n - 1) ^^^ k < 2 ^ n := Nat.xor_lt_two_pow hm hk
  rw [geo_single_right _ hm _ _ hk, geo_single_left _ hm, ps_sign _ hc, if_pos hn, one_mul, mul_one, one_mul]

end GA

section
variable {A : ClAlg} {S T : Type} [Field T] [DecidableEq T] [CoeffStorage S T] [LawfulStorage S T]

/-- **C87** (tests/unit.rs:442-461). With an odd number of generators, all of them `+`, the dual of the rotated multivector `R.rev() * x * R` is
the rotated dual, for every `R` (a rotor or not). -/
theorem C87_rotated_dual (hA : A.WF) (hi : A.imagMask = 0) (hp : A.projMask = 0) (hn : A.dim % 2 = 1) {R x : MV A S} (hR : R.Valid)
    (hx : x.Valid) : (do let y ← R.rotate x; y.dual) ≈ᵣ (do let d ← x.dual; R.rotate d) := by
  have h : ∀ i < A.dim, A.sigma i = 1 := fun i _ => sigma_plus hi hp i
  have is_rotate : ∀ {y : MV A S}, y.Valid → Is (R.rotate y) (GA.rev R.ga * y.ga * R.ga) := fun hy =>
    (is_rev hR).bind fun r hr hrg => (is_mul hA hr hy).bind fun z hz hzg => (is_mul hA hz hR).congr (by rw [hzg, hrg])
  refine Is.agree (g := GA.psc * GA.rev (GA.rev R.ga * x.ga * R.ga)) (g' := GA.rev R.ga * (GA.psc * GA.rev x.ga) * R.ga)
    ((is_rotate hx).bind fun y hy hyg => hyg ▸ is_dual hA h hy) ((is_dual hA h hx).bind fun d hd hdg => hdg ▸ is_rotate hd) ?_
  rw [GA.rev_mul, GA.rev_mul, GA.rev_rev, ← mul_assoc, ← mul_assoc, ← mul_assoc, GA.psc_comm hn]

end

section
variable {A : ClAlg} {S T : Type} [CommRing T] [DecidableEq T] [CoeffStorage S T] [LawfulStorage S T]

/-- **C87** (tests/unit.rs:485-495). With an odd number of generators `dual` and `undual` are the same, and the pseudoscalar coefficient of
`a ∧ b.dual()` is the dot product without the metric. -/
theorem C87_hodge_odd [WedgeProduct A S] [LawfulWedge A S] (hA : A.WF) (hn : A.dim % 2 = 1) {a b : MV A S} (ha : a.Valid) (hb : b.Valid) :
    b.dual ≈ᵣ b.undual ∧ (do let d ← b.dual; let w ← a.wedge d; w.getByIdx (2 ^ A.dim - 1)) = a.vsdot b := by
  have key : ∀ i < 2 ^ A.dim, dualF A.dim b.val i = undualF A.dim b.val i := by
    intro i hi
    have h := dual_dual_sign hi
    rw [if_pos hn] at h
    have hs := bsgn_compl_sq' hi
    unfold dualF undualF
    congr 1
    linear_combination bsgn (fun _ => 0) A.dim (i ^^^ (2 ^ A.dim - 1)) i * h - bsgn (fun _ => 0) A.dim i (i ^^^ (2 ^ A.dim - 1)) * hs
  refine ⟨Agree.of_denotes (dual_denotes hA hb) (undual_denotes hA hb) key, ?_⟩
  rw [← (C63_vsdot hA ha hb).2]
  have hm : (2 ^ A.dim - 1 : Nat) < 2 ^ A.dim := by have := Nat.two_pow_pos A.dim; omega
  obtain ⟨d, d1, d2, d3⟩ := dual_denotes hA hb
  obtain ⟨u, u1, u2, u3⟩ := undual_denotes hA hb
  obtain ⟨w, w1, w2, w3⟩ := LawfulWedge.wedge ha d2
  obtain ⟨w', w1', w2', w3'⟩ := LawfulWedge.wedge ha u2
  rw [d1, u1]
  show (do let w ← a.wedge d; w.getByIdx (2 ^ A.dim - 1)) = (do let w ← a.wedge u; w.getByIdx (2 ^ A.dim - 1))
  rw [w1, w1']
  show w.getByIdx _ = w'.getByIdx _
  rw [w2.get hm, w2'.get hm, w3 _ hm, w3' _ hm]
  congr 1
  exact geo_congr (fun _ _ => rfl) (fun _ _ => rfl) (fun i hi => by rw [d3 i hi, u3 i hi]; exact key i hi) hm

end

/-! ### C63 for uniform metrics -/

section
variable {T : Type} [CommRing T]

/-- The sign of a product when all the generators have the square `c`. -/
theorem bsgn_uniform (c : ℤ) (n a b : Nat) : bsgn (fun _ => c) n a b = c ^ cnt n (a &&& b) * bsgn (fun _ => 1) n a b := by
  induction n with
  | zero => simp [cnt]
  | succ n ih =>
    rw [bsgn_succ, bsgn_succ, ih, cnt_succ, Nat.testBit_and]
    cases a.testBit n <;> cases b.testBit n <;> simp [pow_succ] <;> ring

/-- The product of homogeneous functions in a uniform metric, up to a factor that depends only on the place, is the product in the Euclidean metric. -/
theorem geo_uniform (c : ℤ) {n p q : Nat} {f g : Nat → T} (hf : HomF n p f) (hg : HomF n q g) {k : Nat} (hk : k < 2 ^ n) :
    geo (fun _ => c) n f g k = c ^ ((p + q - cnt n k) / 2) • geo (fun _ => 1) n f g k := by
  unfold geo
  rw [smul_sum]
  refine sum_congr rfl fun i hi => ?_
  rw [mem_range] at hi
  by_cases h1 : cnt n i = p
  · by_cases h2 : cnt n (i ^^^ k) = q
    · rw [bsgn_uniform, mul_smul]
      congr 2
      have := cnt_xor n i (i ^^^ k)
      rw [show i ^^^ (i ^^^ k) = k by rw [← Nat.xor_assoc]; simp] at this
      omega
    · rw [hg _ (Nat.xor_lt_two_pow hi hk) h2]; simp
  · rw [hf _ hi h1]; simp

end

set_option linter.unusedSectionVars false

section
variable {A : ClAlg} {S T : Type} [Field T] [LinearOrder T] [IsStrictOrderedRing T] [DecidableEq T] [CoeffStorage S T]
  [LawfulStorage S T] [WedgeProduct A S] [LawfulWedge A S]

theorem wdgs_fn {σ τ : Nat → ℤ} {n : Nat} (l : List (Nat → T)) :
    ∀ i < 2 ^ n, (GA.wdgs (l.map fun f => (GA.of f : GA σ n T))).fn i = (GA.wdgs (l.map fun f => (GA.of f : GA τ n T))).fn i := by
  induction l with
  | nil => intro i hi; show (1 : GA σ n T).fn i = (1 : GA τ n T).fn i; rw [GA.one_def, GA.one_def, GA.fn_of _ hi, GA.fn_of _ hi]
  | cons f l ih =>
    intro i hi
    show (GA.wdg (GA.of f) _).fn i = (GA.wdg (GA.of f) _).fn i
    unfold GA.wdg
    rw [GA.fn_of _ hi, GA.fn_of _ hi]
    exact geo_congr (fun _ _ => rfl) (fun j hj => by rw [GA.fn_of _ hj, GA.fn_of _ hj]) ih hi

theorem wdgs_hom {σ : Nat → ℤ} {n : Nat} (l : List (GA σ n T)) (hl : ∀ v ∈ l, GA.IsVec v) : HomF n l.length (GA.wdgs l).fn := by
  induction l with
  | nil =>
    intro i hi h0
    show (1 : GA σ n T).fn i = 0
    rw [GA.one_def, GA.fn_of _ hi, single, if_neg]
    rintro rfl
    exact h0 (cnt_zero n)
  | cons v l ih =>
    intro i hi h0
    show (GA.wdg v _).fn i = 0
    unfold GA.wdg
    rw [GA.fn_of _ hi]
    exact geo_hom (hl v (by simp)) (ih fun w hw => hl w (by simp [hw])) i hi (by rw [List.length_cons] at h0; omega)

/-- **C63, when all the generators have the same square** (`+`, `-` or `0`). For a blade `b = v1 ∧ … ∧ vk`, `b.dual() * b` and
`b * b.undual()` are pseudoscalars with the sum of the squares of the coefficients of `b` as the coefficient. -/
theorem C63_uniform_partial (hA : A.WF) {c : ℤ} (hc : ∀ i < A.dim, A.sigma i = c) (hS : LawfulStorage.Supp (S := S) (T := T) A.dim)
    (l : List (MV A S)) (hl : ∀ v ∈ l, v.Valid ∧ IsGrade 1 v) :
    ∃ b q, wedgeAll l = .ok b ∧ b.Valid ∧ b.vsdot b = .ok q ∧ 0 ≤ q ∧ (q = 0 ↔ b.isZero = true) ∧
      (do let d ← b.dual; d.naiveMulImpl b) ≈ᵣ (do let I ← blade (2 ^ A.dim - 1); I.smul q) ∧
      (do let d ← b.undual; b.naiveMulImpl d) ≈ᵣ (do let I ← blade (2 ^ A.dim - 1); I.smul q) := by
  have h0 := Nat.two_pow_pos A.dim
  have hm : (2 ^ A.dim - 1 : Nat) < 2 ^ A.dim := by omega
  obtain ⟨b, b1, b2, b3⟩ := (is_wedgeAll hS l fun v hv => (hl v hv).1).ok
  have hvec : ∀ v ∈ l.map MV.ga, GA.IsVec v := vecs_ga hl
  -- the same blade in the Euclidean algebra
  have hl1 : l.map MV.ga = (l.map fun v => v.val).map fun f => (GA.of f : GA A.sigma A.dim T) := by
    rw [List.map_map]; rfl
  have hvec1 : ∀ v ∈ (l.map fun v => v.val).map fun f => (GA.of f : GA (fun _ => 1) A.dim T), GA.IsVec v := by
    intro v hv
    rw [List.map_map, List.mem_map] at hv
    obtain ⟨w, hw, rfl⟩ := hv
    exact GA.isVec_of ((hl w hw).2.hom (hl w hw).1)
  set f := b.val with hf
  have hfE : GA.wdgs ((l.map fun v => v.val).map fun f => (GA.of f : GA (fun _ => 1) A.dim T)) = GA.of f := by
    rw [← GA.of_fn (GA.wdgs _)]
    refine GA.of_congr fun i hi => ?_
    rw [← wdgs_fn (σ := A.sigma) _ i hi, ← hl1, ← b3, ga_val hi]
  have hhom : HomF A.dim l.length f := by
    have := wdgs_hom _ hvec
    rw [← b3, List.length_map] at this
    intro i hi hne
    rw [← this i hi hne, ga_val hi]
  obtain ⟨p, hp, hpf⟩ : ∃ p ≤ A.dim, HomF A.dim p f := by
    rcases Nat.lt_or_ge A.dim l.length with h | h
    · exact ⟨0, Nat.zero_le _, fun i hi _ => hhom i hi (by have := cnt_le A.dim i; omega)⟩
    · exact ⟨_, h, hhom⟩
  have h1 : ∀ i < A.dim, (fun _ => 1 : Nat → ℤ) i = 1 := fun _ _ => rfl
  obtain ⟨ws, w1, -, w3⟩ := GA.wdgs_versor h1 _ hvec1
  rw [hfE] at w3
  have hr := GA.rev_mul_versor ws w1
  have hr' := GA.versor_mul_rev ws w1
  rw [← w3] at hr hr'
  set q := ∑ i ∈ range (2 ^ A.dim), f i * f i with hq
  have hqn : GA.normOf ws = q := by
    have := GA.mag2_plus h1 (GA.of f : GA (fun _ => 1) A.dim T)
    rw [hr, GA.fn_zero_smul_one] at this
    rw [this]
    refine sum_congr rfl fun i hi => ?_
    rw [GA.fn_of _ (mem_range.mp hi), sq]
  rw [hqn] at hr hr'
  have hE : ∀ k < 2 ^ A.dim, geo (fun _ => 1) A.dim (dualF A.dim f) f k = q * single (2 ^ A.dim - 1) 1 k := by
    intro k hk
    have : (GA.of (dualF A.dim f) : GA (fun _ => 1) A.dim T) * GA.of f = q • GA.psc := by
      rw [GA.dual_eq h1, mul_assoc, hr, mul_smul_comm, mul_one]
    rw [← GA.of_mul] at this
    have := congrArg (fun z => z.fn k) this
    simp only [GA.fn_of _ hk] at this
    rw [this, GA.vfn_smul, GA.psc, GA.bl, GA.fn_of _ hk]
  have hE' : ∀ k < 2 ^ A.dim, geo (fun _ => 1) A.dim f (undualF A.dim f) k = q * single (2 ^ A.dim - 1) 1 k := by
    intro k hk
    have : (GA.of f : GA (fun _ => 1) A.dim T) * GA.of (undualF A.dim f) = q • GA.psc := by
      rw [GA.undual_eq h1, ← mul_assoc, hr', smul_mul_assoc, one_mul]
    rw [← GA.of_mul] at this
    have := congrArg (fun z => z.fn k) this
    simp only [GA.fn_of _ hk] at this
    rw [this, GA.vfn_smul, GA.psc, GA.bl, GA.fn_of _ hk]
  have hfull : cnt A.dim (2 ^ A.dim - 1) = A.dim := by
    have hfull := cnt_compl h0
    rwa [Nat.zero_xor, cnt_zero, add_zero] at hfull
  have hpow : ∀ {k p' : Nat}, p' = A.dim → c ^ ((p' - cnt A.dim k) / 2) • (q * single (2 ^ A.dim - 1) (1 : T) k) = q * single (2 ^ A.dim - 1) 1 k := by
    rintro k _ rfl
    unfold single
    split
    · rename_i h
      subst h
      rw [hfull]; simp
    · simp
  have hI : Denotes (do let I ← blade (A := A) (S := S) (2 ^ A.dim - 1); I.smul q) (fun k => q * single (2 ^ A.dim - 1) 1 k) :=
    ((blade_denotes hS hm).smul q).congr fun k _ => mul_comm _ _
  refine ⟨b, q, b1, b2, vsdot_ok b2 b2, sum_nonneg fun i _ => mul_self_nonneg _, ?_, ?_, ?_⟩
  · rw [isZero_iff b2, hq, sum_eq_zero_iff_of_nonneg fun i _ => mul_self_nonneg _]
    exact ⟨fun h i hi => mul_self_eq_zero.mp (h i (mem_range.mpr hi)), fun h i hi => by
      show b.val i * b.val i = 0
      rw [h i (mem_range.mp hi), mul_zero]⟩
  · refine Agree.of_denotes ((dual_denotes hA b2).mul hA (.of_valid b2)) hI fun k hk => ?_
    rw [geo_congr hc (fun _ _ => rfl) (fun _ _ => rfl) hk]
    show geo (fun _ => c) A.dim (dualF A.dim f) f k = _
    rw [geo_uniform c (hpf.dual hp) hpf hk, hE k hk, hpow (by omega)]
  · refine Agree.of_denotes ((undual_denotes hA b2).bind fun u hu huf => (mul_denotes hA b2 hu).congr fun k hk =>
      geo_congr (fun _ _ => rfl) (fun _ _ => rfl) huf hk) hI fun k hk => ?_
    rw [geo_congr hc (fun _ _ => rfl) (fun _ _ => rfl) hk]
    show geo (fun _ => c) A.dim f (undualF A.dim f) k = _
    rw [geo_uniform c hpf (hpf.undual hp) hk, hE' k hk, hpow (by omega)]


theorem dualF_single (n a t : Nat) :
    dualF n (single a (1 : T)) t = single (a ^^^ (2 ^ n - 1)) (bsgn (fun _ => 0) n (a ^^^ (2 ^ n - 1)) a • (1 : T)) t := by
  unfold dualF single
  by_cases h : t = a ^^^ (2 ^ n - 1)
  · subst h
    rw [if_pos rfl, xor_mask_xor_mask, if_pos rfl]
  · rw [if_neg h, if_neg, smul_zero]
    intro h'
    exact h (by rw [← h', xor_mask_xor_mask])

/-- The coefficient of `(e_i + e_j).dual() * (e_i + e_j)` at the complement of `e_i` and `e_j`. -/
theorem dual_pair (σ : Nat → ℤ) {n i j : Nat} (hi : i < n) (hj : j < n) (h : i ≠ j) :
    ∃ γ : ℤ, γ * γ = 1 ∧ geo σ n (dualF n fun t => single (2 ^ i) 1 t + single (2 ^ j) 1 t) (fun t => single (2 ^ i) (1 : T) t + single (2 ^ j) 1 t)
      (2 ^ i ^^^ (2 ^ j ^^^ (2 ^ n - 1))) = ((γ * (σ i - σ j) : ℤ) : T) := by
  have hm : (2 ^ n - 1 : Nat) < 2 ^ n := by have := Nat.two_pow_pos n; omega
  have ha : 2 ^ i < 2 ^ n := Nat.pow_lt_pow_right (by omega) hi
  have hb : 2 ^ j < 2 ^ n := Nat.pow_lt_pow_right (by omega) hj
  have hij : 2 ^ i ≠ 2 ^ j := fun e => h (Nat.pow_right_injective le_rfl e)
  have side : ∀ {i j : Nat}, i < n → j < n → i ≠ j →
      bsgn σ n (2 ^ i ^^^ (2 ^ n - 1)) (2 ^ j) * bsgn (fun _ => 0) n (2 ^ i ^^^ (2 ^ n - 1)) (2 ^ i) =
        σ j * (bsgn (fun _ => 1) n (2 ^ i ^^^ (2 ^ j ^^^ (2 ^ n - 1))) (2 ^ i ^^^ 2 ^ j) * bsgn (fun _ => 1) n (2 ^ j) (2 ^ i)) := by
    intro i j hi hj h
    set k := 2 ^ i ^^^ (2 ^ j ^^^ (2 ^ n - 1)) with hk
    have hkb : k ^^^ 2 ^ j = 2 ^ i ^^^ (2 ^ n - 1) := by
      rw [hk, Nat.xor_assoc, Nat.xor_comm (2 ^ j) (2 ^ n - 1), Nat.xor_assoc, Nat.xor_self, Nat.xor_zero]
    have d1 : ∀ t < n, (k.testBit t && (2 ^ j).testBit t) = false := by
      intro t ht
      rw [hk, Nat.testBit_xor, Nat.testBit_xor, Nat.testBit_two_pow_sub_one, Nat.testBit_two_pow, Nat.testBit_two_pow]
      by_cases e : j = t
      · subst e; simp [ht, h]
      · simp [e]
    have d2 : ∀ t < n, ((2 ^ i ^^^ (2 ^ n - 1)).testBit t && (2 ^ i).testBit t) = false := by
      intro t ht
      rw [Nat.testBit_xor, Nat.testBit_two_pow_sub_one, Nat.testBit_two_pow]
      by_cases e : i = t
      · simp [ht, e]
      · simp [e]
    have c1 := bsgn_cocycle σ n k (2 ^ j) (2 ^ j)
    rw [Nat.xor_self, bsgn_zero_right, one_mul, bsgn_two_pow_eq σ hj, hkb, bsgn_disjoint σ (fun _ => 1) d1] at c1
    have c2 := bsgn_cocycle (fun _ => 1) n k (2 ^ j) (2 ^ i)
    rw [hkb, Nat.xor_comm (2 ^ j)] at c2
    have hs := bsgn_plus_sq n k (2 ^ j)
    rw [bsgn_disjoint (fun _ => 0) (fun _ => 1) d2, ← c2, ← c1]
    linear_combination -(bsgn σ n (2 ^ i ^^^ (2 ^ n - 1)) (2 ^ j) * bsgn (fun _ => 1) n (2 ^ i ^^^ (2 ^ n - 1)) (2 ^ i)) * hs
  set a := 2 ^ i with haa
  set b := 2 ^ j with hbb
  set m := 2 ^ n - 1 with hmm
  have x1 : a ^^^ m ^^^ b = a ^^^ (b ^^^ m) := by rw [Nat.xor_assoc, Nat.xor_comm m]
  have x2 : b ^^^ m ^^^ a = a ^^^ (b ^^^ m) := by rw [Nat.xor_comm]
  have x3 : a ^^^ m ^^^ a = m := by rw [Nat.xor_comm a, Nat.xor_assoc, Nat.xor_self, Nat.xor_zero]
  have x4 : b ^^^ m ^^^ b = m := by rw [Nat.xor_comm b, Nat.xor_assoc, Nat.xor_self, Nat.xor_zero]
  have hne : a ^^^ (b ^^^ m) ≠ m := by
    intro e
    have e2 : a ^^^ b = 0 := by
      have := congrArg (fun z => z ^^^ m) e
      simpa only [Nat.xor_assoc, Nat.xor_self, Nat.xor_zero] using this
    exact hij (Nat.xor_eq_zero_iff.mp e2)
  have s1 := side hi hj h
  have s2 := side hj hi (Ne.symm h)
  rw [← haa, ← hbb] at s1 s2
  have x5 : b ^^^ (a ^^^ m) = a ^^^ (b ^^^ m) := by rw [← Nat.xor_assoc, Nat.xor_comm b a, Nat.xor_assoc]
  rw [x5, Nat.xor_comm b a] at s2
  have hβ : bsgn (fun _ => 1) n b a = -bsgn (fun _ => 1) n a b := by
    rw [haa, hbb, bsgn_two_pow_ne _ hj hi (Ne.symm h), bsgn_two_pow_ne _ hi hj h]
    rcases Nat.lt_or_gt_of_ne h with h' | h'
    · rw [if_neg (by omega), if_pos h']; rfl
    · rw [if_pos h', if_neg (by omega)]
  refine ⟨bsgn (fun _ => 1) n (a ^^^ (b ^^^ m)) (a ^^^ b) * bsgn (fun _ => 1) n a b, ?_, ?_⟩
  · have h1 := bsgn_plus_sq n (a ^^^ (b ^^^ m)) (a ^^^ b)
    have h2 := bsgn_plus_sq n a b
    linear_combination bsgn (fun _ => 1) n a b * bsgn (fun _ => 1) n a b * h1 + h2
  · have hd : (dualF n fun t => single a 1 t + single b 1 t) = fun t => single (a ^^^ m) (bsgn (fun _ => 0) n (a ^^^ m) a • (1 : T)) t +
        single (b ^^^ m) (bsgn (fun _ => 0) n (b ^^^ m) b • (1 : T)) t := by
      funext t
      rw [dualF_add, dualF_single, dualF_single]
    have hka := xor_mask_lt ha
    have hkb := xor_mask_lt hb
    rw [← hmm] at hka hkb
    rw [hd, geo_add_left, geo_add_right, geo_add_right, geo_single_single σ hka, geo_single_single σ hka, geo_single_single σ hkb,
      geo_single_single σ hkb, x1, x2, x3, x4]
    unfold single
    rw [if_neg hne, if_neg hne, if_pos rfl, if_pos rfl, zero_add, add_zero, mul_one, mul_one, smul_smul, smul_smul, s1, s2, hβ, ← add_smul,
      zsmul_one]
    congr 1
    ring

/-- **C63, exactly when.** Over an ordered field, `b.dual() * b` is a pseudoscalar for all blades `b = v1 ∧ … ∧ vk` of an algebra if and only
if all its generators have the same square. -/
theorem C63_iff (hA : A.WF) (hS : LawfulStorage.Supp (S := S) (T := T) A.dim) :
    (∀ l : List (MV A S), (∀ v ∈ l, v.Valid ∧ IsGrade 1 v) →
      ∃ b p, wedgeAll l = .ok b ∧ (do let d ← b.dual; d.naiveMulImpl b) = .ok p ∧ IsGrade A.dim p) ↔
    ∀ x ∈ A.signature, ∀ y ∈ A.signature, x = y := by
  rw [signature_eq hA]
  have hcm : ∀ i < 2 ^ A.dim, countOnes i ≠ A.dim → i ≠ 2 ^ A.dim - 1 := by
    rintro i hi hc rfl
    have hfull := cnt_compl (Nat.two_pow_pos A.dim)
    rw [Nat.zero_xor, cnt_zero, add_zero] at hfull
    exact hc (by rw [countOnes_eq_cnt hi, hfull])
  have hm : (2 ^ A.dim - 1 : Nat) < 2 ^ A.dim := by have := Nat.two_pow_pos A.dim; omega
  constructor
  · intro H x hx y hy
    obtain ⟨i, hi, rfl⟩ := List.mem_map.mp hx
    obtain ⟨j, hj, rfl⟩ := List.mem_map.mp hy
    rw [List.mem_range] at hi hj
    by_contra hne
    have hij : i ≠ j := fun e => hne (by rw [e])
    obtain ⟨u, u1, u2, u3⟩ := basisVec_denotes (A := A) (S := S) (T := T) hS hi
    obtain ⟨w, w1, w2, w3⟩ := basisVec_denotes (A := A) (S := S) (T := T) hS hj
    obtain ⟨v, v1, v2, v3'⟩ := add_denotes u2 w2
    have v3 : ∀ t < 2 ^ A.dim, v.val t = u.val t + w.val t := v3'
    have hv : GA.IsVec v.ga := by
      have : v.ga = GA.e i + GA.e j := by
        rw [← GA.of_fn (GA.e i + GA.e j)]
        refine GA.of_congr fun t ht => ?_
        rw [v3 t ht, u3 t ht, w3 t ht, GA.vfn_add, GA.e, GA.e, GA.fn_of _ ht, GA.fn_of _ ht]
      rw [this]
      exact (GA.isVec_e hi).add (GA.isVec_e hj)
    obtain ⟨b, p, b1, p1, p2⟩ := H [v] (by
      intro z hz
      rw [List.mem_singleton] at hz
      subst hz
      exact ⟨v2, isGrade_of_isVec v2 hv⟩)
    obtain ⟨b', b1', b2', b3'⟩ := (is_wedgeAll hS [v] (by simpa using v2)).ok
    rw [b1] at b1'
    injection b1' with e
    subst e
    have hbv : ∀ t < 2 ^ A.dim, b.val t = single (2 ^ i) 1 t + single (2 ^ j) 1 t := by
      intro t ht
      rw [← ga_val ht, b3']
      show (GA.wdg v.ga 1).fn t = _
      unfold GA.wdg
      rw [GA.fn_of _ ht, GA.one_def]
      rw [geo_congr (fun _ _ => rfl) (fun _ _ => rfl) (fun _ h => GA.fn_of _ h) ht, geo_one_right _ _ _ ht, ga_val ht, v3 t ht, u3 t ht, w3 t ht]
    obtain ⟨q, q1, q2, q3⟩ := (dual_denotes hA b2').mul hA (.of_valid b2')
    replace q1 : (do let d ← b.dual; d.naiveMulImpl b) = .ok q := q1
    rw [p1] at q1
    injection q1 with e
    subst e
    obtain ⟨γ, g1, g2⟩ := dual_pair (T := T) A.sigma hi hj hij
    set k := 2 ^ i ^^^ (2 ^ j ^^^ (2 ^ A.dim - 1)) with hkdef
    have ha : 2 ^ i < 2 ^ A.dim := Nat.pow_lt_pow_right (by omega) hi
    have hb : 2 ^ j < 2 ^ A.dim := Nat.pow_lt_pow_right (by omega) hj
    have hk : k < 2 ^ A.dim := Nat.xor_lt_two_pow ha (xor_mask_lt hb)
    have hcnt : countOnes k ≠ A.dim := by
      rw [countOnes_eq_cnt hk]
      have h1 := cnt_compl hk
      have h2 : k ^^^ (2 ^ A.dim - 1) = 2 ^ i ^^^ 2 ^ j := by
        rw [hkdef, Nat.xor_assoc, Nat.xor_assoc, Nat.xor_self, Nat.xor_zero]
      have h3 := cnt_xor A.dim (2 ^ i) (2 ^ j)
      rw [Nat.two_pow_and, Nat.testBit_two_pow, decide_eq_false (Ne.symm hij), Bool.toNat_false, mul_zero, cnt_zero, cnt_two_pow hi, cnt_two_pow hj] at h3
      rw [h2] at h1
      omega
    have := p2 k hk hcnt
    have hgeo : geo A.sigma A.dim (dualF A.dim b.val) b.val k = ((γ * (A.sigma i - A.sigma j) : ℤ) : T) := by
      rw [← g2]
      exact geo_congr (fun _ _ => rfl) (fun t ht => by unfold dualF; rw [hbv _ (xor_mask_lt ht)]) hbv hk
    rw [q2.get hk, q3 k hk] at this
    injection this with this
    rw [show geo A.sigma A.dim (dualF A.dim b.val) b.val k = 0 from this] at hgeo
    replace this := hgeo.symm
    rw [Int.cast_eq_zero, mul_eq_zero] at this
    rcases this with h | h
    · rw [h] at g1; exact absurd g1 (by norm_num)
    · exact hne (by omega)
  · intro H l hl
    obtain ⟨b, q, b1, b2, -, -, -, b3, -⟩ := C63_uniform_partial hA (c := A.sigma 0) (fun i hi => H _ (List.mem_map.mpr ⟨i, List.mem_range.mpr hi, rfl⟩) _
      (List.mem_map.mpr ⟨0, List.mem_range.mpr (by omega), rfl⟩)) hS l hl
    obtain ⟨p, w, p1, w1, p2, w2, pw⟩ := b3
    refine ⟨b, p, b1, p1, fun i hi hc => ?_⟩
    obtain ⟨w', w1', -, w3'⟩ := (blade_denotes (A := A) (S := S) (T := T) hS hm).smul q
    rw [w1] at w1'
    injection w1' with e
    subst e
    rw [p2.get hi, (beq_iff p2 w2).mp pw i hi, w3' i hi]
    show Except.ok (single _ (1 : T) i * q) = _
    rw [single, if_neg (hcm i hi hc), zero_mul]

end

namespace Ex

/-- The negative definite algebra with three generators. -/
def N3 : ClAlg := (declareAlgebra [.minus, .minus, .minus] []).get rfl
theorem N3_wf : N3.WF := declareAlgebra_wf (rfl : declareAlgebra [.minus, .minus, .minus] [] = some N3)
def nU : MV N3 (ArrayStorage ℚ) := ⟨⟨3, ⟨8, fun i => if countOnes i = 1 then i + 1 else 0⟩⟩⟩
def nV : MV N3 (ArrayStorage ℚ) := ⟨⟨3, ⟨8, fun i => if countOnes i = 1 then 2 * i - 5 else 0⟩⟩⟩

theorem nU_valid : nU.Valid := ⟨by decide, rfl, rfl⟩
theorem nV_valid : nV.Valid := ⟨by decide, rfl, rfl⟩

theorem nU_grade : IsGrade 1 nU := by
  intro i hi hne
  rw [nU_valid.get hi, MV.arr_val nU_valid hi]
  show Except.ok (if countOnes i = 1 then (i : ℚ) + 1 else 0) = _
  rw [if_neg hne]

theorem nV_grade : IsGrade 1 nV := by
  intro i hi hne
  rw [nV_valid.get hi, MV.arr_val nV_valid hi]
  show Except.ok (if countOnes i = 1 then 2 * (i : ℚ) - 5 else 0) = _
  rw [if_neg hne]

theorem ns : ∀ v ∈ [nU, nV], v.Valid ∧ IsGrade 1 v := by
  intro v hv
  simp only [List.mem_cons, List.not_mem_nil, or_false] at hv
  rcases hv with rfl | rfl
  exacts [⟨nU_valid, nU_grade⟩, ⟨nV_valid, nV_grade⟩]

theorem N3_supp : LawfulStorage.Supp (S := ArrayStorage ℚ) (T := ℚ) N3.dim := by show (3 : Nat) ≤ 63; omega

end Ex

example := C87_dual_dual Ex.N3_wf Ex.nU_valid
example := C87_metric_dual Ex.N3_wf Ex.nU_valid Ex.nV_valid
example := C87_rotated_dual Ex.E_wf (by decide) (by decide) (by decide) Ex.wU_valid Ex.wV_valid
example := C87_hodge_odd Ex.N3_wf (by decide) Ex.nU_valid Ex.nV_valid
example := C63_uniform_partial (c := -1) Ex.N3_wf (by decide) Ex.N3_supp [Ex.nU, Ex.nV] Ex.ns
/-- The wedge of the two vectors is not zero, and the product with its dual is `686 I`. -/
example : (do let w ← Ex.nU.wedge Ex.nV; let d ← w.dual; let p ← d.naiveMulImpl w; p.getByIdx 7) = .ok (686 : ℚ) := by decide +kernel
example := (C63_iff (S := ArrayStorage ℚ) Ex.N3_wf Ex.N3_supp).mpr (by decide)
/-- and it fails in `[+,-]`, for some blade -/
example := (C63_iff (S := ArrayStorage ℚ) (A := Ex.Pm) (declareAlgebra_wf (rfl : declareAlgebra [.plus, .minus] [] = some Ex.Pm))
  (by show (2 : Nat) ≤ 63; omega)).not.mpr (by decide)

end TClifford
