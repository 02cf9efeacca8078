import Verif.Proofs.Sandwich
import Verif.Props.Dual
import Verif.Props.Examples
/-
C90: the multivectors that commute with every multivector, for every signature.
-/

set_option linter.unusedSectionVars false

namespace TClifford

open MV Finset

/-- The sign with which the blade `K` moves past the generator `p`. -/
theorem bsgn_e_comm (σ : Nat → ℤ) {n p K : Nat} (hp : p < n) :
    bsgn σ n (2 ^ p) K = (sg (par n K) * (if K.testBit p then -1 else 1)) * bsgn σ n K (2 ^ p) := by
  have hc := cnt_two_pow hp
  have hsq : ∀ b : Bool, sg b * sg b = 1 := by intro b; cases b <;> rfl
  by_cases hb : K.testBit p = true
  · have hd : ¬ ∀ i < n, ((2 ^ p).testBit i && K.testBit i) = false := fun h => by
      have := h p hp
      rw [Nat.testBit_two_pow_self, hb] at this
      simp at this
    have := bsgn_vec_mem σ hc hd
    rw [if_pos hb]
    linarith
  · have hd : ∀ i < n, ((2 ^ p).testBit i && K.testBit i) = false := fun i _ => by
      by_cases hi : i = p
      · subst hi; rw [Bool.not_eq_true] at hb; rw [hb]; simp
      · rw [Nat.testBit_two_pow_of_ne (by omega)]; rfl
    have := bsgn_vec_disjoint σ hc hd
    rw [if_neg hb, ← this]
    ring

theorem bprod_two_pow (σ : Nat → ℤ) {n p : Nat} (hp : p < n) : bprod σ n (2 ^ p) = σ p := by
  induction n with
  | zero => omega
  | succ n ih =>
    rw [bprod_succ]
    by_cases h : p = n
    · subst h
      rw [bprod_congr (l' := σ) (b := 0) (fun _ _ => rfl)
        (fun i hi => by rw [Nat.testBit_two_pow_of_ne (by omega)]; simp), bprod_zero, Nat.testBit_two_pow_self]
      simp
    · rw [ih (by omega), Nat.testBit_two_pow_of_ne h]
      simp

/-- The blade `K` and the generator `p` have a non-zero product unless `p` is a null generator of `K`. -/
theorem bsgn_e_sq (σ : Nat → ℤ) {n p K : Nat} (hp : p < n) :
    bsgn σ n K (2 ^ p) * bsgn σ n K (2 ^ p) = if K.testBit p then σ p * σ p else 1 := by
  rw [bsgn_split, show ∀ a b : ℤ, a * b * (a * b) = a * a * (b * b) from fun a b => by ring, bsgn_plus_sq, one_mul]
  by_cases hb : K.testBit p = true
  · rw [if_pos hb, show K &&& 2 ^ p = 2 ^ p from ?_, bprod_two_pow σ hp]
    refine Nat.eq_of_testBit_eq fun i => ?_
    rw [Nat.testBit_and]
    by_cases hi : p = i
    · subst hi; rw [hb]; simp
    · rw [Nat.testBit_two_pow_of_ne hi]; simp
  · rw [if_neg hb, show K &&& 2 ^ p = 0 from ?_, bprod_zero, one_mul]
    refine Nat.eq_of_testBit_eq fun i => ?_
    rw [Nat.testBit_and]
    by_cases hi : p = i
    · subst hi; rw [Bool.not_eq_true] at hb; rw [hb]; simp
    · rw [Nat.testBit_two_pow_of_ne hi]; simp

/-- Disjoint blades commute up to the product of their parities. -/
theorem bsgn_comm_disjoint (σ : Nat → ℤ) {n a b : Nat} (h : ∀ i < n, (a.testBit i && b.testBit i) = false) :
    bsgn σ n a b = sg (par n a && par n b) * bsgn σ n b a := by
  induction n with
  | zero => simp [par, sg]
  | succ n ih =>
    have ih := ih fun i hi => h i (by omega)
    have hn := h n (by omega)
    simp only [bsgn_succ, par_succ, ih]
    revert hn
    cases a.testBit n <;> cases b.testBit n <;> cases par n a <;> cases par n b <;> simp [sg]

theorem bprod_zero_of_mem (σ : Nat → ℤ) {n p c : Nat} (hp : p < n) (hc : c.testBit p = true) (h0 : σ p = 0) : bprod σ n c = 0 := by
  induction n with
  | zero => omega
  | succ n ih =>
    rw [bprod_succ]
    by_cases h : p = n
    · subst h; rw [hc, h0]; simp
    · rw [ih (by omega), zero_mul]

/-- An even blade of null generators commutes with every blade. -/
theorem bsgn_null_comm (σ : Nat → ℤ) {n K : Nat} (hpar : par n K = false) (h0 : ∀ p < n, K.testBit p = true → σ p = 0) (j : Nat) :
    bsgn σ n K j = bsgn σ n j K := by
  by_cases h : ∀ i < n, (K.testBit i && j.testBit i) = false
  · rw [bsgn_comm_disjoint σ h, hpar]; simp [sg]
  · push Not at h
    obtain ⟨p, hp, hb⟩ := h
    rw [Bool.ne_false_iff, Bool.and_eq_true] at hb
    rw [bsgn_split, bsgn_split σ n j K, bprod_zero_of_mem σ hp (by rw [Nat.testBit_and, hb.1, hb.2]; rfl) (h0 p hp hb.1),
      bprod_zero_of_mem σ hp (by rw [Nat.testBit_and, hb.1, hb.2]; rfl) (h0 p hp hb.1), mul_zero, mul_zero]

/-- A blade of null generators moves past `j` with the parity of the other when both are odd. -/
theorem bsgn_null_twist (σ : Nat → ℤ) {n K : Nat} (h0 : ∀ p < n, K.testBit p = true → σ p = 0) (j : Nat) :
    bsgn σ n K j = sg (par n K && par n j) * bsgn σ n j K := by
  by_cases h : ∀ i < n, (K.testBit i && j.testBit i) = false
  · exact bsgn_comm_disjoint σ h
  · push Not at h
    obtain ⟨p, hp, hb⟩ := h
    rw [Bool.ne_false_iff, Bool.and_eq_true] at hb
    rw [bsgn_split, bsgn_split σ n j K, bprod_zero_of_mem σ hp (by rw [Nat.testBit_and, hb.1, hb.2]; rfl) (h0 p hp hb.1),
      bprod_zero_of_mem σ hp (by rw [Nat.testBit_and, hb.1, hb.2]; rfl) (h0 p hp hb.1), mul_zero, mul_zero, mul_zero]

theorem geo_swap {T : Type} [CommRing T] (σ : Nat → ℤ) (n : Nat) (f g : Nat → T) {k : Nat} (hk : k < 2 ^ n) :
    geo σ n g f k = ∑ i ∈ range (2 ^ n), bsgn σ n (i ^^^ k) i • (f i * g (i ^^^ k)) := by
  unfold geo
  rw [← sum_xor hk]
  refine sum_congr rfl fun i _ => ?_
  rw [Nat.xor_assoc, Nat.xor_self, Nat.xor_zero, mul_comm]

theorem sg_cases (b : Bool) : sg b = 1 ∨ sg b = -1 := by cases b <;> simp [sg]

section
variable {T : Type} [CommRing T]

/-- If `f` commutes with the generator `p` up to the sign `s` of each blade, the blades on which the signs differ vanish. -/
theorem coef_zero_of_twist (h2 : ∀ t : T, t + t = 0 → t = 0) (σ : Nat → ℤ) (hσ : ∀ i, σ i = 1 ∨ σ i = -1 ∨ σ i = 0) {n p K : Nat} (hp : p < n)
    (hK : K < 2 ^ n) (f : Nat → T) {s : Nat → ℤ} (hs : s K = 1 ∨ s K = -1)
    (h : geo σ n (single (2 ^ p) 1) f (2 ^ p ^^^ K) = geo σ n (fun i => s i • f i) (single (2 ^ p) 1) (2 ^ p ^^^ K)) (hf : f K ≠ 0) :
    (K.testBit p = true → σ p ≠ 0 → s K = -sg (par n K)) ∧ (K.testBit p = false → s K = sg (par n K)) := by
  have h2p : (2 ^ p : Nat) < 2 ^ n := Nat.pow_lt_pow_right (by norm_num) hp
  rw [geo_single_left σ h2p, geo_single_right σ h2p _ _ (Nat.xor_lt_two_pow h2p hK), ← Nat.xor_assoc, Nat.xor_self, Nat.zero_xor, one_mul, mul_one, smul_smul,
    bsgn_e_comm σ hp] at h
  have hsq := bsgn_e_sq σ hp (K := K)
  generalize bsgn σ n K (2 ^ p) = B at h hsq
  have key : ∀ t : ℤ, (t = 1 ∨ t = -1) → B * B = 1 → (t * B) • f K = (B * s K) • f K → s K = t := by
    intro t ht hB he
    by_contra hne
    have hst : s K = -t := by
      rcases ht with ht | ht <;> rcases hs with hs | hs <;> rw [hs, ht] at hne ⊢ <;> first | rfl | exact absurd rfl hne
    rw [hst] at he
    refine hf (h2 _ ?_)
    have h3 : ((t * B) * (t * B)) • f K = ((t * B) * (B * -t)) • f K := by rw [mul_smul, he, ← mul_smul]
    have htt : t * t = 1 := by rcases ht with rfl | rfl <;> norm_num
    rw [show (t * B) * (t * B) = (t * t) * (B * B) by ring, show (t * B) * (B * -t) = -((t * t) * (B * B)) by ring, htt, hB] at h3
    simp only [mul_one, one_smul, neg_smul] at h3
    exact eq_neg_iff_add_eq_zero.mp h3
  constructor
  · intro hb h0
    rw [if_pos hb] at h hsq
    refine key _ ?_ ?_ (by simpa using h)
    · rcases sg_cases (par n K) with h | h <;> rw [h] <;> norm_num
    · rcases hσ p with h' | h' | h'
      · rw [hsq, h']; rfl
      · rw [hsq, h']; rfl
      · exact absurd h' h0
  · intro hb
    rw [if_neg (by simp [hb])] at h hsq
    exact key _ (sg_cases _) hsq (by simpa using h)

end

/-- A central blade: even and made of null generators only, or the pseudoscalar of an odd number of generators. -/
def CentralBlade (A : ClAlg) (K : Nat) : Prop :=
  (countOnes K % 2 = 0 ∧ K &&& A.projMask = K) ∨ (A.dim % 2 = 1 ∧ K = 2 ^ A.dim - 1)

section
variable {A : ClAlg} {S T : Type} [CommRing T] [DecidableEq T] [CoeffStorage S T] [LawfulStorage S T]

theorem sub_projMask_iff (hA : A.WF) {K : Nat} (hK : K < 2 ^ A.dim) :
    K &&& A.projMask = K ↔ ∀ p < A.dim, K.testBit p = true → A.sigma p = 0 := by
  constructor
  · intro h p hp hb
    have := congrArg (·.testBit p) h
    simp only [Nat.testBit_and, hb, Bool.true_and, hA.testBit_proj, Bool.and_eq_true, decide_eq_true_eq] at this
    exact hA.sigma_null this.1 hp
  · intro h
    refine Nat.eq_of_testBit_eq fun i => ?_
    rw [Nat.testBit_and]
    by_cases hb : K.testBit i = true
    · have hi : i < A.dim := by
        by_contra hi
        rw [Nat.testBit_lt_two_pow (lt_of_lt_of_le hK (Nat.pow_le_pow_right (by norm_num) (by omega)))] at hb
        exact absurd hb (by simp)
      rw [hb, hA.testBit_proj, decide_eq_true hi, Bool.true_and, Bool.and_true, decide_eq_true]
      by_contra hn
      have h0 := h i hi hb
      rw [hA.sigma_nonnull (by omega)] at h0
      split at h0 <;> omega
    · rw [Bool.not_eq_true] at hb
      rw [hb]; rfl

theorem denotes_agree_iff {x y : Res (MV A S)} {f g : Nat → T} (hx : Denotes x f) (hy : Denotes y g) :
    x ≈ᵣ y ↔ ∀ k < 2 ^ A.dim, f k = g k := by
  refine ⟨?_, Agree.of_denotes hx hy⟩
  rintro ⟨u, v, rfl, rfl, hu, hv, hb⟩ k hk
  obtain ⟨u', hu', -, huf⟩ := hx
  obtain ⟨v', hv', -, hvf⟩ := hy
  injection hu' with hu'
  injection hv' with hv'
  subst hu' hv'
  rw [← huf k hk, ← hvf k hk]
  exact (beq_iff hu hv).mp hb k hk

/-- Products with the basis vectors on both sides determine the products of the coefficient functions. -/
theorem agree_e_iff (hA : A.WF) {a a' : MV A S} (ha : a.Valid) (ha' : a'.Valid) {p : Nat} (hp : p < A.dim) :
    (do let v ← blade (A := A) (S := S) (2 ^ p); v.naiveMulImpl a) ≈ᵣ (do let v ← blade (2 ^ p); a'.naiveMulImpl v) ↔
      ∀ k < 2 ^ A.dim, geo A.sigma A.dim (single (2 ^ p) 1) a.val k = geo A.sigma A.dim a'.val (single (2 ^ p) 1) k := by
  have h2p : (2 ^ p : Nat) < 2 ^ A.dim := Nat.pow_lt_pow_right (by norm_num) hp
  have hv : Denotes (blade (A := A) (S := S) (2 ^ p)) (single (2 ^ p) (1 : T)) := blade_denotes ha.supp h2p
  have hl := hv.mul hA (Denotes.of_valid ha)
  have hr : Denotes (do let v ← blade (A := A) (S := S) (2 ^ p); a'.naiveMulImpl v) (geo A.sigma A.dim a'.val (single (2 ^ p) 1)) :=
    hv.bind fun v hvv hvf => (mul_denotes hA ha' hvv).congr fun k hk => geo_congr (fun _ _ => rfl) (fun _ _ => rfl) hvf hk
  exact denotes_agree_iff hl hr

theorem central_of_generators (hA : A.WF) (h2 : ∀ t : T, t + t = 0 → t = 0) {f : Nat → T}
    (h : ∀ p < A.dim, ∀ k < 2 ^ A.dim, geo A.sigma A.dim (single (2 ^ p) 1) f k = geo A.sigma A.dim f (single (2 ^ p) 1) k)
    {K : Nat} (hK : K < 2 ^ A.dim) (hf : f K ≠ 0) : CentralBlade A K := by
  have key : ∀ p < A.dim, _ := fun p hp => coef_zero_of_twist h2 A.sigma A.sigma_cases hp hK f (s := fun _ => 1) (Or.inl rfl)
    (by simpa using h p hp _ (Nat.xor_lt_two_pow (Nat.pow_lt_pow_right (by norm_num) hp) hK)) hf
  by_cases hpar : par A.dim K = true
  · right
    have hall : ∀ p < A.dim, K.testBit p = true := fun p hp => by
      by_contra hb
      have := (key p hp).2 (by simpa using hb)
      rw [hpar] at this
      simp [sg] at this
    have hKe : K = 2 ^ A.dim - 1 := by
      refine Nat.eq_of_testBit_eq fun i => ?_
      rw [Nat.testBit_two_pow_sub_one]
      by_cases hi : i < A.dim
      · rw [hall i hi, decide_eq_true hi]
      · rw [decide_eq_false hi, Nat.testBit_lt_two_pow (lt_of_lt_of_le hK (Nat.pow_le_pow_right (by norm_num) (by omega)))]
    refine ⟨?_, hKe⟩
    have hfull := cnt_compl (Nat.two_pow_pos A.dim)
    rw [Nat.zero_xor, cnt_zero, add_zero] at hfull
    rw [hKe, par_eq, hfull] at hpar
    simpa using hpar
  · left
    rw [Bool.not_eq_true] at hpar
    refine ⟨?_, (sub_projMask_iff hA hK).mpr fun p hp hb => ?_⟩
    · rw [par_eq] at hpar
      rw [countOnes_eq_cnt hK]
      simp at hpar
      omega
    · by_contra h0
      have := (key p hp).1 hb h0
      rw [hpar] at this
      simp [sg] at this

theorem comm_of_central (hA : A.WF) {f : Nat → T} (h : ∀ K < 2 ^ A.dim, f K ≠ 0 → CentralBlade A K) (g : Nat → T) {k : Nat}
    (hk : k < 2 ^ A.dim) : geo A.sigma A.dim f g k = geo A.sigma A.dim g f k := by
  rw [geo_swap _ _ f g hk]
  refine sum_congr rfl fun i hi => ?_
  have hi := mem_range.mp hi
  by_cases hf : f i = 0
  · rw [hf, zero_mul, smul_zero, smul_zero]
  · congr 1
    rcases h i hi hf with ⟨hp, hm⟩ | ⟨hn, rfl⟩
    · refine bsgn_null_comm _ ?_ ((sub_projMask_iff hA hi).mp hm) _
      rw [countOnes_eq_cnt hi] at hp
      rw [par_eq]
      simp [hp]
    · rw [ps_sign _ (Nat.xor_lt_two_pow hi hk), if_pos hn, one_mul]

/-- **C90.** The center: a multivector commutes with every multivector iff all of its non-zero coefficients belong to even blades
made of null generators, or to the pseudoscalar when the number of generators is odd. -/
theorem C90_center (hA : A.WF) (h2 : ∀ t : T, t + t = 0 → t = 0) {a : MV A S} (ha : a.Valid) :
    (∀ b : MV A S, b.Valid → a.naiveMulImpl b ≈ᵣ b.naiveMulImpl a) ↔ ∀ K < 2 ^ A.dim, a.val K ≠ 0 → CentralBlade A K := by
  constructor
  · intro h K hK hne
    refine central_of_generators hA h2 (fun p hp => ?_) hK hne
    obtain ⟨v, hv, hvv, hvf⟩ := blade_denotes (A := A) (S := S) (T := T) ha.supp (Nat.pow_lt_pow_right (by norm_num) hp : 2 ^ p < 2 ^ A.dim)
    refine (agree_e_iff hA ha ha hp).mp ?_
    rw [hv]
    exact (h v hvv).symm
  · intro h b hb
    exact Agree.of_denotes (mul_denotes hA ha hb) (mul_denotes hA hb ha) fun k hk => comm_of_central hA h b.val hk

/-- **C90.** It is enough to commute with the basis vectors. -/
theorem C90_generators (hA : A.WF) (h2 : ∀ t : T, t + t = 0 → t = 0) {a : MV A S} (ha : a.Valid)
    (h : ∀ p < A.dim, (do let v ← blade (2 ^ p); v.naiveMulImpl a) ≈ᵣ (do let v ← blade (2 ^ p); a.naiveMulImpl v))
    {b : MV A S} (hb : b.Valid) : a.naiveMulImpl b ≈ᵣ b.naiveMulImpl a :=
  (C90_center hA h2 ha).mpr (fun _ hK hne => central_of_generators hA h2 (fun p hp => (agree_e_iff hA ha ha hp).mp (h p hp)) hK hne) b hb

/-- **C90.** The multivectors with `v * a == a.flip() * v` for every basis vector `v` are those made of null generators. -/
theorem C90_twisted (hA : A.WF) (h2 : ∀ t : T, t + t = 0 → t = 0) {a : MV A S} (ha : a.Valid) :
    (∀ p < A.dim, (do let v ← blade (2 ^ p); v.naiveMulImpl a) ≈ᵣ (do let v ← blade (2 ^ p); let f ← a.flip; f.naiveMulImpl v)) ↔
      ∀ K < 2 ^ A.dim, a.val K ≠ 0 → K &&& A.projMask = K := by
  obtain ⟨f, hf, hfv, hff⟩ := flip_denotes ha
  have hff : ∀ i < 2 ^ A.dim, f.val i = sg (par A.dim i) • a.val i := hff
  simp only [hf, bind, Except.bind] at *
  have hiff : ∀ p < A.dim, _ ↔ _ := fun p hp => agree_e_iff hA ha hfv hp
  have hgeo : ∀ p < A.dim, ∀ k < 2 ^ A.dim, geo A.sigma A.dim f.val (single (2 ^ p) 1) k =
      geo A.sigma A.dim (fun i => sg (par A.dim i) • a.val i) (single (2 ^ p) 1) k := fun p _ k hk =>
    geo_congr (fun _ _ => rfl) hff (fun _ _ => rfl) hk
  constructor
  · intro h K hK hne
    refine (sub_projMask_iff hA hK).mpr fun p hp hb => ?_
    by_contra h0
    have := (coef_zero_of_twist h2 A.sigma A.sigma_cases hp hK a.val (s := fun i => sg (par A.dim i)) (sg_cases _)
      (by
        have hlt := Nat.xor_lt_two_pow (Nat.pow_lt_pow_right (by norm_num) hp : 2 ^ p < 2 ^ A.dim) hK
        rw [← hgeo p hp _ hlt]
        exact (hiff p hp).mp (h p hp) _ hlt) hne).1 hb h0
    rcases sg_cases (par A.dim K) with h | h <;> simp only [h] at this <;> omega
  · intro h p hp
    have h2p : (2 ^ p : Nat) < 2 ^ A.dim := Nat.pow_lt_pow_right (by norm_num) hp
    refine (hiff p hp).mpr fun k hk => ?_
    rw [hgeo p hp k hk, geo_single_left _ h2p, geo_single_right _ h2p _ _ hk, one_mul, mul_one, smul_smul, bsgn_e_comm _ hp]
    have hK := Nat.xor_lt_two_pow h2p hk
    generalize 2 ^ p ^^^ k = K at hK
    by_cases hne : a.val K = 0
    · rw [hne, smul_zero, smul_zero]
    · congr 1
      by_cases hb : K.testBit p = true
      · have h0 := (sub_projMask_iff hA hK).mp (h K hK hne) p hp hb
        have hsq := bsgn_e_sq A.sigma hp (K := K)
        rw [if_pos hb, h0, mul_zero] at hsq
        rw [mul_self_eq_zero.mp hsq, mul_zero, zero_mul]
      · rw [if_neg hb, mul_one, mul_comm]

end

namespace Ex

/-- One generator of square 1 and two null generators. -/
def Z3 : ClAlg := (declareAlgebra [.plus, .null, .null] []).get rfl
theorem Z3_wf : Z3.WF := declareAlgebra_wf (rfl : declareAlgebra [.plus, .null, .null] [] = some Z3)

/-- `5 + 2 e2 e1 - 3 I` and `2 e1 - e2 e1`. -/
def zC : MV Z3 (ArrayStorage ℤ) := ⟨⟨3, ⟨8, fun i => if i = 0 then 5 else if i = 6 then 2 else if i = 7 then -3 else 0⟩⟩⟩
def zT : MV Z3 (ArrayStorage ℤ) := ⟨⟨3, ⟨8, fun i => if i = 2 then 2 else if i = 6 then -1 else 0⟩⟩⟩
def zB : MV Z3 (ArrayStorage ℤ) := ⟨⟨3, ⟨8, fun i => i + 1⟩⟩⟩
theorem zC_valid : zC.Valid := ⟨by decide, rfl, rfl⟩
theorem zT_valid : zT.Valid := ⟨by decide, rfl, rfl⟩
theorem zB_valid : zB.Valid := ⟨by decide, rfl, rfl⟩
theorem two_int : ∀ t : ℤ, t + t = 0 → t = 0 := fun t h => by omega

end Ex

instance (A : ClAlg) (K : Nat) : Decidable (CentralBlade A K) := by unfold CentralBlade; infer_instance

example : Ex.zC.naiveMulImpl Ex.zB ≈ᵣ Ex.zB.naiveMulImpl Ex.zC :=
  (C90_center Ex.Z3_wf Ex.two_int Ex.zC_valid).mpr (by decide +kernel) _ Ex.zB_valid
example : ¬ ∀ b, b.Valid → Ex.zT.naiveMulImpl b ≈ᵣ b.naiveMulImpl Ex.zT := fun h =>
  absurd ((C90_center Ex.Z3_wf Ex.two_int Ex.zT_valid).mp h) (by decide +kernel)
example := (C90_twisted Ex.Z3_wf Ex.two_int Ex.zT_valid).mpr (by decide +kernel) 0 (by decide)
example : Ex.zC.naiveMulImpl Ex.zB ≈ᵣ Ex.zB.naiveMulImpl Ex.zC :=
  C90_generators Ex.Z3_wf Ex.two_int Ex.zC_valid (by
    intro p hp
    have hp : p < 3 := hp
    interval_cases p <;>
      exact (agree_e_iff Ex.Z3_wf Ex.zC_valid Ex.zC_valid (by decide)).mpr (by decide +kernel)) Ex.zB_valid
/- The center of the quaternions (the even part aside, all of `Cl(0,2)`) is the scalars. -/
example : ∀ K < 2 ^ 2, CentralBlade ((declareAlgebra [.minus, .minus] []).get rfl) K ↔ K = 0 := by decide +kernel

end TClifford
