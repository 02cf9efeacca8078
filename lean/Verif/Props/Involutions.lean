import Verif.Props.Examples
import Verif.Proofs.Lift
import Verif.Proofs.Words
import Verif.Proofs.Blades
import Mathlib.Data.Complex.Basic
/-
Reversal, flips and complex conjugation: C13, C14, C56.
-/

set_option linter.unusedSectionVars false

namespace TClifford

open MV Finset

section ring
variable {T : Type} [Ring T] [DecidableEq T] {S : Type} [CoeffStorage S T] [LawfulStorage S T] {A : ClAlg}

/-! ### C13 -/

/-- **C13.** `a.rev().rev() == a`. -/
theorem C13_rev_rev {a : MV A S} (ha : a.Valid) : (do let r ← a.rev; r.rev) ≈ᵣ .ok a :=
  Agree.of_denotes ((rev_denotes ha).rev) (.of_valid ha)
    (fun i _ => by rw [smul_smul, rsg_mul_self, one_smul])

example := C13_rev_rev Ex.a7A_valid

/-- **C13.** The coefficient of a blade of grade `g` is multiplied by `(-1)^(g(g-1)/2)`. -/
theorem C13_rev_coeff {a : MV A S} (ha : a.Valid) {i : Nat} (hi : i < 2 ^ A.dim) :
    ∃ c : T, a.getByIdx i = .ok c ∧
      (do let r ← a.rev; r.getByIdx i) = .ok ((-1) ^ (countOnes i * (countOnes i - 1) / 2) * c) := by
  refine ⟨a.val i, ha.get hi, (rev_denotes ha).bind_res (fun u hu huv => ?_)⟩
  rw [hu.get hi, huv i hi, rsg_eq, countOnes_eq_cnt hi]
  congr 1
  generalize cnt A.dim i = g
  obtain ⟨q, r, hr, rfl⟩ : ∃ q r, r < 4 ∧ g = 4 * q + r := ⟨g / 4, g % 4, Nat.mod_lt _ (by norm_num), by omega⟩
  have hmod : (4 * q + r) % 4 = r := by omega
  rw [hmod]
  have hexp : (4 * q + r) * (4 * q + r - 1) / 2 % 2 = r * (r - 1) / 2 % 2 := by
    interval_cases r
    · rcases q with _ | q
      · rfl
      · rw [show (4 * (q + 1) + 0) * (4 * (q + 1) + 0 - 1) = 2 * (2 * ((q + 1) * (4 * q + 3))) by
          rw [show 4 * (q + 1) + 0 - 1 = 4 * q + 3 by omega]; ring]
        rw [Nat.mul_div_cancel_left _ (by norm_num)]; simp
    · rw [show (4 * q + 1) * (4 * q + 1 - 1) = 2 * (2 * (q * (4 * q + 1))) by rw [Nat.add_sub_cancel]; ring]
      rw [Nat.mul_div_cancel_left _ (by norm_num)]; simp
    · rw [show (4 * q + 2) * (4 * q + 2 - 1) = 2 * (2 * (q * (4 * q + 3)) + 1) by
        rw [show 4 * q + 2 - 1 = 4 * q + 1 by omega]; ring]
      rw [Nat.mul_div_cancel_left _ (by norm_num)]; omega
    · rw [show (4 * q + 3) * (4 * q + 3 - 1) = 2 * (2 * (q * (4 * q + 5) + 1) + 1) by
        rw [show 4 * q + 3 - 1 = 4 * q + 2 by omega]; ring]
      rw [Nat.mul_div_cancel_left _ (by norm_num)]; omega
  rw [neg_one_pow_eq_pow_mod_two, hexp]
  interval_cases r <;> simp

example := C13_rev_coeff Ex.a7A_valid (i := 0b1010110) (by decide)

/-- **C13.** `(a + b).rev() == a.rev() + b.rev()`. -/
theorem C13_rev_add {a b : MV A S} (ha : a.Valid) (hb : b.Valid) :
    (do let s ← a.add b; s.rev) ≈ᵣ (do let x ← a.rev; let y ← b.rev; x.add y) :=
  Agree.of_denotes ((add_denotes ha hb).rev) ((rev_denotes ha).add (rev_denotes hb)) (fun _ _ => smul_add _ _ _)

example := C13_rev_add Ex.mA_valid Ex.mB_valid

/-- **C13.** Reversal fixes every generator. -/
theorem C13_rev_generator (hS : LawfulStorage.Supp (S := S) (T := T) A.dim) {n : Nat} (hn : n < A.dim) :
    (do let e ← basisVec (A := A) (S := S) (T := T) n; e.rev) ≈ᵣ basisVec (T := T) n := by
  refine Agree.of_denotes ((basisVec_denotes hS hn).rev) (basisVec_denotes hS hn) ?_
  intro i _
  unfold single
  split
  · rename_i h
    subst h
    rw [rsg_eq, cnt_two_pow hn, if_pos (by decide), one_smul]
  · rw [smul_zero]

example := C13_rev_generator (A := Ex.A7) (S := ArrayStorage ℤ) (T := ℤ) (show Ex.A7.dim ≤ 63 by decide) (n := 5) (by decide)

/-- Product of generators, left to right. -/
def wordProduct : List Nat → Res (MV A S)
  | [] => one (T := T)
  | i :: l => do let e ← basisVec (T := T) i; let p ← wordProduct l; e.naiveMulImpl p

/-- Coefficient function of a product of generators. -/
def wordF (σ : Nat → ℤ) (n : Nat) : List Nat → Nat → T
  | [] => single 0 1
  | i :: l => geo σ n (single (2 ^ i) 1) (wordF σ n l)

theorem wordProduct_denotes (hA : A.WF) (hS : LawfulStorage.Supp (S := S) (T := T) A.dim) (l : List Nat)
    (hl : ∀ i ∈ l, i < A.dim) : Denotes (wordProduct (A := A) (S := S) l) (wordF (T := T) A.sigma A.dim l) := by
  induction l with
  | nil => exact one_denotes hS
  | cons i l ih =>
    exact (basisVec_denotes hS (hl i (by simp))).mul hA (ih (fun j hj => hl j (by simp [hj])))

theorem wordF_append (σ : Nat → ℤ) (n : Nat) (l : List Nat) (i : Nat) {k : Nat} (hk : k < 2 ^ n) :
    wordF (T := T) σ n (l ++ [i]) k = geo σ n (wordF σ n l) (single (2 ^ i) 1) k := by
  induction l generalizing k with
  | nil =>
    show geo σ n (single (2 ^ i) 1) (single 0 1) k = geo σ n (single 0 1) (single (2 ^ i) 1) k
    rw [geo_one_right _ _ _ hk, geo_one_left]
  | cons j l ih =>
    show geo σ n (single (2 ^ j) 1) (wordF σ n (l ++ [i])) k = geo σ n (geo σ n (single (2 ^ j) 1) (wordF σ n l)) _ k
    rw [geo_assoc]
    exact geo_congr (fun _ _ => rfl) (fun _ _ => rfl) (fun m hm => ih hm) hk

/-! ### C14 -/

/-- **C14.** `flip` is involutive, additive, multiplicative for the geometric product. -/
theorem C14_flip (hA : A.WF) {a b : MV A S} (ha : a.Valid) (hb : b.Valid) :
    (do let x ← a.flip; x.flip) ≈ᵣ .ok a ∧
    (do let p ← a.naiveMulImpl b; p.flip) ≈ᵣ (do let x ← a.flip; let y ← b.flip; x.naiveMulImpl y) ∧
    (do let p ← a.add b; p.flip) ≈ᵣ (do let x ← a.flip; let y ← b.flip; x.add y) :=
  ⟨Agree.of_denotes ((flip_denotes ha).flip) (.of_valid ha) (fun i _ => flp_flp _ _ i),
    Agree.of_denotes ((mul_denotes hA ha hb).flip) ((flip_denotes ha).mul hA (flip_denotes hb)) (fun k _ => geo_flp _ _ _ _ k),
    Agree.of_denotes ((add_denotes ha hb).flip) ((flip_denotes ha).add (flip_denotes hb)) (fun _ _ => smul_add _ _ _)⟩

/-- **C14.** `flip` is multiplicative for the wedge. -/
theorem C14_flip_wedge [WedgeProduct A S] [LawfulWedge A S] {a b : MV A S} (ha : a.Valid) (hb : b.Valid) :
    (do let p ← a.wedge b; p.flip) ≈ᵣ (do let x ← a.flip; let y ← b.flip; x.wedge y) :=
  Agree.of_denotes ((LawfulWedge.wedge ha hb).flip) ((flip_denotes ha).wedge (flip_denotes hb)) (fun k _ => geo_flp _ _ _ _ k)

example := C14_flip_wedge Ex.a7A_valid Ex.a7B_valid

/-- **C14.** `flip` negates every generator. -/
theorem C14_flip_generator (hS : LawfulStorage.Supp (S := S) (T := T) A.dim) {n : Nat} (hn : n < A.dim) :
    (do let e ← basisVec (A := A) (S := S) (T := T) n; e.flip) ≈ᵣ (do let e ← basisVec (T := T) n; e.neg) := by
  refine Agree.of_denotes ((basisVec_denotes hS hn).flip) ((basisVec_denotes hS hn).neg) ?_
  intro i _
  unfold flp single
  split
  · rename_i h
    subst h
    rw [par_two_pow hn, sg_true, neg_one_smul]
  · rw [smul_zero, neg_zero]

example := C14_flip_generator (A := Ex.A7) (S := ArrayStorage ℤ) (T := ℤ) (show Ex.A7.dim ≤ 63 by decide) (n := 5) (by decide)

theorem subspace_char (n mask a b : Nat) :
    sg (par n ((a ^^^ b) &&& mask)) = sg (par n (a &&& mask)) * sg (par n (b &&& mask)) := by
  rw [Nat.and_xor_distrib_right, sg_par_xor]

/-- **C14.** `flip_subspace(mask)` is involutive, additive, multiplicative for the geometric product, for every mask. -/
theorem C14_flip_subspace (hA : A.WF) {a b : MV A S} (ha : a.Valid) (hb : b.Valid) (mask : Nat) :
    (do let x ← a.flipSubspace mask; x.flipSubspace mask) ≈ᵣ .ok a ∧
    (do let p ← a.naiveMulImpl b; p.flipSubspace mask) ≈ᵣ
      (do let x ← a.flipSubspace mask; let y ← b.flipSubspace mask; x.naiveMulImpl y) ∧
    (do let p ← a.add b; p.flipSubspace mask) ≈ᵣ
      (do let x ← a.flipSubspace mask; let y ← b.flipSubspace mask; x.add y) :=
  ⟨Agree.of_denotes ((flipSubspace_denotes ha mask).flipSubspace mask) (.of_valid ha)
      (fun i _ => by rw [smul_smul, sg_mul_self, one_smul]),
    Agree.of_denotes ((mul_denotes hA ha hb).flipSubspace mask)
      ((flipSubspace_denotes ha mask).mul hA (flipSubspace_denotes hb mask))
      (fun k _ => geo_char (χ := fun i => sg (par A.dim (i &&& mask))) _ (subspace_char A.dim mask) _ _ k),
    Agree.of_denotes ((add_denotes ha hb).flipSubspace mask)
      ((flipSubspace_denotes ha mask).add (flipSubspace_denotes hb mask)) (fun _ _ => smul_add _ _ _)⟩

example := C14_flip_subspace Ex.M_wf Ex.mA_valid Ex.mB_valid 0b101

/-- **C14.** `flip_subspace(mask)` is multiplicative for the wedge. -/
theorem C14_flip_subspace_wedge [WedgeProduct A S] [LawfulWedge A S] {a b : MV A S} (ha : a.Valid) (hb : b.Valid)
    (mask : Nat) : (do let p ← a.wedge b; p.flipSubspace mask) ≈ᵣ
      (do let x ← a.flipSubspace mask; let y ← b.flipSubspace mask; x.wedge y) :=
  Agree.of_denotes ((LawfulWedge.wedge ha hb).flipSubspace mask)
    ((flipSubspace_denotes ha mask).wedge (flipSubspace_denotes hb mask))
    (fun k _ => geo_char (χ := fun i => sg (par A.dim (i &&& mask))) _ (subspace_char A.dim mask) _ _ k)

example := C14_flip_subspace_wedge Ex.a7A_valid Ex.a7B_valid 0b1001

/-- **C14.** `flip_subspace(mask)` negates exactly the generators in the mask. -/
theorem C14_flip_subspace_generator (hS : LawfulStorage.Supp (S := S) (T := T) A.dim) {n : Nat} (hn : n < A.dim) (mask : Nat) :
    (do let e ← basisVec (A := A) (S := S) (T := T) n; e.flipSubspace mask) ≈ᵣ
      (if mask.testBit n = true then (do let e ← basisVec (T := T) n; e.neg) else basisVec (T := T) n) := by
  have key : ∀ i, sg (par A.dim (i &&& mask)) • single (2 ^ n) (1 : T) i =
      if mask.testBit n = true then -single (2 ^ n) (1 : T) i else single (2 ^ n) (1 : T) i := by
    intro i
    unfold single
    by_cases h : i = 2 ^ n
    · subst h
      have h2 : 2 ^ n &&& mask = if mask.testBit n = true then 2 ^ n else 0 := by
        apply Nat.eq_of_testBit_eq
        intro j
        rw [Nat.testBit_and, Nat.testBit_two_pow]
        by_cases hj : n = j
        · subst hj
          cases hm : mask.testBit n <;> simp
        · split <;> simp [hj]
      rw [h2]
      split
      · rw [par_two_pow hn]; simp
      · rw [par_zero]; simp
    · rw [if_neg h]; simp
  split
  · rename_i hm
    refine Agree.of_denotes ((basisVec_denotes hS hn).flipSubspace mask) ((basisVec_denotes hS hn).neg) ?_
    intro i _; rw [key, if_pos hm]
  · rename_i hm
    refine Agree.of_denotes ((basisVec_denotes hS hn).flipSubspace mask) (basisVec_denotes hS hn) ?_
    intro i _; rw [key, if_neg hm]

/-- **C14.** `flip` is `flip_subspace` with the full mask. -/
theorem C14_flip_eq_subspace {a : MV A S} (ha : a.Valid) : a.flip ≈ᵣ a.flipSubspace (2 ^ A.dim - 1) := by
  refine Agree.of_denotes (flip_denotes ha) (flipSubspace_denotes ha _) ?_
  intro i hi
  rw [Nat.and_two_pow_sub_one_eq_mod, Nat.mod_eq_of_lt hi]; rfl

example := C14_flip_eq_subspace Ex.mA_valid

/-! ### C56 -/

/-- **C56.** Conjugation-compatible rings: `revc` is an involutive anti-automorphism (of any ring with an additive,
anti-multiplicative involution, commutative or not). -/
theorem C56_revc (hA : A.WF) {conj : T → T} (hadd : ∀ x y, conj (x + y) = conj x + conj y)
    (hmul : ∀ x y, conj (x * y) = conj y * conj x) (hinv : ∀ x, conj (conj x) = x)
    {a b : MV A S} (ha : a.Valid) (hb : b.Valid) :
    (do let x ← a.revc conj; x.revc conj) ≈ᵣ .ok a ∧
    (do let p ← a.naiveMulImpl b; p.revc conj) ≈ᵣ (do let x ← b.revc conj; let y ← a.revc conj; x.naiveMulImpl y) := by
  have h0 : conj 0 = 0 := by
    have := hadd 0 0
    rw [add_zero] at this
    exact left_eq_add.mp this
  have hneg : ∀ x, conj (-x) = -conj x := by
    intro x
    have := hadd x (-x)
    rw [add_neg_cancel, h0] at this
    exact (neg_eq_of_add_eq_zero_right this.symm).symm
  have hlift : ∀ {x : Res (MV A S)} {f : Nat → T}, Denotes x f →
      Denotes (do let u ← x; u.revc conj) (fun i => rsg A.dim i • conj (f i)) := fun h =>
    Denotes.un (fun f i => rsg A.dim i • conj (f i)) h (fun _ hu => revc_denotes hu h0) (fun _ _ h i hi => by rw [h i hi])
  constructor
  · refine Agree.of_denotes (hlift (revc_denotes ha h0)) (.of_valid ha) ?_
    intro i _
    have hs : conj (rsg A.dim i • conj (a.val i)) = rsg A.dim i • a.val i := by
      rw [rsg_eq]
      split
      · rw [one_smul, one_smul, hinv]
      · rw [neg_one_smul, neg_one_smul, hneg, hinv]
    rw [hs, smul_smul, rsg_mul_self, one_smul]
  · exact Agree.of_denotes (hlift (mul_denotes hA ha hb)) ((revc_denotes hb h0).mul hA (revc_denotes ha h0))
      (fun k hk => geo_rev_conj _ _ hadd hmul _ _ hk)

/-- **C56.** `revc` is `rev` with conjugated coefficients. -/
theorem C56_revc_coeff {conj : T → T} (h0 : conj 0 = 0) {a : MV A S} (ha : a.Valid) {i : Nat} (hi : i < 2 ^ A.dim) :
    ∃ c, ∃ r : Bool, a.getByIdx i = .ok c ∧ (do let x ← a.rev; x.getByIdx i) = .ok (if r then c else -c) ∧
      (do let x ← a.revc conj; x.getByIdx i) = .ok (if r then conj c else -conj c) := by
  refine ⟨a.val i, decide (cnt A.dim i % 4 = 0 ∨ cnt A.dim i % 4 = 1), ha.get hi, ?_, ?_⟩
  · refine (rev_denotes ha).bind_res (fun u hu huv => ?_)
    rw [hu.get hi, huv i hi, rsg_eq]
    congr 1
    by_cases h : cnt A.dim i % 4 = 0 ∨ cnt A.dim i % 4 = 1
    · rw [if_pos h, one_smul, if_pos (by simpa using h)]
    · rw [if_neg h, neg_one_smul, if_neg (by simpa using h)]
  · refine (revc_denotes ha h0).bind_res (fun u hu huv => ?_)
    rw [hu.get hi, huv i hi, rsg_eq]
    congr 1
    by_cases h : cnt A.dim i % 4 = 0 ∨ cnt A.dim i % 4 = 1
    · rw [if_pos h, one_smul, if_pos (by simpa using h)]
    · rw [if_neg h, neg_one_smul, if_neg (by simpa using h)]

/-- **C56.** `a.cmag2() == (a.revc() * a).scalar_part()`. -/
theorem C56_cmag2 (hA : A.WF) {conj : T → T} (h0 : conj 0 = 0) {a : MV A S} (ha : a.Valid) :
    ∃ t, a.cmag2 conj = .ok t ∧ (do let r ← a.revc conj; let p ← r.naiveMulImpl a; p.scalarPart) = .ok t := by
  refine ⟨_, cmag2_ok hA ha h0, ?_⟩
  have h := ((revc_denotes ha h0).mul hA (.of_valid ha)).scalarPart
  rw [← h, bind_assoc]; rfl

end ring

section comm
variable {T : Type} [CommRing T] [DecidableEq T] {S : Type} [CoeffStorage S T] [LawfulStorage S T] {A : ClAlg}

/-- **C13.** `(a * b).rev() == b.rev() * a.rev()` over commutative coefficients. -/
theorem C13_rev_mul (hA : A.WF) {a b : MV A S} (ha : a.Valid) (hb : b.Valid) :
    (do let p ← a.naiveMulImpl b; p.rev) ≈ᵣ (do let x ← b.rev; let y ← a.rev; x.naiveMulImpl y) :=
  Agree.of_denotes ((mul_denotes hA ha hb).rev) ((rev_denotes hb).mul hA (rev_denotes ha)) (fun _ hk => geo_rev _ _ _ _ hk)

/-- **C13.** `(a ^ b).rev() == b.rev() ^ a.rev()`. -/
theorem C13_rev_wedge [WedgeProduct A S] [LawfulWedge A S] {a b : MV A S} (ha : a.Valid) (hb : b.Valid) :
    (do let p ← a.wedge b; p.rev) ≈ᵣ (do let x ← b.rev; let y ← a.rev; x.wedge y) :=
  Agree.of_denotes ((LawfulWedge.wedge ha hb).rev) ((rev_denotes hb).wedge (rev_denotes ha)) (fun _ hk => geo_rev _ _ _ _ hk)

/-- **C13.** The reverse of a product of generators is the product in the reversed order. -/
theorem C13_rev_word (hA : A.WF) (hS : LawfulStorage.Supp (S := S) (T := T) A.dim) (l : List Nat)
    (hl : ∀ i ∈ l, i < A.dim) :
    (do let p ← wordProduct (A := A) (S := S) (T := T) l; p.rev) ≈ᵣ wordProduct (T := T) l.reverse := by
  refine Agree.of_denotes ((wordProduct_denotes hA hS l hl).rev)
    (wordProduct_denotes hA hS l.reverse (fun i hi => hl i (List.mem_reverse.mp hi))) ?_
  have key : ∀ l : List Nat, (∀ i ∈ l, i < A.dim) → ∀ k < 2 ^ A.dim,
      rsg A.dim k • wordF (T := T) A.sigma A.dim l k = wordF A.sigma A.dim l.reverse k := by
    intro l hl
    induction l with
    | nil =>
      intro k _
      show rsg A.dim k • single 0 (1 : T) k = single 0 1 k
      unfold single
      split
      · rename_i h; subst h; rw [rsg_eq, cnt_zero, if_pos (by decide), one_smul]
      · rw [smul_zero]
    | cons j l ih =>
      intro k hk
      have hj := hl j (by simp)
      have ih' := ih (fun i hi => hl i (by simp [hi]))
      rw [List.reverse_cons, wordF_append _ _ _ _ hk]
      show rsg A.dim k • geo A.sigma A.dim (single (2 ^ j) 1) (wordF A.sigma A.dim l) k = _
      rw [geo_rev _ _ _ _ hk]
      refine geo_congr (fun _ _ => rfl) ih' ?_ hk
      intro i _
      unfold single
      split
      · rename_i h; subst h; rw [rsg_eq, cnt_two_pow hj, if_pos (by decide), one_smul]
      · rw [smul_zero]
  exact key l hl

example : (do let p ← Ex.mA.naiveMulImpl Ex.mB; p.rev) ≈ᵣ (do let x ← Ex.mB.rev; let y ← Ex.mA.rev; x.naiveMulImpl y) :=
  C13_rev_mul Ex.M_wf Ex.mA_valid Ex.mB_valid
example : (do let p ← Ex.a7A.wedge Ex.a7B; p.rev) ≈ᵣ (do let x ← Ex.a7B.rev; let y ← Ex.a7A.rev; x.wedge y) :=
  C13_rev_wedge Ex.a7A_valid Ex.a7B_valid
example : (do let p ← wordProduct (A := Ex.A7) (S := ArrayStorage ℤ) (T := ℤ) [3, 0, 3, 6, 1]; p.rev) ≈ᵣ
    wordProduct (T := ℤ) [1, 6, 3, 0, 3] :=
  C13_rev_word Ex.A7_wf (show Ex.A7.dim ≤ 63 by decide) _ (by decide)
example : (do let p ← Ex.mA.naiveMulImpl Ex.mB; p.flip) ≈ᵣ (do let x ← Ex.mA.flip; let y ← Ex.mB.flip; x.naiveMulImpl y) :=
  (C14_flip Ex.M_wf Ex.mA_valid Ex.mB_valid).2.1
example : (do let e ← basisVec (A := Ex.M) (S := ArrayStorage ℤ) (T := ℤ) 2; e.flipSubspace 0b1100) ≈ᵣ
    (do let e ← basisVec (T := ℤ) 2; e.neg) :=
  C14_flip_subspace_generator (show Ex.M.dim ≤ 63 by decide) (n := 2) (by decide) 0b1100

end comm

section field
variable {T : Type} [Field T] [DecidableEq T] {S : Type} [CoeffStorage S T] [LawfulStorage S T] {A : ClAlg}

/-- **C56.** If `a.cmag2() != 0` then `(a.revcm() * a).scalar_part() == 1`. -/
theorem C56_revcm (hA : A.WF) {conj : T → T} (hc : conj 0 = 0) {a : MV A S} (ha : a.Valid) {m : T}
    (hm : a.cmag2 conj = .ok m) (h0 : m ≠ 0) :
    (do let r ← a.revcm conj; let p ← r.naiveMulImpl a; p.scalarPart) = .ok 1 ∧
    (do let r ← a.revcm conj; r.smul m) ≈ᵣ a.revc conj := by
  have h := revcm_denotes ha hc hm h0
  constructor
  · have h1 := (h.mul hA (.of_valid ha)).scalarPart
    have h2 : geo A.sigma A.dim (fun i => rsg A.dim i • conj (a.val i) / m) a.val 0 = 1 := by
      have hg := cmag2_ok hA ha hc
      rw [hm] at hg
      have hg' : m = geo A.sigma A.dim (fun i => rsg A.dim i • conj (a.val i)) a.val 0 := by simpa using hg
      have : (fun i => rsg A.dim i • conj (a.val i) / m) = fun i => m⁻¹ * (rsg A.dim i • conj (a.val i)) := by
        funext i; rw [div_eq_mul_inv, mul_comm]
      rw [this, geo_smul_left, ← hg', inv_mul_cancel₀ h0]
    rw [h2] at h1
    rw [← h1, bind_assoc]; rfl
  · exact Agree.of_denotes (h.smul m) (revc_denotes ha hc) (fun _ _ => div_mul_cancel₀ _ h0)

end field

section complex
variable [DecidableEq ℂ] {S : Type} [CoeffStorage S ℂ] [LawfulStorage S ℂ] {A : ClAlg}

/-- **C56.** If all generators square to `+1`, then `a.cmag2()` is the sum of the squared absolute values of the coefficients,
and is zero for `a == 0` only. -/
theorem C56_euclidean (hA : A.WF) (hi : A.imagMask = 0) (hp : A.projMask = 0) {a : MV A S} {x : Nat → ℂ} (ha : a.Valid)
    (hx : Coefs (.ok a) x) :
    a.cmag2 (starRingEnd ℂ) = .ok ((∑ i ∈ range (2 ^ A.dim), Complex.normSq (x i) : ℝ) : ℂ) ∧
    (a.cmag2 (starRingEnd ℂ) = .ok 0 ↔ a.isZero = true) := by
  have hs : ∀ i < A.dim, A.sigma i = 1 := fun i _ => by
    unfold ClAlg.sigma
    rw [hi, hp]; simp
  have e : geo A.sigma A.dim (fun i => rsg A.dim i • (starRingEnd ℂ) (a.val i)) a.val 0 =
      ((∑ i ∈ range (2 ^ A.dim), Complex.normSq (x i) : ℝ) : ℂ) := by
    rw [geo_congr hs (fun _ _ => rfl) (fun _ _ => rfl) (Nat.two_pow_pos _),
      show ((∑ i ∈ range (2 ^ A.dim), Complex.normSq (x i) : ℝ) : ℂ) = ∑ i ∈ range (2 ^ A.dim), (Complex.normSq (x i) : ℂ) from
        map_sum Complex.ofRealHom _ _]
    refine sum_congr rfl fun i hi => ?_
    rw [Nat.xor_zero, bsgn_self_plus, smul_mul_assoc, smul_smul, rsg_mul_self, one_smul, Coefs.val ha hx (mem_range.mp hi),
      mul_comm, Complex.mul_conj]
  rw [cmag2_ok hA ha (map_zero _), e]
  refine ⟨rfl, ?_⟩
  rw [isZero_iff ha, Except.ok.injEq, Complex.ofReal_eq_zero, sum_eq_zero_iff_of_nonneg fun i _ => Complex.normSq_nonneg _]
  refine forall_congr' fun i => ?_
  rw [mem_range]
  refine forall_congr' fun h => ?_
  rw [Complex.normSq_eq_zero, Coefs.val ha hx h]

end complex

namespace Ex

noncomputable section

local instance : DecidableEq ℂ := Classical.decEq ℂ

/-- **C56.** The documentation also says that the magnitude of `s.revcm() * s` is one.  Only its scalar part is, also for real
coefficients, whose conjugation is the identity. -/
theorem C56_doc_magnitude_false : ∃ a : MV E (ArrayStorage ℚ), a.Valid ∧ a.cmag2 id = .ok (51 : ℚ) ∧
    (do let r ← a.revcm id; let p ← r.naiveMulImpl a; p.scalarPart) = .ok (1 : ℚ) ∧
    (do let r ← a.revcm id; let p ← r.naiveMulImpl a; p.cmag2 id) ≠ .ok (1 : ℚ) ∧
    (do let r ← a.revcm id; let p ← r.naiveMulImpl a; p.mag2) ≠ .ok (1 : ℚ) :=
  ⟨eA, eA_valid, by decide +kernel, by decide +kernel, by decide +kernel, by decide +kernel⟩

/-- The scalar `i`. -/
def cI : MV E (ArrayStorage ℂ) := ⟨⟨3, ⟨8, fun k => if k = 0 then Complex.I else 0⟩⟩⟩

theorem cI_valid : cI.Valid := ⟨by decide, rfl, rfl⟩

theorem cI_val : ∀ i < 2 ^ E.dim, cI.val i = if i = 0 then Complex.I else 0 := fun _ hi => MV.arr_val cI_valid hi

theorem cI_geo (f : Nat → ℂ) : geo E.sigma E.dim f cI.val 0 = f 0 * Complex.I := by
  have h := cI_val
  unfold geo
  rw [sum_eq_single 0]
  · rw [Nat.xor_zero, h 0 (by decide), if_pos rfl, show bsgn E.sigma E.dim 0 0 = 1 by decide, one_smul]
  · intro i hi h0
    rw [Nat.xor_zero, h i (mem_range.mp hi), if_neg h0, mul_zero, smul_zero]
  · intro h; exact absurd (mem_range.mpr (by decide)) h

/-- **C56.** The documentation (src/lib.rs:497) says that `s.revcm()` is `s.revc() / s.mag2()`.  The code divides by `cmag2()`,
which is different: for the scalar `i` the former is `-i` and the latter is `i`. -/
theorem C56_doc_claim_false : ∃ (a : MV E (ArrayStorage ℂ)), a.Valid ∧
    (do let r ← a.revcm (starRingEnd ℂ); r.getByIdx 0) = .ok (-Complex.I) ∧
    (do let r ← a.revc (starRingEnd ℂ); let m ← a.mag2; let q ← r.sdiv m; q.getByIdx 0) = .ok Complex.I := by
  have hr : rsg E.dim 0 = 1 := by decide
  have hm : cI.mag2 = .ok (-1) := by
    rw [mag2_ok E_wf cI_valid, cI_geo, hr, one_smul, cI_val 0 (by decide), if_pos rfl, Complex.I_mul_I]
  have hc : cI.cmag2 (starRingEnd ℂ) = .ok 1 := by
    rw [cmag2_ok E_wf cI_valid (map_zero _), cI_geo, hr, one_smul, cI_val 0 (by decide), if_pos rfl]
    simp
  refine ⟨cI, cI_valid, ?_, ?_⟩
  · refine (revcm_denotes cI_valid (map_zero _) hc one_ne_zero).bind_res fun u hu huv => ?_
    rw [hu.get (by decide), huv 0 (by decide), hr, one_smul, cI_val 0 (by decide), if_pos rfl]
    simp
  · refine (revc_denotes cI_valid (map_zero _)).bind_res fun u hu huv => ?_
    rw [hm]
    show (do let q ← u.sdiv (-1); q.getByIdx 0) = _
    refine (sdiv_denotes hu (neg_ne_zero.mpr one_ne_zero)).bind_res fun v hv hvv => ?_
    rw [hv.get (by decide), hvv 0 (by decide), huv 0 (by decide), hr, one_smul, cI_val 0 (by decide), if_pos rfl]
    simp

/-- The coefficients `i, 1 + i, …, 7 + i`. -/
def cZ : MV E (ArrayStorage ℂ) := ⟨⟨3, ⟨8, fun k => ⟨k, 1⟩⟩⟩⟩

theorem cZ_valid : cZ.Valid := ⟨by decide, rfl, rfl⟩

/-- Complex conjugation meets the hypotheses of `C56_revc`. -/
example := C56_revc E_wf (conj := starRingEnd ℂ) (map_add _) (fun x y => by rw [map_mul, mul_comm]) (fun x => by simp) cZ_valid cZ_valid

example := C56_revc_coeff (conj := starRingEnd ℂ) (map_zero _) cZ_valid (i := 6) (by decide)

example := C56_cmag2 E_wf (conj := starRingEnd ℂ) (map_zero _) cZ_valid

/-- `1² + … + 7² + 8`. -/
theorem cZ_cmag2 : cZ.cmag2 (starRingEnd ℂ) = .ok 148 := by
  rw [cmag2_ok E_wf cZ_valid (map_zero _)]
  congr 1
  have h : ∀ i < 8, bsgn E.sigma E.dim i i * rsg E.dim i = 1 := by decide +kernel
  have e : geo E.sigma E.dim (fun i => rsg E.dim i • (starRingEnd ℂ) (cZ.val i)) cZ.val 0 = ∑ i ∈ range 8, ((i : ℂ) ^ 2 + 1) := by
    refine sum_congr rfl fun i hi => ?_
    have hi' := mem_range.mp hi
    rw [Nat.xor_zero, smul_mul_assoc, smul_smul, h i hi', one_smul, MV.arr_val cZ_valid hi']
    show (starRingEnd ℂ) (⟨i, 1⟩ : ℂ) * ⟨i, 1⟩ = _
    apply Complex.ext <;> simp [pow_two]
  rw [e]
  simp only [sum_range_succ, sum_range_zero]
  norm_num

example := C56_revcm E_wf (map_zero _) cZ_valid cZ_cmag2 (by norm_num)

example := C56_euclidean E_wf (by decide) (by decide) cZ_valid
  (x := fun k => ⟨k, 1⟩) ⟨_, rfl, fun i hi => by rw [cZ_valid.get hi]; exact congrArg _ (MV.arr_val cZ_valid hi)⟩

end

end Ex

end TClifford
