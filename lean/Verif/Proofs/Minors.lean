import Verif.Proofs.Exterior
import Verif.Proofs.Sandwich
import Mathlib.LinearAlgebra.Matrix.Determinant.Basic
import Mathlib.LinearAlgebra.Alternating.Basic
import Mathlib.Data.Finset.Sort
import Mathlib.LinearAlgebra.Matrix.ToLin
import Batteries.Data.Nat.Bitwise
/-
The coefficients of a wedge of vectors are minors; the Cauchy-Binet formula.
-/

set_option linter.unusedSectionVars false

namespace TClifford

open Finset

section
variable {T : Type} [CommRing T]

/-- The coefficients of `v1 ∧ (v2 ∧ (… ∧ 1))`. -/
def wdgF (n : Nat) (l : List (Nat → T)) : Nat → T := l.foldr (geo (fun _ => 0) n) (single 0 1)

/-- `K` has exactly the bits `c j`. -/
def BitsOf {k : Nat} (K : Nat) (c : Fin k → Nat) : Prop := ∀ a, K.testBit a = true ↔ ∃ j, c j = a

theorem shuffleSign_vec {n k : Nat} {K : Nat} {c : Fin (k + 1) → Nat} (hc : StrictAnti c) (hn : ∀ j, c j < n) (hK : BitsOf K c)
    (j : Fin (k + 1)) : Spec.shuffleSign n (2 ^ c j) (K ^^^ 2 ^ c j) = (-1) ^ (j : Nat) := by
  unfold Spec.shuffleSign
  congr 1
  have : (range n ×ˢ range n).filter (fun p => (2 ^ c j).testBit p.1 = true ∧ (K ^^^ 2 ^ c j).testBit p.2 = true ∧ p.1 < p.2) =
      (Iio j).image (fun i => (c j, c i)) := by
    ext ⟨a, b⟩
    simp only [mem_filter, mem_product, mem_range, mem_image, mem_Iio, Nat.testBit_xor, Nat.testBit_two_pow, Prod.mk.injEq]
    constructor
    · rintro ⟨-, h1, h2, h3⟩
      have h1 : c j = a := by simpa using h1
      have hb : decide (c j = b) = false := by simp; omega
      rw [hb, Bool.xor_false] at h2
      obtain ⟨i, hi⟩ := (hK b).mp h2
      exact ⟨i, hc.lt_iff_gt.mp (by omega), h1, hi⟩
    · rintro ⟨i, h1, rfl, rfl⟩
      have h2 := hc h1
      refine ⟨⟨hn j, hn i⟩, by simp, ?_, h2⟩
      rw [(hK _).mpr ⟨i, rfl⟩]
      simp; omega
  rw [this, card_image_of_injective, Fin.card_Iio]
  intro x y h
  exact hc.injective (Prod.mk.inj h).2

theorem bitsOf_succAbove {k : Nat} {K : Nat} {c : Fin (k + 1) → Nat} (hc : StrictAnti c) (hK : BitsOf K c) (j : Fin (k + 1)) :
    BitsOf (K ^^^ 2 ^ c j) (fun i => c (j.succAbove i)) := by
  intro a
  rw [Nat.testBit_xor, Nat.testBit_two_pow]
  by_cases h : c j = a
  · have hk : K.testBit a = true := (hK a).mpr ⟨j, h⟩
    rw [hk]
    simp only [h, decide_true, Bool.xor_self, Bool.false_eq_true, false_iff, not_exists]
    intro i hi
    exact Fin.succAbove_ne j i (hc.injective (hi.trans h.symm))
  · simp only [h, decide_false, Bool.xor_false]
    refine (hK a).trans ⟨?_, ?_⟩
    · rintro ⟨i, hi⟩
      obtain ⟨i', hi'⟩ := Fin.exists_succAbove_eq (x := i) (y := j) (by rintro rfl; exact h hi)
      exact ⟨i', by rw [hi', hi]⟩
    · rintro ⟨i, hi⟩; exact ⟨_, hi⟩

theorem bitsOf_lt {n k : Nat} {K : Nat} {c : Fin k → Nat} (hn : ∀ j, c j < n) (hK : BitsOf K c) : K < 2 ^ n := by
  apply Nat.lt_pow_two_of_testBit
  intro i hi
  by_contra h
  obtain ⟨j, rfl⟩ := (hK i).mp (by simpa using h)
  have := hn j
  omega

theorem wedge_vec {n k : Nat} {K : Nat} {c : Fin (k + 1) → Nat} (hc : StrictAnti c) (hn : ∀ j, c j < n) (hK : BitsOf K c)
    {f : Nat → T} (hf : HomF n 1 f) (g : Nat → T) :
    geo (fun _ => 0) n f g K = ∑ j : Fin (k + 1), (-1) ^ (j : Nat) * f (2 ^ c j) * g (K ^^^ 2 ^ c j) := by
  have hKn := bitsOf_lt hn hK
  have hinj : Function.Injective (fun j => 2 ^ c j) := fun x y h => hc.injective (Nat.pow_right_injective (le_refl 2) h)
  rw [wedgeCoeff_eq]
  unfold Spec.wedgeCoeff
  rw [← sum_subset (s₁ := univ.image (fun j => 2 ^ c j))]
  · rw [sum_image fun x _ y _ h => hinj h]
    refine sum_congr rfl fun j _ => ?_
    rw [shuffleSign_vec hc hn hK, ← Int.cast_smul_eq_zsmul T, smul_eq_mul, mul_assoc]
    push_cast
    rfl
  · intro i hi
    obtain ⟨j, -, rfl⟩ := mem_image.mp hi
    rw [mem_filter, mem_range]
    refine ⟨Nat.pow_lt_pow_right (by norm_num) (hn j), ?_⟩
    apply Nat.eq_of_testBit_eq
    intro a
    rw [Nat.testBit_and, Nat.testBit_two_pow]
    by_cases h : c j = a
    · rw [(hK a).mpr ⟨j, h⟩, Bool.and_true]
    · simp [h]
  · intro i hi hni
    rw [mem_filter, mem_range] at hi
    by_cases h1 : cnt n i = 1
    · exfalso
      obtain ⟨p, hp, rfl⟩ := eq_two_pow_of_cnt hi.1 h1
      have h2 := congrArg (fun x => x.testBit p) hi.2
      simp only [Nat.testBit_and, Nat.testBit_two_pow_self, Bool.true_and] at h2
      obtain ⟨j, rfl⟩ := (hK p).mp h2
      exact hni (mem_image.mpr ⟨j, mem_univ _, rfl⟩)
    · rw [hf i hi.1 h1, zero_mul, smul_zero]

/-- A coefficient of a wedge of vectors is the minor of the matrix of their coefficients that belongs to the generators of the
blade, highest generator first. -/
theorem wdgF_minor {n : Nat} : ∀ {k : Nat} {K : Nat} {c : Fin k → Nat}, StrictAnti c → (∀ j, c j < n) → BitsOf K c →
    ∀ M : Fin k → Nat → T, (∀ r, HomF n 1 (M r)) →
    wdgF n (List.ofFn M) K = Matrix.det (Matrix.of fun r j : Fin k => M r (2 ^ c j))
  | 0, K, c, _, _, hK, M, _ => by
    have : K = 0 := by
      apply Nat.eq_of_testBit_eq
      intro a
      rw [Nat.zero_testBit]
      by_contra h
      obtain ⟨j, -⟩ := (hK a).mp (by simpa using h)
      exact j.elim0
    rw [this, Matrix.det_isEmpty]
    rfl
  | k + 1, K, c, hc, hn, hK, M, hM => by
    rw [List.ofFn_succ]
    show geo (fun _ => 0) n (M 0) (wdgF n (List.ofFn fun i => M i.succ)) K = _
    rw [wedge_vec hc hn hK (hM 0), Matrix.det_succ_row_zero]
    refine sum_congr rfl fun j _ => ?_
    rw [wdgF_minor (fun a b h => hc (Fin.strictMono_succAbove j h)) (fun i => hn _) (bitsOf_succAbove hc hK j) _ fun r => hM r.succ]
    rfl

theorem wdgF_hom {n : Nat} : ∀ (l : List (Nat → T)), (∀ f ∈ l, HomF n 1 f) → HomF n l.length (wdgF n l)
  | [], _ => by
    intro i hi h
    show single 0 1 i = 0
    unfold single
    rw [if_neg]
    rintro rfl
    exact h (by simp)
  | f :: l, h => by
    rw [List.length_cons, Nat.add_comm]
    exact geo_hom (h f (by simp)) (wdgF_hom l fun g hg => h g (by simp [hg]))

/-- Every index is given by its bits in descending order. -/
theorem exists_bitsOf {n K : Nat} (hK : K < 2 ^ n) : ∃ c : Fin (cnt n K) → Fin n, StrictAnti c ∧ BitsOf K (fun j => (c j : Nat)) := by
  have hcard : (univ.filter fun a : Fin n => K.testBit a = true).card = cnt n K := by
    rw [cnt_eq_sum, ← Fin.sum_univ_eq_sum_range (fun i => (K.testBit i).toNat), card_filter]
    refine sum_congr rfl fun i _ => ?_
    cases K.testBit i <;> rfl
  refine ⟨fun j => (univ.filter fun a : Fin n => K.testBit a = true).orderEmbOfFin hcard (Fin.rev j), ?_, ?_⟩
  · intro a b h
    exact (OrderEmbedding.lt_iff_lt _).mpr (Fin.rev_lt_rev.mpr h)
  · intro a
    constructor
    · intro h
      have ha : a < n := by
        by_contra hge
        rw [testBit_eq_false_of_lt hK (by omega)] at h
        exact absurd h (by simp)
      have hm : (⟨a, ha⟩ : Fin n) ∈ Set.range ((univ.filter fun a : Fin n => K.testBit a = true).orderEmbOfFin hcard) := by
        rw [range_orderEmbOfFin]; simpa using h
      obtain ⟨j, hj⟩ := hm
      exact ⟨Fin.rev j, by show (((univ.filter _).orderEmbOfFin hcard (Fin.rev (Fin.rev j)) : Fin n) : Nat) = a; rw [Fin.rev_rev, hj]⟩
    · rintro ⟨j, rfl⟩
      have := (univ.filter fun a : Fin n => K.testBit a = true).orderEmbOfFin_mem hcard (Fin.rev j)
      exact (mem_filter.mp this).2

/-! ### Cauchy-Binet -/

theorem bprod_bitsOf {n : Nat} (l : Nat → T) : ∀ {k K : Nat} {c : Fin k → Nat}, Function.Injective c → (∀ j, c j < n) → BitsOf K c →
    bprod l n K = ∏ j, l (c j) := by
  intro k K c hc hn hK
  have h1 : ∀ m, bprod l m K = ∏ a ∈ (range m).filter (fun a => K.testBit a = true), l a := by
    intro m
    induction m with
    | zero => rfl
    | succ m ih =>
      rw [bprod_succ, ih, range_add_one, filter_insert]
      split
      · rename_i h
        rw [prod_insert (by simp), h, cond_true, mul_comm]
      · rename_i h
        rw [Bool.not_eq_true] at h
        rw [h, cond_false, mul_one]
  rw [h1, ← prod_image (s := univ) (g := c) (f := l) fun x _ y _ h => hc h]
  refine prod_congr ?_ fun _ _ => rfl
  ext a
  rw [mem_filter, mem_range, hK, mem_image]
  constructor
  · rintro ⟨-, j, h⟩; exact ⟨j, mem_univ _, h⟩
  · rintro ⟨j, -, rfl⟩; exact ⟨hn j, j, rfl⟩

/-- Coefficients of the vector with given components. -/
def rowF {n : Nat} (m : Fin n → T) : Nat → T := fun i => ∑ a : Fin n, if i = 2 ^ (a : Nat) then m a else 0

theorem rowF_two_pow {n : Nat} (m : Fin n → T) (a : Fin n) : rowF m (2 ^ (a : Nat)) = m a := by
  unfold rowF
  rw [sum_eq_single a, if_pos rfl]
  · intro b _ hb
    rw [if_neg]
    intro h
    exact hb (Fin.ext (Nat.pow_right_injective (le_refl 2) h.symm))
  · intro h; exact absurd (mem_univ _) h

theorem rowF_hom {n : Nat} (m : Fin n → T) : HomF n 1 (rowF m) := by
  intro i hi h
  unfold rowF
  refine sum_eq_zero fun a _ => ?_
  rw [if_neg]
  rintro rfl
  exact h (cnt_two_pow a.2)

theorem wdgF_congr {n : Nat} : ∀ {l l' : List (Nat → T)}, List.Forall₂ (fun f g => ∀ i < 2 ^ n, f i = g i) l l' → ∀ i < 2 ^ n,
    wdgF n l i = wdgF n l' i
  | _, _, .nil, _, _ => rfl
  | _, _, .cons h t, _, hi => geo_congr (fun _ _ => rfl) h (wdgF_congr t) hi

theorem alternating_sum_apply {ι E : Type} [AddCommMonoid E] [Module T E] {κ : Type} (s : Finset κ) (φ : κ → E [⋀^ι]→ₗ[T] T) (v : ι → E) :
    (∑ K ∈ s, φ K) v = ∑ K ∈ s, φ K v := by
  induction s using Finset.cons_induction with
  | empty => rfl
  | cons a s ha ih => rw [sum_cons, sum_cons, AlternatingMap.add_apply, ih]

theorem wdgF_rowF {n k K : Nat} {c : Fin k → Fin n} (hc : StrictAnti c) (hb : BitsOf K (fun j => (c j : Nat))) (M : Fin k → Fin n → T) :
    wdgF n (List.ofFn fun r => rowF (M r)) K = Matrix.det (Matrix.of fun r j : Fin k => M r (c j)) := by
  rw [wdgF_minor (c := fun j => (c j : Nat)) (fun a b h => hc h) (fun j => (c j).2) hb _ fun r => rowF_hom _]
  simp only [rowF_two_pow]

theorem exists_of_bits {n k : Nat} (p : Fin k → Fin n) : ∃ K, BitsOf K (fun j => (p j : Nat)) := by
  refine ⟨Nat.ofBits (fun a : Fin n => decide (∃ j, p j = a)), fun a => ?_⟩
  by_cases ha : a < n
  · rw [Nat.testBit_ofBits_lt _ _ ha, decide_eq_true_iff]
    exact ⟨fun ⟨j, h⟩ => ⟨j, congrArg Fin.val h⟩, fun ⟨j, h⟩ => ⟨j, Fin.ext h⟩⟩
  · rw [Nat.testBit_ofBits_ge _ _ (by omega)]
    simp only [Bool.false_eq_true, false_iff, not_exists]
    rintro j rfl
    exact ha (p j).2

theorem BitsOf.card_eq {k l K : Nat} {p : Fin k → Nat} {c : Fin l → Nat} (hp : BitsOf K p) (hc : BitsOf K c)
    (hpi : Function.Injective p) (hci : Function.Injective c) : l = k := by
  have h : univ.image p = univ.image c := by
    ext a
    simp only [mem_image, mem_univ, true_and]
    rw [← hp a, ← hc a]
  have := congrArg card h
  rw [card_image_of_injective _ hpi, card_image_of_injective _ hci] at this
  simpa using this.symm

/-- The sum over all blades of the products of the minors of two matrices is the determinant of the matrix of scalar products. -/
theorem cauchy_binet (s : Nat → T) {n k : Nat} (M N : Fin k → Fin n → T) :
    ∑ K ∈ range (2 ^ n), bprod s n K * (wdgF n (List.ofFn fun r => rowF (M r)) K * wdgF n (List.ofFn fun r => rowF (N r)) K) =
      Matrix.det (Matrix.of fun r q : Fin k => ∑ a : Fin n, s a * (M r a * N q a)) := by
  -- both sides are alternating in the rows of `M`
  have key : ∀ K < 2 ^ n, ∃ φ : (Fin n → T) [⋀^Fin k]→ₗ[T] T, ∀ M : Fin k → Fin n → T,
      wdgF n (List.ofFn fun r => rowF (M r)) K = φ M := by
    intro K hK
    by_cases hk : cnt n K = k
    · subst hk
      obtain ⟨c, hc, hb⟩ := exists_bitsOf hK
      exact ⟨Matrix.detRowAlternating.compLinearMap (LinearMap.funLeft T T c), fun M => wdgF_rowF hc hb M⟩
    · refine ⟨0, fun M => ?_⟩
      rw [wdgF_hom _ _ K hK]
      · rfl
      · rw [List.length_ofFn]; exact hk
      · intro f hf
        obtain ⟨r, rfl⟩ := (List.mem_ofFn).mp hf
        exact rowF_hom _
  choose! φ hφ using key
  have hext : (∑ K ∈ range (2 ^ n), (bprod s n K * wdgF n (List.ofFn fun r => rowF (N r)) K) • φ K : (Fin n → T) [⋀^Fin k]→ₗ[T] T) =
      Matrix.detRowAlternating.compLinearMap (Matrix.mulVecLin (Matrix.of fun (q : Fin k) (a : Fin n) => s a * N q a)) := by
    refine Module.Basis.ext_alternating (Pi.basisFun T (Fin n)) fun p hp => ?_
    obtain ⟨K, hKb⟩ := exists_of_bits p
    have hK := bitsOf_lt (fun j => (p j).2) hKb
    have hp' : Function.Injective (fun j => (p j : Nat)) := fun x y h => hp (Fin.ext h)
    obtain ⟨c, hc, hb⟩ := exists_bitsOf hK
    have hk : cnt n K = k := hKb.card_eq hb hp' (fun x y h => hc.injective (Fin.ext h))
    simp only [alternating_sum_apply, AlternatingMap.smul_apply]
    rw [sum_eq_single K]
    · subst hk
      rw [← hφ K hK, wdgF_rowF hc hb, wdgF_rowF hc hb, bprod_bitsOf s hp' (fun j => (p j).2) hKb, smul_eq_mul, mul_assoc,
        ← Matrix.det_transpose (Matrix.of fun r j => N r (c j)), mul_comm (Matrix.det _), ← Matrix.det_mul, ← Matrix.det_mul_column]
      show _ = Matrix.det _
      congr 1
      funext r q
      show s (p r) * ∑ j, Pi.basisFun T (Fin n) (p r) (c j) * N q (c j) = ∑ a : Fin n, s a * N q a * Pi.basisFun T (Fin n) (p r) a
      obtain ⟨j, hj⟩ := (hb _).mp ((hKb _).mpr ⟨r, rfl⟩)
      have hj : c j = p r := Fin.ext hj
      rw [sum_eq_single j, sum_eq_single (p r), hj]
      · ring
      · intro a _ ha
        rw [Pi.basisFun_apply, Pi.single_eq_of_ne ha, mul_zero]
      · intro h; exact absurd (mem_univ _) h
      · intro i _ hi
        rw [Pi.basisFun_apply, Pi.single_eq_of_ne, zero_mul]
        exact fun h => hi (hc.injective (h.trans hj.symm))
      · intro h; exact absurd (mem_univ _) h
    · intro L hL hne
      rw [mem_range] at hL
      rw [← hφ L hL]
      by_cases hk' : cnt n L = k
      · subst hk'
        obtain ⟨d, hd, hdb⟩ := exists_bitsOf hL
        rw [wdgF_rowF hd hdb (fun i => Pi.basisFun T (Fin n) (p i))]
        have : ∃ r, ∀ j, d j ≠ p r := by
          by_contra h
          push Not at h
          choose t ht using h
          have htb : Function.Bijective t := Finite.injective_iff_bijective.mp fun x y hxy =>
            hp (by rw [← ht x, ← ht y, hxy])
          apply hne
          apply Nat.eq_of_testBit_eq
          intro a
          rw [Bool.eq_iff_iff, hdb a, hKb a]
          constructor
          · rintro ⟨j, rfl⟩
            obtain ⟨r, rfl⟩ := htb.2 j
            exact ⟨r, congrArg Fin.val (ht r).symm⟩
          · rintro ⟨r, rfl⟩
            exact ⟨t r, congrArg Fin.val (ht r)⟩
        obtain ⟨r, hr⟩ := this
        rw [Matrix.det_eq_zero_of_row_eq_zero r, smul_zero]
        intro j
        show Pi.basisFun T (Fin n) (p r) (d j) = 0
        rw [Pi.basisFun_apply, Pi.single_eq_of_ne (hr j)]
      · rw [wdgF_hom _ _ L hL, mul_zero, zero_smul]
        · rw [List.length_ofFn]; exact hk'
        · intro f hf
          obtain ⟨r, rfl⟩ := (List.mem_ofFn).mp hf
          exact rowF_hom _
    · intro h; exact absurd (mem_range.mpr hK) h
  have h := congrArg (fun ψ : (Fin n → T) [⋀^Fin k]→ₗ[T] T => ψ M) hext
  simp only [alternating_sum_apply, AlternatingMap.smul_apply] at h
  refine Eq.trans (sum_congr rfl fun K hK => ?_) (h.trans ?_)
  · rw [hφ K (mem_range.mp hK), smul_eq_mul]; ring
  · show Matrix.det _ = _
    congr 1
    funext r q
    show ∑ a : Fin n, (s a * N q a) * M r a = _
    exact sum_congr rfl fun a _ => by ring

end

end TClifford
