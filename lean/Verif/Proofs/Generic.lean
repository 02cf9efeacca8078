import Verif.Proofs.Dominant
import Verif.Proofs.Complexify
import Mathlib.LinearAlgebra.Matrix.ToLinearEquiv
import Mathlib.Algebra.MvPolynomial.Funext
/-
`matrix_inv` succeeds on matrices with certain minors different from zero, whatever pivots are chosen; for the matrices of
multivectors the product of these minors is a non-zero polynomial in the coefficients.
-/

set_option linter.unusedSectionVars false

namespace TClifford

open Finset

/-- Column `b` of the minor of size `i + 1` that ends in column `j`. -/
def mcol (i j b : Nat) : Nat := if b < i then b else j

section
variable {K N : Type} [Field K] [DecidableEq K] [LinearOrder N] [Zero N]

/-- The minor with rows `ρ` and columns `0, …, i - 1, j`. -/
def minor {R : Type} [CommRing R] (M : Nat → Nat → R) (i j : Nat) (ρ : Nat → Nat) : R :=
  Matrix.det (Matrix.of fun a b : Fin (i + 1) => M (ρ a) (mcol i j b))

/-- All minors with columns `0, …, i - 1, j` are different from zero. -/
def MinorsNe (n : Nat) (M : Nat → Nat → K) : Prop :=
  ∀ i j, i ≤ j → j < n → ∀ ρ : Nat → Nat, (∀ a ≤ i, ρ a < n) → (∀ a ≤ i, ∀ b ≤ i, ρ a = ρ b → a = b) → minor M i j ρ ≠ 0

/-- The rows from `i` on, after `i` steps. -/
structure Partway (n i : Nat) (M w : Nat → Nat → K) (ρ : Nat → Nat) (c : Nat → Nat → K) : Prop where
  lt : ∀ r < n, ρ r < n
  inj : ∀ r < n, ∀ s < n, ρ r = ρ s → r = s
  row : ∀ r, i ≤ r → r < n → ∀ m < n, w r m = M (ρ r) m + ∑ l ∈ range i, c r l * M (ρ l) m
  low : ∀ r, i ≤ r → r < n → ∀ m < i, w r m = 0

theorem Partway.ne_zero {n i : Nat} {M w : Nat → Nat → K} {ρ : Nat → Nat} {c : Nat → Nat → K} (h : Partway n i M w ρ c)
    (hM : MinorsNe n M) {r j : Nat} (hr : i ≤ r) (hr' : r < n) (hj : i ≤ j) (hj' : j < n) : w r j ≠ 0 := by
  intro h0
  let ρ' : Nat → Nat := fun a => if a < i then ρ a else ρ r
  have hρ' : ∀ a, (a < i → ρ' a = ρ a) ∧ (a = i → ρ' a = ρ r) := fun a =>
    ⟨fun h => if_pos h, fun h => if_neg (by omega)⟩
  refine hM i j hj hj' ρ' (fun a ha => ?_) (fun a ha b hb e => ?_) ?_
  · rcases Nat.lt_or_ge a i with h1 | h1
    · rw [(hρ' a).1 h1]; exact h.lt _ (by omega)
    · rw [(hρ' a).2 (by omega)]; exact h.lt _ hr'
  · rcases Nat.lt_or_ge a i with h1 | h1 <;> rcases Nat.lt_or_ge b i with h2 | h2
    · rw [(hρ' a).1 h1, (hρ' b).1 h2] at e; exact h.inj _ (by omega) _ (by omega) e
    · rw [(hρ' a).1 h1, (hρ' b).2 (by omega)] at e
      have := h.inj _ (by omega) _ hr' e
      omega
    · rw [(hρ' a).2 (by omega), (hρ' b).1 h2] at e
      have := h.inj _ hr' _ (by omega) e
      omega
    · omega
  · unfold minor
    rw [← Matrix.exists_vecMul_eq_zero_iff]
    refine ⟨fun a : Fin (i + 1) => if (a : Nat) < i then c r a else 1, fun h1 => ?_, ?_⟩
    · have := congrFun h1 (Fin.last i)
      simp at this
    · funext b
      have hcol : mcol i j b < n ∧ w r (mcol i j b) = 0 := by
        unfold mcol
        split
        · rename_i hb; exact ⟨by omega, h.low r hr hr' _ hb⟩
        · exact ⟨hj', h0⟩
      have hrow := h.row r hr hr' _ hcol.1
      rw [hcol.2] at hrow
      show ∑ a : Fin (i + 1), (if (a : Nat) < i then c r a else 1) * M (ρ' a) (mcol i j b) = (0 : K)
      rw [Fin.sum_univ_eq_sum_range (fun a => (if a < i then c r a else 1) * M (ρ' a) (mcol i j b)), sum_range_succ,
        if_neg (lt_irrefl i), (hρ' i).2 rfl, one_mul, add_comm, hrow]
      congr 1
      refine sum_congr rfl fun a ha => ?_
      rw [if_pos (mem_range.mp ha), (hρ' a).1 (mem_range.mp ha)]

theorem invEliminate_ok (i : Nat) (v : Nat → Nat → K) (k : Nat)
    (h : ∀ r, i < r → r < i + 1 + k → v r r - v r i * v i r ≠ 0) :
    (List.range' (i + 1) k).foldlM (fun w j =>
      let w := invSubRow i j i (w j i) w
      if w j j = 0 then none else some w) v =
      some (fun r m => if i < r ∧ r < i + 1 + k ∧ i ≤ m then v r m - v r i * v i m else v r m) := by
  induction k with
  | zero =>
    show some v = _
    congr 1
    funext r m
    rw [if_neg (by omega)]
  | succ k ih =>
    rw [List.range'_1_concat, List.foldlM_append, ih fun r h1 h2 => h r h1 (by omega)]
    show (if _ then none else some _) >>= _ = _
    have e : invSubRow i (i + 1 + k) i ((fun r m => if i < r ∧ r < i + 1 + k ∧ i ≤ m then v r m - v r i * v i m else v r m)
        (i + 1 + k) i) (fun r m => if i < r ∧ r < i + 1 + k ∧ i ≤ m then v r m - v r i * v i m else v r m) =
        fun r m => if i < r ∧ r < i + 1 + (k + 1) ∧ i ≤ m then v r m - v r i * v i m else v r m := by
      funext r m
      unfold invSubRow
      dsimp only
      by_cases h1 : r = i + 1 + k ∧ i ≤ m
      · rw [if_pos h1, if_neg (by omega), if_neg (by omega), if_neg (by omega), if_pos (by omega), h1.1]
      · rw [if_neg h1]
        by_cases h2 : i < r ∧ r < i + 1 + k ∧ i ≤ m
        · rw [if_pos h2, if_pos (by omega)]
        · rw [if_neg h2, if_neg (by omega)]
    rw [e, if_neg]
    · rfl
    · dsimp only
      rw [if_pos (by omega)]
      exact h _ (by omega) (by omega)

theorem Partway.swap {n i k : Nat} {M w : Nat → Nat → K} {ρ : Nat → Nat} {c : Nat → Nat → K} (h : Partway n i M w ρ c)
    (hi : i < n) (hik : i ≤ k) (hk : k < n) :
    Partway n i M (invSwap i k w) (fun r => ρ (Equiv.swap i k r)) (fun r => c (Equiv.swap i k r)) := by
  have hs : ∀ r, i ≤ r → r < n → i ≤ Equiv.swap i k r ∧ Equiv.swap i k r < n := by
    intro r h1 h2
    rw [Equiv.swap_apply_def]
    split <;> [skip; split] <;> omega
  have hs' : ∀ r < n, Equiv.swap i k r < n := by
    intro r h2
    rw [Equiv.swap_apply_def]
    split <;> [skip; split] <;> omega
  have hl : ∀ r < i, Equiv.swap i k r = r := fun r hr => Equiv.swap_apply_of_ne_of_ne (by omega) (by omega)
  have hw : ∀ r m, invSwap i k w r m = w (Equiv.swap i k r) m := by
    intro r m
    unfold invSwap
    rw [Equiv.swap_apply_def]
    split <;> [rfl; split] <;> rfl
  refine ⟨fun r hr => h.lt _ (hs' r hr), fun r hr s hs e => (Equiv.swap i k).injective (h.inj _ (hs' r hr) _ (hs' s hs) e),
    fun r h1 h2 m hm => ?_, fun r h1 h2 m hm => ?_⟩
  · rw [hw, h.row _ (hs r h1 h2).1 (hs r h1 h2).2 m hm]
    congr 1
    refine sum_congr rfl fun l hl' => ?_
    show _ = _ * M (ρ (Equiv.swap i k l)) m
    rw [hl l (mem_range.mp hl')]
  · rw [hw]; exact h.low _ (hs r h1 h2).1 (hs r h1 h2).2 m hm

theorem Partway.step {norm : K → N} (hN : ∀ x, norm x = 0 ↔ x = 0) {n i : Nat} {M w : Nat → Nat → K} {ρ : Nat → Nat}
    {c : Nat → Nat → K} (h : Partway n i M w ρ c) (hM : MinorsNe n M) (hi : i < n) :
    ∃ y ρ' c', invForwardStep norm n w i = some y ∧ Partway n (i + 1) M y ρ' c' := by
  obtain ⟨k, hik, hk, hp⟩ := invPivot_spec norm n i hi w
  have h0 : (invPivot norm n i w).1 ≠ 0 := by
    rw [hp]
    exact fun e => h.ne_zero hM hik hk (le_refl i) hi ((hN _).mp e)
  unfold invForwardStep
  dsimp only
  rw [if_neg h0, hp]
  dsimp only
  have hs := h.swap hi hik hk
  set u := invSwap i k w
  set σ : Nat → Nat := fun r => ρ (Equiv.swap i k r)
  set d : Nat → Nat → K := fun r => c (Equiv.swap i k r)
  have hpiv : u i i ≠ 0 := hs.ne_zero hM (le_refl _) hi (le_refl _) hi
  set v := invNormalize i u with hv
  have v1 : ∀ r, r ≠ i → v r = u r := fun r hr => invNormalize_row_ne hr
  have v2 : ∀ m, i ≤ m → v i m = 1 / u i i * u i m := fun m hm => if_pos ⟨rfl, hm⟩
  have hy : Partway n (i + 1) M (fun r m => if i < r ∧ r < i + 1 + (n - (i + 1)) ∧ i ≤ m then v r m - v r i * v i m else v r m) σ
      (fun r l => if l < i then d r l - u r i / u i i * d i l else -(u r i / u i i)) := by
    refine ⟨hs.lt, hs.inj, fun r h1 h2 m hm => ?_, fun r h1 h2 m hm => ?_⟩
    · have e : (if i < r ∧ r < i + 1 + (n - (i + 1)) ∧ i ≤ m then v r m - v r i * v i m else v r m) =
          u r m - u r i / u i i * u i m := by
        rcases Nat.lt_or_ge m i with hmi | hmi
        · rw [if_neg (by omega), v1 r (by omega), hs.low r (by omega) h2 m hmi, hs.low i (le_refl _) hi m hmi]
          ring
        · rw [if_pos (by omega), v1 r (by omega), v2 m hmi]
          ring
      show (if _ then _ else _) = _
      rw [e, hs.row r (by omega) h2 m hm, hs.row i (le_refl _) hi m hm, sum_range_succ, if_neg (lt_irrefl i)]
      have : ∑ l ∈ range i, (if l < i then d r l - u r i / u i i * d i l else -(u r i / u i i)) * M (σ l) m =
          ∑ l ∈ range i, d r l * M (σ l) m - u r i / u i i * ∑ l ∈ range i, d i l * M (σ l) m := by
        rw [mul_sum, ← sum_sub_distrib]
        refine sum_congr rfl fun l hl => ?_
        rw [if_pos (mem_range.mp hl)]
        ring
      rw [this]
      ring
    · show (if _ then _ else _) = _
      rcases Nat.lt_or_ge m i with hmi | hmi
      · rw [if_neg (by omega), v1 r (by omega), hs.low r (by omega) h2 m hmi]
      · obtain rfl : m = i := by omega
        rw [if_pos (by omega), v1 r (by omega), v2 m hmi]
        field_simp
        ring
  refine ⟨_, _, _, invEliminate_ok i v (n - (i + 1)) (fun r h1 h2 => ?_), hy⟩
  have := hy.ne_zero hM (r := r) (j := r) (by omega) (by omega) (by omega) (by omega)
  rwa [if_pos (by omega)] at this

theorem forward_generic {norm : K → N} (hN : ∀ x, norm x = 0 ↔ x = 0) {n : Nat} {M w : Nat → Nat → K} (hM : MinorsNe n M)
    (hw : ∀ r < n, ∀ m < n, w r m = M r m) (i : Nat) (hi : i ≤ n) :
    ∃ y ρ c, (List.range i).foldlM (invForwardStep norm n) w = some y ∧ Partway n i M y ρ c := by
  induction i with
  | zero =>
    refine ⟨w, id, fun _ _ => 0, rfl, fun r hr => hr, fun r _ s _ e => e, fun r _ hr m hm => ?_, fun r _ _ m hm => absurd hm (by omega)⟩
    rw [hw r hr m hm]; simp
  | succ i ih =>
    obtain ⟨y, ρ, c, e, hy⟩ := ih (by omega)
    obtain ⟨y', ρ', c', e', hy'⟩ := hy.step hN hM (by omega)
    refine ⟨y', ρ', c', ?_, hy'⟩
    rw [List.range_succ, List.foldlM_append, e]
    show List.foldlM (invForwardStep norm n) y [i] = _
    rw [List.foldlM_cons, e']
    rfl

/-- `matrix_inv` succeeds on matrices with non-zero minors. -/
theorem matrixInv_generic {norm : K → N} (hN : ∀ x, norm x = 0 ↔ x = 0) {mat : Arr2 K} (hsq : mat.rows = mat.cols)
    (hM : MinorsNe mat.rows mat.get) : (matrixInv norm mat).isSome := by
  obtain ⟨y, ρ, c, e, -⟩ := forward_generic hN (w := invInit mat) hM (fun r hr m hm => if_pos hm) mat.rows (le_refl _)
  unfold matrixInv
  rw [if_neg (by simpa using hsq)]
  dsimp only
  rw [e]
  rfl

end

/-! ### Matrices of multivectors with a given minor not zero -/

/-- A bijection of two sets of the same size that respects the pairs `{x, x ^^^ h}` wherever it can. -/
theorem exists_pairing {h : Nat} (h0 : h ≠ 0) (k : Nat) : ∀ R C : Finset Nat, R.card = k → C.card = k → ∃ σ : Nat → Nat, (∀ r ∈ R, σ r ∈ C) ∧
    (∀ c ∈ C, ∃ r ∈ R, σ r = c) ∧ ∀ r ∈ R, r ^^^ h ∈ R → σ r ^^^ h ∈ C → σ (r ^^^ h) = σ r ^^^ h := by
  induction k using Nat.strong_induction_on with
  | _ k ih =>
    intro R C hR hC
    by_cases hx : (∃ x ∈ R, x ^^^ h ∈ R) ∧ ∃ y ∈ C, y ^^^ h ∈ C
    · obtain ⟨⟨x, hx, hx'⟩, y, hy, hy'⟩ := hx
      have hxx : ∀ z : Nat, z ^^^ h ^^^ h = z := fun z => by rw [Nat.xor_assoc, Nat.xor_self, Nat.xor_zero]
      have hne : ∀ z : Nat, z ^^^ h ≠ z := fun z e => h0 (by
        have := congrArg (z ^^^ ·) e
        simpa [← Nat.xor_assoc] using this)
      have hR' : ((R.erase x).erase (x ^^^ h)).card = k - 2 := by
        rw [card_erase_of_mem (mem_erase.mpr ⟨hne x, hx'⟩), card_erase_of_mem hx, hR]; omega
      have hC' : ((C.erase y).erase (y ^^^ h)).card = k - 2 := by
        rw [card_erase_of_mem (mem_erase.mpr ⟨hne y, hy'⟩), card_erase_of_mem hy, hC]; omega
      have hk : 0 < k := hR ▸ card_pos.mpr ⟨x, hx⟩
      obtain ⟨σ, s1, s2, s3⟩ := ih (k - 2) (by omega) _ _ hR' hC'
      simp only [mem_erase] at s1 s2 s3
      have f1 : ∀ r, r ≠ x → r ≠ x ^^^ h → (if r = x then y else if r = x ^^^ h then y ^^^ h else σ r) = σ r := fun r h1 h2 => by
        rw [if_neg h1, if_neg h2]
      have f2 : (if x ^^^ h = x then y else if x ^^^ h = x ^^^ h then y ^^^ h else σ (x ^^^ h)) = y ^^^ h := by
        rw [if_neg (hne x), if_pos rfl]
      refine ⟨fun r => if r = x then y else if r = x ^^^ h then y ^^^ h else σ r, fun r hr => ?_, fun c hc => ?_, fun r hr hr' hc => ?_⟩
      · dsimp only
        split
        · exact hy
        · split
          · exact hy'
          · rename_i h1 h2
            exact (s1 r ⟨h2, h1, hr⟩).2.2
      · by_cases c1 : c = y
        · exact ⟨x, hx, (if_pos rfl).trans c1.symm⟩
        · by_cases c2 : c = y ^^^ h
          · exact ⟨x ^^^ h, hx', f2.trans c2.symm⟩
          · obtain ⟨r, hr, e⟩ := s2 c ⟨c2, c1, hc⟩
            exact ⟨r, hr.2.2, (f1 r hr.2.1 hr.1).trans e⟩
      · dsimp only at hc ⊢
        by_cases r1 : r = x
        · subst r1
          rw [f2, if_pos rfl]
        · by_cases r2 : r = x ^^^ h
          · subst r2
            rw [hxx, if_pos rfl, f2, hxx]
          · rw [f1 r r1 r2] at hc ⊢
            have r3 : r ^^^ h ≠ x := fun e => r2 (by rw [← e, hxx])
            have r4 : r ^^^ h ≠ x ^^^ h := fun e => r1 (by rw [← hxx r, e, hxx])
            rw [f1 _ r3 r4]
            obtain ⟨t1, t2, t3⟩ := s1 r ⟨r2, r1, hr⟩
            exact s3 r ⟨r2, r1, hr⟩ ⟨r4, r3, hr'⟩ ⟨fun e => t2 (by rw [← hxx (σ r), e, hxx]), fun e => t1 (by rw [← e, hxx]), hc⟩
    · obtain ⟨e⟩ : Nonempty (R ≃ C) := ⟨Finset.equivOfCardEq (hR.trans hC.symm)⟩
      have hm : ∀ r ∈ R, (if hr : r ∈ R then (e ⟨r, hr⟩ : Nat) else 0) ∈ C := fun r hr => by rw [dif_pos hr]; exact (e ⟨r, hr⟩).2
      refine ⟨fun r => if hr : r ∈ R then e ⟨r, hr⟩ else 0, hm, fun c hc => ?_, fun r hr hr' hc => ?_⟩
      · exact ⟨e.symm ⟨c, hc⟩, (e.symm ⟨c, hc⟩).2, by simp⟩
      · exact absurd ⟨⟨r, hr, hr'⟩, _, hm r hr, hc⟩ hx

section
variable {K : Type} [Field K]

/-- A signed permutation matrix. -/
theorem det_ne_zero_of_perm {k : Nat} {M : Matrix (Fin k) (Fin k) K} {τ : Fin k → Fin k} (hτ : ∀ b, ∃ a, τ a = b)
    (h0 : ∀ a b, b ≠ τ a → M a b = 0) (h1 : ∀ a, M a (τ a) ≠ 0) : M.det ≠ 0 := by
  intro h
  rw [← Matrix.exists_mulVec_eq_zero_iff] at h
  obtain ⟨v, hv, e⟩ := h
  apply hv
  funext b
  obtain ⟨a, rfl⟩ := hτ b
  have := congrFun e a
  have e2 : (M.mulVec v) a = ∑ b, M a b * v b := rfl
  rw [e2, Finset.sum_eq_single (τ a) (fun b _ hb => by rw [h0 a b hb, zero_mul]) (fun h => absurd (mem_univ _) h)] at this
  exact (mul_eq_zero.mp this).resolve_left (h1 a)

theorem mcol_inj {i j a b : Nat} (hj : i ≤ j) (ha : a ≤ i) (hb : b ≤ i) (h : mcol i j a = mcol i j b) : a = b := by
  unfold mcol at h
  split at h <;> split at h <;> omega

/-- Rows and columns of a minor. -/
theorem minor_ne_zero {i j : Nat} (hj : i ≤ j) {ρ : Nat → Nat} {M : Nat → Nat → K}
    {σ : Nat → Nat} (s1 : ∀ r ∈ (range (i + 1)).image ρ, σ r ∈ (range (i + 1)).image (mcol i j))
    (s2 : ∀ c ∈ (range (i + 1)).image (mcol i j), ∃ r ∈ (range (i + 1)).image ρ, σ r = c)
    (hM : ∀ r ∈ (range (i + 1)).image ρ, ∀ c ∈ (range (i + 1)).image (mcol i j), M r c ≠ 0 ↔ c = σ r) : minor M i j ρ ≠ 0 := by
  have hr : ∀ a : Fin (i + 1), ρ a ∈ (range (i + 1)).image ρ := fun a => mem_image_of_mem _ (mem_range.mpr a.2)
  have hc : ∀ a : Fin (i + 1), mcol i j a ∈ (range (i + 1)).image (mcol i j) := fun a => mem_image_of_mem _ (mem_range.mpr a.2)
  have ht : ∀ a : Fin (i + 1), ∃ b : Fin (i + 1), mcol i j b = σ (ρ a) := fun a => by
    obtain ⟨b, hb, e⟩ := mem_image.mp (s1 _ (hr a))
    exact ⟨⟨b, mem_range.mp hb⟩, e⟩
  choose τ hτ using ht
  refine det_ne_zero_of_perm (τ := τ) (fun b => ?_) (fun a b hb => ?_) (fun a => ?_)
  · obtain ⟨r, hr, e⟩ := s2 _ (hc b)
    obtain ⟨a, ha, e'⟩ := mem_image.mp hr
    refine ⟨⟨a, mem_range.mp ha⟩, Fin.ext (mcol_inj hj (by omega) (by omega) ?_)⟩
    rw [hτ]
    show σ (ρ a) = _
    rw [e', e]
  · by_contra h
    have := (hM _ (hr a) _ (hc b)).mp h
    rw [← hτ] at this
    exact hb (Fin.ext (mcol_inj hj (by omega) (by omega) this))
  · exact (hM _ (hr a) _ (hc _)).mpr (hτ a)

theorem two_pow_xor {q r : Nat} (hr : r < 2 ^ q) : r ^^^ 2 ^ q = r + 2 ^ q := by
  have := xor_add_two_pow hr (Nat.two_pow_pos q)
  rwa [zero_add, Nat.xor_zero] at this

theorem two_pow_xor' {q r : Nat} (hr : 2 ^ q ≤ r) (hr' : r < 2 ^ (q + 1)) : r ^^^ 2 ^ q = r - 2 ^ q := by
  rw [pow_succ] at hr'
  have := two_pow_xor (q := q) (r := r - 2 ^ q) (by omega)
  rw [Nat.sub_add_cancel hr] at this
  conv_lhs => rw [← this, Nat.xor_assoc, Nat.xor_self, Nat.xor_zero]

variable [ImagUnit K]

local notation "𝐢" => (HasI.I : K)

theorem sg_smul_ne {b : Bool} {x : K} : sg b • x ≠ 0 ↔ x ≠ 0 := by cases b <;> simp

/-- Every matrix of this form belongs to an element of the algebra with an odd number of generators. -/
theorem ctr_blk_odd (h2 : (2 : K) ≠ 0) (q : Nat) (A B : Nat → Nat → K) :
    ∃ g : Nat → K, MEq (2 ^ (q + 1)) (2 ^ (q + 1)) (ctr (q + 1) (2 * q + 1) g) (blk q A (al q B) B (al q A)) := by
  have h2' : (1 + 1 : K) ≠ 0 := by rw [one_add_one_eq_two]; exact h2
  let g : Nat → K := fun k => jn (2 * q) (icnn q A) (icnn q B) k * bprod (fun i => if oddMask.testBit i then -𝐢 else 1) (2 * (q + 1)) k
  have hg : ctr (q + 1) (2 * q + 1) g = blk q (cnn q (icnn q A)) (al q (cnn q (icnn q B))) (cnn q (icnn q B)) (al q (cnn q (icnn q A))) := by
    have := cnn_jn q (icnn q A) (icnn q B) 0 0
    rw [cnn_zero, add_zero, add_zero, sub_zero, sub_zero] at this
    rw [← this]
    unfold ctr
    refine cnn_congr fun k hk => ?_
    unfold psc pad
    by_cases hk' : k < 2 ^ (2 * q + 1)
    · rw [if_pos hk']
      show _ * (_ * _) = _
      rw [mul_comm (jn _ _ _ _), ← mul_assoc, bprod_I_mul, one_mul]
      conv_rhs => unfold jn
      rw [if_pos hk']
      rfl
    · rw [if_neg hk', mul_zero]
      conv_rhs => unfold jn
      rw [if_neg hk']
      split <;> rfl
  have cA := cnn_icnn h2' q A
  have cB := cnn_icnn h2' q B
  have hp2 : 2 ^ (q + 1) = 2 ^ q + 2 ^ q := by rw [pow_succ]; ring
  refine ⟨g, fun r hr c hc => ?_⟩
  rw [hg]
  unfold blk al
  split <;> split
  · rename_i a1 a2; exact cA _ a1 _ a2
  · rename_i a1 a2; rw [cB _ a1 _ (by omega)]
  · rename_i a1 a2; exact cB _ (by omega) _ a2
  · rename_i a1 a2; rw [cA _ (by omega) _ (by omega)]

/-- For each choice of rows there is a multivector whose minor is not zero. -/
theorem minor_point (h2 : (2 : K) ≠ 0) {m p : Nat} (hp : p = 2 * m ∨ p + 1 = 2 * m) {i j : Nat} (hj : i ≤ j) (hj' : j < 2 ^ m)
    {ρ : Nat → Nat} (hlt : ∀ a ≤ i, ρ a < 2 ^ m) (hinj : ∀ a ≤ i, ∀ b ≤ i, ρ a = ρ b → a = b) :
    ∃ g : Nat → K, minor (ctr m p g) i j ρ ≠ 0 := by
  classical
  set R := (range (i + 1)).image ρ with hR
  set C := (range (i + 1)).image (mcol i j) with hC
  have cR : R.card = i + 1 := by
    rw [hR, card_image_of_injOn, card_range]
    intro a ha b hb e
    simp only [coe_range, Set.mem_Iio] at ha hb
    exact hinj a (by omega) b (by omega) e
  have cC : C.card = i + 1 := by
    rw [hC, card_image_of_injOn, card_range]
    intro a ha b hb e
    simp only [coe_range, Set.mem_Iio] at ha hb
    exact mcol_inj hj (by omega) (by omega) e
  have lR : ∀ r ∈ R, r < 2 ^ m := fun r hr => by
    obtain ⟨a, ha, rfl⟩ := mem_image.mp hr
    exact hlt a (by have := mem_range.mp ha; omega)
  have lC : ∀ c ∈ C, c < 2 ^ m := fun c hc => by
    obtain ⟨a, ha, rfl⟩ := mem_image.mp hc
    unfold mcol
    split <;> omega
  rcases hp with rfl | hp
  · obtain ⟨σ, s1, s2, -⟩ := exists_pairing (h := 1) one_ne_zero (i + 1) R C cR cC
    refine ⟨ictr m (fun r c => if c = σ r then 1 else 0), minor_ne_zero hj s1 s2 fun r hr c hc => ?_⟩
    rw [ctr_ictr h2 m _ r (lR r hr) c (lC c hc)]
    simp
  · obtain ⟨q, rfl⟩ : ∃ q, m = q + 1 := ⟨m - 1, by omega⟩
    obtain rfl : p = 2 * q + 1 := by omega
    obtain ⟨σ, s1, s2, s3⟩ := exists_pairing (h := 2 ^ q) (Nat.two_pow_pos q).ne' (i + 1) R C cR cC
    let E : Nat → Nat → Prop := fun r c => r ∈ R ∧ c = σ r
    let X : Nat → Nat → K := fun r c => if E r c ∨ E (r ^^^ 2 ^ q) (c ^^^ 2 ^ q) then 1 else 0
    have hxx : ∀ z : Nat, z ^^^ 2 ^ q ^^^ 2 ^ q = z := fun z => by rw [Nat.xor_assoc, Nat.xor_self, Nat.xor_zero]
    have hX : ∀ r c, X (r ^^^ 2 ^ q) (c ^^^ 2 ^ q) = X r c := fun r c => by
      show (if _ then _ else _) = if _ then _ else _
      rw [hxx, hxx]
      simp only [or_comm]
    have hX0 : ∀ r ∈ R, ∀ c ∈ C, X r c ≠ 0 ↔ c = σ r := by
      intro r hr c hc
      show (if _ then (1 : K) else 0) ≠ 0 ↔ _
      rw [ne_eq, ite_eq_right_iff, not_forall]
      constructor
      · rintro ⟨h | ⟨h1, h3⟩, -⟩
        · exact h.2
        · have := s3 _ h1 (by rw [hxx]; exact hr) (by rw [← h3, hxx]; exact hc)
          rw [hxx, ← h3, hxx] at this
          exact this.symm
      · exact fun h => ⟨.inl ⟨hr, h⟩, one_ne_zero⟩
    let B : Nat → Nat → K := fun r c => X (r + 2 ^ q) c
    obtain ⟨g, hg⟩ := ctr_blk_odd h2 q X B
    refine ⟨g, minor_ne_zero hj s1 s2 fun r hr c hc => ?_⟩
    have r1 := lR r hr
    have c1 := lC c hc
    have hp2 : 2 ^ (q + 1) = 2 ^ q + 2 ^ q := by rw [pow_succ]; ring
    rw [hg r r1 c c1, ← hX0 r hr c hc]
    unfold blk
    split <;> split
    · exact Iff.rfl
    · rename_i a1 a2
      unfold al
      rw [sg_smul_ne]
      show X (r + 2 ^ q) (c - 2 ^ q) ≠ 0 ↔ _
      rw [← two_pow_xor a1, ← two_pow_xor' (by omega) c1, hX]
    · rename_i a1 a2
      show X (r - 2 ^ q + 2 ^ q) c ≠ 0 ↔ _
      rw [Nat.sub_add_cancel (by omega)]
    · rename_i a1 a2
      unfold al
      rw [sg_smul_ne, ← two_pow_xor' (by omega) r1, ← two_pow_xor' (by omega) c1, hX]

/-! ### The polynomial -/

open MvPolynomial in
/-- The matrix of the multivector with indeterminate coefficients. -/
noncomputable def polyMat (A : ClAlg) (m p : Nat) : Nat → Nat → MvPolynomial Nat K :=
  cnn m (fun k => C (psc m p (cx (T := K) A (fun _ => 1)) k) * X k)

open MvPolynomial in
theorem eval_polyMat (A : ClAlg) (m p : Nat) (z : Nat → K) (r c : Nat) :
    eval z (polyMat A m p r c) = ctr m p (cx A z) r c := by
  have := congrFun (congrFun (cnn_map (f := fun P : MvPolynomial Nat K => eval z P) (fun x y => map_add _ x y) m
    (fun k => C (psc m p (cx (T := K) A (fun _ => 1)) k) * X k)) r) c
  unfold polyMat ctr
  rw [← this]
  congr 2
  funext k
  rw [map_mul, eval_C, eval_X]
  unfold psc pad cx
  split
  · show _ * (_ * (1 : K)) * z k = _ * (_ * z k)
    ring
  · ring

/-- The product of the minors. -/
noncomputable def minorPoly (A : ClAlg) (m p : Nat) : MvPolynomial Nat K :=
  ∏ i ∈ range (2 ^ m), ∏ j ∈ Ico i (2 ^ m), ∏ ρ ∈ (univ : Finset (Fin (i + 1) → Fin (2 ^ m))).filter Function.Injective,
    minor (polyMat A m p) i j (fun a => if h : a < i + 1 then ρ ⟨a, h⟩ else 0)

open MvPolynomial in
theorem eval_minor (A : ClAlg) (m p : Nat) (z : Nat → K) (i j : Nat) (ρ : Nat → Nat) :
    eval z (minor (polyMat A m p) i j ρ) = minor (ctr m p (cx A z)) i j ρ := by
  unfold minor
  rw [RingHom.map_det]
  congr 1
  ext a b
  exact eval_polyMat A m p z _ _

theorem minorPoly_ne_zero [DecidableEq K] (h2 : (2 : K) ≠ 0) (A : ClAlg) {m p : Nat} (hp : p = 2 * m ∨ p + 1 = 2 * m) :
    (minorPoly A m p : MvPolynomial Nat K) ≠ 0 := by
  unfold minorPoly
  rw [prod_ne_zero_iff]
  intro i hi
  rw [prod_ne_zero_iff]
  intro j hj
  rw [prod_ne_zero_iff]
  intro ρ hρ h0
  rw [mem_range] at hi
  rw [mem_Ico] at hj
  have hρ := (mem_filter.mp hρ).2
  obtain ⟨g, hg⟩ := minor_point (K := K) h2 hp hj.1 hj.2 (ρ := fun a => if h : a < i + 1 then ρ ⟨a, h⟩ else 0)
    (fun a ha => by rw [dif_pos (by omega)]; exact (ρ _).2)
    (fun a ha b hb e => by
      rw [dif_pos (show a < i + 1 by omega), dif_pos (show b < i + 1 by omega)] at e
      exact congrArg Fin.val (hρ (Fin.ext e)))
  apply hg
  have := eval_minor (K := K) A m p (dcx (T := K) A g) i j (fun a => if h : a < i + 1 then ρ ⟨a, h⟩ else 0)
  rw [h0, map_zero, cx_dcx] at this
  exact this.symm

open MvPolynomial in
theorem minorsNe_of_eval {A : ClAlg} {m p : Nat} {z : Nat → K} (h : eval z (minorPoly A m p) ≠ 0) :
    MinorsNe (2 ^ m) (ctr m p (cx (K := K) A z)) := by
  intro i j hj hj' ρ hlt hinj h0
  apply h
  unfold minorPoly
  rw [map_prod]
  refine prod_eq_zero (i := i) (mem_range.mpr (by omega)) ?_
  rw [map_prod]
  refine prod_eq_zero (i := j) (mem_Ico.mpr ⟨hj, hj'⟩) ?_
  rw [map_prod]
  refine prod_eq_zero (i := fun a : Fin (i + 1) => ⟨ρ a, hlt a (by omega)⟩) ?_ ?_
  · rw [mem_filter]
    exact ⟨mem_univ _, fun a b e => Fin.ext (hinj a (by omega) b (by omega) (congrArg Fin.val e))⟩
  · rw [eval_minor]
    refine Eq.trans ?_ h0
    unfold minor
    congr 1
    ext a b
    show ctr m p (cx A z) (if h : (a : Nat) < i + 1 then ρ a else 0) (mcol i j b) = ctr m p (cx A z) (ρ a) (mcol i j b)
    rw [dif_pos a.2]

end

end TClifford
