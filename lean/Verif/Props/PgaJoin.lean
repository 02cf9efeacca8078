import Verif.Props.Determinant
import Verif.Props.PgaIncidence
import Mathlib.LinearAlgebra.Matrix.ToLinearEquiv
/-
C82: in projective geometric algebra, the wedge of `d` hyperplanes is their common point and the meet of `d` points is the
hyperplane through them.
-/

set_option linter.unusedSectionVars false

namespace TClifford

open MV Finset

section
variable {T : Type} [CommRing T] [DecidableEq T]

/-- The pseudoscalar coefficient of the wedge of all generators (a sign). -/
def topSign (T : Type) [CommRing T] (n : Nat) : T := wdgF n (List.ofFn fun r : Fin n => single (2 ^ (r : Nat)) (1 : T)) (2 ^ n - 1)

theorem bits_full (n : Nat) : BitsOf (2 ^ n - 1) (fun j : Fin n => ((Fin.rev j : Fin n) : Nat)) := by
  intro a
  rw [Nat.testBit_two_pow_sub_one, decide_eq_true_iff]
  constructor
  · intro ha
    exact ⟨Fin.rev ⟨a, ha⟩, by show ((Fin.rev (Fin.rev ⟨a, ha⟩) : Fin n) : Nat) = a; rw [Fin.rev_rev]⟩
  · rintro ⟨j, rfl⟩; exact (Fin.rev j).2

theorem topSign_unit (n : Nat) : ∃ s : T, s * topSign T n = 1 := by
  refine ⟨_, (wdgF_full (fun r => Pi.single (Fin.rev r) (1 : T)) (i := 2 ^ n - 1) (by have := Nat.two_pow_pos n; omega)).symm.trans ?_⟩
  rw [wdgF_rowF (Fin.rev_strictAnti) (bits_full n)]
  refine Eq.trans (congrArg Matrix.det ?_) Matrix.det_one
  funext r j
  show (Pi.single (Fin.rev r) (1 : T) : Fin n → T) (Fin.rev j) = _
  rw [Matrix.one_apply, Pi.single_apply]
  simp [eq_comm]

theorem sum_vec {n : Nat} {g : Nat → T} (hg : HomF n 1 g) (y : Nat → T) :
    ∑ i ∈ range (2 ^ n), g i * y i = ∑ a ∈ range n, g (2 ^ a) * y (2 ^ a) := by
  have hinj : Function.Injective (fun a : Nat => 2 ^ a) := Nat.pow_right_injective (le_refl 2)
  rw [← sum_subset (s₁ := (range n).image (fun a : Nat => 2 ^ a))]
  · rw [sum_image fun x _ y _ h => hinj h]
  · intro i hi
    obtain ⟨a, ha, rfl⟩ := mem_image.mp hi
    exact mem_range.mpr (Nat.pow_lt_pow_right (by norm_num) (mem_range.mp ha))
  · intro i hi hni
    rw [hg i (mem_range.mp hi), zero_mul]
    intro h1
    obtain ⟨p, hp, rfl⟩ := eq_two_pow_of_cnt (mem_range.mp hi) h1
    exact hni (mem_image.mpr ⟨p, mem_range.mpr hp, rfl⟩)

theorem hom_eq_rowF {n : Nat} {f : Nat → T} (hf : HomF n 1 f) {i : Nat} (hi : i < 2 ^ n) : f i = rowF (fun a : Fin n => f (2 ^ (a : Nat))) i := by
  by_cases h : cnt n i = 1
  · obtain ⟨p, hp, rfl⟩ := eq_two_pow_of_cnt hi h
    exact (rowF_two_pow (fun a : Fin n => f (2 ^ (a : Nat))) ⟨p, hp⟩).symm
  · rw [hf i hi h, rowF_hom _ i hi h]

/-- The coefficients of the dual of a wedge of `n - 1` vectors are the cofactors of a matrix with one more row. -/
theorem cofactors {d n : Nat} (hn : n = d + 1) {f : Fin d → Nat → T} (hf : ∀ r, HomF n 1 (f r)) {g : Nat → T} (hg : HomF n 1 g) :
    ∑ a ∈ range n, g (2 ^ a) * dualF n (wdgF n (List.ofFn f)) (2 ^ a) =
      Matrix.det (Matrix.of fun r j : Fin (d + 1) => (Fin.cons g f : Fin (d + 1) → Nat → T) r (2 ^ (j : Nat))) * topSign T n := by
  subst hn
  have hm : (2 ^ (d + 1) - 1 : Nat) < 2 ^ (d + 1) := by have := Nat.two_pow_pos (d + 1); omega
  have hall : ∀ r, HomF (d + 1) 1 ((Fin.cons g f : Fin (d + 1) → Nat → T) r) := by
    intro r
    refine Fin.cases ?_ (fun i => ?_) r
    · exact hg
    · exact hf i
  rw [← sum_vec hg, ← geo_undualF_full, geo_congr (fun _ _ => rfl) (fun _ _ => rfl) (fun i hi => dual_undual_F _ hi) hm]
  have e : geo (fun _ => 0) (d + 1) g (wdgF (d + 1) (List.ofFn f)) =
      wdgF (d + 1) (List.ofFn (Fin.cons g f : Fin (d + 1) → Nat → T)) := by
    rw [List.ofFn_succ]
    simp only [Fin.cons_zero, Fin.cons_succ]
    rfl
  rw [e]
  refine Eq.trans (wdgF_congr (l' := List.ofFn fun r => rowF (fun a : Fin (d + 1) => (Fin.cons g f : Fin (d + 1) → Nat → T) r (2 ^ (a : Nat))))
    ?_ _ hm) (wdgF_full _ hm)
  refine List.forall₂_iff_get.mpr ⟨by simp, fun j h1 h2 i hi => ?_⟩
  simp only [List.get_eq_getElem, List.getElem_ofFn]
  exact hom_eq_rowF (hall _) hi

theorem cofactors_self {d n : Nat} (hn : n = d + 1) {f : Fin d → Nat → T} (hf : ∀ r, HomF n 1 (f r)) (r : Fin d) :
    ∑ a ∈ range n, f r (2 ^ a) * dualF n (wdgF n (List.ofFn f)) (2 ^ a) = 0 := by
  rw [cofactors hn hf (hf r), Matrix.det_zero_of_row_eq (i := 0) (j := r.succ) (Fin.succ_ne_zero r).symm, zero_mul]
  funext j
  simp [Matrix.of_apply]

theorem single_hom {n k : Nat} (hk : k < n) (c : T) : HomF n 1 (single (2 ^ k) c) := by
  intro i hi h
  unfold single
  rw [if_neg]
  rintro rfl
  exact h (cnt_two_pow hk)

theorem cofactors_last {d n : Nat} (hn : n = d + 1) {f : Fin d → Nat → T} (hf : ∀ r, HomF n 1 (f r)) :
    dualF n (wdgF n (List.ofFn f)) (2 ^ d) =
      (-1) ^ d * Matrix.det (Matrix.of fun r j : Fin d => f r (2 ^ (j : Nat))) * topSign T n := by
  have h := cofactors hn hf (single_hom (n := n) (k := d) (by omega) (1 : T))
  have hs : ∀ a : Nat, single (2 ^ d) (1 : T) (2 ^ a) = if a = d then 1 else 0 := by
    intro a
    unfold single
    by_cases h : a = d
    · rw [if_pos (by rw [h]), if_pos h]
    · rw [if_neg (fun e => h (Nat.pow_right_injective (le_refl 2) e)), if_neg h]
  rw [sum_eq_single d, hs, if_pos rfl, one_mul] at h
  · rw [h, Matrix.det_succ_row_zero, sum_eq_single (Fin.last d)]
    · simp only [Matrix.of_apply, Fin.cons_zero, Fin.val_last, hs, if_pos, mul_one]
      congr 2
      rw [Fin.succAbove_last]
      rfl
    · intro b _ hb
      simp only [Matrix.of_apply, Fin.cons_zero, hs]
      rw [if_neg (fun e => hb (Fin.ext (e.trans (Fin.val_last d).symm))), mul_zero, zero_mul]
    · intro h; exact absurd (mem_univ _) h
  · intro b _ hb
    rw [hs, if_neg hb, zero_mul]
  · intro h; exact absurd (mem_range.mpr (by omega)) h

end


section
variable {sig : List Sym} {names : List String} {A : ClAlg} {d : Nat} {S : Type} [DecidableEq ℝ] [CoeffStorage S ℝ]
  [LawfulStorage S ℝ]

theorem fn_vec_rowF {σ : Nat → ℤ} {n : Nat} (x : Nat → ℝ) {i : Nat} (hi : i < 2 ^ n) :
    (GA.vec x : GA σ n ℝ).fn i = rowF (fun a : Fin n => x a) i := by
  unfold GA.vec rowF
  rw [GA.fn_sum, ← Fin.sum_univ_eq_sum_range (fun k => (x k • GA.e k : GA σ n ℝ).fn i)]
  refine sum_congr rfl fun a _ => ?_
  rw [GA.fn_smul, show (GA.e (a : Nat) : GA σ n ℝ) = GA.bl (2 ^ (a : Nat)) from rfl, GA.fn_bl _ hi]
  by_cases h : i = 2 ^ (a : Nat)
  · rw [if_pos h, if_pos h, mul_one]
  · rw [if_neg h, if_neg h, mul_zero]

/-- `pga_extract_point` in terms of the coefficients of the dual. -/
theorem extract_vals (hP : IsPga A d) {a : MV A S} (ha : a.Valid) : a.pgaExtractPoint d =
    if dualF A.dim a.val (2 ^ d) = 0 then .error .nonFinite
    else .ok ((List.range d).map fun k => dualF A.dim a.val (2 ^ k) / dualF A.dim a.val (2 ^ d)) := by
  have hd := LawfulStorage.supp_le ha.supp
  rw [hP.dim] at hd
  obtain ⟨s, hs, hsv, hsf⟩ := dual_denotes hP.wf ha
  have hval : ∀ k ≤ d, s.getByIdx (2 ^ k) = .ok (dualF A.dim a.val (2 ^ k)) := by
    intro k hk
    have hlt : 2 ^ k < 2 ^ A.dim := GA.two_pow_lt (by rw [hP.dim]; omega)
    rw [hsv.get hlt, hsf _ hlt]
    rfl
  unfold pgaExtractPoint
  rw [hs]
  show (s.getByIdx A.projMask >>= fun scale => _) = _
  rw [hP.mask, hval d le_rfl]
  show (List.range d).mapM (m := Res) _ = _
  by_cases h0 : dualF A.dim a.val (2 ^ d) = 0
  · rw [if_pos h0, h0]
    obtain ⟨e, rfl⟩ : ∃ e, d = e + 1 := ⟨d - 1, by have := hP.pos; omega⟩
    rw [List.range_succ_eq_map, List.mapM_cons, ushl_one (by omega), hval 0 (by omega)]
    show (fdiv _ _ >>= fun _ => _) = _
    unfold fdiv
    rw [if_pos rfl]
    rfl
  · rw [if_neg h0]
    have : ∀ l : List Nat, (∀ k ∈ l, k < d) → l.mapM (m := Res) (fun n => do
        fdiv (← s.getByIdx (ushl 1 n)) (dualF A.dim a.val (2 ^ d))) =
          .ok (l.map fun k => dualF A.dim a.val (2 ^ k) / dualF A.dim a.val (2 ^ d)) := by
      intro l
      induction l with
      | nil => intro _; rfl
      | cons k l ih =>
        intro h
        have hk := h k (by simp)
        rw [List.mapM_cons, ih (fun j hj => h j (by simp [hj])), ushl_one (by omega), hval k (by omega)]
        show (fdiv _ _ >>= fun _ => _) = _
        unfold fdiv
        rw [if_neg h0]
        rfl
    exact this _ fun k hk => List.mem_range.mp hk

/-- The wedge of hyperplanes, the coefficients of its dual. -/
theorem wedge_hyperplanes [WedgeProduct A S] [LawfulWedge A S] (hP : IsPga A d)
    (hS : LawfulStorage.Supp (S := S) (T := ℝ) A.dim) {cs : Fin d → List ℝ} (hc : ∀ r, (cs r).length = d + 1)
    (hc0 : ∀ r, ∃ t ∈ cs r, t ≠ 0) {h : Fin d → MV A S} (hh : ∀ r, pgaHyperplane (cs r) = .ok (h r)) :
    ∃ w : MV A S, wedgeAll (List.ofFn h) = .ok w ∧ w.Valid ∧
      (∀ r, ∑ a ∈ range (d + 1), (cs r).getD a 0 * dualF A.dim w.val (2 ^ a) = 0) ∧
      ∃ κ : ℝ, κ ≠ 0 ∧ dualF A.dim w.val (2 ^ d) = κ * Matrix.det (Matrix.of fun r j : Fin d => (cs r).getD j 0) := by
  have hm : ∀ r, euclMag (cs r) ≠ 0 := fun r h => by
    obtain ⟨t, ht, hne⟩ := hc0 r
    exact hne (euclMag_eq_zero.mp h t ht)
  have hv : ∀ r, (h r).Valid ∧ ∀ i < 2 ^ A.dim, (h r).val i =
      rowF (fun a : Fin A.dim => (euclMag (cs r))⁻¹ * (cs r).getD a 0) i := by
    intro r
    obtain ⟨u, u1, u2, u3⟩ := (is_hyperplane (S := S) hP hS (hc r) (hc0 r)).ok
    rw [hh r] at u1
    obtain rfl := Except.ok.inj u1
    refine ⟨u2, fun i hi => ?_⟩
    rw [← ga_val hi, u3, GA.fn_smul, fn_vec_rowF _ hi]
    unfold rowF
    rw [mul_sum]
    exact sum_congr rfl fun a _ => by split <;> simp
  obtain ⟨w, w1, w2, w3⟩ := wedgeAll_denotes hS (List.ofFn h) (by
    intro v hv'
    obtain ⟨r, rfl⟩ := List.mem_ofFn.mp hv'
    exact (hv r).1)
  let f : Fin d → Nat → ℝ := fun r => rowF (fun a : Fin A.dim => (euclMag (cs r))⁻¹ * (cs r).getD a 0)
  have hf : ∀ r, HomF A.dim 1 (f r) := fun r => rowF_hom _
  have hfv : ∀ r, ∀ a < A.dim, f r (2 ^ a) = (euclMag (cs r))⁻¹ * (cs r).getD a 0 := fun r a ha =>
    rowF_two_pow (fun a : Fin A.dim => (euclMag (cs r))⁻¹ * (cs r).getD a 0) ⟨a, ha⟩
  have hw : ∀ a < A.dim, dualF A.dim w.val (2 ^ a) = dualF A.dim (wdgF A.dim (List.ofFn f)) (2 ^ a) := by
    intro a ha
    unfold dualF
    have hlt := xor_mask_lt (GA.two_pow_lt ha)
    rw [w3 _ hlt, wdgF_congr (l' := List.ofFn f) _ _ hlt]
    rw [List.map_ofFn]
    refine List.forall₂_iff_get.mpr ⟨by simp, fun j h1 h2 i hi => ?_⟩
    simp only [List.get_eq_getElem, List.getElem_ofFn, Function.comp]
    exact (hv _).2 i hi
  refine ⟨w, w1, w2, ?_, ?_⟩
  · intro r
    have := cofactors_self hP.dim hf r
    rw [hP.dim] at this
    rw [sum_congr rfl fun a ha => by rw [← hP.dim, hfv r a (by rw [hP.dim]; exact mem_range.mp ha), mul_assoc], ← mul_sum] at this
    rcases mul_eq_zero.mp this with h | h
    · exact absurd h (inv_ne_zero (hm r))
    · refine Eq.trans ?_ h
      exact sum_congr rfl fun a ha => by rw [hw a (by rw [hP.dim]; exact mem_range.mp ha)]
  · obtain ⟨s, hs⟩ := topSign_unit (T := ℝ) A.dim
    refine ⟨(-1) ^ d * (∏ r, (euclMag (cs r))⁻¹) * topSign ℝ A.dim, ?_, ?_⟩
    · refine mul_ne_zero (mul_ne_zero (pow_ne_zero _ (by norm_num)) (prod_ne_zero_iff.mpr fun r _ => inv_ne_zero (hm r))) ?_
      intro h
      rw [h, mul_zero] at hs
      exact zero_ne_one hs
    · rw [hw d (by rw [hP.dim]; omega), cofactors_last hP.dim hf]
      have : (Matrix.of fun r j : Fin d => f r (2 ^ (j : Nat))) =
          Matrix.of fun r j => (euclMag (cs r))⁻¹ * (Matrix.of fun r j : Fin d => (cs r).getD j 0) r j := by
        funext r j
        exact hfv r j (by rw [hP.dim]; omega)
      rw [this, Matrix.det_mul_column]
      ring

/-- **C82.** The wedge of `d` hyperplanes with independent normals is their common point: `pga_extract_point` returns the unique
solution of the `d` equations. -/
theorem C82_hyperplanes [WedgeProduct A S] [LawfulWedge A S] (hA : declareAlgebra sig names = some A)
    (hp : implPga sig = some d) (hS : LawfulStorage.Supp (S := S) (T := ℝ) A.dim) {cs : Fin d → List ℝ}
    (hc : ∀ r, (cs r).length = d + 1) {h : Fin d → MV A S} (hh : ∀ r, pgaHyperplane (cs r) = .ok (h r))
    (hdet : Matrix.det (Matrix.of fun r j : Fin d => (cs r).getD j 0) ≠ 0) :
    ∃ x, (do let w ← wedgeAll (List.ofFn h); w.pgaExtractPoint d) = .ok x ∧ x.length = d ∧
      ∀ y, y.length = d → ((∀ r, planeEq d (cs r) y = 0) ↔ y = x) := by
  have hP := isPga hA hp
  have hc0 : ∀ r, ∃ t ∈ cs r, t ≠ 0 := by
    intro r
    by_contra hz
    push Not at hz
    refine hdet (Matrix.det_eq_zero_of_row_eq_zero r fun j => ?_)
    show (cs r).getD j 0 = 0
    rw [List.getD_eq_getElem _ _ (by rw [hc]; omega)]
    exact hz _ (List.getElem_mem _)
  obtain ⟨w, w1, w2, w3, κ, hκ, w4⟩ := wedge_hyperplanes hP hS hc hc0 hh
  have hne : dualF A.dim w.val (2 ^ d) ≠ 0 := by rw [w4]; exact mul_ne_zero hκ hdet
  set x := (List.range d).map fun k => dualF A.dim w.val (2 ^ k) / dualF A.dim w.val (2 ^ d) with hx
  have hxl : x.length = d := by simp [hx]
  have hxs : ∀ r, planeEq d (cs r) x = 0 := by
    intro r
    have h1 := w3 r
    rw [sum_range_succ] at h1
    have h2 : planeEq d (cs r) x * dualF A.dim w.val (2 ^ d) = 0 := by
      unfold planeEq
      rw [add_mul, sum_mul]
      refine Eq.trans ?_ h1
      congr 1
      refine sum_congr rfl fun k hk => ?_
      have hk := mem_range.mp hk
      rw [List.getD_eq_getElem x 0 (by omega)]
      simp only [hx, List.getElem_map, List.getElem_range]
      rw [mul_assoc, div_mul_cancel₀ _ hne]
    exact (mul_eq_zero.mp h2).resolve_right hne
  refine ⟨x, ?_, hxl, ?_⟩
  · rw [w1]
    show w.pgaExtractPoint d = _
    rw [extract_vals hP w2, if_neg hne]
  · intro y hy
    constructor
    · intro hs
      have hz := Matrix.eq_zero_of_mulVec_eq_zero hdet (v := fun j : Fin d => y.getD j 0 - x.getD j 0) (by
        funext r
        show ∑ j : Fin d, (cs r).getD j 0 * (y.getD j 0 - x.getD j 0) = 0
        rw [Fin.sum_univ_eq_sum_range (fun j => (cs r).getD j 0 * (y.getD j 0 - x.getD j 0))]
        have h1 := hs r
        have h2 := hxs r
        unfold planeEq at h1 h2
        simp only [mul_sub, sum_sub_distrib]
        linarith)
      apply List.ext_getElem (by omega)
      intro k h1 h2
      have := congrFun hz ⟨k, by omega⟩
      simp only [Pi.zero_apply] at this
      rw [List.getD_eq_getElem _ _ h1, List.getD_eq_getElem _ _ h2] at this
      linarith
    · rintro rfl; exact hxs

/-- **C82.** If the normals are linearly dependent the hyperplanes have no common point or infinitely many, and the coordinates
are not finite numbers. -/
theorem C82_parallel [WedgeProduct A S] [LawfulWedge A S] (hA : declareAlgebra sig names = some A)
    (hp : implPga sig = some d) (hS : LawfulStorage.Supp (S := S) (T := ℝ) A.dim) {cs : Fin d → List ℝ}
    (hc : ∀ r, (cs r).length = d + 1) (hc0 : ∀ r, ∃ t ∈ cs r, t ≠ 0) {h : Fin d → MV A S}
    (hh : ∀ r, pgaHyperplane (cs r) = .ok (h r)) (hdet : Matrix.det (Matrix.of fun r j : Fin d => (cs r).getD j 0) = 0) :
    (do let w ← wedgeAll (List.ofFn h); w.pgaExtractPoint d) = .error .nonFinite ∧
      ∀ x, x.length = d → (∀ r, planeEq d (cs r) x = 0) → ∃ y, y.length = d ∧ y ≠ x ∧ ∀ r, planeEq d (cs r) y = 0 := by
  have hP := isPga hA hp
  obtain ⟨w, w1, w2, w3, κ, hκ, w4⟩ := wedge_hyperplanes hP hS hc hc0 hh
  constructor
  · rw [w1]
    show w.pgaExtractPoint d = _
    rw [extract_vals hP w2, if_pos (by rw [w4, hdet, mul_zero])]
  · intro x hx hs
    obtain ⟨v, hv0, hv⟩ := Matrix.exists_mulVec_eq_zero_iff.mpr hdet
    refine ⟨List.ofFn fun j : Fin d => x.getD j 0 + v j, by simp, ?_, ?_⟩
    · intro he
      refine hv0 (funext fun j => ?_)
      have := congrArg (fun l => l.getD (j : Nat) 0) he
      beta_reduce at this
      rw [List.getD_eq_getElem _ _ (by simp), List.getElem_ofFn] at this
      simpa using this
    · intro r
      have h1 := hs r
      have h2 : ∑ j : Fin d, (cs r).getD j 0 * v j = 0 := congrFun hv r
      unfold planeEq at h1 ⊢
      rw [← Fin.sum_univ_eq_sum_range (fun k => (cs r).getD k 0 * x.getD k 0)] at h1
      rw [← Fin.sum_univ_eq_sum_range (fun k => (cs r).getD k 0 * (List.ofFn fun j : Fin d => x.getD j 0 + v j).getD k 0)]
      have h3 : ∀ k : Fin d, (cs r).getD k 0 * (List.ofFn fun j : Fin d => x.getD j 0 + v j).getD k 0 =
          (cs r).getD k 0 * x.getD k 0 + (cs r).getD k 0 * v k := by
        intro k
        rw [List.getD_eq_getElem (List.ofFn _) _ (by simp), List.getElem_ofFn, mul_add]
      rw [sum_congr rfl fun k _ => h3 k, sum_add_distrib, h2, add_zero, h1]

/-- The meet `p1.meet(p2.meet(...))` of a list of multivectors (the pseudoscalar for the empty list). -/
def meetAll {A : ClAlg} {S T : Type} [CommRing T] [DecidableEq T] [CoeffStorage S T] [WedgeProduct A S] : List (MV A S) → Res (MV A S)
  | [] => blade (2 ^ A.dim - 1)
  | v :: l => do let r ← meetAll l; v.meet r

theorem meetAll_denotes [WedgeProduct A S] [LawfulWedge A S] (hA : A.WF) (hS : LawfulStorage.Supp (S := S) (T := ℝ) A.dim)
    (l : List (MV A S)) (hl : ∀ v ∈ l, v.Valid) :
    Denotes (meetAll l) (undualF A.dim (wdgF A.dim (l.map fun v => dualF A.dim v.val))) := by
  induction l with
  | nil =>
    refine (blade_denotes hS (by have := Nat.two_pow_pos A.dim; omega)).congr fun i hi => ?_
    rw [← dual_undual_F (single (2 ^ A.dim - 1) (1 : ℝ)) hi]
    exact undualF_congr (fun i hi => dualF_ps hi) hi
  | cons v l ih =>
    refine (ih fun w hw => hl w (by simp [hw])).bind fun u hu huf =>
      (LawfulWedge.meet hA (hl v (by simp)) hu).congr fun i hi => ?_
    rw [meetF_eq]
    refine undualF_congr (fun k hk => geo_congr (fun _ _ => rfl) (fun _ _ => rfl) (fun j hj => ?_) hk) hi
    unfold dualF
    rw [huf _ (xor_mask_lt hj)]
    exact undual_dual_F _ hj

/-- The meet of points: the undual of the wedge of multiples of the rows `(p_r, 1)`. -/
theorem meet_points [WedgeProduct A S] [LawfulWedge A S] (hG : IsPga A d) (hS : LawfulStorage.Supp (S := S) (T := ℝ) A.dim) {q : Nat}
    {p : Fin q → List ℝ} (hpl : ∀ r, (p r).length = d) {P : Fin q → MV A S} (hP : ∀ r, PointOf (p r) (P r)) :
    ∃ (H : MV A S) (t : Fin q → ℝ), meetAll (List.ofFn P) = .ok H ∧ H.Valid ∧ (∀ r, t r ≠ 0) ∧
      ∀ i < 2 ^ A.dim, H.val i = undualF A.dim (wdgF A.dim (List.ofFn fun r => rowF (fun a : Fin A.dim => t r * hom (p r) a))) i := by
  have hPv : ∀ r, (P r).Valid ∧ ∃ t : ℝ, t ≠ 0 ∧ (P r).ga = t • GA.dual (GA.vec (hom (p r))) := fun r => (hP r).ga hG hS (hpl r)
  choose hv t ht hga using hPv
  -- the duals of the points are vectors
  let f : Fin q → Nat → ℝ := fun r => rowF (fun a : Fin A.dim => t r * (GA.csg A.dim : ℝ) * hom (p r) a)
  have hfd : ∀ r, ∀ i < 2 ^ A.dim, dualF A.dim (P r).val i = f r i := by
    intro r i hi
    have h1 : GA.dual (P r).ga = (t r * (GA.csg A.dim : ℝ)) • GA.vec (hom (p r)) := by
      rw [hga r, map_smul, GA.dual_dual_vec, smul_smul]
    have h2 := congrArg (fun g => GA.fn g i) h1
    have h3 : (GA.dual (P r).ga).fn i = dualF A.dim (P r).val i := by
      show (GA.of (dualF A.dim (P r).ga.fn)).fn i = _
      rw [GA.fn_of _ hi]
      unfold dualF
      rw [ga_val (xor_mask_lt hi)]
    beta_reduce at h2
    rw [h3, GA.fn_smul, fn_vec_rowF _ hi] at h2
    rw [h2]
    show _ = rowF _ i
    unfold rowF
    rw [mul_sum]
    exact sum_congr rfl fun a _ => by split <;> simp
  obtain ⟨H, H1, H2, H3⟩ := meetAll_denotes hG.wf hS (List.ofFn P) (by
    intro v hv'
    obtain ⟨r, rfl⟩ := List.mem_ofFn.mp hv'
    exact hv r)
  have hW : ∀ i < 2 ^ A.dim, H.val i = undualF A.dim (wdgF A.dim (List.ofFn f)) i := by
    intro i hi
    rw [H3 i hi]
    refine undualF_congr (fun i hi => wdgF_congr ?_ i hi) hi
    rw [List.map_ofFn]
    refine List.forall₂_iff_get.mpr ⟨by simp, fun j h1 h2 i hi => ?_⟩
    simp only [List.get_eq_getElem, List.getElem_ofFn, Function.comp]
    exact hfd _ i hi
  exact ⟨H, fun r => t r * (GA.csg A.dim : ℝ), H1, H2, fun r => mul_ne_zero (ht r) (csg_ne_zero _), hW⟩

/-- **C82.** The meet of `d` points is a hyperplane (a vector) with the equation `det(x, p_1, ..., p_d) = 0`, where the points are
rows of coordinates followed by 1. -/
theorem C82_join [WedgeProduct A S] [LawfulWedge A S] (hA : declareAlgebra sig names = some A)
    (hp : implPga sig = some d) (hS : LawfulStorage.Supp (S := S) (T := ℝ) A.dim) {p : Fin d → List ℝ}
    (hpl : ∀ r, (p r).length = d) {P : Fin d → MV A S} (hP : ∀ r, PointOf (p r) (P r)) :
    ∃ H c, meetAll (List.ofFn P) = .ok H ∧ H.Valid ∧ IsGrade 1 H ∧ c.length = d + 1 ∧
      (∀ k ≤ d, H.getByIdx (2 ^ k) = .ok (c.getD k 0)) ∧
      ∃ κ : ℝ, κ ≠ 0 ∧ ∀ x, x.length = d → planeEq d c x =
        κ * Matrix.det (Matrix.of fun r j : Fin (d + 1) => (Fin.cons x p : Fin (d + 1) → List ℝ) r |>.getD j 1) := by
  have hG := isPga hA hp
  have hdim := hG.dim
  obtain ⟨H, t, H1, H2, ht, hW⟩ := meet_points hG hS hpl hP
  let f : Fin d → Nat → ℝ := fun r => rowF (fun a : Fin A.dim => t r * hom (p r) a)
  have hf : ∀ r, HomF A.dim 1 (f r) := fun r => rowF_hom _
  have hfv : ∀ r, ∀ a < A.dim, f r (2 ^ a) = t r * hom (p r) a := fun r a ha =>
    rowF_two_pow (fun a : Fin A.dim => t r * hom (p r) a) ⟨a, ha⟩
  have hk : ∀ k < A.dim, H.val (2 ^ k) = (GA.csg A.dim : ℝ) * dualF A.dim (wdgF A.dim (List.ofFn f)) (2 ^ k) := by
    intro k hk
    rw [hW _ (GA.two_pow_lt hk)]
    show undualF A.dim (wdgF A.dim (List.ofFn f)) _ = _
    unfold dualF undualF
    rw [GA.bsgn_compl_comm hk, ← Int.cast_smul_eq_zsmul ℝ, ← Int.cast_smul_eq_zsmul ℝ, smul_eq_mul, smul_eq_mul, Int.cast_mul,
      ← mul_assoc, ← mul_assoc, ← Int.cast_mul, GA.csg_mul_self, Int.cast_one, one_mul]
  refine ⟨H, List.ofFn fun a : Fin (d + 1) => H.val (2 ^ (a : Nat)), H1, H2, ?_, by simp, ?_, ?_⟩
  · intro i hi hne
    rw [H2.get hi, hW i hi]
    show Except.ok (undualF A.dim (wdgF A.dim (List.ofFn f)) _) = _
    unfold undualF
    rw [wdgF_hom (List.ofFn f) (fun g hg => by obtain ⟨r, rfl⟩ := List.mem_ofFn.mp hg; exact hf r) _ (xor_mask_lt hi), smul_zero]
    rw [List.length_ofFn]
    have h1 := TClifford.cnt_compl hi
    rw [countOnes_eq_cnt hi] at hne
    omega
  · intro k hk
    rw [H2.get (GA.two_pow_lt (by omega)), List.getD_eq_getElem _ _ (by simp; omega), List.getElem_ofFn]
  · obtain ⟨s, hs⟩ := topSign_unit (T := ℝ) A.dim
    refine ⟨(GA.csg A.dim : ℝ) * (∏ r, t r) * topSign ℝ A.dim, ?_, ?_⟩
    · refine mul_ne_zero (mul_ne_zero (csg_ne_zero _) (prod_ne_zero_iff.mpr fun r _ => ht r)) ?_
      intro h
      rw [h, mul_zero] at hs
      exact zero_ne_one hs
    · intro x hx
      have hc := cofactors hdim hf (g := rowF (fun a : Fin A.dim => hom x a)) (rowF_hom _)
      have hgv : ∀ a < A.dim, rowF (fun a : Fin A.dim => hom x a) (2 ^ a) = hom x a := fun a ha =>
        rowF_two_pow (fun a : Fin A.dim => hom x a) ⟨a, ha⟩
      have hhom : ∀ (y : List ℝ) (j : Fin (d + 1)), y.length = d → hom y j = y.getD j 1 := by
        intro y j hy
        by_cases hj : (j : Nat) < d
        · rw [hom_lt (by omega), List.getD_eq_getElem _ _ (by omega), List.getD_eq_getElem _ _ (by omega)]
        · have : (j : Nat) = y.length := by omega
          rw [this, hom_last, List.getD_eq_default _ _ le_rfl]
      have hdet : (Matrix.of fun r j : Fin (d + 1) => (Fin.cons (rowF (fun a : Fin A.dim => hom x a)) f : Fin (d + 1) → Nat → ℝ) r
          (2 ^ (j : Nat))) = Matrix.of fun r j => (Fin.cons 1 fun r => t r : Fin (d + 1) → ℝ) r *
            (Matrix.of fun r j : Fin (d + 1) => (Fin.cons x p : Fin (d + 1) → List ℝ) r |>.getD j 1) r j := by
        funext r j
        refine Fin.cases ?_ (fun i => ?_) r
        · simp only [Matrix.of_apply, Fin.cons_zero, one_mul]
          rw [hgv _ (by omega), hhom x j hx]
        · simp only [Matrix.of_apply, Fin.cons_succ]
          rw [hfv _ _ (by omega), hhom (p i) j (hpl i)]
      rw [hdet, Matrix.det_mul_column, Fin.prod_univ_succ] at hc
      simp only [Fin.cons_zero, Fin.cons_succ, one_mul] at hc
      have h1 : planeEq d (List.ofFn fun a : Fin (d + 1) => H.val (2 ^ (a : Nat))) x = (GA.csg A.dim : ℝ) *
          ∑ a ∈ range A.dim, rowF (fun a : Fin A.dim => hom x a) (2 ^ a) * dualF A.dim (wdgF A.dim (List.ofFn f)) (2 ^ a) := by
        rw [← planeEq_hom hx, ← hdim, mul_sum]
        refine sum_congr rfl fun a ha => ?_
        have ha := mem_range.mp ha
        rw [List.getD_eq_getElem _ _ (by simp; omega), List.getElem_ofFn, hgv a ha, hk a ha]
        ring
      rw [h1, hc]
      ring

/-- **C82.** The hyperplane contains the points. -/
theorem C82_contains [WedgeProduct A S] [LawfulWedge A S] (hA : declareAlgebra sig names = some A)
    (hp : implPga sig = some d) (hS : LawfulStorage.Supp (S := S) (T := ℝ) A.dim) {p : Fin d → List ℝ}
    (hpl : ∀ r, (p r).length = d) {P : Fin d → MV A S} (hP : ∀ r, PointOf (p r) (P r)) :
    ∃ H c, meetAll (List.ofFn P) = .ok H ∧ c.length = d + 1 ∧ (∀ k ≤ d, H.getByIdx (2 ^ k) = .ok (c.getD k 0)) ∧
      ∀ r, planeEq d c (p r) = 0 := by
  obtain ⟨H, c, h1, -, -, h4, h5, κ, -, h6⟩ := C82_join hA hp hS hpl hP
  refine ⟨H, c, h1, h4, h5, fun r => ?_⟩
  rw [h6 _ (hpl r), Matrix.det_zero_of_row_eq (i := 0) (j := r.succ) (Fin.succ_ne_zero r).symm, mul_zero]
  funext j
  simp [Matrix.of_apply]

theorem undual_wdg_ne_zero {n q : Nat} (hn : n = d + 1) {t : Fin q → ℝ} (ht : ∀ r, t r ≠ 0) {m : Fin q → Nat → ℝ} :
    (∃ i < 2 ^ n, undualF n (wdgF n (List.ofFn fun r => rowF (fun a : Fin n => t r * m r a))) i ≠ 0) ↔
      LinearIndependent ℝ (fun r (a : Fin (d + 1)) => m r a) := by
  subst hn
  have hu : ∀ f : Nat → ℝ, (∃ i < 2 ^ (d + 1), undualF (d + 1) f i ≠ 0) ↔ ∃ i < 2 ^ (d + 1), f i ≠ 0 := by
    intro f
    constructor
    · rintro ⟨i, hi, hne⟩
      refine ⟨_, xor_mask_lt hi, fun h => hne ?_⟩
      unfold undualF
      rw [h, smul_zero]
    · rintro ⟨i, hi, hne⟩
      by_contra hz
      push Not at hz
      refine hne ?_
      rw [← undual_dual_F f hi]
      unfold dualF
      rw [hz _ (xor_mask_lt hi), smul_zero]
  rw [hu]
  have hs : LinearIndependent ℝ (fun r (a : Fin (d + 1)) => t r * m r a) ↔ LinearIndependent ℝ (fun r (a : Fin (d + 1)) => m r a) :=
    LinearIndependent.units_smul_iff (v := fun r (a : Fin (d + 1)) => m r a) (w := fun r => Units.mk0 (t r) (ht r))
  rw [← hs]
  constructor
  · rintro ⟨i, hi, hne⟩
    by_contra hd
    exact hne (wdgF_zero_of_dependent hd hi)
  · exact wdgF_ne_zero

/-- **C82.** The meet of any number of points is zero exactly if the points are (affinely) dependent: if their coordinates followed by 1
are linearly dependent. -/
theorem C82_dependent [WedgeProduct A S] [LawfulWedge A S] (hA : declareAlgebra sig names = some A)
    (hp : implPga sig = some d) (hS : LawfulStorage.Supp (S := S) (T := ℝ) A.dim) {q : Nat} {p : Fin q → List ℝ}
    (hpl : ∀ r, (p r).length = d) {P : Fin q → MV A S} (hP : ∀ r, PointOf (p r) (P r)) :
    ∃ H, meetAll (List.ofFn P) = .ok H ∧
      (H.isZero = false ↔ LinearIndependent ℝ (fun r (a : Fin (d + 1)) => (p r).getD a 1)) := by
  have hG := isPga hA hp
  obtain ⟨H, t, H1, H2, ht, hW⟩ := meet_points hG hS hpl hP
  refine ⟨H, H1, ?_⟩
  have hhom : ∀ (y : List ℝ) (j : Fin (d + 1)), y.length = d → y.getD j 1 = hom y j := by
    intro y j hy
    by_cases hj : (j : Nat) < d
    · rw [hom_lt (by omega), List.getD_eq_getElem _ _ (by omega), List.getD_eq_getElem _ _ (by omega)]
    · have : (j : Nat) = y.length := by omega
      rw [this, hom_last, List.getD_eq_default _ _ le_rfl]
  rw [show (fun r (a : Fin (d + 1)) => (p r).getD a 1) = fun r (a : Fin (d + 1)) => hom (p r) a from
    funext fun r => funext fun a => hhom _ _ (hpl r)]
  rw [← undual_wdg_ne_zero hG.dim ht, ← Bool.not_eq_true, isZero_iff H2]
  push Not
  exact exists_congr fun i => ⟨fun h => ⟨h.1, by rw [← hW i h.1]; exact h.2⟩, fun h => ⟨h.1, by rw [hW i h.1]; exact h.2⟩⟩

end

/-! ### Examples -/

namespace Ex

/-- The planes `x + y + z = 9`, `x - y = 0` and `y + 2z = 9` of 3-dimensional PGA meet in `(3, 3, 3)`. -/
def planes3 : Fin 3 → List ℝ := ![[1, 1, 1, -9], [1, -1, 0, 0], [0, 1, 2, -9]]

theorem planes3_det : Matrix.det (Matrix.of fun r j : Fin 3 => (planes3 r).getD j 0) ≠ 0 := by
  rw [Matrix.det_fin_three]
  simp [planes3]
  norm_num

theorem P3_planes {cs : Fin 3 → List ℝ} (hc : ∀ r, (cs r).length = 4) (h0 : ∀ r, ∃ t ∈ cs r, t ≠ 0) :
    ∃ h : Fin 3 → MV P3 PD, ∀ r, pgaHyperplane (cs r) = .ok (h r) := by
  have := fun r => (is_hyperplane (S := PD) (isPga P3_decl P3_pga) P3_supp (hc r) (h0 r)).ok
  choose h h1 _ using this
  exact ⟨h, h1⟩

end Ex

open Ex in
example : ∃ h : Fin 3 → MV P3 PD, (∀ r, pgaHyperplane (planes3 r) = .ok (h r)) ∧
    (do let w ← wedgeAll (List.ofFn h); w.pgaExtractPoint 3) = .ok [3, 3, 3] := by
  obtain ⟨h, hh⟩ := P3_planes (cs := planes3) (by intro r; fin_cases r <;> rfl) (by
    intro r; fin_cases r
    · exact ⟨1, by simp [planes3], one_ne_zero⟩
    · exact ⟨1, by simp [planes3], one_ne_zero⟩
    · exact ⟨1, by simp [planes3], one_ne_zero⟩)
  obtain ⟨x, h1, h2, h3⟩ := C82_hyperplanes P3_decl P3_pga P3_supp (by intro r; fin_cases r <;> rfl) hh planes3_det
  refine ⟨h, hh, ?_⟩
  rw [h1, ← (h3 [3, 3, 3] rfl).mp]
  intro r
  fin_cases r <;> (unfold planeEq planes3; simp [sum_range_succ]; try norm_num)

open Ex in
/-- Three planes with the same direction in common. -/
example : ∃ h : Fin 3 → MV P3 PD, (do let w ← wedgeAll (List.ofFn h); w.pgaExtractPoint 3) = .error .nonFinite := by
  obtain ⟨h, hh⟩ := P3_planes (cs := ![[1, 1, 1, -9], [1, -1, 0, 0], [2, 0, 1, 5]]) (by intro r; fin_cases r <;> rfl) (by
    intro r; fin_cases r
    · exact ⟨1, by simp, one_ne_zero⟩
    · exact ⟨1, by simp, one_ne_zero⟩
    · exact ⟨1, by simp, one_ne_zero⟩)
  refine ⟨h, (C82_parallel P3_decl P3_pga P3_supp (by intro r; fin_cases r <;> rfl) (by
    intro r; fin_cases r
    · exact ⟨1, by simp, one_ne_zero⟩
    · exact ⟨1, by simp, one_ne_zero⟩
    · exact ⟨1, by simp, one_ne_zero⟩) hh ?_).1⟩
  rw [Matrix.det_fin_three]
  simp
  norm_num

open Ex in
example : True := by
  obtain ⟨p, hp⟩ := P3_point [3, 3, 3] rfl ⟨3, by simp, by norm_num⟩
  obtain ⟨q, hq⟩ := P3_point [1, 2, 3] rfl ⟨1, by simp, by norm_num⟩
  obtain ⟨x, hx⟩ := P3_point [5, 4, 1] rfl ⟨5, by simp, by norm_num⟩
  have hP : ∀ r : Fin 3, PointOf ((![[3, 3, 3], [1, 2, 3], [5, 4, 1]] : Fin 3 → List ℝ) r) ((![p, q, x] : Fin 3 → MV P3 PD) r) := by
    intro r; fin_cases r
    · exact hp
    · exact hq
    · exact hx
  have := C82_join P3_decl P3_pga P3_supp (by intro r; fin_cases r <;> rfl) hP
  have := C82_contains P3_decl P3_pga P3_supp (by intro r; fin_cases r <;> rfl) hP
  have := C82_dependent P3_decl P3_pga P3_supp (by intro r; fin_cases r <;> rfl) hP
  trivial

end TClifford
