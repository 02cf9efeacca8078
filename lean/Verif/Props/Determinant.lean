import Verif.Proofs.Minors
import Verif.Props.Sandwich
import Mathlib.LinearAlgebra.Matrix.ToLin
import Mathlib.LinearAlgebra.Basis.VectorSpace
/-
Wedges of vectors and determinants: minors (C80), Gram determinants (C81).
-/

set_option linter.unusedSectionVars false

namespace TClifford

open MV Finset

section
variable {A : ClAlg} {S T : Type} [CommRing T] [DecidableEq T] [CoeffStorage S T] [LawfulStorage S T] [WedgeProduct A S]
  [LawfulWedge A S]

theorem wedgeAll_denotes (hS : LawfulStorage.Supp (S := S) (T := T) A.dim) (l : List (MV A S)) (hl : ∀ v ∈ l, v.Valid) :
    Denotes (wedgeAll l) (wdgF A.dim (l.map MV.val)) := by
  induction l with
  | nil => exact one_denotes hS
  | cons v l ih =>
    exact (ih fun w hw => hl w (by simp [hw])).bind fun u hu huf =>
      (LawfulWedge.wedge (hl v (by simp)) hu).congr fun i hi => geo_congr (fun _ _ => rfl) (fun _ _ => rfl) huf hi

theorem val_rowF {v : MV A S} (hv : v.Valid) (h1 : IsGrade 1 v) {m : Fin A.dim → T}
    (hm : ∀ a : Fin A.dim, v.getByIdx (2 ^ (a : Nat)) = .ok (m a)) {i : Nat} (hi : i < 2 ^ A.dim) : v.val i = rowF m i := by
  by_cases h : cnt A.dim i = 1
  · obtain ⟨p, hp, rfl⟩ := eq_two_pow_of_cnt hi h
    have := hm ⟨p, hp⟩
    rw [hv.get hi] at this
    rw [show 2 ^ p = 2 ^ ((⟨p, hp⟩ : Fin A.dim) : Nat) from rfl, rowF_two_pow]
    exact Except.ok.inj this
  · rw [h1.hom hv i hi h, rowF_hom m i hi h]

/-- A wedge of vectors in terms of the matrix of their coefficients. -/
theorem wedge_vecs (hS : LawfulStorage.Supp (S := S) (T := T) A.dim) {k : Nat} {v : Fin k → MV A S}
    (hv : ∀ r, (v r).Valid ∧ IsGrade 1 (v r)) {m : Fin k → Fin A.dim → T}
    (hm : ∀ r (a : Fin A.dim), (v r).getByIdx (2 ^ (a : Nat)) = .ok (m r a)) :
    Denotes (wedgeAll (List.ofFn v)) (wdgF A.dim (List.ofFn fun r => rowF (m r))) := by
  refine (wedgeAll_denotes hS (List.ofFn v) ?_).congr fun i hi => wdgF_congr ?_ i hi
  · intro w hw
    obtain ⟨r, rfl⟩ := List.mem_ofFn.mp hw
    exact (hv r).1
  · rw [List.map_ofFn]
    refine List.forall₂_iff_get.mpr ⟨by simp, fun j h1 h2 i hi => ?_⟩
    simp only [List.get_eq_getElem, List.getElem_ofFn, Function.comp]
    exact val_rowF (hv _).1 (hv _).2 (hm _) hi

/-- **C80.** `v_0 ^ v_1 ^ ... ^ v_{k-1}` is of grade `k`, and its coefficient at the blade of the generators
`c_0 > c_1 > ... > c_{k-1}` is the determinant of the matrix of the coefficients of the vectors at these generators. -/
theorem C80_minors (hS : LawfulStorage.Supp (S := S) (T := T) A.dim) {k : Nat} {v : Fin k → MV A S}
    (hv : ∀ r, (v r).Valid ∧ IsGrade 1 (v r)) {m : Fin k → Fin A.dim → T}
    (hm : ∀ r (a : Fin A.dim), (v r).getByIdx (2 ^ (a : Nat)) = .ok (m r a)) :
    ∃ w, wedgeAll (List.ofFn v) = .ok w ∧ w.Valid ∧ IsGrade k w ∧
      ∀ (c : Fin k → Fin A.dim) (i : Nat), StrictAnti c → (∀ a, i.testBit a = true ↔ ∃ j, (c j : Nat) = a) →
        w.getByIdx i = .ok (Matrix.det (Matrix.of fun r j => m r (c j))) := by
  obtain ⟨w, h1, h2, h3⟩ := wedge_vecs hS hv hm
  refine ⟨w, h1, h2, ?_, ?_⟩
  · intro i hi hne
    rw [h2.get hi, h3 i hi, wdgF_hom _ _ i hi]
    · rw [List.length_ofFn, ← countOnes_eq_cnt hi]; exact hne
    · intro f hf
      obtain ⟨r, rfl⟩ := List.mem_ofFn.mp hf
      exact rowF_hom _
  · intro c i hc hb
    have hi : i < 2 ^ A.dim := bitsOf_lt (fun j => (c j).2) hb
    rw [h2.get hi, h3 i hi, wdgF_rowF hc hb]

theorem wdgF_full {n : Nat} (m : Fin n → Fin n → T) {i : Nat} (hi : i < 2 ^ n) :
    wdgF n (List.ofFn fun r => rowF (m r)) i =
      Matrix.det (Matrix.of m) * wdgF n (List.ofFn fun r : Fin n => single (2 ^ (r : Nat)) (1 : T)) i := by
  have hs : ∀ r : Fin n, (single (2 ^ (r : Nat)) (1 : T)) = rowF (Pi.single r 1) := by
    intro r
    funext i
    unfold rowF single
    rw [sum_eq_single r]
    · rw [Pi.single_eq_same]
    · intro b _ hb
      rw [Pi.single_eq_of_ne hb, ite_self]
    · intro h; exact absurd (mem_univ _) h
  simp only [hs]
  by_cases h : cnt n i = n
  · have hb : BitsOf i (fun j : Fin n => ((Fin.rev j : Fin n) : Nat)) := by
      intro a
      have hall : ∀ a < n, i.testBit a = true := by
        intro a ha
        by_contra hf
        rw [Bool.not_eq_true] at hf
        have h1 : cnt n i < n := by
          rw [cnt_eq_sum]
          calc ∑ j ∈ range n, (i.testBit j).toNat < ∑ j ∈ range n, 1 :=
                sum_lt_sum (fun j _ => Bool.toNat_le _) ⟨a, mem_range.mpr ha, by rw [hf]; decide⟩
            _ = n := by simp
        omega
      constructor
      · intro ht
        have ha : a < n := by
          by_contra hge
          rw [testBit_eq_false_of_lt hi (by omega)] at ht
          exact absurd ht (by simp)
        exact ⟨Fin.rev ⟨a, ha⟩, by show ((Fin.rev (Fin.rev ⟨a, ha⟩) : Fin n) : Nat) = a; rw [Fin.rev_rev]⟩
      · rintro ⟨j, rfl⟩; exact hall _ (Fin.rev j).2
    have hc : StrictAnti (Fin.rev : Fin n → Fin n) := Fin.rev_strictAnti
    rw [wdgF_rowF hc hb, wdgF_rowF hc hb, ← Matrix.det_mul]
    congr 1
    funext r j
    show m r (Fin.rev j) = ∑ a, m r a * (Pi.single a (1 : T) : Fin n → T) (Fin.rev j)
    rw [sum_eq_single (Fin.rev j)]
    · rw [Pi.single_eq_same, mul_one]
    · intro b _ hb
      rw [Pi.single_eq_of_ne hb.symm, mul_zero]
    · intro h; exact absurd (mem_univ _) h
  · rw [wdgF_hom _ _ i hi, wdgF_hom _ _ i hi, mul_zero]
    all_goals first
      | (rw [List.length_ofFn]; exact h)
      | (intro f hf; obtain ⟨r, rfl⟩ := List.mem_ofFn.mp hf; exact rowF_hom _)

/-- **C80.** The wedge of as many vectors as there are generators is the determinant of their coefficients times the wedge of
the generators. -/
theorem C80_det (hS : LawfulStorage.Supp (S := S) (T := T) A.dim) {v e : Fin A.dim → MV A S}
    (hv : ∀ r, (v r).Valid ∧ IsGrade 1 (v r)) (he : ∀ r : Fin A.dim, basisVec (T := T) r = .ok (e r)) {m : Fin A.dim → Fin A.dim → T}
    (hm : ∀ r (a : Fin A.dim), (v r).getByIdx (2 ^ (a : Nat)) = .ok (m r a)) :
    wedgeAll (List.ofFn v) ≈ᵣ (do let w ← wedgeAll (List.ofFn e); w.smul (Matrix.det (Matrix.of m))) := by
  have hev : ∀ r, (e r).Valid ∧ ∀ i < 2 ^ A.dim, (e r).val i = single (2 ^ (r : Nat)) 1 i := by
    intro r
    obtain ⟨u, u1, u2, u3⟩ := basisVec_denotes (A := A) (S := S) (T := T) hS r.2
    rw [he r] at u1
    obtain rfl := Except.ok.inj u1
    exact ⟨u2, u3⟩
  have hE : Denotes (wedgeAll (List.ofFn e)) (wdgF A.dim (List.ofFn fun r : Fin A.dim => single (2 ^ (r : Nat)) (1 : T))) := by
    refine (wedgeAll_denotes hS (List.ofFn e) ?_).congr fun i hi => wdgF_congr ?_ i hi
    · intro w hw
      obtain ⟨r, rfl⟩ := List.mem_ofFn.mp hw
      exact (hev r).1
    · rw [List.map_ofFn]
      refine List.forall₂_iff_get.mpr ⟨by simp, fun j h1 h2 i hi => ?_⟩
      simp only [List.get_eq_getElem, List.getElem_ofFn, Function.comp]
      exact (hev _).2 i hi
  exact Agree.of_denotes (wedge_vecs hS hv hm) (hE.smul _) fun i hi => by rw [wdgF_full m hi, mul_comm]

/-- The scalar product of the reverse of a wedge of vectors and another one, as a sum of products of minors. -/
theorem vdot_rev_wedge (hA : A.WF) {a b : MV A S} (ha : a.Valid) (hb : b.Valid) :
    (do let r ← a.rev; r.vdot b) = .ok (∑ K ∈ range (2 ^ A.dim), bprod (fun i => ((A.sigma i : ℤ) : T)) A.dim K * (a.val K * b.val K)) := by
  refine (rev_denotes ha).bind_res fun r hr hrf => ?_
  rw [vdot_ok hA hr hb]
  congr 1
  unfold geo
  refine sum_congr rfl fun i hi => ?_
  rw [mem_range] at hi
  rw [Nat.xor_zero, hrf i hi, smul_mul_assoc, smul_smul, bsgn_split, Nat.and_self, bsgn_self_plus, mul_right_comm, rsg_mul_self,
    one_mul, ← Int.cast_smul_eq_zsmul T, smul_eq_mul]
  congr 1
  generalize A.dim = n
  induction n with
  | zero => simp [bprod]
  | succ n ih =>
    rw [bprod_succ, bprod_succ, ← ih]
    cases i.testBit n <;> simp

theorem geo_vec_scalar (σ : Nat → ℤ) {n : Nat} {f g : Nat → T} (hf : HomF n 1 f) :
    geo σ n f g 0 = ∑ a : Fin n, ((σ a : ℤ) : T) * (f (2 ^ (a : Nat)) * g (2 ^ (a : Nat))) := by
  unfold geo
  have hinj : Function.Injective (fun a : Fin n => 2 ^ (a : Nat)) := fun x y h => Fin.ext (Nat.pow_right_injective (le_refl 2) h)
  rw [← sum_subset (s₁ := univ.image (fun a : Fin n => 2 ^ (a : Nat)))]
  · rw [sum_image fun x _ y _ h => hinj h]
    refine sum_congr rfl fun a _ => ?_
    rw [Nat.xor_zero, bsgn_two_pow_eq _ a.2, ← Int.cast_smul_eq_zsmul T, smul_eq_mul]
  · intro i hi
    obtain ⟨a, -, rfl⟩ := mem_image.mp hi
    exact mem_range.mpr (Nat.pow_lt_pow_right (by norm_num) a.2)
  · intro i hi hni
    rw [hf i (mem_range.mp hi), zero_mul, smul_zero]
    intro h1
    obtain ⟨p, hp, rfl⟩ := eq_two_pow_of_cnt (mem_range.mp hi) h1
    exact hni (mem_image.mpr ⟨⟨p, hp⟩, mem_univ _, rfl⟩)

/-- **C81.** The scalar product of two wedges of `k` vectors is the determinant of the matrix of scalar products:
`(v_0 ^ ... ^ v_{k-1}).rev().vdot(&(w_0 ^ ... ^ w_{k-1})) == det(v_i.vdot(&w_j))`, in every metric. -/
theorem C81_gram (hA : A.WF) (hS : LawfulStorage.Supp (S := S) (T := T) A.dim) {k : Nat} {v w : Fin k → MV A S}
    (hv : ∀ r, (v r).Valid ∧ IsGrade 1 (v r)) (hw : ∀ r, (w r).Valid ∧ IsGrade 1 (w r)) {g : Fin k → Fin k → T}
    (hg : ∀ r q, (v r).vdot (w q) = .ok (g r q)) :
    (do let V ← wedgeAll (List.ofFn v); let r ← V.rev; let W ← wedgeAll (List.ofFn w); r.vdot W) = .ok (Matrix.det (Matrix.of g)) := by
  have hmv : ∀ r (a : Fin A.dim), (v r).getByIdx (2 ^ (a : Nat)) = .ok ((v r).val (2 ^ (a : Nat))) :=
    fun r a => (hv r).1.get (Nat.pow_lt_pow_right (by norm_num) a.2)
  have hmw : ∀ r (a : Fin A.dim), (w r).getByIdx (2 ^ (a : Nat)) = .ok ((w r).val (2 ^ (a : Nat))) :=
    fun r a => (hw r).1.get (Nat.pow_lt_pow_right (by norm_num) a.2)
  obtain ⟨V, V1, V2, V3⟩ := wedge_vecs hS hv hmv
  obtain ⟨W, W1, W2, W3⟩ := wedge_vecs hS hw hmw
  rw [V1, W1]
  refine (vdot_rev_wedge hA V2 W2).trans ?_
  congr 1
  rw [sum_congr rfl fun K hK => by rw [V3 K (mem_range.mp hK), W3 K (mem_range.mp hK)], cauchy_binet]
  congr 1
  funext r q
  show ∑ a : Fin A.dim, ((A.sigma a : ℤ) : T) * ((v r).val (2 ^ (a : Nat)) * (w q).val (2 ^ (a : Nat))) = g r q
  have h1 := hg r q
  rw [vdot_ok hA (hv r).1 (hw q).1] at h1
  rw [← Except.ok.inj h1, geo_vec_scalar _ ((hv r).2.hom (hv r).1)]

/-- **C81.** The squared magnitude of a wedge of vectors is their Gram determinant. -/
theorem C81_mag2 (hA : A.WF) (hS : LawfulStorage.Supp (S := S) (T := T) A.dim) {k : Nat} {v : Fin k → MV A S}
    (hv : ∀ r, (v r).Valid ∧ IsGrade 1 (v r)) {g : Fin k → Fin k → T} (hg : ∀ r q, (v r).vdot (v q) = .ok (g r q)) :
    (do let V ← wedgeAll (List.ofFn v); V.mag2) = .ok (Matrix.det (Matrix.of g)) := by
  have h := C81_gram hA hS hv hv hg
  obtain ⟨V, V1, V2, -⟩ := wedgeAll_denotes hS (List.ofFn v) (by
    intro w hw
    obtain ⟨r, rfl⟩ := List.mem_ofFn.mp hw
    exact (hv r).1)
  rw [V1] at h ⊢
  rw [← h]
  show V.mag2 = (do let r ← V.rev; r.vdot V)
  rw [mag2_ok hA V2]
  refine ((rev_denotes V2).bind_res fun r hr hrf => ?_).symm
  rw [vdot_ok hA hr V2]
  congr 1
  exact geo_congr (fun _ _ => rfl) hrf (fun _ _ => rfl) (Nat.two_pow_pos _)

end

section
variable {A : ClAlg} {S T : Type} [Field T] [DecidableEq T] [CoeffStorage S T] [LawfulStorage S T] [WedgeProduct A S]
  [LawfulWedge A S]

theorem wdgF_zero_of_dependent {n k : Nat} {m : Fin k → Fin n → T} (h : ¬ LinearIndependent T m) {i : Nat} (hi : i < 2 ^ n) :
    wdgF n (List.ofFn fun r => rowF (m r)) i = 0 := by
  by_cases hk : cnt n i = k
  · subst hk
    obtain ⟨c, hc, hb⟩ := exists_bitsOf hi
    rw [wdgF_rowF hc hb]
    exact (Matrix.detRowAlternating.compLinearMap (LinearMap.funLeft T T c)).map_linearDependent m h
  · rw [wdgF_hom _ _ i hi]
    · rw [List.length_ofFn]; exact hk
    · intro f hf; obtain ⟨r, rfl⟩ := List.mem_ofFn.mp hf; exact rowF_hom _

theorem wdgF_ne_zero {n k : Nat} {m : Fin k → Fin n → T} (h : LinearIndependent T m) :
    ∃ i < 2 ^ n, wdgF n (List.ofFn fun r => rowF (m r)) i ≠ 0 := by
  by_contra hz
  push Not at hz
  -- a matrix `N` with `M Nᵀ = 1`
  let f : (Fin k → T) →ₗ[T] (Fin n → T) := Fintype.linearCombination T m
  obtain ⟨g, hg⟩ := f.exists_leftInverse_of_injective (LinearMap.ker_eq_bot.mpr (linearIndependent_iff_injective_fintypeLinearCombination.mp h))
  have hcb := cauchy_binet (fun _ => (1 : T)) m (fun q a => g (Pi.single a 1) q)
  rw [sum_eq_zero fun K hK => by rw [hz K (mem_range.mp hK), zero_mul, mul_zero]] at hcb
  have h1 : (Matrix.of fun r q : Fin k => ∑ a : Fin n, (1 : T) * (m r a * g (Pi.single a 1) q)) = 1 := by
    funext r q
    have h2 : g (m r) = Pi.single r 1 := by
      have h3 := LinearMap.congr_fun hg (Pi.single r 1)
      have h4 : f (Pi.single r 1) = m r := by
        show Fintype.linearCombination T m _ = _
        rw [Fintype.linearCombination_apply_single, one_smul]
      rw [LinearMap.comp_apply, h4] at h3
      exact h3
    have h5 : m r = ∑ a, m r a • (Pi.single a (1 : T) : Fin n → T) := by
      funext b
      rw [Finset.sum_apply, sum_eq_single b]
      · simp
      · intro a _ ha; simp [Pi.single_eq_of_ne ha.symm]
      · intro h; exact absurd (mem_univ _) h
    have h6 : g (m r) q = ∑ a, m r a * g (Pi.single a 1) q := by
      conv_lhs => rw [h5]
      rw [map_sum, Finset.sum_apply]
      exact sum_congr rfl fun a _ => by rw [map_smul]; rfl
    show ∑ a : Fin n, (1 : T) * (m r a * g (Pi.single a 1) q) = _
    simp only [one_mul]
    rw [← h6, h2, Matrix.one_apply, Pi.single_apply]
    simp only [eq_comm]
  rw [h1, Matrix.det_one] at hcb
  exact zero_ne_one hcb

/-- **C80.** Over a field, vectors are linearly independent iff their wedge is not zero. -/
theorem C80_independent (hS : LawfulStorage.Supp (S := S) (T := T) A.dim) {k : Nat} {v : Fin k → MV A S}
    (hv : ∀ r, (v r).Valid ∧ IsGrade 1 (v r)) {m : Fin k → Fin A.dim → T}
    (hm : ∀ r (a : Fin A.dim), (v r).getByIdx (2 ^ (a : Nat)) = .ok (m r a)) :
    ∃ w, wedgeAll (List.ofFn v) = .ok w ∧ (w.isZero = false ↔ LinearIndependent T m) := by
  obtain ⟨w, h1, h2, h3⟩ := wedge_vecs hS hv hm
  refine ⟨w, h1, ?_⟩
  rw [← Bool.not_eq_true, isZero_iff h2]
  constructor
  · intro h
    by_contra hd
    exact h fun i hi => by rw [h3 i hi, wdgF_zero_of_dependent hd hi]
  · intro h hz
    obtain ⟨i, hi, hne⟩ := wdgF_ne_zero h
    exact hne (by rw [← h3 i hi, hz i hi])

end

/-! ### Examples -/

namespace Ex

section
variable {T : Type} [CommRing T] [DecidableEq T]

/-- A vector of `M` (signature `[+,-,0]`). -/
def vec3 (x y z : T) : MV M (ArrayStorage T) := ⟨⟨3, ⟨8, fun i => if i = 1 then x else if i = 2 then y else if i = 4 then z else 0⟩⟩⟩

theorem vec3_valid (x y z : T) : (vec3 x y z).Valid := ⟨by decide, rfl, rfl⟩

theorem vec3_get (x y z : T) : ∀ i < 8, (vec3 x y z).getByIdx i = .ok (if i = 1 then x else if i = 2 then y else if i = 4 then z else 0) := by
  intro i hi
  interval_cases i <;> rfl

theorem vec3_grade (x y z : T) : IsGrade 1 (vec3 x y z) := by
  intro i hi h
  rw [vec3_get x y z i hi]
  have h8 : i < 8 := hi
  congr 1
  interval_cases i <;> first | rfl | (exact absurd rfl h)

theorem M_supp : LawfulStorage.Supp (S := ArrayStorage T) (T := T) M.dim := (vec3_valid (0 : T) 0 0).supp

end

def rows3 : Fin 3 → Fin 3 → ℤ := ![![1, 2, 3], ![4, 5, 6], ![7, 8, 10]]

def vecs3 : Fin 3 → MV M (ArrayStorage ℤ) := fun r => vec3 (rows3 r 0) (rows3 r 1) (rows3 r 2)

theorem vecs3_ok (r : Fin 3) : (vecs3 r).Valid ∧ IsGrade 1 (vecs3 r) := ⟨vec3_valid _ _ _, vec3_grade _ _ _⟩

theorem vecs3_rows (r : Fin 3) (a : Fin M.dim) : (vecs3 r).getByIdx (2 ^ (a : Nat)) = .ok (rows3 r a) := by
  have h : ∀ a : Fin 3, (vecs3 r).getByIdx (2 ^ (a : Nat)) = .ok (rows3 r a) := by
    intro a
    fin_cases a <;> exact vec3_get _ _ _ _ (by decide)
  exact h a

end Ex

example := C80_minors (A := Ex.M) (S := ArrayStorage ℤ) Ex.M_supp Ex.vecs3_ok Ex.vecs3_rows

/-- The first two vectors: the coefficient at `e_1 e_0` (index 3) is the minor of the columns 1, 0. -/
example : (do let w ← wedgeAll [Ex.vecs3 0, Ex.vecs3 1]; w.getByIdx 3) = .ok (2 * 4 - 1 * 5) := by decide +kernel

example : Matrix.det (Matrix.of Ex.rows3) = -3 := by decide +kernel

/-- All three: the wedge of the generators in ascending order is `-1` times the blade with index 7. -/
example : (do let w ← wedgeAll (List.ofFn Ex.vecs3); w.getByIdx 7) = .ok 3 := by decide +kernel

example := C81_gram (A := Ex.M) (S := ArrayStorage ℤ) Ex.M_wf Ex.M_supp (k := 2) (v := ![Ex.vecs3 0, Ex.vecs3 1]) (w := ![Ex.vecs3 1, Ex.vecs3 2])
  (g := ![![-6, -9], ![-9, -12]]) (by intro r; fin_cases r <;> exact Ex.vecs3_ok _) (by intro r; fin_cases r <;> exact Ex.vecs3_ok _)
  (by decide +kernel)

example := C81_mag2 (A := Ex.M) (S := ArrayStorage ℤ) Ex.M_wf Ex.M_supp (k := 2) (v := ![Ex.vecs3 0, Ex.vecs3 1])
  (g := ![![-3, -6], ![-6, -9]]) (by intro r; fin_cases r <;> exact Ex.vecs3_ok _) (by decide +kernel)

/-- The generators of `M`. -/
example (e : Fin Ex.M.dim → MV Ex.M (ArrayStorage ℤ)) (he : ∀ r : Fin Ex.M.dim, basisVec (T := ℤ) r = .ok (e r)) :=
  C80_det (A := Ex.M) (S := ArrayStorage ℤ) Ex.M_supp (v := Ex.vecs3) Ex.vecs3_ok he Ex.vecs3_rows

/-- Two vectors with rational coefficients, which are independent. -/
example : ∃ w, wedgeAll (List.ofFn ![Ex.vec3 (1 / 2 : ℚ) 3 0, Ex.vec3 0 2 (5 / 7)]) = .ok w ∧
    (w.isZero = false ↔ LinearIndependent ℚ (![![1 / 2, 3, 0], ![0, 2, 5 / 7]] : Fin 2 → Fin 3 → ℚ)) :=
  C80_independent (A := Ex.M) (S := ArrayStorage ℚ) Ex.M_supp
    (by intro r; fin_cases r <;> exact ⟨Ex.vec3_valid _ _ _, Ex.vec3_grade _ _ _⟩)
    (by
      have h : ∀ (r : Fin 2) (a : Fin 3), (![Ex.vec3 (1 / 2 : ℚ) 3 0, Ex.vec3 0 2 (5 / 7)] r).getByIdx (2 ^ (a : Nat)) =
          .ok ((![![1 / 2, 3, 0], ![0, 2, 5 / 7]] : Fin 2 → Fin 3 → ℚ) r a) := by
        intro r a
        fin_cases r <;> fin_cases a <;> exact Ex.vec3_get _ _ _ _ (by decide)
      exact h)

end TClifford
