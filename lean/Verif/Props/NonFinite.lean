import Verif.Proofs.NonFinite
import Verif.Props.FloatIEEE
import Verif.Props.Quaternion
import Verif.Props.Rotors
/-
C95: infinities and NaNs among the coefficients.
-/

set_option linter.unusedSectionVars false

namespace TClifford

open MV Finset FloatModel

/-- The product of two basis blades vanishes iff they share a generator that squares to zero. -/
theorem bsgn_ne_zero_iff {A : ClAlg} (hA : A.WF) {i j : Nat} :
    bsgn A.sigma A.dim i j ≠ 0 ↔ i &&& j &&& A.projMask = 0 := by
  rw [ClAlg.bsgn_factor]
  have h1 : bsgn (fun _ => 1) A.dim i j ≠ 0 := by
    intro h
    have := bsgn_plus_sq A.dim i j
    rw [h] at this
    simp at this
  rw [mul_ne_zero_iff, and_iff_right h1]
  constructor
  · intro h
    by_contra hc
    obtain ⟨l, hl⟩ := Nat.exists_testBit_of_ne_zero hc
    rw [Nat.testBit_and, Bool.and_eq_true] at hl
    have hp := hl.2
    rw [hA.testBit_proj, Bool.and_eq_true, decide_eq_true_eq, decide_eq_true_eq] at hp
    refine h (ClAlg.bprod_eq_zero hp.2 hl.1 ?_)
    unfold ClAlg.sigma
    rw [hA.testBit_imag_of_le hp.1, hl.2]
    simp
  · intro h
    rw [ClAlg.bprod_sigma]
    · rcases sg_cases (par A.dim (i &&& j &&& A.imagMask)) with h | h <;> rw [h] <;> decide
    · intro l _ hl
      have := congrArg (fun x => x.testBit l) h
      simpa [Nat.testBit_and, hl] using this

theorem bsgn_wedge_ne_zero {n i k : Nat} (h : i &&& k = i) : bsgn (fun _ => 0) n i (i ^^^ k) ≠ 0 := by
  have : bsgn (fun _ => 0) n i (i ^^^ k) = 1 ∨ bsgn (fun _ => 0) n i (i ^^^ k) = -1 := by
    apply bsgn_zero_unit
    intro l _
    have := congrArg (fun x => x.testBit l) h
    simp only [Nat.testBit_and] at this
    rw [Nat.testBit_xor]
    revert this
    cases i.testBit l <;> cases k.testBit l <;> simp
  rcases this with h | h <;> rw [h] <;> decide

section
variable {F : Type} [Zero F] [One F] [Add F] [Sub F] [Neg F] [Mul F] [Div F] [FloatModel F] [DecidableEq F] [FinAbsorb F]
variable {A : ClAlg} {S : Type} [CoeffStorage S F] [LawfulStorage S F] {S' : Type} [CoeffStorage S' ℝ] [LawfulStorage S' ℝ]
variable {a b : MV A S} {a' b' : MV A S'} {x y : Nat → F}

/-- The computation succeeds, and the coefficient number `k` of the result is an infinity or NaN. -/
def MV.Spoilt (r : Res (MV A S)) (k : Nat) : Prop := ∃ u v, r = .ok u ∧ u.getByIdx k = .ok v ∧ ¬ fin v

/-- **C95, products spread them.** If a stored coefficient of `a` number `i`, or one of `b` number `j`, is an infinity or
NaN, and `e_i e_j` is not zero, then the coefficient of `a * b` number `i ⊕ j` is an infinity or NaN.  This holds for all
storages; the coefficients that are stored include all those that are not zero. -/
theorem C95_spreads (hA : A.WF) (ha : a.Valid) (hb : b.Valid) {p q : Nat × F} (hp : p ∈ a.coeffEnumerate)
    (hq : q ∈ b.coeffEnumerate) (hf : ¬ fin p.2 ∨ ¬ fin q.2) (h0 : p.1 &&& q.1 &&& A.projMask = 0) :
    Spoilt (a.naiveMulImpl b) (p.1 ^^^ q.1) := by
  have hi := (ha.enum.mem p hp).1
  have hj := (hb.enum.mem q hq).1
  obtain ⟨r, h1, h2, h3⟩ := product_list_inv sumInv_bad0 ha hb (fun _ _ => trivial) (fun _ _ => trivial) (fun i j => i ^^^ j)
    (fun i j => A.bladeGeoProductSign i j) (fun i j => bsgn A.sigma A.dim i j)
    (fun i hi j hj => ⟨Nat.xor_lt_two_pow hi hj, ClAlg.bladeGeoProductSign_eq hA hi hj⟩)
  refine ⟨r, _, h1, h2.get (Nat.xor_lt_two_pow hi hj), h3 _ (Nat.xor_lt_two_pow hi hj) ?_⟩
  intro hs
  have e1 := List.sum_eq_zero_iff.mp hs _ (List.mem_map.mpr ⟨p, hp, rfl⟩)
  have e2 := List.sum_eq_zero_iff.mp e1 _ (List.mem_map.mpr ⟨q, hq, rfl⟩)
  rw [if_pos rfl] at e2
  have : bad0 (bsgn A.sigma A.dim p.1 q.1) p.2 q.2 = 1 := if_pos ⟨(bsgn_ne_zero_iff hA).mpr h0, hf⟩
  omega

/-- **C95, products spread them**, for coefficients as queried with `get_by_idx`. -/
theorem C95_mul (hA : A.WF) (ha : a.Valid) (hb : b.Valid) (hx : Coefs (.ok a) x) (hy : Coefs (.ok b) y) {i j : Nat}
    (hi : i < 2 ^ A.dim) (hj : j < 2 ^ A.dim) (hf : ¬ fin (x i) ∧ y j ≠ 0 ∨ x i ≠ 0 ∧ ¬ fin (y j))
    (h0 : i &&& j &&& A.projMask = 0) : Spoilt (a.naiveMulImpl b) (i ^^^ j) := by
  have ex : a.val i = x i := hx.val ha hi
  have ey : b.val j = y j := hy.val hb hj
  have hz : ∀ {z : F}, ¬ fin z → z ≠ 0 := fun h h' => h (h' ▸ fin_zero)
  have hx0 : x i ≠ 0 := by rcases hf with h | h; exacts [hz h.1, h.1]
  have hy0 : y j ≠ 0 := by rcases hf with h | h; exacts [h.2, hz h.2]
  have hp : (i, x i) ∈ a.coeffEnumerate := by rw [← ex]; exact ha.enum.complete i hi (by rw [ex]; exact hx0)
  have hq : (j, y j) ∈ b.coeffEnumerate := by rw [← ey]; exact hb.enum.complete j hj (by rw [ey]; exact hy0)
  exact C95_spreads hA ha hb hp hq (by tauto) h0

/-- **C95, wedge products spread them.** -/
theorem C95_wedge [WedgeProduct A S] [FloatWedge A S] (ha : a.Valid) (hb : b.Valid) (hx : Coefs (.ok a) x)
    (hy : Coefs (.ok b) y) {i j : Nat} (hi : i < 2 ^ A.dim) (hj : j < 2 ^ A.dim)
    (hf : ¬ fin (x i) ∧ y j ≠ 0 ∨ x i ≠ 0 ∧ ¬ fin (y j)) (h0 : i &&& j = 0) : Spoilt (a.wedge b) (i ^^^ j) := by
  have ex : a.val i = x i := hx.val ha hi
  have ey : b.val j = y j := hy.val hb hj
  have hz : ∀ {z : F}, ¬ fin z → z ≠ 0 := fun h h' => h (h' ▸ fin_zero)
  have hk := Nat.xor_lt_two_pow hi hj
  obtain ⟨r, h1, h2, h3⟩ := FloatWedge.wedge sumInv_bad ha hb (fun _ _ => trivial) (fun _ _ => trivial)
  refine ⟨r, _, h1, h2.get hk, h3 _ hk ?_⟩
  intro hs
  have e := sum_eq_zero_iff.mp hs i (mem_range.mpr hi)
  rw [xor_xor_cancel] at e
  have hsub : i &&& (i ^^^ j) = i := by
    apply Nat.eq_of_testBit_eq
    intro l
    have := congrArg (fun x => x.testBit l) h0
    simp only [Nat.testBit_and, Nat.zero_testBit] at this
    rw [Nat.testBit_and, Nat.testBit_xor]
    revert this
    cases i.testBit l <;> cases j.testBit l <;> simp
  have h4 := bsgn_wedge_ne_zero hsub (n := A.dim)
  rw [xor_xor_cancel] at h4
  have hx0 : x i ≠ 0 := by rcases hf with h | h; exacts [hz h.1, h.1]
  have hy0 : y j ≠ 0 := by rcases hf with h | h; exacts [h.2, hz h.2]
  have : bad (bsgn (fun _ => 0) A.dim i j) (a.val i) (b.val j) = 1 := by
    rw [ex, ey]
    exact if_pos ⟨h4, hx0, hy0, by tauto⟩
  omega

/-- The storage enumerates no coefficient that is zero. -/
def MV.NoZeros (a : MV A S) : Prop := ∀ p ∈ a.coeffEnumerate, p.2 ≠ 0

/-- **C95, and products spread them nowhere else.** If all the pairs of coefficients that contribute to the coefficient
of `a * b` number `k` are finite, then the error bound of C70 holds for it, no matter which of the other coefficients
are infinities or NaNs. Here `a'` and `b'` are real multivectors with the same coefficients (any value will do where
they are not finite). -/
theorem C95_local (hA : A.WF) (ha : a.Valid) (hb : b.Valid) (hx : Coefs (.ok a) x) (hy : Coefs (.ok b) y)
    (ha' : a'.Valid) (hb' : b'.Valid) (hx' : Coefs (.ok a') (fun i => re (x i))) (hy' : Coefs (.ok b') (fun i => re (y i)))
    (na : NoZeros a) (nb : NoZeros b) :
    let M := fun k => absSum (range (2 ^ A.dim)) x (fun i => y (i ^^^ k))
    let N := fun k => nTerms (range (2 ^ A.dim)) x (fun i => y (i ^^^ k))
    NearR (a.naiveMulImpl b) (a'.naiveMulImpl b')
      (fun k _ => (∀ i < 2 ^ A.dim, x i ≠ 0 → y (i ^^^ k) ≠ 0 → i &&& (i ^^^ k) &&& A.projMask = 0 →
        fin (x i) ∧ fin (y (i ^^^ k))) ∧ M k + errB F (M k) (N k) ≤ Ω F)
      (fun k _ => errB F (M k) (N k)) := by
  intro M N
  obtain ⟨r, h1, h2, h3⟩ := product_xor_inv' sumInv_mix ha hb na nb (fun i j => A.bladeGeoProductSign i j)
    (fun i j => bsgn A.sigma A.dim i j) (fun i hi j hj => ClAlg.bladeGeoProductSign_eq hA hi hj)
  refine NearR.of_denotes ⟨r, h1, h2, fun _ _ => rfl⟩ (mul_denotes hA ha' hb') ?_
  intro k hk ⟨hfin, hP⟩
  have e1 : ∑ i ∈ range (2 ^ A.dim), mix (bsgn A.sigma A.dim i (i ^^^ k)) (a.val i) (b.val (i ^^^ k)) =
      ∑ i ∈ range (2 ^ A.dim), mix (bsgn A.sigma A.dim i (i ^^^ k)) (x i) (y (i ^^^ k)) :=
    sum_congr rfl fun i hi => by
      rw [hx.val ha (mem_range.mp hi), hy.val hb (Nat.xor_lt_two_pow (mem_range.mp hi) hk)]
  have e2 : geo A.sigma A.dim a'.val b'.val k =
      ∑ i ∈ range (2 ^ A.dim), bsgn A.sigma A.dim i (i ^^^ k) • (re (x i) * re (y (i ^^^ k))) :=
    sum_congr rfl fun i hi => by
      rw [hx'.val ha' (mem_range.mp hi), hy'.val hb' (Nat.xor_lt_two_pow (mem_range.mp hi) hk)]
  have h := h3 k hk
  rw [e1] at h
  have hm : (∑ i ∈ range (2 ^ A.dim), mix (bsgn A.sigma A.dim i (i ^^^ k)) (x i) (y (i ^^^ k))).2 = 0 := by
    rw [Prod.snd_sum]
    refine sum_eq_zero fun i hi => ?_
    rw [mix_two]
    refine bad_zero ?_
    rintro ⟨g1, g2, g3, g4⟩
    have := hfin i (mem_range.mp hi) g2 g3 ((bsgn_ne_zero_iff hA).mp g1)
    tauto
  have h' := h hm
  rw [mix_sum hm] at h'
  rw [e2]
  refine Acc.of_sum (subset_refl _) h' ?_ (fun i h1 h2 => absurd h1 h2) hP
  intro i hi
  obtain ⟨s, -, hs⟩ := ClAlg.bladeGeoProductSign_eq hA (mem_range.mp hi) (Nat.xor_lt_two_pow (mem_range.mp hi) hk)
  rw [← hs]; exact toInt_abs_le s

/-- Dense storage enumerates no zeros. -/
theorem C95_dense_no_zeros (a : MV A (ArrayStorage F)) : NoZeros a := by
  intro p hp
  have := (List.mem_filter.mp hp).2
  simpa using this

theorem foldlM_const {X : Type} (l : List X) (u : MV A S) : l.foldlM (fun (ret : MV A S) _ => Except.ok (ε := Err) ret) u = .ok u := by
  induction l with
  | nil => rfl
  | cons x xs ih => rw [List.foldlM_cons]; exact ih

/-- **C95, products with zero.** If the storage of `b` enumerates no zeros, the product (and the wedge product by pairs, as
for sparse multivectors, and dense ones below dimension 6) of `a` and `b = 0` is zero, even if coefficients of `a` are
infinities or NaNs (although `∞ * 0` and `NaN * 0` are NaN). -/
theorem C95_zero (ha : a.Valid) (hb : b.Valid) (hy : Coefs (.ok b) (fun _ => (0 : F))) (nb : NoZeros b) :
    a.naiveMulImpl b ≈ᵣ MV.default (A := A) (S := S) ∧ b.naiveMulImpl a ≈ᵣ MV.default (A := A) (S := S) ∧
    a.naiveWedgeImpl b ≈ᵣ MV.default (A := A) (S := S) ∧ b.naiveWedgeImpl a ≈ᵣ MV.default (A := A) (S := S) := by
  have he : b.coeffEnumerate = [] := by
    rw [List.eq_nil_iff_forall_not_mem]
    intro p hp
    have h := hb.enum.mem p hp
    refine nb p hp ?_
    rw [h.2, hy.val hb h.1]
  obtain ⟨u, hu0, hu, hz⟩ := default_denotes (A := A) (S := S) ha.supp
  have h1 : a.naiveMulImpl b = .ok u := by
    unfold naiveMulImpl
    rw [hu0, he]
    exact foldlM_const _ u
  have h2 : b.naiveMulImpl a = .ok u := by
    unfold naiveMulImpl
    rw [hu0, he]; rfl
  have h3 : a.naiveWedgeImpl b = .ok u := by
    unfold naiveWedgeImpl
    rw [hu0, he]
    exact foldlM_const _ u
  have h4 : b.naiveWedgeImpl a = .ok u := by
    unfold naiveWedgeImpl
    rw [hu0, he]; rfl
  rw [h1, h2, h3, h4, hu0]
  have he := (LawfulStorage.beq_iff (S := S) (T := F) hu hu).mpr fun _ => rfl
  have h : (Except.ok u : Res (MV A S)) ≈ᵣ Except.ok u := ⟨u, u, rfl, rfl, hu, hu, he⟩
  exact ⟨h, h, h, h⟩

/-- **C95, dense wedge products from dimension 6 on** multiply all pairs of coefficients, zeros included: an infinity or
NaN spoils every coefficient whose blade contains its blade, even if the other factor is zero. -/
theorem C95_wedge_dense {a b : MV A (ArrayStorage F)} (hd : 6 ≤ A.dim) (ha : a.Valid) (hb : b.Valid)
    (hx : Coefs (.ok a) x) (hy : Coefs (.ok b) y) {i k : Nat} (hk : k < 2 ^ A.dim) (hi : i &&& k = i) (hf : ¬ fin (x i) ∨ ¬ fin (y i)) :
    Spoilt (a.wedge b) k := by
  obtain ⟨u, hu0, hu, -⟩ := default_denotes (A := A) (S := ArrayStorage F) ha.supp
  have h := wedgeImplMV_inv sumInv_bad0 ha hb hu (fun _ _ => trivial) (fun _ _ => trivial)
  refine ⟨⟨⟨u.coeffs.dim, (wedgeImpl a.coeffs.array b.coeffs.array u.coeffs.array).2⟩⟩, _, ?_, h.1.get hk, h.2 k hk ?_⟩
  · show a.wedgeDense b = _
    unfold wedgeDense
    rw [if_neg (by omega), hu0]; rfl
  have hik : i < 2 ^ A.dim := lt_of_le_of_lt (by rw [← hi]; exact Nat.and_le_right) hk
  have hxk := Nat.xor_lt_two_pow hik hk
  have hsub : (i ^^^ k) &&& k = i ^^^ k := by
    apply Nat.eq_of_testBit_eq
    intro l
    have := congrArg (fun x => x.testBit l) hi
    simp only [Nat.testBit_and] at this
    rw [Nat.testBit_and, Nat.testBit_xor]
    revert this
    cases i.testBit l <;> cases k.testBit l <;> simp
  intro hs
  rcases hf with hf | hf
  · have e := sum_eq_zero_iff.mp hs i (mem_range.mpr hik)
    have : bad0 (bsgn (fun _ => 0) A.dim i (i ^^^ k)) (a.val i) (b.val (i ^^^ k)) = 1 := by
      rw [hx.val ha hik]
      exact if_pos ⟨bsgn_wedge_ne_zero hi, .inl hf⟩
    omega
  · have e := sum_eq_zero_iff.mp hs (i ^^^ k) (mem_range.mpr hxk)
    have h4 := bsgn_wedge_ne_zero (n := A.dim) hsub
    have e3 : i ^^^ k ^^^ k = i := by rw [Nat.xor_assoc, Nat.xor_self, Nat.xor_zero]
    rw [e3] at e h4
    have : bad0 (bsgn (fun _ => 0) A.dim (i ^^^ k) i) (a.val (i ^^^ k)) (b.val i) = 1 := by
      rw [hy.val hb hik]
      exact if_pos ⟨h4, .inr hf⟩
    omega

/-- Nor does sparse storage (`Valid` says that no zeros are stored, and all operations preserve it). -/
theorem C95_sparse_no_zeros [HashOrder F] {a : MV A (SparseStorage F)} (ha : a.Valid) : NoZeros a := by
  intro p hp
  exact (ha.2.2.2.2 p ((HashOrder.perm a.coeffs.coeffs.entries).mem_iff.mp hp)).2

/-- **C95, quaternions.** The quaternion storage enumerates all four coefficients: an infinity or NaN in one factor spoils
the whole product, even if the other factor is zero. -/
theorem C95_quaternion {a b : Quat F} (hx : Coefs (.ok a) x) (hy : Coefs (.ok b) y) {i : Nat} (hi : i < 4)
    (hf : ¬ fin (x i) ∨ ¬ fin (y i)) {k : Nat} (hk : k < 4) : Spoilt (a.naiveMulImpl b) k := by
  have ha : a.Valid := rfl
  have hb : b.Valid := rfl
  have mem : ∀ (c : Quat F) j, j < 4 → (j, c.val j) ∈ c.coeffEnumerate := by
    intro c j hj
    show (j, QStorage.getByIdx c.coeffs j) ∈ [(0, c.coeffs.c0), (1, c.coeffs.c1), (2, c.coeffs.c2), (3, c.coeffs.c3)]
    interval_cases j <;> simp [QStorage.getByIdx]
  have hik : i ^^^ k < 4 := Nat.xor_lt_two_pow (n := 2) hi hk
  have hp : ∀ j, j &&& QuaternionAlgebra.projMask = 0 := fun j => Nat.and_zero j
  rcases hf with hf | hf
  · rw [← hx.val ha hi] at hf
    have := C95_spreads quat_wf ha hb (mem a i hi) (mem b _ hik) (.inl hf) (hp _)
    rwa [show i ^^^ (i ^^^ k) = k from xor_xor_cancel _ _] at this
  · rw [← hy.val hb hi] at hf
    have := C95_spreads quat_wf ha hb (mem a _ hik) (mem b i hi) (.inr hf) (hp _)
    rwa [show i ^^^ k ^^^ i = k by rw [Nat.xor_comm, xor_xor_cancel]] at this

end

open Ex in
/-- **C95, false across storages and dimensions.** The wedge product of the scalar `∞` and zero is zero for sparse
multivectors, but `NaN` everywhere for dense ones (from dimension 6 on). -/
theorem C95_false [HashOrder F64] : ∃ (a b : MV Cl8 (ArrayStorage F64)) (a' b' : MV Cl8 (SparseStorage F64)) (x : Nat → F64),
    a.Valid ∧ b.Valid ∧ a'.Valid ∧ b'.Valid ∧ Coefs (.ok a) x ∧ Coefs (.ok a') x ∧ Coefs (.ok b) (fun _ => 0) ∧
    Coefs (.ok b') (fun _ => 0) ∧ (∀ k < 256, Spoilt (a.wedge b) k) ∧ a'.wedge b' ≈ᵣ MV.default (A := Cl8) (S := SparseStorage F64) := by
  let x : Nat → F64 := fun i => if i = 0 then .nonFinite else 0
  let a : MV Cl8 (ArrayStorage F64) := ⟨⟨8, ⟨256, x⟩⟩⟩
  let b : MV Cl8 (ArrayStorage F64) := ⟨⟨8, ⟨256, fun _ => 0⟩⟩⟩
  let a' : MV Cl8 (SparseStorage F64) := ⟨⟨8, 256, ⟨[(0, .nonFinite)]⟩⟩⟩
  let b' : MV Cl8 (SparseStorage F64) := ⟨⟨8, 256, ⟨[]⟩⟩⟩
  have ha : a.Valid := ⟨by decide, rfl, rfl⟩
  have hb : b.Valid := ⟨by decide, rfl, rfl⟩
  have ha' : a'.Valid := ⟨by decide, rfl, rfl, by decide, by decide +kernel⟩
  have hb' : b'.Valid := ⟨by decide, rfl, rfl, by decide, by decide +kernel⟩
  have hx : Coefs (.ok a) x := ⟨a, rfl, fun i hi => by rw [ha.get hi]; exact congrArg _ (arr_val' ha hi)⟩
  have hy : Coefs (.ok b) (fun _ => (0 : F64)) := ⟨b, rfl, fun i hi => by rw [hb.get hi]; exact congrArg _ (arr_val' hb hi)⟩
  have hx' : Coefs (.ok a') x := ⟨a', rfl, fun i _ => by
    show Except.ok (([(0, Flt.nonFinite)].lookup i).getD (0 : F64)) = Except.ok (x i)
    by_cases h : i = 0
    · subst h; rfl
    · have : (i == 0) = false := by simpa using h
      simp [List.lookup, this, x, h]⟩
  have hy' : Coefs (.ok b') (fun _ => (0 : F64)) := ⟨b', rfl, fun i _ => rfl⟩
  refine ⟨a, b, a', b', x, ha, hb, ha', hb', hx, hx', hy, hy', fun k hk => ?_, ?_⟩
  · exact C95_wedge_dense (i := 0) (by decide) ha hb hx hy hk (Nat.zero_and k) (.inl fun h => h rfl)
  · refine (C95_zero ha' hb' hy' ?_).2.2.1
    intro p hp
    exact absurd ((HashOrder.perm b'.coeffs.coeffs.entries).mem_iff.mp hp) List.not_mem_nil

open Ex in
/-- **C95, false with a stored zero.** After `filter_inplace` with a closure that overwrites a coefficient with zero (C20), a
sparse multivector is equal to zero, but its product with the scalar `∞` is not zero. -/
theorem C95_stored_zero_false [HashOrder F64] : ∃ (a b : MV E (SparseStorage F64)) (f : Nat → F64 → Option F64), a.Valid ∧ b.Valid ∧
    (∃ z, MV.default (A := E) (S := SparseStorage F64) = .ok z ∧ (b.filterInplaceMut f).beq z = true) ∧
    Spoilt (a.naiveMulImpl (b.filterInplaceMut f)) 1 := by
  let a : MV E (SparseStorage F64) := ⟨⟨3, 8, ⟨[(0, .nonFinite)]⟩⟩⟩
  let b : MV E (SparseStorage F64) := ⟨⟨3, 8, ⟨[(1, n64 1)]⟩⟩⟩
  have ho : ∀ p : Nat × F64, HashOrder.order [p] = [p] := fun p => List.perm_singleton.mp (HashOrder.perm [p])
  have ho0 : HashOrder.order ([] : List (Nat × F64)) = [] := List.perm_nil.mp (HashOrder.perm [])
  refine ⟨a, b, fun _ _ => some 0, ⟨by decide, rfl, rfl, by decide, by decide +kernel⟩,
    ⟨by decide, rfl, rfl, by decide, by decide +kernel⟩, ⟨_, rfl, ?_⟩, ?_⟩
  · show (List.all (HashOrder.order [(1, 0)]) (fun p => decide ((List.lookup p.1 []).getD (0 : F64) = p.2)) &&
      List.all (HashOrder.order []) (fun p => decide ((List.lookup p.1 [(1, 0)]).getD (0 : F64) = p.2))) = true
    rw [ho, ho0]
    decide +kernel
  · have ea : a.coeffEnumerate = [(0, .nonFinite)] := ho _
    have eb : (b.filterInplaceMut fun _ _ => some 0).coeffEnumerate = [(1, (0 : F64))] := ho _
    unfold naiveMulImpl
    rw [ea, eb]
    have hs : E.bladeGeoProductSign 0 1 = .ok .Plus := by decide
    have hne : (Flt.nonFinite : F64) ≠ 0 := by decide +kernel
    refine ⟨⟨⟨3, 8, ⟨[(1, .nonFinite)]⟩⟩⟩, .nonFinite, ?_, rfl, fun h => absurd rfl h⟩
    show (do
      let u ← MV.accumulate (A := E) (S := SparseStorage F64) ⟨SparseStorage.new 3⟩ (0 ^^^ 1) (E.bladeGeoProductSign 0 1) Flt.nonFinite 0
      pure u) = _
    rw [hs]
    show Except.ok (MV.setByIdx (A := E) (S := SparseStorage F64) ⟨SparseStorage.new 3⟩ 1 (0 + Flt.nonFinite * 0)) = _
    have hv : (0 : F64) + Flt.nonFinite * 0 = Flt.nonFinite := by decide +kernel
    rw [hv]
    have hset : SparseStorage.setByIdx (SparseStorage.new 3) 1 (Flt.nonFinite : F64) = ⟨3, 8, ⟨[(1, .nonFinite)]⟩⟩ := by
      unfold SparseStorage.setByIdx
      rw [if_pos (show 1 < (SparseStorage.new (T := F64) 3).size by decide), if_neg hne]
      rfl
    show Except.ok (⟨SparseStorage.setByIdx (SparseStorage.new 3) 1 Flt.nonFinite⟩ : MV E (SparseStorage F64)) = _
    rw [hset]

namespace Ex

/-- `∞ + 2 e1 + e23` in `E` -/
def xInf : Nat → F64 := fun i => if i = 0 then .nonFinite else if i = 1 then n64 2 else if i = 6 then n64 1 else 0

theorem dense64_valid (x : Nat → F64) : (dense64 x).Valid := ⟨by decide, rfl, rfl⟩
theorem dense64_coefs (x : Nat → F64) : Coefs (.ok (dense64 x)) x :=
  ⟨_, rfl, fun _ hi => by rw [(dense64_valid x).get hi]; exact congrArg _ (arr_val' (dense64_valid x) hi)⟩
theorem xInf_coefs : Coefs (.ok (dense64 xInf)) xInf := dense64_coefs _
theorem denseR_valid (x : Nat → F64) : (denseR x).Valid := ⟨by decide, rfl, rfl⟩
theorem denseR_coefs (x : Nat → F64) : Coefs (.ok (denseR x)) (fun i => re (x i)) :=
  ⟨_, rfl, fun i hi => by
    rw [(denseR_valid x).get hi]
    have hi' : i < 8 := hi
    exact congrArg _ (if_pos hi')⟩

/-- `2 e1` in `E` -/
def xE1 : Nat → F64 := fun i => if i = 1 then n64 2 else 0

example := C95_mul E_wf (dense64_valid xInf) (dense64_valid xE1) xInf_coefs (dense64_coefs xE1) (i := 0) (j := 1) (by decide)
  (by decide) (.inl ⟨fun h => h rfl, by decide +kernel⟩) rfl
example := C95_wedge (dense64_valid xInf) (dense64_valid xE1) xInf_coefs (dense64_coefs xE1) (i := 0) (j := 1) (by decide)
  (by decide) (.inl ⟨fun h => h rfl, by decide +kernel⟩) rfl
example := C95_spreads E_wf (dense64_valid xInf) (dense64_valid xE1) (p := (0, .nonFinite)) (q := (1, n64 2)) (by decide +kernel)
  (by decide +kernel) (.inl fun h => h rfl) rfl
example := C95_local E_wf (dense64_valid xInf) (dense64_valid xE1) xInf_coefs (dense64_coefs xE1) (denseR_valid xInf)
  (denseR_valid xE1) (denseR_coefs xInf) (denseR_coefs xE1) (C95_dense_no_zeros _) (C95_dense_no_zeros _)

/-- The coefficients of the product of `∞ + 2 e1 + e23` and `2 e1`: the scalar part (4) and that of the pseudoscalar are
finite, that of `e1` is not. -/
example : ((dense64 xInf).naiveMulImpl (dense64 xE1)).toOption.map (fun r => (List.range 8).map fun i => (r.getByIdx i).toOption) =
    some [some (n64 4), some .nonFinite, some 0, some 0, some 0, some 0, some 0, some (n64 2)] := by decide +kernel

/-- `∞ e3` and `2 e3` in eight dimensions: the dense exterior product spoils the coefficient of `e3^e0` (and every other one that
contains `e3`). -/
example : Spoilt ((⟨⟨8, ⟨256, fun i => if i = 8 then .nonFinite else 0⟩⟩⟩ : MV Cl8 (ArrayStorage F64)).wedge
    ⟨⟨8, ⟨256, fun i => if i = 8 then n64 2 else 0⟩⟩⟩) 9 := by
  have h : ∀ x : Nat → F64, MV.Valid (⟨⟨8, ⟨256, x⟩⟩⟩ : MV Cl8 (ArrayStorage F64)) := fun x => ⟨by decide, rfl, rfl⟩
  have c : ∀ x : Nat → F64, Coefs (.ok (⟨⟨8, ⟨256, x⟩⟩⟩ : MV Cl8 (ArrayStorage F64))) x := fun x =>
    ⟨_, rfl, fun i hi => by rw [(h x).get hi]; exact congrArg _ (arr_val' (h x) hi)⟩
  exact C95_wedge_dense (i := 8) (by decide) (h _) (h _) (c _) (c _) (by decide) (by decide) (.inl fun h => h rfl)

example := C95_zero (dense64_valid xInf) (dense64_valid fun _ => 0) (dense64_coefs fun _ => 0) (C95_dense_no_zeros _)
/-- `∞` times the quaternion 0 -/
example := C95_quaternion (F := F64) (a := ⟨⟨.nonFinite, 0, 0, 0⟩⟩) (b := ⟨⟨0, 0, 0, 0⟩⟩) (i := 0)
  (x := fun i => if i = 0 then .nonFinite else 0) (y := fun _ => 0)
  ⟨_, rfl, by decide +kernel⟩ ⟨_, rfl, by decide +kernel⟩ (by decide) (.inl fun h => absurd rfl h) (k := 3) (by decide)
example [HashOrder F64] (h : sX.Valid) := C95_sparse_no_zeros h

end Ex

end TClifford
