import Verif.Props.Access
import Verif.Proofs.Lift
/-
Independence of the results from the storage and from the hash map's iteration order, and the sparse storage
invariant: C18, C19, C20.
-/

set_option linter.unusedSectionVars false

namespace TClifford

open MV Finset

/-! ### The same multivector in two storages -/

section two
variable {T : Type} [Ring T] [DecidableEq T] {S S' : Type} [CoeffStorage S T] [LawfulStorage S T]
  [CoeffStorage S' T] [LawfulStorage S' T] {A : ClAlg}

/-- `a` and `a'` are valid and have the same coefficients. -/
def Corr (a : MV A S) (a' : MV A S') : Prop :=
  a.Valid ∧ a'.Valid ∧ ∀ i < 2 ^ A.dim, a.getByIdx i = a'.getByIdx i

/-- Both computations succeed and their results have the same coefficients. -/
def CorrR (x : Res (MV A S)) (y : Res (MV A S')) : Prop := ∃ u v, x = .ok u ∧ y = .ok v ∧ Corr u v

theorem Corr.val {a : MV A S} {a' : MV A S'} (h : Corr a a') {i : Nat} (hi : i < 2 ^ A.dim) : a.val i = a'.val i := by
  have := h.2.2 i hi
  rw [h.1.get hi, h.2.1.get hi] at this
  injection this

theorem CorrR.of_denotes {x : Res (MV A S)} {y : Res (MV A S')} {f g : Nat → T} (hx : Denotes x f) (hy : Denotes y g)
    (h : ∀ i < 2 ^ A.dim, f i = g i) : CorrR x y := by
  obtain ⟨u, hu, huv, huf⟩ := hx
  obtain ⟨v, hv, hvv, hvf⟩ := hy
  refine ⟨u, v, hu, hv, huv, hvv, ?_⟩
  intro i hi
  rw [huv.get hi, hvv.get hi, huf i hi, hvf i hi, h i hi]

theorem npow_congr (σ : Nat → ℤ) (n : Nat) {f g : Nat → T} (h : ∀ i < 2 ^ n, f i = g i) (k : Nat) :
    ∀ i < 2 ^ n, npow σ n f k i = npow σ n g k i := by
  induction k with
  | zero => intro i _; rfl
  | succ k ih =>
    intro i hi
    exact geo_congr (fun _ _ => rfl) ih h hi

variable {a b : MV A S} {a' b' : MV A S'}

theorem corr_add (ha : Corr a a') (hb : Corr b b') : CorrR (a.add b) (a'.add b') :=
  .of_denotes (add_denotes ha.1 hb.1) (add_denotes ha.2.1 hb.2.1) (fun _ hi => by rw [ha.val hi, hb.val hi])

theorem corr_sub (ha : Corr a a') (hb : Corr b b') : CorrR (a.sub b) (a'.sub b') :=
  .of_denotes (sub_denotes ha.1 hb.1) (sub_denotes ha.2.1 hb.2.1) (fun _ hi => by rw [ha.val hi, hb.val hi])

theorem corr_neg (ha : Corr a a') : CorrR a.neg a'.neg :=
  .of_denotes (neg_denotes ha.1) (neg_denotes ha.2.1) (fun _ hi => by rw [ha.val hi])

theorem corr_smul (ha : Corr a a') (t : T) : CorrR (a.smul t) (a'.smul t) :=
  .of_denotes (smul_denotes ha.1 t) (smul_denotes ha.2.1 t) (fun _ hi => by rw [ha.val hi])

theorem corr_mul (hA : A.WF) (ha : Corr a a') (hb : Corr b b') : CorrR (a.naiveMulImpl b) (a'.naiveMulImpl b') :=
  .of_denotes (mul_denotes hA ha.1 hb.1) (mul_denotes hA ha.2.1 hb.2.1)
    (fun _ hi => geo_congr (fun _ _ => rfl) (fun _ hi => ha.val hi) (fun _ hi => hb.val hi) hi)

theorem corr_wedge [WedgeProduct A S] [LawfulWedge A S] [WedgeProduct A S'] [LawfulWedge A S']
    (ha : Corr a a') (hb : Corr b b') : CorrR (a.wedge b) (a'.wedge b') :=
  .of_denotes (LawfulWedge.wedge ha.1 hb.1) (LawfulWedge.wedge ha.2.1 hb.2.1)
    (fun _ hi => geo_congr (fun _ _ => rfl) (fun _ hi => ha.val hi) (fun _ hi => hb.val hi) hi)

theorem corr_meet [WedgeProduct A S] [LawfulWedge A S] [WedgeProduct A S'] [LawfulWedge A S'] (hA : A.WF)
    (ha : Corr a a') (hb : Corr b b') : CorrR (a.meet b) (a'.meet b') :=
  .of_denotes (LawfulWedge.meet hA ha.1 hb.1) (LawfulWedge.meet hA ha.2.1 hb.2.1)
    (fun _ hi => meetF_congr (fun _ hi => ha.val hi) (fun _ hi => hb.val hi) hi)

theorem corr_rev (ha : Corr a a') : CorrR a.rev a'.rev :=
  .of_denotes (rev_denotes ha.1) (rev_denotes ha.2.1) (fun _ hi => by rw [ha.val hi])

theorem corr_flip (ha : Corr a a') : CorrR a.flip a'.flip :=
  .of_denotes (flip_denotes ha.1) (flip_denotes ha.2.1) (fun _ hi => by unfold flp; rw [ha.val hi])

theorem corr_flipSubspace (ha : Corr a a') (mask : Nat) : CorrR (a.flipSubspace mask) (a'.flipSubspace mask) :=
  .of_denotes (flipSubspace_denotes ha.1 mask) (flipSubspace_denotes ha.2.1 mask) (fun _ hi => by rw [ha.val hi])

theorem corr_dual (hA : A.WF) (ha : Corr a a') : CorrR a.dual a'.dual :=
  .of_denotes (dual_denotes hA ha.1) (dual_denotes hA ha.2.1) (fun i hi => by
    rw [ha.val (Nat.xor_lt_two_pow hi (by have := Nat.two_pow_pos A.dim; omega))])

theorem corr_undual (hA : A.WF) (ha : Corr a a') : CorrR a.undual a'.undual :=
  .of_denotes (undual_denotes hA ha.1) (undual_denotes hA ha.2.1) (fun i hi => by
    rw [ha.val (Nat.xor_lt_two_pow hi (by have := Nat.two_pow_pos A.dim; omega))])

theorem corr_pow (hA : A.WF) (ha : Corr a a') (n : Nat) : CorrR (a.pow n) (a'.pow n) :=
  .of_denotes (pow_denotes hA ha.1 n) (pow_denotes hA ha.2.1 n) (npow_congr _ _ (fun _ hi => ha.val hi) n)

theorem corr_gradeExtract (ha : Corr a a') {k : Nat} (hk : k < 2 ^ 32) : CorrR (a.gradeExtract k) (a'.gradeExtract k) :=
  .of_denotes (gradeExtractAs_denotes ha.1 ha.1.supp hk) (gradeExtractAs_denotes ha.2.1 ha.2.1.supp hk)
    (fun _ hi => by rw [ha.val hi])

theorem corr_set (ha : Corr a a') (i : Nat) (v : T) : Corr (a.setByIdx i v) (a'.setByIdx i v) := by
  refine ⟨ha.1.set i v, ha.2.1.set i v, ?_⟩
  intro j hj
  rw [(ha.1.set i v).get hj, (ha.2.1.set i v).get hj]
  by_cases hi : i < 2 ^ A.dim
  · rw [ha.1.set_val hi, ha.2.1.set_val hi, ha.val hj]
  · rw [C26_set_oob ha.1 (by omega), C26_set_oob ha.2.1 (by omega), ha.val hj]

theorem corr_scalars (hA : A.WF) (ha : Corr a a') (hb : Corr b b') :
    a.scalarPart = a'.scalarPart ∧ a.vsdot b = a'.vsdot b' ∧ a.vdot b = a'.vdot b' ∧ a.mag2 = a'.mag2 ∧
    a.isZero = a'.isZero ∧ a.beq b = a'.beq b' ∧ a.extractVector = a'.extractVector := by
  have hva : ∀ i < 2 ^ A.dim, a.val i = a'.val i := fun _ hi => ha.val hi
  have hvb : ∀ i < 2 ^ A.dim, b.val i = b'.val i := fun _ hi => hb.val hi
  refine ⟨?_, ?_, ?_, ?_, ?_, ?_, ?_⟩
  · rw [scalarPart_ok ha.1, scalarPart_ok ha.2.1, ha.val (Nat.two_pow_pos _)]
  · rw [vsdot_ok ha.1 hb.1, vsdot_ok ha.2.1 hb.2.1]
    congr 1
    refine Finset.sum_congr rfl fun i hi => ?_
    rw [hva i (mem_range.mp hi), hvb i (mem_range.mp hi)]
  · rw [vdot_ok hA ha.1 hb.1, vdot_ok hA ha.2.1 hb.2.1]
    exact congrArg _ (geo_congr (fun _ _ => rfl) hva hvb (Nat.two_pow_pos _))
  · rw [mag2_ok hA ha.1, mag2_ok hA ha.2.1]
    exact congrArg _ (geo_congr (fun _ _ => rfl) (fun i hi => by rw [hva i hi]) hva (Nat.two_pow_pos _))
  · rw [Bool.eq_iff_iff, isZero_iff ha.1, isZero_iff ha.2.1]
    exact forall₂_congr fun i hi => by rw [hva i hi]
  · rw [Bool.eq_iff_iff, beq_iff ha.1 hb.1, beq_iff ha.2.1 hb.2.1]
    exact forall₂_congr fun i hi => by rw [hva i hi, hvb i hi]
  · unfold extractVector
    have hd := ha.1.dim_le
    have : ∀ ks : List Nat, (∀ k ∈ ks, k < A.dim) → ks.mapM (m := Res) (fun i => a.getByIdx (ushl 1 i)) =
        ks.mapM (m := Res) (fun i => a'.getByIdx (ushl 1 i)) := by
      intro ks hks
      induction ks with
      | nil => rfl
      | cons k ks ih =>
        have hk := hks k (by simp)
        rw [List.mapM_cons, List.mapM_cons, ih (fun j hj => hks j (by simp [hj])), ushl_one (by omega),
          ha.2.2 _ (Nat.pow_lt_pow_right (by norm_num) hk)]
    exact this _ (fun k hk => List.mem_range.mp hk)

theorem corr_approxEq {N : Type} [LinearOrder N] (norm : T → N) {eps : N} (h0 : norm 0 < eps)
    (ha : Corr a a') (hb : Corr b b') : a.approxEq norm b eps = a'.approxEq norm b' eps := by
  obtain ⟨r, hr, hri⟩ := C51_iff norm h0 ha.1 hb.1
  obtain ⟨r', hr', hri'⟩ := C51_iff norm h0 ha.2.1 hb.2.1
  rw [hr, hr']
  congr 1
  rw [Bool.eq_iff_iff, hri, hri']
  exact forall₂_congr fun i hi => by rw [ha.2.2 i hi, hb.2.2 i hi]

theorem corr_constructors (hS : LawfulStorage.Supp (S := S) (T := T) A.dim)
    (hS' : LawfulStorage.Supp (S := S') (T := T) A.dim) :
    CorrR (default (A := A) (S := S) (T := T)) (default (A := A) (S := S') (T := T)) ∧
    CorrR (one (A := A) (S := S) (T := T)) (one (A := A) (S := S') (T := T)) ∧
    (∀ c : T, CorrR (fromScalar (A := A) (S := S) c) (fromScalar (A := A) (S := S') c)) ∧
    (∀ n < A.dim, CorrR (basisVec (A := A) (S := S) (T := T) n) (basisVec (A := A) (S := S') (T := T) n)) ∧
    (∀ l : List T, l.length = A.dim → CorrR (fromVector (A := A) (S := S) l) (fromVector (A := A) (S := S') l)) ∧
    (∀ l : List (Nat × T), (∀ p ∈ l, p.1 < 2 ^ A.dim) →
      CorrR (fromIndexedIter (A := A) (S := S) l) (fromIndexedIter (A := A) (S := S') l)) :=
  ⟨.of_denotes (default_denotes hS) (default_denotes hS') (fun _ _ => rfl),
    .of_denotes (one_denotes hS) (one_denotes hS') (fun _ _ => rfl),
    fun c => .of_denotes (fromScalar_denotes hS c) (fromScalar_denotes hS' c) (fun _ _ => rfl),
    fun _ hn => .of_denotes (basisVec_denotes hS hn) (basisVec_denotes hS' hn) (fun _ _ => rfl),
    fun _ hl => .of_denotes (fromVector_denotes hS hl) (fromVector_denotes hS' hl) (fun _ _ => rfl),
    fun l hl => .of_denotes (fromIndexedIter_ok hS l hl) (fromIndexedIter_ok hS' l hl) (fun _ _ => rfl)⟩

theorem corr_operations [WedgeProduct A S] [LawfulWedge A S] [WedgeProduct A S'] [LawfulWedge A S'] (hA : A.WF)
    (ha : Corr a a') (hb : Corr b b') :
    CorrR (a.add b) (a'.add b') ∧ CorrR (a.sub b) (a'.sub b') ∧ CorrR a.neg a'.neg ∧
    (∀ t, CorrR (a.smul t) (a'.smul t)) ∧ CorrR (a.naiveMulImpl b) (a'.naiveMulImpl b') ∧
    CorrR (a.wedge b) (a'.wedge b') ∧ CorrR (a.meet b) (a'.meet b') ∧
    CorrR a.rev a'.rev ∧ CorrR a.flip a'.flip ∧ (∀ mask, CorrR (a.flipSubspace mask) (a'.flipSubspace mask)) ∧
    CorrR a.dual a'.dual ∧ CorrR a.undual a'.undual ∧ (∀ n, CorrR (a.pow n) (a'.pow n)) ∧
    (∀ k < 2 ^ 32, CorrR (a.gradeExtract k) (a'.gradeExtract k)) ∧
    (∀ i v, Corr (a.setByIdx i v) (a'.setByIdx i v)) :=
  ⟨corr_add ha hb, corr_sub ha hb, corr_neg ha, corr_smul ha, corr_mul hA ha hb, corr_wedge ha hb, corr_meet hA ha hb,
    corr_rev ha, corr_flip ha, corr_flipSubspace ha, corr_dual hA ha, corr_undual hA ha, corr_pow hA ha,
    fun _ hk => corr_gradeExtract ha hk, corr_set ha⟩

end two

section twoField
variable {T : Type} [Field T] [DecidableEq T] {S S' : Type} [CoeffStorage S T] [LawfulStorage S T]
  [CoeffStorage S' T] [LawfulStorage S' T] {A : ClAlg} {a : MV A S} {a' : MV A S'}

theorem corr_sdiv (ha : Corr a a') {t : T} (ht : t ≠ 0) : CorrR (a.sdiv t) (a'.sdiv t) :=
  .of_denotes (sdiv_denotes ha.1 ht) (sdiv_denotes ha.2.1 ht) (fun _ hi => by rw [ha.val hi])

theorem corr_revm (hA : A.WF) (ha : Corr a a') {m : T} (hm : a.mag2 = .ok m) (h0 : m ≠ 0) : CorrR a.revm a'.revm :=
  .of_denotes (revm_denotes ha.1 hm h0)
    (revm_denotes ha.2.1 ((corr_scalars hA ha ha).2.2.2.1 ▸ hm) h0) (fun _ hi => by rw [ha.val hi])

end twoField

/-! ### C18 -/

section c18
variable {T : Type} [Ring T] [DecidableEq T] [HashOrder T] {A : ClAlg}
  {a b : MV A (ArrayStorage T)} {s r : MV A (SparseStorage T)}

/-- **C18.** `to_sparse` / `to_dense` preserve the coefficients. -/
theorem C18_convert (ha : a.Valid) (hs : s.Valid) :
    CorrR (.ok a) a.toSparse ∧ CorrR s.toDense (.ok s) :=
  ⟨.of_denotes (.of_valid ha) (toStorageType_denotes ha ha.supp) (fun _ _ => rfl),
    .of_denotes (toStorageType_denotes hs hs.supp) (.of_valid hs) (fun _ _ => rfl)⟩

/-- **C18.** `to_sparse` and `to_dense` are mutually inverse. -/
theorem C18_inverse (ha : a.Valid) (hs : s.Valid) :
    (do let x ← a.toSparse; x.toDense) ≈ᵣ .ok a ∧ (do let x ← s.toDense; x.toSparse) ≈ᵣ .ok s := by
  constructor
  · refine Agree.of_denotes (f := a.val) ?_ (.of_valid ha) (fun _ _ => rfl)
    refine (toStorageType_denotes (S' := SparseStorage T) ha ha.supp).bind (fun u hu huf => ?_)
    exact (toStorageType_denotes (S' := ArrayStorage T) hu hu.supp).congr huf
  · refine Agree.of_denotes (f := s.val) ?_ (.of_valid hs) (fun _ _ => rfl)
    refine (toStorageType_denotes (S' := ArrayStorage T) hs hs.supp).bind (fun u hu huf => ?_)
    exact (toStorageType_denotes (S' := SparseStorage T) hu hu.supp).congr huf

/-- **C18.** Every operation available on both storages gives the same coefficients on dense and sparse operands. -/
theorem C18_operations (hA : A.WF) (ha : Corr a s) (hb : Corr b r) :
    CorrR (a.add b) (s.add r) ∧ CorrR (a.sub b) (s.sub r) ∧ CorrR a.neg s.neg ∧
    (∀ t, CorrR (a.smul t) (s.smul t)) ∧ CorrR (a.naiveMulImpl b) (s.naiveMulImpl r) ∧
    CorrR (a.wedge b) (s.wedge r) ∧ CorrR (a.meet b) (s.meet r) ∧
    CorrR a.rev s.rev ∧ CorrR a.flip s.flip ∧ (∀ mask, CorrR (a.flipSubspace mask) (s.flipSubspace mask)) ∧
    CorrR a.dual s.dual ∧ CorrR a.undual s.undual ∧ (∀ n, CorrR (a.pow n) (s.pow n)) ∧
    (∀ k < 2 ^ 32, CorrR (a.gradeExtract k) (s.gradeExtract k)) ∧
    (∀ i v, Corr (a.setByIdx i v) (s.setByIdx i v)) ∧
    (∀ f, CorrR (a.filter f) (.ok (s.filterInplace f))) :=
  ⟨corr_add ha hb, corr_sub ha hb, corr_neg ha, corr_smul ha, corr_mul hA ha hb, corr_wedge ha hb, corr_meet hA ha hb,
    corr_rev ha, corr_flip ha, corr_flipSubspace ha, corr_dual hA ha, corr_undual hA ha, corr_pow hA ha,
    fun _ hk => corr_gradeExtract ha hk, corr_set ha,
    fun f => .of_denotes (filter_denotes ha.1 f) (filterInplace_denotes ha.2.1 f) (fun _ hi => by rw [ha.val hi])⟩

/-- **C18.** Every query available on both storages gives the same answer. -/
theorem C18_queries (hA : A.WF) (ha : Corr a s) (hb : Corr b r) :
    a.scalarPart = s.scalarPart ∧ a.vsdot b = s.vsdot r ∧ a.vdot b = s.vdot r ∧ a.mag2 = s.mag2 ∧
    a.isZero = s.isZero ∧ a.beq b = s.beq r ∧ a.extractVector = s.extractVector ∧
    (∀ {N : Type} [LinearOrder N] (norm : T → N) (eps : N), norm 0 < eps →
      a.approxEq norm b eps = s.approxEq norm r eps) := by
  obtain ⟨h1, h2, h3, h4, h5, h6, h7⟩ := corr_scalars hA ha hb
  exact ⟨h1, h2, h3, h4, h5, h6, h7, fun norm _ h => corr_approxEq norm h ha hb⟩

/-- **C18.** The constructors give the same multivector in both storages. -/
theorem C18_constructors (hd : A.dim ≤ 63) :
    CorrR (default (A := A) (S := ArrayStorage T) (T := T)) (default (A := A) (S := SparseStorage T) (T := T)) ∧
    CorrR (one (A := A) (S := ArrayStorage T) (T := T)) (one (A := A) (S := SparseStorage T) (T := T)) ∧
    (∀ c : T, CorrR (fromScalar (A := A) (S := ArrayStorage T) c) (fromScalar (A := A) (S := SparseStorage T) c)) ∧
    (∀ n < A.dim, CorrR (basisVec (A := A) (S := ArrayStorage T) (T := T) n)
      (basisVec (A := A) (S := SparseStorage T) (T := T) n)) ∧
    (∀ l : List T, l.length = A.dim →
      CorrR (fromVector (A := A) (S := ArrayStorage T) l) (fromVector (A := A) (S := SparseStorage T) l)) ∧
    (∀ l : List (Nat × T), (∀ p ∈ l, p.1 < 2 ^ A.dim) →
      CorrR (fromIndexedIter (A := A) (S := ArrayStorage T) l) (fromIndexedIter (A := A) (S := SparseStorage T) l)) :=
  corr_constructors hd hd

end c18

/-- The sparse twin of `Ex.mC` really corresponds to it (the hypothesis of `C18_operations` can be met). -/
def Ex.sC : MV Ex.M (SparseStorage ℤ) := ⟨⟨3, 8, ⟨[(6, 1), (3, 4), (5, 2), (4, 3)]⟩⟩⟩

theorem Ex.corrC : letI : HashOrder ℤ := Ex.revOrder
    Corr Ex.mC Ex.sC :=
  letI : HashOrder ℤ := Ex.revOrder
  ⟨Ex.mC_valid, ⟨by decide, rfl, rfl, by decide, by decide⟩, fun i hi => by
    have hi : i < 8 := hi
    interval_cases i <;> rfl⟩

example : letI : HashOrder ℤ := Ex.revOrder
    CorrR (Ex.mC.naiveMulImpl Ex.mC) (Ex.sC.naiveMulImpl Ex.sC) :=
  letI : HashOrder ℤ := Ex.revOrder
  (C18_operations Ex.M_wf Ex.corrC Ex.corrC).2.2.2.2.1

example := letI : HashOrder ℤ := Ex.revOrder; C18_convert Ex.mA_valid Ex.sA_valid

example := letI : HashOrder ℤ := Ex.revOrder; C18_inverse Ex.mA_valid Ex.sA_valid

example := letI : HashOrder ℤ := Ex.revOrder; C18_queries Ex.M_wf Ex.corrC Ex.corrC

example := letI : HashOrder ℤ := Ex.revOrder; C18_constructors (A := Ex.A7) (T := ℤ) (by decide)

/-! ### C19 -/

section c19
variable {T : Type} [Ring T] [DecidableEq T] {A : ClAlg}

/-- Equal coefficients of two sparse multivectors, possibly with different histories.  The iteration order of the hash
map plays no role in the definition. -/
def SameCoeffs (a a' : MV A (SparseStorage T)) : Prop :=
  ∀ i < 2 ^ A.dim, (a.coeffs.coeffs.get? i).getD 0 = (a'.coeffs.coeffs.get? i).getD 0

/-- Both computations succeed, with equal coefficients. -/
def SameR (x y : Res (MV A (SparseStorage T))) : Prop := ∃ u v, x = .ok u ∧ y = .ok v ∧ SameCoeffs u v

/-- The correspondence between sparse multivectors iterated in two different orders. -/
abbrev CorrO (o o' : HashOrder T) (a a' : MV A (SparseStorage T)) : Prop :=
  @Corr T _ _ (SparseStorage T) (SparseStorage T) (@SparseStorage.instCoeffStorage T _ _ _ _ o)
    (@SparseStorage.instLawfulStorage T _ _ _ _ _ o) (@SparseStorage.instCoeffStorage T _ _ _ _ o')
    (@SparseStorage.instLawfulStorage T _ _ _ _ _ o') A a a'

/-- The validity predicate of sparse multivectors does not mention the order; any instance will do. -/
abbrev ValidO (o : HashOrder T) (a : MV A (SparseStorage T)) : Prop :=
  @MV.Valid A (SparseStorage T) T _ _ _ _ (@SparseStorage.instCoeffStorage T _ _ _ _ o) (@SparseStorage.instLawfulStorage T _ _ _ _ _ o) a

theorem CorrO.mk' {o o' : HashOrder T} {a a' : MV A (SparseStorage T)} (ha : ValidO o a) (ha' : ValidO o' a')
    (h : SameCoeffs a a') : CorrO o o' a a' := ⟨ha, ha', fun i hi => congrArg Except.ok (h i hi)⟩

abbrev CorrRO (o o' : HashOrder T) (x y : Res (MV A (SparseStorage T))) : Prop :=
  @CorrR T _ _ (SparseStorage T) (SparseStorage T) (@SparseStorage.instCoeffStorage T _ _ _ _ o)
    (@SparseStorage.instLawfulStorage T _ _ _ _ _ o) (@SparseStorage.instCoeffStorage T _ _ _ _ o')
    (@SparseStorage.instLawfulStorage T _ _ _ _ _ o') A x y

theorem CorrRO.same {o o' : HashOrder T} {x y : Res (MV A (SparseStorage T))} (h : CorrRO o o' x y) : SameR x y := by
  obtain ⟨u, v, hu, hv, hc⟩ := h
  exact ⟨u, v, hu, hv, fun i hi => by have := hc.2.2 i hi; injection this⟩

/-- **C19.** For any two iteration orders, each sparse operation gives the same coefficients (on operands with the same
coefficients, whatever their histories). -/
theorem C19_operations (hA : A.WF) (o o' : HashOrder T) {a a' b b' : MV A (SparseStorage T)}
    (ha : ValidO o a) (ha' : ValidO o' a') (hb : ValidO o b) (hb' : ValidO o' b')
    (haa : SameCoeffs a a') (hbb : SameCoeffs b b') :
    SameR (letI := o; a.add b) (letI := o'; a'.add b') ∧
    SameR (letI := o; a.sub b) (letI := o'; a'.sub b') ∧
    SameR (letI := o; a.neg) (letI := o'; a'.neg) ∧
    (∀ t : T, SameR (letI := o; a.smul t) (letI := o'; a'.smul t)) ∧
    SameR (letI := o; a.naiveMulImpl b) (letI := o'; a'.naiveMulImpl b') ∧
    SameR (letI := o; a.wedge b) (letI := o'; a'.wedge b') ∧
    SameR (letI := o; a.meet b) (letI := o'; a'.meet b') ∧
    SameR (letI := o; a.rev) (letI := o'; a'.rev) ∧
    SameR (letI := o; a.flip) (letI := o'; a'.flip) ∧
    (∀ mask, SameR (letI := o; a.flipSubspace mask) (letI := o'; a'.flipSubspace mask)) ∧
    SameR (letI := o; a.dual) (letI := o'; a'.dual) ∧
    SameR (letI := o; a.undual) (letI := o'; a'.undual) ∧
    (∀ n, SameR (letI := o; a.pow n) (letI := o'; a'.pow n)) ∧
    (∀ k, SameR (letI := o; a.gradeExtract k) (letI := o'; a'.gradeExtract k)) ∧
    (∀ gs, SameR (letI := o; a.gradesExtract gs) (letI := o'; a'.gradesExtract gs)) := by
  have c1 : CorrO o o' a a' := .mk' ha ha' haa
  have c2 : CorrO o o' b b' := .mk' hb hb' hbb
  obtain ⟨h1, h2, h3, h4, h5, h6, h7, h8, h9, h10, h11, h12, h13, h14, -⟩ :=
    @corr_operations T _ _ (SparseStorage T) (SparseStorage T) (@SparseStorage.instCoeffStorage T _ _ _ _ o)
      (@SparseStorage.instLawfulStorage T _ _ _ _ _ o) (@SparseStorage.instCoeffStorage T _ _ _ _ o')
      (@SparseStorage.instLawfulStorage T _ _ _ _ _ o') A a b a' b'
      (letI := o; inferInstance) (@instLawfulWedgeSparseStorage T _ _ A o)
      (letI := o'; inferInstance) (@instLawfulWedgeSparseStorage T _ _ A o') hA c1 c2
  refine ⟨CorrRO.same h1, CorrRO.same h2, CorrRO.same h3, fun t => CorrRO.same (h4 t), CorrRO.same h5, CorrRO.same h6,
    CorrRO.same h7, CorrRO.same h8, CorrRO.same h9, fun m => CorrRO.same (h10 m), CorrRO.same h11, CorrRO.same h12,
    fun n => CorrRO.same (h13 n), ?_, ?_⟩
  · intro k
    have h := CorrRO.same (h14 (k % 2 ^ 32) (Nat.mod_lt _ (by norm_num)))
    have e : ∀ (o : HashOrder T) (x : MV A (SparseStorage T)), (letI := o; x.gradeExtract (k % 2 ^ 32)) =
        (letI := o; x.gradeExtract k) := by
      intro o x
      have : @gradeEnumerate A (SparseStorage T) T (@SparseStorage.instCoeffStorage T _ _ _ _ o) x (k % 2 ^ 32) =
          @gradeEnumerate A (SparseStorage T) T (@SparseStorage.instCoeffStorage T _ _ _ _ o) x k := by
        show SparseStorage.gradeEnumerate _ _ = SparseStorage.gradeEnumerate _ _
        unfold SparseStorage.gradeEnumerate
        rw [Nat.mod_mod]
      show gradeExtractAs x _ = gradeExtractAs x _
      unfold gradeExtractAs
      rw [this]
    rw [← e o a, ← e o' a']
    exact h
  · intro gs
    obtain ⟨u, hu, huv, huf⟩ := @gradesExtract_denotes A T _ _ o a ha gs
    obtain ⟨v, hv, hvv, hvf⟩ := @gradesExtract_denotes A T _ _ o' a' ha' gs
    refine ⟨u, v, hu, hv, fun i hi => ?_⟩
    refine (huf i hi).trans (Eq.trans ?_ (hvf i hi).symm)
    show (if countOnes i ∈ gs then _ else _) = if countOnes i ∈ gs then _ else _
    congr 1
    exact haa i hi

/-- **C19.** The queries do not depend on the iteration order either. -/
theorem C19_queries (hA : A.WF) (o o' : HashOrder T) {a a' b b' : MV A (SparseStorage T)}
    (ha : ValidO o a) (ha' : ValidO o' a') (hb : ValidO o b) (hb' : ValidO o' b')
    (haa : SameCoeffs a a') (hbb : SameCoeffs b b') :
    (letI := o; a.vsdot b) = (letI := o'; a'.vsdot b') ∧
    (letI := o; a.vdot b) = (letI := o'; a'.vdot b') ∧
    (letI := o; a.mag2) = (letI := o'; a'.mag2) ∧
    (letI := o; a.isZero) = (letI := o'; a'.isZero) ∧
    (letI := o; a.beq b) = (letI := o'; a'.beq b') ∧
    (letI := o; a.extractVector) = (letI := o'; a'.extractVector) := by
  have c1 : CorrO o o' a a' := .mk' ha ha' haa
  have c2 : CorrO o o' b b' := .mk' hb hb' hbb
  obtain ⟨-, h2, h3, h4, h5, h6, h7⟩ :=
    @corr_scalars T _ _ (SparseStorage T) (SparseStorage T) (@SparseStorage.instCoeffStorage T _ _ _ _ o)
      (@SparseStorage.instLawfulStorage T _ _ _ _ _ o) (@SparseStorage.instCoeffStorage T _ _ _ _ o')
      (@SparseStorage.instLawfulStorage T _ _ _ _ _ o') A a b a' b' hA c1 c2
  exact ⟨h2, h3, h4, h5, h6, h7⟩

/-- The identity order, different from `Ex.revOrder`. -/
@[reducible] def Ex.idOrder {T : Type} : HashOrder T := ⟨id, fun l => List.Perm.refl l⟩

/-- `Ex.sA` with its entries listed differently. -/
def Ex.sA' : MV Ex.M (SparseStorage ℤ) := ⟨⟨3, 8, ⟨[(6, -1), (5, 2), (0, 3)]⟩⟩⟩

example : SameR (letI : HashOrder ℤ := Ex.revOrder; Ex.sA.naiveMulImpl Ex.sB)
    (letI : HashOrder ℤ := Ex.idOrder; Ex.sA'.naiveMulImpl Ex.sB) :=
  (C19_operations Ex.M_wf Ex.revOrder Ex.idOrder Ex.sA_valid ⟨by decide, rfl, rfl, by decide, by decide⟩ Ex.sB_valid
    ⟨by decide, rfl, rfl, by decide, by decide⟩ (a' := Ex.sA')
    (by intro i hi; have hi : i < 8 := hi; interval_cases i <;> rfl) (fun _ _ => rfl)).2.2.2.2.1

example := C19_queries Ex.M_wf Ex.revOrder Ex.idOrder Ex.sA_valid ⟨by decide, rfl, rfl, by decide, by decide⟩ Ex.sB_valid
  ⟨by decide, rfl, rfl, by decide, by decide⟩ (a' := Ex.sA')
  (by intro i hi; have hi : i < 8 := hi; interval_cases i <;> rfl) (fun _ _ => rfl)

end c19

/-! ### C20 -/

section c20
variable {T : Type} [Ring T] [DecidableEq T] [HashOrder T] {A : ClAlg}

/-- Sparse multivectors that a program can build: any finite sequence of constructors and operations (an operation that
returns an error or panics builds nothing). -/
inductive Reach : MV A (SparseStorage T) → Prop
  | zero {c} : MV.default = .ok c → Reach c
  | scalar {t c} : fromScalar t = .ok c → Reach c
  | one {c} : MV.one = .ok c → Reach c
  | vector {l c} : fromVector l = .ok c → Reach c
  | indexed {l c} : fromIndexedIter l = .ok c → Reach c
  | basis {n c} : basisVec n = .ok c → Reach c
  | ofDense {d : MV A (ArrayStorage T)} {c} : d.Valid → d.toSparse = .ok c → Reach c
  | set {a} (i v) : Reach a → Reach (a.setByIdx i v)
  | add {a b c} : Reach a → Reach b → a.add b = .ok c → Reach c
  | sub {a b c} : Reach a → Reach b → a.sub b = .ok c → Reach c
  | neg {a c} : Reach a → a.neg = .ok c → Reach c
  | smul {a t c} : Reach a → a.smul t = .ok c → Reach c
  | mul {a b c} : Reach a → Reach b → a.naiveMulImpl b = .ok c → Reach c
  | wedge {a b c} : Reach a → Reach b → a.wedge b = .ok c → Reach c
  | meet {a b c} : Reach a → Reach b → a.meet b = .ok c → Reach c
  | rev {a c} : Reach a → a.rev = .ok c → Reach c
  | flip {a c} : Reach a → a.flip = .ok c → Reach c
  | flipSubspace {a m c} : Reach a → a.flipSubspace m = .ok c → Reach c
  | dual {a c} : Reach a → a.dual = .ok c → Reach c
  | undual {a c} : Reach a → a.undual = .ok c → Reach c
  | pow {a n c} : Reach a → a.pow n = .ok c → Reach c
  | revc {a c} {conj : T → T} : conj 0 = 0 → Reach a → a.revc conj = .ok c → Reach c
  | gradeExtract {a k c} : Reach a → a.gradeExtract k = .ok c → Reach c
  | gradesExtract {a gs c} : Reach a → a.gradesExtract gs = .ok c → Reach c
  | retainGrades {a} (gs) : Reach a → Reach (a.retainGrades gs)
  | filterInplace {a} (f) : Reach a → Reach (a.filterInplace f)
  | filterInplaceMut {a} (f : Nat → T → Option T) : (∀ i c d, c ≠ 0 → f i c = some d → d ≠ 0) → Reach a →
      Reach (a.filterInplaceMut f)

theorem _root_.TClifford.MV.Denotes.valid_of_ok {S : Type} [CoeffStorage S T] [LawfulStorage S T] {x : Res (MV A S)} {f : Nat → T} (h : Denotes x f)
    {c : MV A S} (hc : x = .ok c) : c.Valid := by
  obtain ⟨u, hu, huv, -⟩ := h
  rw [hu] at hc
  injection hc with hc
  subst hc; exact huv

theorem sparse_gradeExtract_mod (a : MV A (SparseStorage T)) (k : Nat) : a.gradeExtract k = a.gradeExtract (k % 2 ^ 32) := by
  have := C23_sparse_truncation a
  have h : ∀ q r, a.gradeExtract (r + q * 2 ^ 32) = a.gradeExtract r := by
    intro q r
    induction q with
    | zero => simp
    | succ q ih => rw [Nat.succ_mul, ← Nat.add_assoc, this, ih]
  have := h (k / 2 ^ 32) (k % 2 ^ 32)
  rw [← this, Nat.mul_comm, Nat.mod_add_div]

/-- What `filter_inplace` stores, whatever its closure writes. -/
theorem filterInplaceMut_mem (a : MV A (SparseStorage T)) (f : Nat → T → Option T) (p : Nat × T) :
    p ∈ (a.filterInplaceMut f).coeffs.coeffs.entries ↔ ∃ c, (p.1, c) ∈ a.coeffs.coeffs.entries ∧ f p.1 c = some p.2 := by
  show p ∈ List.filterMap _ _ ↔ _
  rw [List.mem_filterMap]
  constructor
  · rintro ⟨q, hq, h⟩
    rw [Option.map_eq_some_iff] at h
    obtain ⟨v, hv, rfl⟩ := h
    exact ⟨q.2, hq, hv⟩
  · rintro ⟨c, hc, h⟩
    exact ⟨(p.1, c), hc, by rw [h]; rfl⟩

/-- **C20.** `filter_inplace` keeps the indices in range and unique even if its closure writes zeros. -/
theorem C20_filter_inplace_keys {a : MV A (SparseStorage T)} (ha : a.Valid) (f : Nat → T → Option T) :
    ((a.filterInplaceMut f).coeffs.coeffs.entries.map Prod.fst).Nodup ∧
    ∀ p ∈ (a.filterInplaceMut f).coeffs.coeffs.entries, p.1 < 2 ^ A.dim := by
  constructor
  · have : ∀ l : List (Nat × T), ((l.filterMap (fun p => (f p.1 p.2).map (fun v => (p.1, v)))).map Prod.fst).Sublist (l.map Prod.fst) := by
      intro l
      induction l with
      | nil => exact .slnil
      | cons p l ih =>
        rw [List.filterMap_cons]
        rcases f p.1 p.2 with _ | v
        · exact ih.cons _
        · exact ih.cons_cons _
    exact ha.2.2.2.1.sublist (this _)
  · intro p hp
    obtain ⟨c, hc, -⟩ := (filterInplaceMut_mem a f p).mp hp
    exact (ha.2.2.2.2 _ hc).1

example := letI : HashOrder ℤ := Ex.revOrder; C20_filter_inplace_keys Ex.sA_valid (fun i c => if i = 5 then none else some (2 * c - 6))

theorem filterInplaceMut_valid {a : MV A (SparseStorage T)} (ha : a.Valid) {f : Nat → T → Option T}
    (hf : ∀ i c d, c ≠ 0 → f i c = some d → d ≠ 0) : (a.filterInplaceMut f).Valid := by
  obtain ⟨h1, h2⟩ := C20_filter_inplace_keys ha f
  refine ⟨ha.1, ha.2.1, ha.2.2.1, h1, fun p hp => ⟨h2 p hp, ?_⟩⟩
  obtain ⟨c, hc, h⟩ := (filterInplaceMut_mem a f p).mp hp
  exact hf _ _ _ (ha.2.2.2.2 _ hc).2 h

example [HashOrder ℤ] : (Ex.sA.filterInplaceMut (fun i c => if i = 5 then none else some (2 * c))).Valid :=
  filterInplaceMut_valid (a := Ex.sA) ⟨by decide, rfl, rfl, by decide, by decide⟩ (by
    intro i c d hc h
    split at h
    · cases h
    · injection h with h; omega)

theorem Reach.valid (hA : A.WF) (hd : A.dim ≤ 63) {a : MV A (SparseStorage T)} (h : Reach a) : a.Valid := by
  have hS : LawfulStorage.Supp (S := SparseStorage T) (T := T) A.dim := hd
  induction h with
  | zero h => exact (default_denotes hS).valid_of_ok h
  | scalar h => exact (fromScalar_denotes hS _).valid_of_ok h
  | one h => exact (one_denotes hS).valid_of_ok h
  | @vector l c h =>
    have hl := ((C24_ok_iff hS l).1).mp ⟨c, h⟩
    exact (fromVector_denotes hS hl).valid_of_ok h
  | @indexed l c h =>
    have hl := ((C25_err_iff hS l).2).mp ⟨c, h⟩
    exact Denotes.valid_of_ok (fromIndexedIter_ok hS l hl) h
  | @basis n c h =>
    obtain ⟨z, hz, hzv, -⟩ := default_denotes (A := A) hS
    unfold basisVec at h
    rw [hz] at h
    injection h with h
    subst h
    exact hzv.set _ _
  | ofDense hv h => exact (toStorageType_denotes hv hS).valid_of_ok h
  | set i v _ ih => exact ih.set i v
  | add _ _ h iha ihb => exact (add_denotes iha ihb).valid_of_ok h
  | sub _ _ h iha ihb => exact (sub_denotes iha ihb).valid_of_ok h
  | neg _ h iha => exact (neg_denotes iha).valid_of_ok h
  | smul _ h iha => exact (smul_denotes iha _).valid_of_ok h
  | mul _ _ h iha ihb => exact (mul_denotes hA iha ihb).valid_of_ok h
  | wedge _ _ h iha ihb => exact Denotes.valid_of_ok (LawfulWedge.wedge iha ihb) h
  | meet _ _ h iha ihb => exact Denotes.valid_of_ok (LawfulWedge.meet hA iha ihb) h
  | rev _ h iha => exact (rev_denotes iha).valid_of_ok h
  | flip _ h iha => exact (flip_denotes iha).valid_of_ok h
  | flipSubspace _ h iha => exact (flipSubspace_denotes iha _).valid_of_ok h
  | dual _ h iha => exact (dual_denotes hA iha).valid_of_ok h
  | undual _ h iha => exact (undual_denotes hA iha).valid_of_ok h
  | pow _ h iha => exact (pow_denotes hA iha _).valid_of_ok h
  | revc h0 _ h iha => exact (revc_denotes iha h0).valid_of_ok h
  | @gradeExtract a k c _ h iha =>
    rw [sparse_gradeExtract_mod] at h
    exact (gradeExtractAs_denotes iha iha.supp (Nat.mod_lt _ (by norm_num))).valid_of_ok h
  | gradesExtract _ h iha => exact (gradesExtract_denotes iha _).valid_of_ok h
  | retainGrades gs _ iha => exact (retainGrades_denotes iha gs).valid_of_ok rfl
  | filterInplace f _ iha => exact (filterInplace_denotes iha f).valid_of_ok rfl
  | filterInplaceMut f hf _ iha => exact filterInplaceMut_valid iha hf

/-- **C20.** In every sparse multivector a program can build, stored indices are in range, keys are unique and no stored
coefficient is zero.  Missing for the full claim: `filter_inplace` with a closure that overwrites a coefficient with zero, for
which it is false, see `C20_filter_inplace_mut_false`. -/
theorem C20_invariant_partial (hA : A.WF) (hd : A.dim ≤ 63) {a : MV A (SparseStorage T)} (h : Reach a) :
    (a.coeffs.coeffs.entries.map Prod.fst).Nodup ∧
    ∀ p ∈ a.coeffs.coeffs.entries, p.1 < 2 ^ A.dim ∧ p.2 ≠ 0 :=
  ⟨(h.valid hA hd).2.2.2.1, (h.valid hA hd).2.2.2.2⟩

example [HashOrder ℤ] : ∃ c : MV Ex.M (SparseStorage ℤ), (do let x ← fromVector [1, 2, 0]; x.naiveMulImpl x) = .ok c ∧
    ∀ p ∈ c.coeffs.coeffs.entries, p.1 < 2 ^ Ex.M.dim ∧ p.2 ≠ 0 := by
  obtain ⟨x, hx, -⟩ := fromVector_denotes (A := Ex.M) (S := SparseStorage ℤ) (show Ex.M.dim ≤ 63 by decide) (l := [1, 2, 0]) rfl
  have hxr : Reach x := .vector hx
  obtain ⟨y, hy, -, -⟩ := mul_denotes Ex.M_wf (hxr.valid Ex.M_wf (by decide)) (hxr.valid Ex.M_wf (by decide))
  exact ⟨y, by rw [hx]; exact hy, (C20_invariant_partial Ex.M_wf (by decide) (.mul hxr hxr hy)).2⟩

theorem coeffCount_eq {a : MV A (SparseStorage T)} (ha : a.Valid) :
    a.coeffCount = #{i ∈ range (2 ^ A.dim) | a.getByIdx i ≠ .ok 0} := by
  have h1 : a.coeffCount = (a.coeffs.coeffs.entries.map Prod.fst).toFinset.card := by
    rw [List.toFinset_card_of_nodup ha.2.2.2.1, List.length_map]; rfl
  rw [h1]
  congr 1
  ext i
  rw [List.mem_toFinset, List.mem_map, mem_filter, mem_range]
  constructor
  · rintro ⟨p, hp, rfl⟩
    obtain ⟨hlt, hne⟩ := ha.2.2.2.2 p hp
    refine ⟨hlt, ?_⟩
    show Except.ok (SparseStorage.getByIdx a.coeffs p.1) ≠ _
    rw [SparseStorage.get_of_mem ha hp]
    intro hc
    injection hc with hc
    exact hne hc
  · rintro ⟨_, hne⟩
    refine ⟨_, SparseStorage.mem_of_get ha (i := i) ?_, rfl⟩
    intro hc
    exact hne (congrArg Except.ok hc)

/-- **C20.** Hence `coeff_count()` is the number of non-zero coefficients, with the same exception. -/
theorem C20_coeff_count_partial (hA : A.WF) (hd : A.dim ≤ 63) {a : MV A (SparseStorage T)} (h : Reach a) :
    a.coeffCount = #{i ∈ range (2 ^ A.dim) | a.getByIdx i ≠ .ok 0} := coeffCount_eq (h.valid hA hd)

/-- **C20, refuted for `filter_inplace` with a closure that writes through its `&mut T`.**  The closure may leave a zero
in the map: the invariant is lost and `coeff_count()` no longer counts the non-zero coefficients. -/
theorem C20_filter_inplace_mut_false [HashOrder ℤ] :
    ∃ (a : MV Ex.M (SparseStorage ℤ)) (f : Nat → ℤ → Option ℤ), Reach a ∧
      (∃ p ∈ (a.filterInplaceMut f).coeffs.coeffs.entries, p.2 = 0) ∧
      (a.filterInplaceMut f).coeffCount = 1 ∧ ∀ i, (a.filterInplaceMut f).getByIdx i = .ok 0 := by
  refine ⟨⟨⟨3, 8, ⟨[(5, 2)]⟩⟩⟩, fun _ c => some (c - 2), ?_, ⟨(5, 0), by decide, rfl⟩, rfl, ?_⟩
  · exact Reach.indexed (l := [(5, 2)]) rfl
  · intro i
    show Except.ok (Option.getD (List.lookup i [(5, 0)]) 0) = _
    rw [List.lookup_cons]
    by_cases h : i = 5
    · subst h; rfl
    · have : (i == 5) = false := by simpa using h
      rw [this]; rfl

example [HashOrder ℤ] (c : MV Ex.M (SparseStorage ℤ))
    (hc : (do let x ← fromVector (A := Ex.M) (S := SparseStorage ℤ) [1, 2, 0]; let y ← x.naiveMulImpl x; y.sub x) = .ok c) :
    c.coeffCount = #{i ∈ range (2 ^ Ex.M.dim) | c.getByIdx i ≠ .ok 0} := by
  obtain ⟨x, hx, -⟩ := fromVector_denotes (A := Ex.M) (S := SparseStorage ℤ) (show Ex.M.dim ≤ 63 by decide) (l := [1, 2, 0]) rfl
  rw [hx] at hc
  have hxr : Reach x := .vector hx
  obtain ⟨y, hy, hyv, -⟩ := mul_denotes Ex.M_wf (hxr.valid Ex.M_wf (by decide)) (hxr.valid Ex.M_wf (by decide))
  have hc : (x.naiveMulImpl x >>= fun y => y.sub x) = .ok c := hc
  rw [hy] at hc
  exact C20_coeff_count_partial Ex.M_wf (by decide) (.sub (.mul hxr hxr hy) hxr hc)

end c20

section c20div
variable {T : Type} [DivisionRing T] [DecidableEq T] [HashOrder T] {A : ClAlg}

/-- **C20.** Division by a scalar, when it succeeds, keeps the invariant (hence so do `revm` and `revcm`, which end with
such a division). -/
theorem C20_sdiv {a c : MV A (SparseStorage T)} (ha : a.Valid) {t : T} (h : a.sdiv t = .ok c) : c.Valid := by
  by_cases ht : t = 0
  · subst ht
    obtain ⟨z, hz, hzv, -⟩ := default_denotes (A := A) (S := SparseStorage T) ha.supp
    unfold sdiv at h
    rw [hz] at h
    have h : a.coeffEnumerate.foldlM (m := Res) (fun (ret : MV A (SparseStorage T)) p => do
      let v ← fdiv p.2 0
      return ret.setByIdx p.1 v) z = .ok c := h
    rcases hl : a.coeffEnumerate with _ | ⟨p, l⟩
    · rw [hl] at h
      injection h with h
      subst h; exact hzv
    · rw [hl, List.foldlM_cons] at h
      have hf : fdiv p.2 (0 : T) = .error .nonFinite := if_pos rfl
      rw [hf] at h
      cases h
  · exact (sdiv_denotes ha ht).valid_of_ok h

/-- A sparse multivector with rational coefficients. -/
def Ex.sQ : MV Ex.HH (SparseStorage ℚ) := ⟨⟨2, 4, ⟨[(1, 4), (2, 3), (3, -5)]⟩⟩⟩

/-- Another one. -/
def Ex.sQ' : MV Ex.HH (SparseStorage ℚ) := ⟨⟨2, 4, ⟨[(0, 2), (3, 7)]⟩⟩⟩

theorem Ex.sQ_valid [HashOrder ℚ] : Ex.sQ.Valid := ⟨by decide, rfl, rfl, by decide, by decide⟩

example [HashOrder ℚ] : ∃ c : MV Ex.HH (SparseStorage ℚ), Ex.sQ.sdiv (7 : ℚ) = .ok c ∧ c.Valid := by
  obtain ⟨c, hc, -⟩ := sdiv_denotes Ex.sQ_valid (t := (7 : ℚ)) (by norm_num)
  exact ⟨c, hc, C20_sdiv Ex.sQ_valid hc⟩

/-- **C20.** So does the division of multivectors. -/
theorem C20_div (hA : A.WF) {a b c : MV A (SparseStorage T)} (ha : a.Valid) (hb : b.Valid) (h : a.div b = .ok c) : c.Valid := by
  unfold div at h
  obtain ⟨r, hr, hrv, -⟩ := rev_denotes hb
  rw [hr] at h
  obtain ⟨f, hf, hfv, -⟩ := flip_denotes hrv
  obtain ⟨p, hp, hpv, -⟩ := mul_denotes hA hb hfv
  have h : (r.flip >>= fun rhsConj => b.naiveMulImpl rhsConj >>= fun prod => prod.getByIdx 0 >>= fun rhsNorm =>
    CoeffStorage.coeffMapMut (T := T) rhsConj.coeffs (fun c => fdiv c rhsNorm) >>= fun s => a.naiveMulImpl ⟨s⟩) = .ok c := h
  rw [hf] at h
  have h : (b.naiveMulImpl f >>= fun prod => prod.getByIdx 0 >>= fun rhsNorm =>
    CoeffStorage.coeffMapMut (T := T) f.coeffs (fun c => fdiv c rhsNorm) >>= fun s => a.naiveMulImpl ⟨s⟩) = .ok c := h
  rw [hp] at h
  have h : (p.getByIdx 0 >>= fun rhsNorm =>
    CoeffStorage.coeffMapMut (T := T) f.coeffs (fun c => fdiv c rhsNorm) >>= fun s => a.naiveMulImpl ⟨s⟩) = .ok c := h
  rw [hpv.get (Nat.two_pow_pos _)] at h
  generalize p.val 0 = n at h
  have h : (CoeffStorage.coeffMapMut (T := T) f.coeffs (fun c => fdiv c n) >>= fun s => a.naiveMulImpl ⟨s⟩) = .ok c := h
  have key : ∀ s, CoeffStorage.coeffMapMut (T := T) f.coeffs (fun c => fdiv c n) = .ok s →
      (⟨s⟩ : MV A (SparseStorage T)).Valid := by
    intro s hs
    by_cases hn : n = 0
    · subst hn
      have hs : (List.mapM (m := Res) (fun p => do let v ← fdiv p.2 0; return (p.1, v)) f.coeffs.coeffs.entries >>= fun es =>
        .ok { f.coeffs with coeffs := ⟨es⟩ }) = .ok s := hs
      rcases hl : f.coeffs.coeffs.entries with _ | ⟨q, l⟩
      · rw [hl] at hs
        injection hs with hs
        subst hs
        refine ⟨hfv.1, hfv.2.1, hfv.2.2.1, List.nodup_nil, ?_⟩
        intro p hp; cases hp
      · rw [hl, List.mapM_cons] at hs
        have hf : fdiv q.2 (0 : T) = .error .nonFinite := if_pos rfl
        rw [hf] at hs
        cases hs
    · obtain ⟨s', h1, h2, -⟩ := LawfulStorage.mapMut_ok (f := fun c => fdiv c n) (g := fun c => c / n) hfv
        (fun x => if_neg hn) (zero_div _) (fun x hx => div_ne_zero hx hn)
      rw [h1] at hs
      injection hs with hs
      subst hs
      exact h2
  rcases hm : CoeffStorage.coeffMapMut (T := T) f.coeffs (fun c => fdiv c n) with e | s
  · rw [hm] at h; cases h
  · rw [hm] at h
    exact (mul_denotes hA ha (key s hm)).valid_of_ok h

example : letI : HashOrder ℚ := Ex.revOrder
    ∃ c, Ex.sQ.div Ex.sQ' = .ok c ∧ c.Valid := by
  let _ : HashOrder ℚ := Ex.revOrder
  have h : (Ex.sQ.div Ex.sQ').isOk = true := by decide +kernel
  cases hc : Ex.sQ.div Ex.sQ' with
  | error e => rw [hc] at h; cases h
  | ok c => exact ⟨c, rfl, C20_div Ex.HH_wf Ex.sQ_valid ⟨by decide, rfl, rfl, by decide, by decide⟩ hc⟩

end c20div

end TClifford
