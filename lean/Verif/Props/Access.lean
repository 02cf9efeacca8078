import Verif.Props.Examples
import Verif.Proofs.Construct
import Mathlib.Algebra.Order.Group.Abs
import Mathlib.Algebra.Order.Ring.Abs
/-
Equality, coefficient access, constructors, grade extraction, filters and approximate equality:
C21, C23, C24, C25, C26, C51, C54.
-/

set_option linter.unusedSectionVars false

namespace TClifford

open MV Finset

section ring
variable {T : Type} [Ring T] [DecidableEq T] {S : Type} [CoeffStorage S T] [LawfulStorage S T] {A : ClAlg}

/-! ### C21 -/

/-- **C21.** `a == b` exactly when `get_by_idx` agrees on every in-range index. -/
theorem C21_eq_iff {a b : MV A S} (ha : a.Valid) (hb : b.Valid) :
    a.beq b = true ↔ ∀ i < 2 ^ A.dim, a.getByIdx i = b.getByIdx i := by
  rw [beq_iff ha hb]
  refine forall₂_congr fun i hi => ?_
  rw [ha.get hi, hb.get hi]
  exact ⟨fun h => by rw [h], fun h => by injection h⟩

/-- **C21.** `==` is an equivalence relation. -/
theorem C21_equivalence {a b c : MV A S} (ha : a.Valid) (hb : b.Valid) (hc : c.Valid) :
    a.beq a = true ∧ (a.beq b = b.beq a) ∧ (a.beq b = true → b.beq c = true → a.beq c = true) := by
  refine ⟨(beq_iff ha ha).mpr fun _ _ => rfl, ?_, ?_⟩
  · rw [Bool.eq_iff_iff, beq_iff ha hb, beq_iff hb ha]
    exact forall₂_congr fun _ _ => eq_comm
  · rw [beq_iff ha hb, beq_iff hb hc, beq_iff ha hc]
    intro h1 h2 i hi
    rw [h1 i hi, h2 i hi]

example := C21_equivalence Ex.mA_valid Ex.mB_valid Ex.mC_valid

/-- **C21.** `a.is_zero()` iff `a == zero()` iff every coefficient is zero. -/
theorem C21_is_zero {a : MV A S} (ha : a.Valid) :
    (a.isZero = true ↔ .ok a ≈ᵣ default (A := A) (S := S)) ∧
    (a.isZero = true ↔ ∀ i < 2 ^ A.dim, a.getByIdx i = .ok 0) := by
  constructor
  · rw [isZero_iff ha]
    obtain ⟨z, hz, hzv, hz0⟩ := default_denotes (A := A) ha.supp
    constructor
    · intro h
      exact Agree.of_denotes (.of_valid ha) ⟨z, hz, hzv, hz0⟩ h
    · rintro ⟨u, v, hu, hv, huv, hvv, hb⟩
      injection hu with hu
      subst hu
      rw [hz] at hv
      injection hv with hv
      subst hv
      intro i hi
      rw [(beq_iff huv hvv).mp hb i hi, hz0 i hi]
  · rw [isZero_iff ha]
    refine forall₂_congr fun i hi => ?_
    rw [ha.get hi]
    exact ⟨fun h => by rw [h], fun h => by injection h⟩

example := C21_is_zero Ex.a7A_valid

/-- **C21.** `(a - b).is_zero()` iff `a == b`. -/
theorem C21_sub_is_zero {a b : MV A S} (ha : a.Valid) (hb : b.Valid) :
    (do let d ← a.sub b; return d.isZero) = .ok (a.beq b) := by
  refine (sub_denotes ha hb).bind_res ?_
  intro d hd h
  show Except.ok d.isZero = _
  congr 1
  rw [Bool.eq_iff_iff, isZero_iff hd, beq_iff ha hb]
  refine forall₂_congr fun i hi => ?_
  rw [h i hi, sub_eq_zero]

example : Ex.mA.beq Ex.mB = true ↔ ∀ i < 2 ^ Ex.M.dim, Ex.mA.getByIdx i = Ex.mB.getByIdx i :=
  C21_eq_iff Ex.mA_valid Ex.mB_valid
example : letI : HashOrder ℤ := Ex.revOrder
    (do let d ← Ex.sA.sub Ex.sB; return d.isZero) = .ok (Ex.sA.beq Ex.sB) :=
  letI : HashOrder ℤ := Ex.revOrder
  C21_sub_is_zero Ex.sA_valid Ex.sB_valid

/-! ### C23 -/

/-- **C23.** `grade_extract(k)` keeps exactly the coefficients of grade `k`.  Missing for the full claim: `k ≥ 2^32`,
for which it is false, see `C23_grade_2_32_false`. -/
theorem C23_coeff_partial {a : MV A S} (ha : a.Valid) {k : Nat} (hk : k < 2 ^ 32) {i : Nat} (hi : i < 2 ^ A.dim) :
    (do let g ← a.gradeExtract k; g.getByIdx i) = if countOnes i = k then a.getByIdx i else .ok 0 := by
  have h := gradeExtractAs_denotes ha ha.supp hk
  rw [ha.get hi]
  have : (if countOnes i = k then Except.ok (a.val i) else .ok 0 : Res T) = .ok (if countOnes i = k then a.val i else 0) := by
    split <;> rfl
  rw [this]
  refine h.bind_res ?_
  intro u hu hv
  rw [hu.get hi, hv i hi]

/-- Lifting of `gradeExtract`. -/
theorem gradeExtract_lift {x : Res (MV A S)} {f : Nat → T} (h : Denotes x f) {k : Nat} (hk : k < 2 ^ 32) :
    Denotes (do let u ← x; u.gradeExtract k) (fun i => if countOnes i = k then f i else 0) := by
  refine h.bind ?_
  intro u hu hv
  refine (gradeExtractAs_denotes hu hu.supp hk).congr ?_
  intro i hi
  rw [hv i hi]

/-- **C23.** Extraction is idempotent; different grades annihilate (grades below `2^32`, see `C23_grade_2_32_false`). -/
theorem C23_projection_partial {a : MV A S} (ha : a.Valid) {k l : Nat} (hk : k < 2 ^ 32) (hl : l < 2 ^ 32) :
    (do let g ← a.gradeExtract k; g.gradeExtract k) ≈ᵣ a.gradeExtract k ∧
    (k ≠ l → (do let g ← a.gradeExtract k; g.gradeExtract l) ≈ᵣ default (A := A) (S := S)) := by
  have h := gradeExtractAs_denotes ha ha.supp hk
  refine ⟨Agree.of_denotes (gradeExtract_lift h hk) h ?_, fun hne =>
    Agree.of_denotes (gradeExtract_lift h hl) (default_denotes ha.supp) ?_⟩
  · intro i _; split <;> rfl
  · intro i _
    by_cases h1 : countOnes i = l
    · rw [if_pos h1, if_neg (fun h2 => hne (h2.symm.trans h1))]
    · rw [if_neg h1]

example := C23_projection_partial Ex.a7A_valid (k := 3) (l := 5) (by norm_num) (by norm_num)

/-- The program `grades.fold(zero(), |acc, k| acc + a.grade_extract(k))`. -/
def sumGrades (a : MV A S) (grades : List Nat) : Res (MV A S) := do
  let z ← default (A := A) (S := S)
  grades.foldlM (fun acc k => do let g ← a.gradeExtract k; acc.add g) z

theorem sumGrades_denotes {a : MV A S} (ha : a.Valid) (gs : List Nat) (hg : ∀ k ∈ gs, k < 2 ^ 32) :
    Denotes (sumGrades a gs) (fun i => (gs.map (fun k => if countOnes i = k then a.val i else 0)).sum) := by
  unfold sumGrades
  refine (default_denotes ha.supp).bind ?_
  intro z hz hz0
  have key : ∀ (gs : List Nat) (u : MV A S) (f : Nat → T), (∀ k ∈ gs, k < 2 ^ 32) → u.Valid → (∀ i < 2 ^ A.dim, u.val i = f i) →
      Denotes (gs.foldlM (m := Res) (fun acc k => do let g ← a.gradeExtract k; acc.add g) u)
        (fun i => f i + (gs.map (fun k => if countOnes i = k then a.val i else 0)).sum) := by
    intro gs
    induction gs with
    | nil => intro u f _ hu hf; exact ⟨u, rfl, hu, fun i hi => by simp [hf i hi]⟩
    | cons k gs ih =>
      intro u f hg hu hf
      rw [List.foldlM_cons]
      have h1 : Denotes (do let g ← a.gradeExtract k; u.add g) (fun i => f i + if countOnes i = k then a.val i else 0) := by
        refine (gradeExtractAs_denotes ha ha.supp (hg k (by simp))).bind ?_
        intro g hgv hgf
        refine (add_denotes hu hgv).congr ?_
        intro i hi; rw [hf i hi, hgf i hi]
      refine h1.bind ?_
      intro v hv hvf
      refine (ih v _ (fun k hk => hg k (by simp [hk])) hv hvf).congr ?_
      intro i _
      simp only [List.map_cons, List.sum_cons, add_assoc]
  refine (key gs z (fun _ => 0) hg hz hz0).congr ?_
  intro i _; rw [zero_add]

/-- **C23.** The grades `0..=dim` sum to the multivector. -/
theorem C23_partition {a : MV A S} (ha : a.Valid) : sumGrades a (List.range (A.dim + 1)) ≈ᵣ .ok a := by
  have hd := ha.dim_le
  refine Agree.of_denotes (sumGrades_denotes ha _ ?_) (.of_valid ha) ?_
  · intro k hk
    rw [List.mem_range] at hk
    omega
  · intro i hi
    have hc : countOnes i < A.dim + 1 := by
      rw [countOnes_eq_cnt hi]
      exact Nat.lt_succ_of_le (cnt_le _ _)
    show ∑ k ∈ range (A.dim + 1), (if countOnes i = k then a.val i else 0) = a.val i
    rw [Finset.sum_ite_eq, if_pos (mem_range.mpr hc)]

/-- **C23.** Grades above the dimension are empty (every storage, `k < 2^32`). -/
theorem C23_above_partial {a : MV A S} (ha : a.Valid) {k : Nat} (hk : k < 2 ^ 32) (hd : A.dim < k) :
    a.gradeExtract k ≈ᵣ default (A := A) (S := S) := by
  refine Agree.of_denotes (gradeExtractAs_denotes ha ha.supp hk) (default_denotes ha.supp) ?_
  intro i hi
  rw [if_neg]
  rw [countOnes_eq_cnt hi]
  have := cnt_le A.dim i
  omega

example := C23_above_partial Ex.a7A_valid (k := 8) (by norm_num) (by decide)

example : sumGrades Ex.mA (List.range (Ex.M.dim + 1)) ≈ᵣ .ok Ex.mA := C23_partition Ex.mA_valid
example : (do let g ← Ex.mA.gradeExtract 2; g.getByIdx 5) = Ex.mA.getByIdx 5 := by
  rw [C23_coeff_partial Ex.mA_valid (by norm_num) (by decide), if_pos (by decide)]

/-! ### C24 -/

/-- **C24.** `from_vector` is `Ok` iff the input has exactly `dim` items, and `InvalidShape` otherwise. -/
theorem C24_ok_iff (hS : LawfulStorage.Supp (S := S) (T := T) A.dim) (l : List T) :
    ((∃ v, fromVector (A := A) (S := S) l = .ok v) ↔ l.length = A.dim) ∧
    (l.length ≠ A.dim → fromVector (A := A) (S := S) l = .error (.cl .InvalidShape)) := by
  refine ⟨⟨?_, ?_⟩, fromVector_err hS⟩
  · rintro ⟨v, hv⟩
    by_contra hl
    rw [fromVector_err hS hl] at hv
    cases hv
  · intro hl
    obtain ⟨v, hv, -⟩ := fromVector_denotes (A := A) hS hl
    exact ⟨v, hv⟩

/-- **C24.** Too long an input is rejected however it continues: the error does not depend on the items past the first
`dim + 1` (so an unbounded iterator is rejected after `dim + 1` items). -/
theorem C24_prefix (hS : LawfulStorage.Supp (S := S) (T := T) A.dim) (l : List T) (hl : l.length = A.dim + 1) (rest : List T) :
    fromVector (A := A) (S := S) (l ++ rest) = .error (.cl .InvalidShape) :=
  fromVector_err hS (by rw [List.length_append]; omega)

example := C24_prefix (A := Ex.M) (S := ArrayStorage ℤ) (T := ℤ) (show Ex.M.dim ≤ 63 by decide) [1, 2, 3, 4] rfl [5, 6]

/-- **C24.** `extract_vector` inverts `from_vector`. -/
theorem C24_extract (hS : LawfulStorage.Supp (S := S) (T := T) A.dim) {l : List T} (hl : l.length = A.dim) :
    (do let v ← fromVector (A := A) (S := S) l; v.extractVector) = .ok l := by
  have hd := LawfulStorage.supp_le hS
  refine (fromVector_denotes hS hl).bind_res ?_
  intro u hu hv
  unfold extractVector
  have : ∀ ks : List Nat, (∀ k ∈ ks, k < A.dim) →
      ks.mapM (m := Res) (fun i => u.getByIdx (ushl 1 i)) = .ok (ks.map (fun k => l.getD k 0)) := by
    intro ks hks
    induction ks with
    | nil => rfl
    | cons k ks ih =>
      have hk := hks k (by simp)
      rw [List.mapM_cons, ushl_one (by omega), hu.get (Nat.pow_lt_pow_right (by norm_num) hk),
        hv _ (Nat.pow_lt_pow_right (by norm_num) hk), vecF_two_pow _ (by omega), ih (fun j hj => hks j (by simp [hj]))]
      rfl
  rw [this _ (fun k hk => List.mem_range.mp hk)]
  congr 1
  apply List.ext_getElem
  · simp [hl]
  · intro i h1 h2
    simp [h2]

/-- **C24.** The coefficients of `from_vector(v)`: `v[k]` at the `k`-th generator, zero elsewhere. -/
theorem C24_coeff (hS : LawfulStorage.Supp (S := S) (T := T) A.dim) {l : List T} (hl : l.length = A.dim) :
    (∀ k (hk : k < l.length), (do let v ← fromVector (A := A) (S := S) l; v.getByIdx (2 ^ k)) = .ok l[k]) ∧
    (∀ i < 2 ^ A.dim, countOnes i ≠ 1 → (do let v ← fromVector (A := A) (S := S) l; v.getByIdx i) = .ok 0) := by
  have hd := LawfulStorage.supp_le hS
  constructor
  · intro k hk
    refine (fromVector_denotes hS hl).bind_res ?_
    intro u hu hv
    have hlt : 2 ^ k < 2 ^ A.dim := Nat.pow_lt_pow_right (by norm_num) (by omega)
    rw [hu.get hlt, hv _ hlt, vecF_two_pow _ (by omega)]
    simp [hk]
  · intro i hi hc
    refine (fromVector_denotes hS hl).bind_res ?_
    intro u hu hv
    rw [hu.get hi, hv _ hi]
    unfold vecF
    rw [if_neg hc]

example := C24_coeff (A := Ex.M) (S := ArrayStorage ℤ) (T := ℤ) (show Ex.M.dim ≤ 63 by decide) (l := [5, 0, -2]) rfl

example : (do let v ← fromVector (A := Ex.M) (S := ArrayStorage ℤ) [5, 0, -2]; v.extractVector) = .ok [5, 0, -2] :=
  C24_extract (show Ex.M.dim ≤ 63 by decide) rfl
example : fromVector (A := Ex.M) (S := ArrayStorage ℤ) [5, 0, -2, 1] = .error (.cl .InvalidShape) :=
  (C24_ok_iff (show Ex.M.dim ≤ 63 by decide) _).2 (by decide)

/-! ### C25 -/

/-- **C25.** `from_indexed_iter` fails with `IndexOutOfBounds` iff some index is out of range. -/
theorem C25_err_iff (hS : LawfulStorage.Supp (S := S) (T := T) A.dim) (l : List (Nat × T)) :
    (fromIndexedIter (A := A) (S := S) l = .error (.cl .IndexOutOfBounds) ↔ ∃ p ∈ l, 2 ^ A.dim ≤ p.1) ∧
    ((∃ v, fromIndexedIter (A := A) (S := S) l = .ok v) ↔ ∀ p ∈ l, p.1 < 2 ^ A.dim) := by
  by_cases h : ∃ p ∈ l, 2 ^ A.dim ≤ p.1
  · have he := fromIndexedIter_err hS h
    refine ⟨⟨fun _ => h, fun _ => he⟩, ⟨?_, ?_⟩⟩
    · rintro ⟨v, hv⟩; rw [he] at hv; cases hv
    · intro h'
      obtain ⟨p, hp, hp'⟩ := h
      exact absurd (h' p hp) (by omega)
  · have h' : ∀ p ∈ l, p.1 < 2 ^ A.dim := by
      intro p hp
      by_contra hc
      exact h ⟨p, hp, by omega⟩
    obtain ⟨v, hv, -⟩ := fromIndexedIter_ok hS l h'
    refine ⟨⟨fun h2 => ?_, fun h2 => absurd h2 h⟩, ⟨fun _ => h', fun _ => ⟨v, hv⟩⟩⟩
    rw [hv] at h2; cases h2

/-- **C25.** Otherwise each coefficient is the last value given for its index, or zero. -/
theorem C25_last_write (hS : LawfulStorage.Supp (S := S) (T := T) A.dim) (l : List (Nat × T))
    (hl : ∀ p ∈ l, p.1 < 2 ^ A.dim) {i : Nat} (hi : i < 2 ^ A.dim) :
    (do let v ← fromIndexedIter (A := A) (S := S) l; v.getByIdx i) =
      .ok (match l.reverse.find? (fun p => p.1 = i) with | some p => p.2 | none => 0) := by
  refine Denotes.bind_res (fromIndexedIter_ok hS l hl) ?_
  intro u hu hv
  rw [hu.get hi, hv i hi, lastWrite_find]
  congr 1
  generalize l.reverse.find? (fun p => decide (p.1 = i)) = r
  rcases r with _ | p <;> rfl

example : (do let v ← fromIndexedIter (A := Ex.M) (S := ArrayStorage ℤ) [(3, 5), (1, 2), (3, -7)]; v.getByIdx 3) = .ok (-7) :=
  C25_last_write (show Ex.M.dim ≤ 63 by decide) _ (by decide) (by decide)
example : fromIndexedIter (A := Ex.M) (S := ArrayStorage ℤ) [(3, 5), (8, 2)] = .error (.cl .IndexOutOfBounds) :=
  (C25_err_iff (show Ex.M.dim ≤ 63 by decide) _).1.mpr ⟨(8, 2), by decide, by decide⟩

/-! ### C26 -/

/-- **C26.** Read-your-writes; other coefficients are unchanged (every storage). -/
theorem C26_get_set {a : MV A S} (ha : a.Valid) {i : Nat} (hi : i < 2 ^ A.dim) (v : T) :
    (a.setByIdx i v).getByIdx i = .ok v ∧
    ∀ j < 2 ^ A.dim, j ≠ i → (a.setByIdx i v).getByIdx j = a.getByIdx j := by
  constructor
  · rw [(ha.set i v).get hi, ha.set_val hi, if_pos rfl]
  · intro j hj hne
    rw [(ha.set i v).get hj, ha.set_val hi, if_neg hne, ha.get hj]

/-- **C26.** An out-of-range write has no effect at all (every storage). -/
theorem C26_set_oob {a : MV A S} (ha : a.Valid) {i : Nat} (hi : 2 ^ A.dim ≤ i) (v : T) : a.setByIdx i v = a := by
  show MV.mk _ = _
  rw [LawfulStorage.set_oob ha hi]

/-- **C26.** In-range reads never fail (every storage). -/
theorem C26_get_total {a : MV A S} (ha : a.Valid) {i : Nat} (hi : i < 2 ^ A.dim) : ∃ c, a.getByIdx i = .ok c :=
  ⟨_, ha.get hi⟩

example := C26_get_total Ex.a7A_valid (i := 127) (by decide)

/-- **C26.** Out-of-range reads of a sparse multivector are zero. -/
theorem C26_get_oob_sparse [HashOrder T] {a : MV A (SparseStorage T)} (ha : a.Valid) {i : Nat} (hi : 2 ^ A.dim ≤ i) :
    a.getByIdx i = .ok 0 := congrArg Except.ok (ha.val_oob hi)

example := letI : HashOrder ℤ := Ex.revOrder; C26_get_oob_sparse Ex.sA_valid (i := 8) (by decide)

/-- **C26.** Out-of-range reads of a quaternion are zero. -/
theorem C26_get_oob_quaternion {a : MV A (QStorage T)} (ha : a.Valid) {i : Nat} (hi : 2 ^ A.dim ≤ i) :
    a.getByIdx i = .ok 0 := congrArg Except.ok (ha.val_oob hi)

/-- `declare_algebra!(HH, [-, -])`. -/
def Ex.HH : ClAlg := (declareAlgebra [.minus, .minus] []).get rfl

theorem Ex.HH_wf : Ex.HH.WF := declareAlgebra_wf (sig := [.minus, .minus]) (names := []) rfl

/-- The quaternion `1 + 2i + 3j + 4k`. -/
def Ex.hA : MV Ex.HH (QStorage ℤ) := ⟨⟨1, 2, 3, 4⟩⟩

theorem Ex.hA_valid : Ex.hA.Valid := show Ex.HH.dim = 2 from rfl

example := C26_get_oob_quaternion Ex.hA_valid (i := 4) (by decide)

/-- **C26 (partial).** Out-of-range reads of a dense multivector are zero.
The full statement is `∀ i ≥ 2 ^ dim`; it fails at `i = 2 ^ dim`, see `C26_get_oob_dense_false`. -/
theorem C26_get_oob_dense_partial {a : MV A (ArrayStorage T)} (ha : a.Valid) {i : Nat} (hi : 2 ^ A.dim < i) :
    a.getByIdx i = .ok 0 := by
  show ArrayStorage.getByIdx _ _ = _
  unfold ArrayStorage.getByIdx
  rw [if_pos (by rw [ha.2.2]; exact hi)]

/-- **C26, refuted for dense storage.** Reading index `2 ^ dim` of *any* dense multivector panics. -/
theorem C26_get_oob_dense_false {a : MV A (ArrayStorage T)} (ha : a.Valid) : a.getByIdx (2 ^ A.dim) = .error .panic := by
  show ArrayStorage.getByIdx _ _ = _
  unfold ArrayStorage.getByIdx
  rw [if_neg (by rw [ha.2.2]; exact lt_irrefl _)]
  unfold Arr1.index
  rw [if_neg (by rw [ha.2.2]; exact lt_irrefl _)]

example : (Ex.mA.setByIdx 5 100).getByIdx 5 = .ok 100 := (C26_get_set Ex.mA_valid (by decide) 100).1
example : Ex.mA.setByIdx 8 100 = Ex.mA := C26_set_oob Ex.mA_valid (by decide) 100
example : Ex.mA.getByIdx 9 = .ok 0 := C26_get_oob_dense_partial Ex.mA_valid (by decide)
example : Ex.mA.getByIdx 8 = .error .panic := C26_get_oob_dense_false Ex.mA_valid

/-! ### C51 -/

/-- **C51.** `a.approx_eq(&b, eps)` iff every coefficient of `a - b` has norm below `eps` (for `eps > 0 = norm(0)`). -/
theorem C51_iff {N : Type} [LinearOrder N] (norm : T → N) {eps : N} (h0 : norm 0 < eps)
    {a b : MV A S} (ha : a.Valid) (hb : b.Valid) :
    ∃ r, a.approxEq norm b eps = .ok r ∧
      (r = true ↔ ∀ i < 2 ^ A.dim, ∃ x y, a.getByIdx i = .ok x ∧ b.getByIdx i = .ok y ∧ norm (x - y) < eps) := by
  obtain ⟨d, hd, hdv, hdf⟩ := sub_denotes ha hb
  refine ⟨d.coeffEnumerate.all (fun p => decide (norm p.2 < eps)), ?_, ?_⟩
  · unfold approxEq; rw [hd]; rfl
  · rw [List.all_eq_true]
    constructor
    · intro h i hi
      refine ⟨_, _, ha.get hi, hb.get hi, ?_⟩
      have hdi := hdf i hi
      beta_reduce at hdi
      rw [← hdi]
      by_cases hz : d.val i = 0
      · rw [hz]; exact h0
      · simpa using h _ (hdv.enum.complete i hi hz)
    · intro h p hp
      obtain ⟨h1, h2⟩ := hdv.enum.mem p hp
      obtain ⟨x, y, hx, hy, hlt⟩ := h p.1 h1
      rw [ha.get h1] at hx
      rw [hb.get h1] at hy
      injection hx with hx
      injection hy with hy
      rw [decide_eq_true_eq, h2, hdf _ h1]
      beta_reduce
      rw [hx, hy]
      exact hlt

example := C51_iff (fun x : ℚ => |x|) (eps := 3) (by norm_num) Ex.eA_valid Ex.eB_valid

/-- **C51.** Reflexive and implied by equality, symmetric, monotone in the precision. -/
theorem C51_laws {N : Type} [LinearOrder N] (norm : T → N) (hneg : ∀ x, norm (-x) = norm x) {eps eps' : N}
    (h0 : norm 0 < eps) (hle : eps ≤ eps') {a b : MV A S} (ha : a.Valid) (hb : b.Valid) :
    (a.beq b = true → a.approxEq norm b eps = .ok true) ∧
    (a.approxEq norm b eps = b.approxEq norm a eps) ∧
    (a.approxEq norm b eps = .ok true → a.approxEq norm b eps' = .ok true) := by
  obtain ⟨r, hr, hri⟩ := C51_iff norm h0 ha hb
  obtain ⟨r', hr', hri'⟩ := C51_iff norm h0 hb ha
  obtain ⟨r2, hr2, hri2⟩ := C51_iff norm (lt_of_lt_of_le h0 hle) ha hb
  refine ⟨?_, ?_, ?_⟩
  · intro he
    rw [hr, hri.mpr]
    intro i hi
    refine ⟨_, _, ha.get hi, hb.get hi, ?_⟩
    rw [(beq_iff ha hb).mp he i hi, sub_self]
    exact h0
  · rw [hr, hr']
    congr 1
    rw [Bool.eq_iff_iff, hri, hri']
    refine forall₂_congr fun i hi => ?_
    constructor
    · rintro ⟨x, y, hx, hy, h⟩
      exact ⟨y, x, hy, hx, by rw [← neg_sub, hneg]; exact h⟩
    · rintro ⟨x, y, hx, hy, h⟩
      exact ⟨y, x, hy, hx, by rw [← neg_sub, hneg]; exact h⟩
  · rw [hr, hr2]
    intro h
    injection h with h
    rw [hri2.mpr]
    intro i hi
    obtain ⟨x, y, hx, hy, hlt⟩ := hri.mp h i hi
    exact ⟨x, y, hx, hy, lt_of_lt_of_le hlt hle⟩

example : Ex.eA.approxEq (fun x : ℚ => |x|) Ex.eB 3 = Ex.eB.approxEq (fun x : ℚ => |x|) Ex.eA 3 :=
  (C51_laws (fun x : ℚ => |x|) abs_neg (by norm_num) (le_refl _) Ex.eA_valid Ex.eB_valid).2.1

/-- Finding (outside C51's precondition): with `precision = 0` equal dense multivectors are approximately equal, since
zero differences are skipped, although no norm is below zero ... -/
theorem C51_zero_precision_dense {N : Type} [LinearOrder N] (norm : T → N) {a : MV A (ArrayStorage T)} (ha : a.Valid)
    (eps : N) : a.approxEq norm a eps = .ok true := by
  obtain ⟨d, hd, hdv, hdf⟩ := sub_denotes ha ha
  unfold approxEq
  rw [hd]
  show Except.ok _ = _
  congr 1
  rw [List.all_eq_true]
  intro p hp
  obtain ⟨h1, h2⟩ := hdv.enum.mem p hp
  have h3 := hdf p.1 h1
  beta_reduce at h3
  rw [sub_self] at h3
  have : p.2 ≠ 0 := (ArrayStorage.mem_enum.mp hp).2.2
  exact absurd (h2.trans h3) this

example := C51_zero_precision_dense (fun x : ℚ => |x|) Ex.eA_valid 0

/-- ... whereas a quaternion is then not approximately equal to itself. -/
theorem C51_zero_precision_quaternion {N : Type} [LinearOrder N] (norm : T → N) (a : MV A (QStorage T)) :
    a.approxEq norm a (norm 0) = .ok false := by
  show Except.ok _ = _
  congr 1
  show List.all (QStorage.coeffEnumerate (QStorage.sub a.coeffs a.coeffs)) _ = _
  simp [QStorage.coeffEnumerate, QStorage.sub]

example := C51_zero_precision_quaternion (fun x : ℤ => |x|) Ex.hA

/-! ### C54 -/

/-- **C54.** Dense `filter` keeps exactly the (non-zero) coefficients satisfying the predicate. -/
theorem C54_filter {a : MV A (ArrayStorage T)} (ha : a.Valid) (f : Nat → T → Bool) {i : Nat} (hi : i < 2 ^ A.dim) :
    ∃ c, a.getByIdx i = .ok c ∧ (do let r ← a.filter f; r.getByIdx i) = .ok (if f i c then c else 0) := by
  refine ⟨_, ha.get hi, (filter_denotes (T := T) ha f).bind_res ?_⟩
  intro u hu hv
  rw [hu.get hi, hv i hi]

/-- **C54.** Sparse `filter_inplace` / `filtered` keep exactly the coefficients satisfying the predicate, whatever the
iteration order. -/
theorem C54_filter_inplace [HashOrder T] {a : MV A (SparseStorage T)} (ha : a.Valid) (f : Nat → T → Bool) {i : Nat}
    (hi : i < 2 ^ A.dim) :
    ∃ c, a.getByIdx i = .ok c ∧ (a.filterInplace f).getByIdx i = .ok (if f i c then c else 0) := by
  refine ⟨_, ha.get hi, ?_⟩
  obtain ⟨u, hu, huv, huf⟩ := filterInplace_denotes ha f
  injection hu with hu
  rw [hu, huv.get hi, huf i hi]

example := letI : HashOrder ℤ := Ex.revOrder; C54_filter_inplace Ex.sA_valid (fun i c => i ≠ 3 && c > 2) (i := 5) (by decide)

/-- **C54.** The closure of `filter_inplace` may also modify the coefficients: a coefficient other than zero becomes what the
closure makes of it if it is kept, and zero otherwise; the closure is not called for zeros, so they stay zero. -/
theorem C54_modify [HashOrder T] {a : MV A (SparseStorage T)} (ha : a.Valid) (f : Nat → T → Option T) {i : Nat}
    (hi : i < 2 ^ A.dim) :
    ∃ c, a.getByIdx i = .ok c ∧ (a.filterInplaceMut f).getByIdx i = .ok (if c = 0 then 0 else (f i c).getD 0) := by
  refine ⟨_, ha.get hi, ?_⟩
  have key : ∀ (l : List (Nat × T)), (l.map Prod.fst).Nodup →
      (l.filterMap (fun p => (f p.1 p.2).map (fun v => (p.1, v)))).lookup i = (l.lookup i).bind (f i) := by
    intro l hl
    induction l with
    | nil => rfl
    | cons p l ih =>
      obtain ⟨j, c⟩ := p
      have hl' := List.nodup_cons.mp (show (j :: l.map Prod.fst).Nodup from hl)
      rw [List.filterMap_cons, List.lookup_cons]
      by_cases hij : i = j
      · subst hij
        rcases hf : f i c with _ | v
        · simp only [Option.map_none, beq_self_eq_true, Option.bind_some, hf]
          rw [ih hl'.2]
          rw [List.lookup_eq_none_iff.mpr]
          · rfl
          · intro p hp
            refine bne_iff_ne.mpr fun h => ?_
            exact hl'.1 (h ▸ List.mem_map_of_mem hp)
        · simp [hf]
      · have hb : (i == j) = false := by simpa using hij
        rw [hb]
        rcases hf : f j c with _ | v
        · simpa [hf] using ih hl'.2
        · simp only [Option.map_some, List.lookup_cons, hb]
          exact ih hl'.2
  show Except.ok (SparseStorage.getByIdx (a.filterInplaceMut f).coeffs i) = _
  rw [sparse_val]
  unfold SparseStorage.getByIdx HashMap.get? filterInplaceMut HashMap.retain
  dsimp only
  rw [key _ ha.2.2.2.1]
  rcases h : a.coeffs.coeffs.entries.lookup i with _ | c
  · simp
  · have hm := (lookup_eq_some ha.2.2.2.1).mp h
    simp [(ha.2.2.2.2 _ hm).2]

/-- **C54.** `grades_extract` and `retain_grades` keep exactly the listed grades. -/
theorem C54_grades [HashOrder T] {a : MV A (SparseStorage T)} (ha : a.Valid) (gs : List Nat) {i : Nat} (hi : i < 2 ^ A.dim) :
    (do let r ← a.gradesExtract gs; r.getByIdx i) = (if countOnes i ∈ gs then a.getByIdx i else .ok 0) ∧
    (a.retainGrades gs).getByIdx i = (if countOnes i ∈ gs then a.getByIdx i else .ok 0) := by
  have e : (if countOnes i ∈ gs then a.getByIdx i else .ok 0 : Res T) = .ok (if countOnes i ∈ gs then a.val i else 0) := by
    rw [ha.get hi]; split <;> rfl
  rw [e]
  constructor
  · refine (gradesExtract_denotes ha gs).bind_res ?_
    intro u hu hv
    rw [hu.get hi, hv i hi]
  · obtain ⟨u, hu, huv, huf⟩ := retainGrades_denotes ha gs
    injection hu with hu
    rw [hu, huv.get hi, huf i hi]

example : (do let r ← Ex.mA.filter (fun i c => i ≠ 3 && c > 2); r.getByIdx 4) = .ok 5 := by
  obtain ⟨c, h1, h2⟩ := C54_filter Ex.mA_valid (fun i c => i ≠ 3 && c > 2) (i := 4) (by decide)
  have : c = 5 := by injection h1 with h1; exact h1.symm
  subst this
  exact h2
example : letI : HashOrder ℤ := Ex.revOrder
    (Ex.sA.retainGrades [0, 3]).getByIdx 5 = .ok 0 :=
  letI : HashOrder ℤ := Ex.revOrder
  (C54_grades Ex.sA_valid [0, 3] (i := 5) (by decide)).2.trans (if_neg (by decide))

/-- Double the coefficients of `sA` of even grade and drop the others -/
example : letI : HashOrder ℤ := Ex.revOrder
    ∃ c, Ex.sA.getByIdx 5 = .ok c ∧
      (Ex.sA.filterInplaceMut (fun i c => if countOnes i % 2 = 0 then some (2 * c) else none)).getByIdx 5 = .ok
        (if c = 0 then 0 else (if countOnes 5 % 2 = 0 then some (2 * c) else none).getD 0) :=
  letI : HashOrder ℤ := Ex.revOrder
  C54_modify Ex.sA_valid _ (by decide)

/-! ### Grades of 2^32 and more (C23) -/

/-- Finding: the sparse `grade_extract` reduces the grade modulo `2^32` (`grade as u32`). -/
theorem C23_sparse_truncation [HashOrder T] (a : MV A (SparseStorage T)) (k : Nat) :
    a.gradeExtract (k + 2 ^ 32) = a.gradeExtract k := by
  show gradeExtractAs a _ = gradeExtractAs a _
  unfold gradeExtractAs
  have : a.gradeEnumerate (k + 2 ^ 32) = a.gradeEnumerate k := by
    show SparseStorage.gradeEnumerate _ _ = SparseStorage.gradeEnumerate _ _
    unfold SparseStorage.gradeEnumerate
    rw [Nat.add_mod_right]
  rw [this]

example := letI : HashOrder ℤ := Ex.revOrder; C23_sparse_truncation Ex.sA 2

/-- The dense `grade_extract` is empty for every grade above the dimension, also beyond `2^32`.  (From `2^63` on it does not return,
`C22_huge_grade_false`; the model of dense storage does not show this.) -/
theorem C23_dense_above {a : MV A (ArrayStorage T)} (ha : a.Valid) {k : Nat} (hd : A.dim < k) (_hk : k < 2 ^ 63) :
    a.gradeExtract k ≈ᵣ default (A := A) (S := ArrayStorage T) := by
  have hempty : a.gradeEnumerate k = [] := by
    show List.map _ (gradeIterList _ _) = []
    rw [List.map_eq_nil_iff, List.eq_nil_iff_forall_not_mem]
    intro x hx
    have hdim := ha.dim_le
    rw [ha.2.1, mem_gradeIterList (by omega)] at hx
    have := cnt_le A.dim x
    rw [countOnes_eq_cnt hx.1] at hx
    omega
  show gradeExtractAs a k ≈ᵣ _
  unfold gradeExtractAs
  rw [hempty]
  obtain ⟨z, hz, hzv, hz0⟩ := default_denotes (A := A) (S := ArrayStorage T) ha.supp
  refine Agree.of_denotes (f := fun _ => 0) ⟨z, ?_, hzv, hz0⟩ ⟨z, hz, hzv, hz0⟩ (fun _ _ => rfl)
  rw [hz]; rfl

example := C23_dense_above Ex.mA_valid (k := 2 ^ 40) (by decide) (by decide)

/-- Hence for `k = 2^32` dense and sparse disagree: a sparse non-zero scalar survives the extraction. -/
theorem C23_grade_2_32_false [HashOrder ℤ] :
    ∃ a : MV Ex.M (SparseStorage ℤ), a.Valid ∧ (do let g ← a.gradeExtract (2 ^ 32); g.getByIdx 0) = .ok 1 := by
  obtain ⟨u, hu, huv, huf⟩ := fromScalar_denotes (A := Ex.M) (S := SparseStorage ℤ) (show Ex.M.dim ≤ 63 by decide) 1
  refine ⟨u, huv, ?_⟩
  have h := C23_sparse_truncation u 0
  rw [Nat.zero_add] at h
  rw [h, C23_coeff_partial huv (by norm_num) (by decide), if_pos (by decide), huv.get (by decide), huf 0 (by decide)]
  rfl

end ring

end TClifford
