import Verif.Props.Examples
import Verif.Props.Storage
import Verif.Proofs.Exterior
import Verif.Proofs.Construct
import Verif.Proofs.CliffordAlg
import Mathlib.LinearAlgebra.ExteriorAlgebra.Basic
/-
The geometric product is the product of the Clifford algebra of the declared quadratic form (C03) and the exterior product is
the product of the exterior algebra (C07).  Both algebras are Mathlib's.
-/

set_option linter.unusedSectionVars false

namespace TClifford

open MV Finset Spec

section
variable {T : Type} [CommRing T] [DecidableEq T] {S : Type} [CoeffStorage S T] [LawfulStorage S T] {A : ClAlg}

/-- The coefficients as reported by `get_by_idx`. -/
def readCoeff (a : MV A S) (i : Nat) : T := match a.getByIdx (T := T) i with
  | .ok c => c
  | .error _ => 0

/-- The element of the Clifford algebra of `Q` represented by a multivector. -/
def image (Q : QuadraticForm T (Fin A.dim → T)) (a : MV A S) : CliffordAlgebra Q := toCl Q (readCoeff a)

theorem readCoeff_eq {a : MV A S} (ha : a.Valid) {i : Nat} (hi : i < 2 ^ A.dim) : readCoeff a i = a.val i := by
  unfold readCoeff; rw [ha.get hi]

theorem toCl_congr (Q : QuadraticForm T (Fin A.dim → T)) {f g : Nat → T} (h : ∀ i < 2 ^ A.dim, f i = g i) : toCl Q f = toCl Q g :=
  sum_congr rfl fun i hi => by rw [h i (mem_range.mp hi)]

theorem image_eq (Q : QuadraticForm T (Fin A.dim → T)) {a : MV A S} (ha : a.Valid) : image Q a = toCl Q a.val :=
  toCl_congr Q fun _ hi => readCoeff_eq ha hi

theorem image_denotes (Q : QuadraticForm T (Fin A.dim → T)) {x : Res (MV A S)} {f : Nat → T} (h : Denotes x f) :
    ∃ c, x = .ok c ∧ c.Valid ∧ image Q c = toCl Q f := by
  obtain ⟨c, h1, h2, h3⟩ := h
  exact ⟨c, h1, h2, (image_eq Q h2).trans (toCl_congr Q h3)⟩

theorem declForm_eq {sig : List Sym} {names : List String} (h : declareAlgebra sig names = some A) (v : Fin A.dim → T) :
    declForm T A.dim sig v = ∑ i : Fin A.dim, ((A.sigma i : ℤ) : T) * (v i * v i) := by
  unfold declForm
  rw [QuadraticMap.weightedSumSquares_apply]
  refine sum_congr rfl fun i _ => ?_
  have hl : A.dim = sig.length := (declareAlgebra_eq h).2.2.1
  rw [squareOf_eq h (by rw [← hl]; exact i.2), smul_eq_mul]

theorem zeroForm_eq (v : Fin A.dim → T) :
    (0 : QuadraticForm T (Fin A.dim → T)) v = ∑ i : Fin A.dim, ((((fun _ => 0 : Nat → ℤ) i : ℤ)) : T) * (v i * v i) := by
  simp

/-- **C03.** The image of `a * b` in the Clifford algebra of the declared quadratic form is the product of the images. -/
theorem C03_mul {sig : List Sym} {names : List String} (h : declareAlgebra sig names = some A) {a b : MV A S}
    (ha : a.Valid) (hb : b.Valid) :
    ∃ c, a.naiveMulImpl b = .ok c ∧ c.Valid ∧ image (declForm T A.dim sig) c =
      image (declForm T A.dim sig) a * image (declForm T A.dim sig) b := by
  obtain ⟨c, h1, h2, h3⟩ := image_denotes (declForm T A.dim sig) (mul_denotes (declareAlgebra_wf h) ha hb)
  refine ⟨c, h1, h2, ?_⟩
  rw [h3, toCl_geo (σ := A.sigma) _ (declForm_eq h), image_eq _ ha, image_eq _ hb]

example : ∃ c, Ex.mA.naiveMulImpl Ex.mB = .ok c ∧ c.Valid ∧ image (declForm ℤ Ex.M.dim Ex.sigM) c =
    image (declForm ℤ Ex.M.dim Ex.sigM) Ex.mA * image (declForm ℤ Ex.M.dim Ex.sigM) Ex.mB :=
  C03_mul Ex.M_decl Ex.mA_valid Ex.mB_valid

/-- The quadratic form of `[+, -, 0]`. -/
example (v : Fin 3 → ℤ) : declForm ℤ 3 Ex.sigM v = v 0 * v 0 - v 1 * v 1 := by
  unfold declForm
  rw [QuadraticMap.weightedSumSquares_apply, Fin.sum_univ_three]
  simp [squareOf, Ex.sigM]
  ring

/-- **C03.** Two multivectors have the same image exactly when `==` answers `true`. -/
theorem C03_injective {sig : List Sym} {names : List String} (h : declareAlgebra sig names = some A) {a b : MV A S}
    (ha : a.Valid) (hb : b.Valid) :
    image (declForm T A.dim sig) a = image (declForm T A.dim sig) b ↔ a.beq b = true := by
  rw [image_eq _ ha, image_eq _ hb, beq_iff ha hb]
  exact ⟨fun he => toCl_injective (σ := A.sigma) _ (declForm_eq h) he, fun he => toCl_congr _ he⟩

example : image (declForm ℤ Ex.M.dim Ex.sigM) Ex.mA ≠ image (declForm ℤ Ex.M.dim Ex.sigM) Ex.mB := by
  rw [Ne, C03_injective Ex.M_decl Ex.mA_valid Ex.mB_valid]
  decide

theorem image_surjective {σ : Nat → ℤ} (Q : QuadraticForm T (Fin A.dim → T))
    (hQ : ∀ v, Q v = ∑ i : Fin A.dim, ((σ i : ℤ) : T) * (v i * v i)) (hS : LawfulStorage.Supp (S := S) (T := T) A.dim)
    (x : CliffordAlgebra Q) : ∃ (l : List (Nat × T)) (a : MV A S), fromIndexedIter l = .ok a ∧ a.Valid ∧ image Q a = x := by
  obtain ⟨f, rfl⟩ := toCl_surjective (σ := σ) Q hQ x
  refine ⟨(List.range (2 ^ A.dim)).map (fun i => (i, f i)), image_denotes Q (fromIndexedIter_enum hS (f := f) ⟨?_, ?_, ?_⟩)⟩
  · rw [List.map_map]
    have : (Prod.fst ∘ fun i => (i, f i)) = id := rfl
    rw [this, List.map_id]; exact List.nodup_range
  · intro p hp
    obtain ⟨i, hi, rfl⟩ := List.mem_map.mp hp
    exact ⟨List.mem_range.mp hi, rfl⟩
  · intro i hi _
    exact List.mem_map.mpr ⟨i, List.mem_range.mpr hi, rfl⟩

/-- **C03.** Every element of the Clifford algebra is the image of a multivector, and `from_indexed_iter` builds it. -/
theorem C03_surjective {sig : List Sym} {names : List String} (h : declareAlgebra sig names = some A)
    (hS : LawfulStorage.Supp (S := S) (T := T) A.dim) (x : CliffordAlgebra (declForm T A.dim sig)) :
    ∃ (l : List (Nat × T)) (a : MV A S), fromIndexedIter l = .ok a ∧ a.Valid ∧ image (declForm T A.dim sig) a = x :=
  image_surjective (σ := A.sigma) _ (declForm_eq h) hS x

example : ∃ (l : List (Nat × ℤ)) (a : MV Ex.M (ArrayStorage ℤ)), fromIndexedIter l = .ok a ∧ a.Valid ∧
    image (declForm ℤ Ex.M.dim Ex.sigM) a = CliffordAlgebra.ι (declForm ℤ Ex.M.dim Ex.sigM) (fun i : Fin Ex.M.dim => ((i : Nat) : ℤ) + 1) * CliffordAlgebra.ι _ (fun i : Fin Ex.M.dim => ((i : Nat) : ℤ) - 1) :=
  C03_surjective Ex.M_decl Ex.mA_valid.supp _

/-- **C03.** The image also respects the sum, the multiplication by scalars and the unit, and it sends the basis vector
number `i` to the generator number `i`. -/
theorem C03_linear {sig : List Sym} {names : List String} (_h : declareAlgebra sig names = some A) {a b : MV A S}
    (ha : a.Valid) (hb : b.Valid) (t : T) :
    (∃ c, a.add b = .ok c ∧ image (declForm T A.dim sig) c = image (declForm T A.dim sig) a + image (declForm T A.dim sig) b) ∧
    (∃ c, a.smul t = .ok c ∧ image (declForm T A.dim sig) c = t • image (declForm T A.dim sig) a) ∧
    (∃ c : MV A S, one (T := T) = .ok c ∧ image (declForm T A.dim sig) c = 1) ∧
    ∀ (i : Nat) (hi : i < A.dim), ∃ c : MV A S, basisVec (T := T) i = .ok c ∧
      image (declForm T A.dim sig) c = CliffordAlgebra.ι _ (Pi.single ⟨i, hi⟩ 1) := by
  refine ⟨?_, ?_, ?_, ?_⟩
  · obtain ⟨c, h1, _, h3⟩ := image_denotes (declForm T A.dim sig) (add_denotes ha hb)
    exact ⟨c, h1, by rw [h3, image_eq _ ha, image_eq _ hb, toCl_add]⟩
  · obtain ⟨c, h1, _, h3⟩ := image_denotes (declForm T A.dim sig) (smul_denotes ha t)
    refine ⟨c, h1, ?_⟩
    rw [h3, image_eq _ ha, toCl_smul]
    exact toCl_congr _ fun _ _ => mul_comm _ _
  · obtain ⟨c, h1, _, h3⟩ := image_denotes (declForm T A.dim sig) (one_denotes (S := S) ha.supp)
    refine ⟨c, h1, ?_⟩
    rw [h3, ← bladeC_mem _ (Nat.two_pow_pos _)]
    unfold bladeC word
    simp
  · intro i hi
    obtain ⟨c, h1, _, h3⟩ := image_denotes (declForm T A.dim sig) (basisVec_denotes (S := S) ha.supp hi)
    refine ⟨c, h1, ?_⟩
    rw [h3]
    have hlt : 2 ^ i < 2 ^ A.dim := Nat.pow_lt_pow_right (by norm_num) hi
    refine Eq.trans ?_ ((bladeC_mem _ hlt).symm.trans ?_)
    · rfl
    · unfold bladeC
      rw [word_two_pow hi]
      simp [gen, hi]

example : ∃ c, Ex.mA.smul 5 = .ok c ∧ image (declForm ℤ Ex.M.dim Ex.sigM) c = (5 : ℤ) • image (declForm ℤ Ex.M.dim Ex.sigM) Ex.mA :=
  (C03_linear Ex.M_decl Ex.mA_valid Ex.mB_valid 5).2.1

end

section
variable {T : Type} [CommRing T] [DecidableEq T] {S : Type} [CoeffStorage S T] [LawfulStorage S T] {A : ClAlg}
  [WedgeProduct A S] [LawfulWedge A S]

/-- The element of the exterior algebra represented by a multivector. -/
def extImage (a : MV A S) : ExteriorAlgebra T (Fin A.dim → T) := image 0 a

/-- **C07.** The image of `a.wedge(&b)` in the exterior algebra of `T^n` is the product of the images. -/
theorem C07_exterior_mul {a b : MV A S} (ha : a.Valid) (hb : b.Valid) :
    ∃ c, a.wedge b = .ok c ∧ c.Valid ∧ extImage c = extImage a * extImage b := by
  obtain ⟨c, h1, h2, h3⟩ := image_denotes (0 : QuadraticForm T (Fin A.dim → T)) (LawfulWedge.wedge ha hb)
  refine ⟨c, h1, h2, ?_⟩
  unfold extImage
  rw [h3, toCl_geo (σ := fun _ => 0) _ zeroForm_eq, image_eq _ ha, image_eq _ hb]

example : ∃ c, Ex.a7A.wedge Ex.a7B = .ok c ∧ c.Valid ∧ extImage c = extImage Ex.a7A * extImage Ex.a7B :=
  C07_exterior_mul Ex.a7A_valid Ex.a7B_valid

/-- **C07.** Two multivectors have the same image in the exterior algebra exactly when `==` answers `true`, and every element
of the exterior algebra is an image. -/
theorem C07_exterior_bijective (hS : LawfulStorage.Supp (S := S) (T := T) A.dim) :
    (∀ a b : MV A S, a.Valid → b.Valid → (extImage a = extImage b ↔ a.beq b = true)) ∧
    ∀ x : ExteriorAlgebra T (Fin A.dim → T), ∃ a : MV A S, a.Valid ∧ extImage a = x := by
  refine ⟨fun a b ha hb => ?_, fun x => ?_⟩
  · unfold extImage
    rw [image_eq _ ha, image_eq _ hb, beq_iff ha hb]
    exact ⟨fun he => toCl_injective (σ := fun _ => 0) _ zeroForm_eq he, fun he => toCl_congr _ he⟩
  · obtain ⟨l, a, _, h2, h3⟩ := image_surjective (σ := fun _ => 0) _ zeroForm_eq hS x
    exact ⟨a, h2, h3⟩

example : ∃ a : MV Ex.M (ArrayStorage ℤ), a.Valid ∧ extImage a = ExteriorAlgebra.ι ℤ (fun i : Fin Ex.M.dim => ((i : Nat) : ℤ) + 1) * ExteriorAlgebra.ι ℤ (fun i : Fin Ex.M.dim => ((i : Nat) : ℤ) - 1) :=
  (C07_exterior_bijective Ex.mA_valid.supp).2 _

end

end TClifford
