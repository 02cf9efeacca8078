import Verif.Proofs.Lift
import Verif.Proofs.Words
import Mathlib.Algebra.Algebra.Basic
import Mathlib.Algebra.Ring.Pi
import Mathlib.Algebra.Module.Pi
/-
Coefficient functions on the blades of an algebra as a ring, so that identities between multivectors can be computed with
in a ring.
-/

set_option linter.unusedSectionVars false

namespace TClifford

open Finset

/-- Coefficients of a multivector: one for each of the `2^n` blades. -/
def GA (_σ : Nat → ℤ) (n : Nat) (T : Type) := Fin (2 ^ n) → T

namespace GA
variable {σ : Nat → ℤ} {n : Nat} {T : Type} [Ring T]

instance : AddCommGroup (GA σ n T) := inferInstanceAs (AddCommGroup (Fin (2 ^ n) → T))

/-- The element with the coefficients `f i`. -/
def of (f : Nat → T) : GA σ n T := fun i => f i

/-- The coefficients of an element (zero out of range). -/
def fn (x : GA σ n T) : Nat → T := fun i => if h : i < 2 ^ n then x ⟨i, h⟩ else 0

theorem fn_of (f : Nat → T) {i : Nat} (hi : i < 2 ^ n) : (of f : GA σ n T).fn i = f i := by
  unfold fn of
  rw [dif_pos hi]

theorem of_congr {f g : Nat → T} (h : ∀ i < 2 ^ n, f i = g i) : (of f : GA σ n T) = of g := funext fun i => h i i.2

theorem of_inj {f g : Nat → T} (h : (of f : GA σ n T) = of g) : ∀ i < 2 ^ n, f i = g i :=
  fun i hi => congrFun h ⟨i, hi⟩

theorem of_fn (x : GA σ n T) : of x.fn = x := by
  funext i
  show (if h : i.val < 2 ^ n then x ⟨i.val, h⟩ else 0) = _
  exact dif_pos i.2

instance : Mul (GA σ n T) := ⟨fun x y => of (geo σ n x.fn y.fn)⟩

instance : One (GA σ n T) := ⟨of (single 0 1)⟩

theorem one_def : (1 : GA σ n T) = of (single 0 1) := rfl

theorem of_add (f g : Nat → T) : (of (fun i => f i + g i) : GA σ n T) = of f + of g := rfl
theorem of_sub (f g : Nat → T) : (of (fun i => f i - g i) : GA σ n T) = of f - of g := rfl
theorem of_neg (f : Nat → T) : (of (fun i => -f i) : GA σ n T) = -of f := rfl
theorem of_zero : (of (fun _ => 0) : GA σ n T) = 0 := rfl

theorem of_mul (f g : Nat → T) : (of (geo σ n f g) : GA σ n T) = of f * of g :=
  of_congr fun _ hi => geo_congr (fun _ _ => rfl) (fun _ hi => (fn_of f hi).symm) (fun _ hi => (fn_of g hi).symm) hi

theorem ind {P : GA σ n T → Prop} (h : ∀ f, P (of f)) (x : GA σ n T) : P x := of_fn x ▸ h x.fn

instance : Ring (GA σ n T) :=
  { (inferInstance : AddCommGroup (GA σ n T)), (inferInstance : Mul (GA σ n T)), (inferInstance : One (GA σ n T)) with
    left_distrib := by
      intro a b c
      induction a using ind with | h f => ?_
      induction b using ind with | h g => ?_
      induction c using ind with | h h => ?_
      rw [← of_add, ← of_mul, ← of_mul, ← of_mul, ← of_add]
      exact of_congr fun i _ => geo_add_right _ _ _ _ _ i
    right_distrib := by
      intro a b c
      induction a using ind with | h f => ?_
      induction b using ind with | h g => ?_
      induction c using ind with | h h => ?_
      rw [← of_add, ← of_mul, ← of_mul, ← of_mul, ← of_add]
      exact of_congr fun i _ => geo_add_left _ _ _ _ _ i
    zero_mul := by
      intro a
      induction a using ind with | h f => ?_
      rw [← of_zero, ← of_mul]
      exact of_congr fun i _ => geo_zero_left _ _ _ i
    mul_zero := by
      intro a
      induction a using ind with | h f => ?_
      rw [← of_zero, ← of_mul]
      exact of_congr fun i _ => geo_zero_right _ _ _ i
    mul_assoc := by
      intro a b c
      induction a using ind with | h f => ?_
      induction b using ind with | h g => ?_
      induction c using ind with | h h => ?_
      rw [← of_mul, ← of_mul, ← of_mul, ← of_mul]
      exact of_congr fun i _ => geo_assoc _ _ _ _ _ i
    one_mul := by
      intro a
      induction a using ind with | h f => ?_
      rw [one_def, ← of_mul]
      exact of_congr fun i _ => geo_one_left _ _ _ i
    mul_one := by
      intro a
      induction a using ind with | h f => ?_
      rw [one_def, ← of_mul]
      exact of_congr fun i hi => geo_one_right _ _ _ hi
    zsmul := fun z x => z • x
    zsmul_zero' := zero_zsmul
    zsmul_succ' := fun k x => SubNegMonoid.zsmul_succ' k x
    zsmul_neg' := fun k x => SubNegMonoid.zsmul_neg' k x
    nsmul := fun z x => z • x
    nsmul_zero := zero_nsmul
    nsmul_succ := fun k x => succ_nsmul x k }

theorem of_npow (f : Nat → T) (k : Nat) : (of (MV.npow σ n f k) : GA σ n T) = of f ^ k := by
  induction k with
  | zero => rw [pow_zero]; rfl
  | succ k ih => rw [pow_succ, ← ih, ← of_mul]; rfl

end GA

namespace GA
variable {σ : Nat → ℤ} {n : Nat} {T : Type} [CommRing T]

instance : Module T (GA σ n T) := inferInstanceAs (Module T (Fin (2 ^ n) → T))

theorem of_smul (t : T) (f : Nat → T) : (of (fun i => t * f i) : GA σ n T) = t • of f := rfl

theorem of_smul' (t : T) (f : Nat → T) : (of (fun i => f i * t) : GA σ n T) = t • of f := by
  rw [← of_smul]; exact of_congr fun _ _ => mul_comm _ _

instance : Algebra T (GA σ n T) := Algebra.ofModule
  (by
    intro t x y
    induction x using ind with | h f => ?_
    induction y using ind with | h g => ?_
    rw [← of_smul, ← of_mul, ← of_mul, ← of_smul]
    exact of_congr fun i _ => geo_smul_left _ _ _ _ _ i)
  (by
    intro t x y
    induction x using ind with | h f => ?_
    induction y using ind with | h g => ?_
    rw [← of_smul, ← of_mul, ← of_mul, ← of_smul]
    refine of_congr fun i hi => ?_
    rw [← geo_smul_left, ← geo_smul_mid]
    exact geo_congr (fun _ _ => rfl) (fun i _ => mul_comm _ _) (fun _ _ => rfl) hi)

/-- The generators. -/
def e (k : Nat) : GA σ n T := of (single (2 ^ k) 1)

/-- The basis blades. -/
def bl (a : Nat) : GA σ n T := of (single a 1)

theorem bl_zero : (bl 0 : GA σ n T) = 1 := rfl

theorem of_single (a : Nat) (c : T) : (of (single a c) : GA σ n T) = c • bl a := by
  unfold bl
  rw [← of_smul]
  refine of_congr fun i _ => ?_
  unfold single
  split <;> simp

theorem bl_mul_bl {a b : Nat} (ha : a < 2 ^ n) : (bl a * bl b : GA σ n T) = (bsgn σ n a b : T) • bl (a ^^^ b) := by
  unfold bl
  rw [← of_mul, ← of_smul]
  refine of_congr fun i _ => ?_
  rw [geo_single_single _ ha]
  unfold single
  split <;> simp

theorem of_eq_sum (f : Nat → T) : (of f : GA σ n T) = ∑ i ∈ range (2 ^ n), f i • bl i := by
  funext j
  refine Eq.trans ?_ (Finset.sum_apply (M := fun _ : Fin (2 ^ n) => T) j (range (2 ^ n))
    (fun i k => f i * single i 1 k.val)).symm
  show f j = _
  rw [Finset.sum_eq_single j.val]
  · simp [single]
  · intro b _ hb
    simp [single, Ne.symm hb]
  · intro h
    exact absurd (mem_range.mpr j.2) h

/-- Reversal as a linear map. -/
def rev : GA σ n T →ₗ[T] GA σ n T where
  toFun x := of (fun i => rsg n i • x.fn i)
  map_add' x y := by
    induction x using ind with | h f => ?_
    induction y using ind with | h g => ?_
    rw [← of_add, ← of_add]
    refine of_congr fun i hi => ?_
    rw [fn_of _ hi, fn_of _ hi, fn_of _ hi, smul_add]
  map_smul' t x := by
    induction x using ind with | h f => ?_
    rw [← of_smul, RingHom.id_apply, ← of_smul]
    refine of_congr fun i hi => ?_
    rw [fn_of _ hi, fn_of _ hi, mul_smul_comm]

theorem rev_of (f : Nat → T) : rev (of f : GA σ n T) = of (fun i => rsg n i • f i) := by
  show (of (fun i => rsg n i • (of f : GA σ n T).fn i) : GA σ n T) = _
  exact of_congr fun i hi => by rw [fn_of _ hi]

theorem rev_mul (x y : GA σ n T) : rev (x * y) = rev y * rev x := by
  induction x using ind with | h f => ?_
  induction y using ind with | h g => ?_
  rw [← of_mul, rev_of, rev_of, rev_of, ← of_mul]
  exact of_congr fun i hi => geo_rev _ _ _ _ hi

theorem rev_one : rev (1 : GA σ n T) = 1 := by
  rw [one_def, rev_of]
  refine of_congr fun i _ => ?_
  unfold single
  split
  · rename_i h
    subst h
    rw [rsg_eq, cnt_zero]
    simp
  · rw [smul_zero]

theorem rev_pow (x : GA σ n T) (k : Nat) : rev (x ^ k) = rev x ^ k := by
  induction k with
  | zero => rw [pow_zero, pow_zero, rev_one]
  | succ k ih => rw [pow_succ, rev_mul, ih, ← pow_succ']

end GA

namespace MV
variable {A : ClAlg} {S T : Type}

section ring
variable [Ring T] [DecidableEq T] [CoeffStorage S T] [LawfulStorage S T]

/-- The computation succeeds with a valid multivector whose coefficients are `g`. -/
def Is (x : Res (MV A S)) (g : GA A.sigma A.dim T) : Prop := Denotes x g.fn

/-- The element of `GA` of a multivector. -/
def ga (a : MV A S) : GA A.sigma A.dim T := .of a.val

theorem is_of_denotes {x : Res (MV A S)} {f : Nat → T} (h : Denotes x f) : Is x (.of f) :=
  h.congr fun _ hi => (GA.fn_of f hi).symm

theorem Is.denotes {x : Res (MV A S)} {g : GA A.sigma A.dim T} (h : Is x g) : Denotes x g.fn := h

theorem Is.of_valid {a : MV A S} (h : a.Valid) : Is (.ok a) a.ga := is_of_denotes (.of_valid h)

theorem Is.congr {x : Res (MV A S)} {g g' : GA A.sigma A.dim T} (h : Is x g) (hg : g = g') : Is x g' := hg ▸ h

theorem Is.agree {x y : Res (MV A S)} {g g' : GA A.sigma A.dim T} (hx : Is x g) (hy : Is y g') (h : g = g') : x ≈ᵣ y :=
  Agree.of_denotes hx hy (fun i _ => by rw [h])

theorem Is.iff_agree {x y : Res (MV A S)} {g g' : GA A.sigma A.dim T} (hx : Is x g) (hy : Is y g') : x ≈ᵣ y ↔ g = g' := by
  refine ⟨?_, hx.agree hy⟩
  rintro ⟨u, v, rfl, rfl, hu, hv, hb⟩
  obtain ⟨u', hu', -, huf⟩ := hx
  obtain ⟨v', hv', -, hvf⟩ := hy
  injection hu' with hu'
  injection hv' with hv'
  subst hu' hv'
  rw [← GA.of_fn g, ← GA.of_fn g']
  refine GA.of_congr fun i hi => ?_
  rw [← huf i hi, ← hvf i hi]
  exact (beq_iff hu hv).mp hb i hi

theorem Is.ok {x : Res (MV A S)} {g : GA A.sigma A.dim T} (h : Is x g) : ∃ u, x = .ok u ∧ u.Valid ∧ u.ga = g := by
  obtain ⟨u, hu, huv, huf⟩ := h
  refine ⟨u, hu, huv, ?_⟩
  rw [← GA.of_fn g]
  exact GA.of_congr huf

theorem Is.of_ga {a : MV A S} (h : a.Valid) {g : GA A.sigma A.dim T} (hg : a.ga = g) : Is (.ok a) g := hg ▸ Is.of_valid h

theorem Is.bind {x : Res (MV A S)} {g g' : GA A.sigma A.dim T} {k : MV A S → Res (MV A S)} (hx : Is x g)
    (hk : ∀ u, u.Valid → u.ga = g → Is (k u) g') : Is (x >>= k) g' := by
  obtain ⟨u, rfl, huv, hug⟩ := hx.ok
  exact hk u huv hug

theorem Is.one (h : LawfulStorage.Supp (S := S) (T := T) A.dim) : Is (MV.one (A := A) (S := S) (T := T)) 1 :=
  is_of_denotes (one_denotes h)

theorem Is.zero (h : LawfulStorage.Supp (S := S) (T := T) A.dim) : Is (MV.default (A := A) (S := S) (T := T)) 0 :=
  is_of_denotes (default_denotes h)

variable {a b : MV A S}

theorem is_add (ha : a.Valid) (hb : b.Valid) : Is (a.add b) (a.ga + b.ga) := is_of_denotes (add_denotes ha hb)
theorem is_sub (ha : a.Valid) (hb : b.Valid) : Is (a.sub b) (a.ga - b.ga) := is_of_denotes (sub_denotes ha hb)
theorem is_neg (ha : a.Valid) : Is a.neg (-a.ga) := is_of_denotes (neg_denotes ha)
theorem is_mul (hA : A.WF) (ha : a.Valid) (hb : b.Valid) : Is (a.naiveMulImpl b) (a.ga * b.ga) := by
  rw [ga, ga, ← GA.of_mul]; exact is_of_denotes (mul_denotes hA ha hb)
theorem is_pow (hA : A.WF) (ha : a.Valid) (k : Nat) : Is (a.pow k) (a.ga ^ k) := by
  rw [ga, ← GA.of_npow]; exact is_of_denotes (pow_denotes hA ha k)

theorem ga_val {i : Nat} (hi : i < 2 ^ A.dim) (a : MV A S) : a.ga.fn i = a.val i := GA.fn_of _ hi

theorem ga_eq_iff : a.ga = b.ga ↔ ∀ i < 2 ^ A.dim, a.val i = b.val i :=
  ⟨fun h => GA.of_inj h, fun h => GA.of_congr h⟩

end ring

section comm
variable [CommRing T] [DecidableEq T] [CoeffStorage S T] [LawfulStorage S T] {a : MV A S}

theorem is_smul (ha : a.Valid) (t : T) : Is (a.smul t) (t • a.ga) := by
  rw [ga, ← GA.of_smul']; exact is_of_denotes (smul_denotes ha t)

theorem Is.fromScalar (h : LawfulStorage.Supp (S := S) (T := T) A.dim) (c : T) :
    Is (MV.fromScalar (A := A) (S := S) c) (algebraMap T _ c) := by
  rw [Algebra.algebraMap_eq_smul_one, ← GA.bl_zero, ← GA.of_single]
  exact is_of_denotes (fromScalar_denotes h c)

theorem is_rev (ha : a.Valid) : Is a.rev (GA.rev a.ga) := by
  rw [MV.ga, GA.rev_of]; exact is_of_denotes (rev_denotes ha)

end comm

end MV

end TClifford
