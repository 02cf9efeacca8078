import Verif.Model.Multivector
import Verif.Proofs.Lawful
import Verif.Proofs.Sign
/-
What each multivector operation computes, as a function of the coefficient functions of its operands, for every lawful
storage.
-/

set_option linter.unusedSectionVars false

namespace TClifford

open Finset

/-! ### Enumerations of coefficient functions -/

/-- The list `l` of index/coefficient pairs represents the coefficient function `f` on indices below `2^d`. -/
structure Enumerates {T : Type} [Zero T] (d : Nat) (l : List (Nat × T)) (f : Nat → T) : Prop where
  nodup : (l.map Prod.fst).Nodup
  mem : ∀ p ∈ l, p.1 < 2 ^ d ∧ p.2 = f p.1
  complete : ∀ i < 2 ^ d, f i ≠ 0 → (i, f i) ∈ l

namespace Enumerates
variable {T U : Type} {d : Nat} {l : List (Nat × T)} {f : Nat → T}

theorem congr [Zero T] {f' : Nat → T} (h : Enumerates d l f) (hf : ∀ i < 2 ^ d, f i = f' i) : Enumerates d l f' where
  nodup := h.nodup
  mem p hp := ⟨(h.mem p hp).1, by rw [(h.mem p hp).2, hf _ (h.mem p hp).1]⟩
  complete i hi hn := by rw [← hf i hi] at *; exact h.complete i hi hn

theorem filter [Zero T] (h : Enumerates d l f) (q : Nat × T → Bool) :
    Enumerates d (l.filter q) (fun i => if q (i, f i) then f i else 0) where
  nodup := List.Nodup.sublist (List.Sublist.map _ List.filter_sublist) h.nodup
  mem p hp := by
    rw [List.mem_filter] at hp
    have hm := h.mem p hp.1
    refine ⟨hm.1, ?_⟩
    have : (p.1, f p.1) = p := by rw [← hm.2]
    rw [this, if_pos hp.2, hm.2]
  complete i hi hn := by
    by_cases hq : q (i, f i) = true
    · rw [if_pos hq] at *
      exact List.mem_filter.mpr ⟨h.complete i hi hn, hq⟩
    · rw [if_neg hq] at hn; exact absurd rfl hn

theorem map [Zero T] [Zero U] (h : Enumerates d l f) (ψ : Nat → T → U) (h0 : ∀ i, ψ i 0 = 0) :
    Enumerates d (l.map (fun p => (p.1, ψ p.1 p.2))) (fun i => ψ i (f i)) where
  nodup := by rw [List.map_map]; exact h.nodup
  mem p hp := by
    rw [List.mem_map] at hp
    obtain ⟨q, hq, rfl⟩ := hp
    exact ⟨(h.mem q hq).1, by rw [← (h.mem q hq).2]⟩
  complete i hi hn := by
    rw [List.mem_map]
    refine ⟨(i, f i), h.complete i hi ?_, rfl⟩
    intro hz; exact hn (by rw [hz, h0])

theorem sum [Zero T] {M : Type} [AddCommMonoid M] (h : Enumerates d l f) (F : Nat → T → M) (h0 : ∀ i, F i 0 = 0) :
    (l.map (fun p => F p.1 p.2)).sum = ∑ i ∈ range (2 ^ d), F i (f i) := by
  have e1 : l.map (fun p => F p.1 p.2) = (l.map Prod.fst).map (fun i => F i (f i)) := by
    rw [List.map_map]
    apply List.map_congr_left
    intro p hp
    simp only [Function.comp]
    rw [← (h.mem p hp).2]
  rw [e1, ← List.sum_toFinset _ h.nodup]
  apply sum_subset
  · intro i hi
    rw [List.mem_toFinset, List.mem_map] at hi
    obtain ⟨p, hp, rfl⟩ := hi
    exact mem_range.mpr (h.mem p hp).1
  · intro i hi hn
    rw [mem_range] at hi
    by_contra hc
    apply hn
    rw [List.mem_toFinset, List.mem_map]
    refine ⟨(i, f i), h.complete i hi ?_, rfl⟩
    intro hz; exact hc (by rw [hz, h0])

end Enumerates

/-! ### Denotations -/

namespace MV

section Weak

variable {A : ClAlg} {S S' : Type} {T : Type} [Zero T] [One T] [Add T] [Sub T] [Neg T] [Mul T] [DecidableEq T]
  [CoeffStorage S T] [LawfulStorage S T] [CoeffStorage S' T] [LawfulStorage S' T]

/-- The representation invariant of a multivector. -/
def Valid (a : MV A S) : Prop := LawfulStorage.Valid (S := S) (T := T) A.dim a.coeffs

/-- The coefficient function of a multivector. -/
def val (a : MV A S) (i : Nat) : T := LawfulStorage.val a.coeffs i

theorem Valid.supp {a : MV A S} (h : a.Valid) : LawfulStorage.Supp (S := S) (T := T) A.dim := LawfulStorage.valid_supp h

theorem Valid.dim_le {a : MV A S} (h : a.Valid) : A.dim ≤ 63 := LawfulStorage.supp_le h.supp

theorem Valid.get {a : MV A S} (h : a.Valid) {i : Nat} (hi : i < 2 ^ A.dim) : a.getByIdx i = .ok (a.val i) :=
  LawfulStorage.get_ok h hi

theorem Valid.set {a : MV A S} (h : a.Valid) (i : Nat) (v : T) : (a.setByIdx i v).Valid := LawfulStorage.set_valid h

theorem Valid.set_val {a : MV A S} (h : a.Valid) {i : Nat} (hi : i < 2 ^ A.dim) (v : T) (j : Nat) :
    (a.setByIdx i v).val j = if j = i then v else a.val j := LawfulStorage.set_val h hi j

theorem Valid.enum {a : MV A S} (h : a.Valid) : Enumerates A.dim a.coeffEnumerate a.val where
  nodup := LawfulStorage.enum_nodup h
  mem _ hp := LawfulStorage.enum_mem h hp
  complete _ _ hn := LawfulStorage.enum_complete h hn

theorem Valid.gradeEnum {a : MV A S} (h : a.Valid) {k : Nat} (hk : k < 2 ^ 32) :
    Enumerates A.dim (a.gradeEnumerate k) (fun i => if countOnes i = k then a.val i else 0) where
  nodup := LawfulStorage.grade_nodup k h
  mem p hp := by
    have := LawfulStorage.grade_mem h hk hp
    refine ⟨this.1, ?_⟩
    rw [if_pos this.2.1]; exact this.2.2
  complete i _ hn := by
    by_cases hc : countOnes i = k
    · rw [if_pos hc] at *; exact LawfulStorage.grade_complete h hk hn hc
    · rw [if_neg hc] at hn; exact absurd rfl hn

theorem Valid.val_oob {a : MV A S} (h : a.Valid) {i : Nat} (hi : 2 ^ A.dim ≤ i) : a.val i = 0 :=
  LawfulStorage.val_oob h hi

/-- `x` is a valid multivector with coefficient function `f`. -/
def Denotes (x : Res (MV A S)) (f : Nat → T) : Prop := ∃ u, x = .ok u ∧ u.Valid ∧ ∀ i < 2 ^ A.dim, u.val i = f i

theorem Denotes.of_valid {a : MV A S} (h : a.Valid) : Denotes (.ok a) a.val := ⟨a, rfl, h, fun _ _ => rfl⟩

theorem Denotes.congr {x : Res (MV A S)} {f g : Nat → T} (h : Denotes x f) (hfg : ∀ i < 2 ^ A.dim, f i = g i) :
    Denotes x g := by
  obtain ⟨u, hx, hv, hu⟩ := h
  exact ⟨u, hx, hv, fun i hi => by rw [hu i hi, hfg i hi]⟩

theorem Denotes.bind {x : Res (MV A S)} {f : Nat → T} {B : ClAlg} {V : Type} {W : Type} [Zero W] [Add W] [Sub W] [DecidableEq W]
    [CoeffStorage V W] [LawfulStorage V W]
    {k : MV A S → Res (MV B V)} {g : Nat → W} (h : Denotes x f)
    (hk : ∀ u : MV A S, u.Valid → (∀ i < 2 ^ A.dim, u.val i = f i) → Denotes (k u) g) : Denotes (x >>= k) g := by
  obtain ⟨u, rfl, hv, hu⟩ := h
  exact hk u hv hu

theorem Denotes.bind_res {x : Res (MV A S)} {f : Nat → T} {α : Type} {k : MV A S → Res α} {y : α} (h : Denotes x f)
    (hk : ∀ u : MV A S, u.Valid → (∀ i < 2 ^ A.dim, u.val i = f i) → k u = .ok y) : (x >>= k) = .ok y := by
  obtain ⟨u, rfl, hv, hu⟩ := h
  exact hk u hv hu

theorem Denotes.map {x : Res (MV A S)} {f : Nat → T} {B : ClAlg} {V : Type} {W : Type} [Zero W] [Add W] [Sub W] [DecidableEq W]
    [CoeffStorage V W] [LawfulStorage V W]
    {k : MV A S → MV B V} {g : Nat → W} (h : Denotes x f)
    (hk : ∀ u : MV A S, u.Valid → (∀ i < 2 ^ A.dim, u.val i = f i) → Denotes (.ok (k u)) g) :
    Denotes (do let u ← x; return k u) g := by
  obtain ⟨u, rfl, hv, hu⟩ := h
  exact hk u hv hu

theorem Denotes.unwrap {x : Res (MV A S)} {f : Nat → T} (h : Denotes x f) : Denotes (unwrap x) f := by
  obtain ⟨u, rfl, hv, hu⟩ := h
  exact ⟨u, rfl, hv, hu⟩

/-- Both computations succeed with results the library's `==` considers equal. -/
def Agree (x y : Res (MV A S)) : Prop := ∃ u v, x = .ok u ∧ y = .ok v ∧ u.Valid ∧ v.Valid ∧ u.beq v = true

@[inherit_doc] scoped infix:50 " ≈ᵣ " => Agree

theorem beq_iff {u v : MV A S} (hu : u.Valid) (hv : v.Valid) : u.beq v = true ↔ ∀ i < 2 ^ A.dim, u.val i = v.val i := by
  constructor
  · intro h i _; exact (LawfulStorage.beq_iff hu hv).mp h i
  · intro h
    apply (LawfulStorage.beq_iff hu hv).mpr
    intro i
    by_cases hi : i < 2 ^ A.dim
    · exact h i hi
    · have h1 := hu.val_oob (i := i) (by omega)
      have h2 := hv.val_oob (i := i) (by omega)
      unfold val at *
      rw [h1, h2]

theorem Agree.of_denotes {x y : Res (MV A S)} {f g : Nat → T} (hx : Denotes x f) (hy : Denotes y g)
    (h : ∀ i < 2 ^ A.dim, f i = g i) : x ≈ᵣ y := by
  obtain ⟨u, rfl, hu, hu'⟩ := hx
  obtain ⟨v, rfl, hv, hv'⟩ := hy
  refine ⟨u, v, rfl, rfl, hu, hv, (beq_iff hu hv).mpr ?_⟩
  intro i hi
  rw [hu' i hi, hv' i hi, h i hi]

/-! ### Constructors -/

theorem default_denotes (h : LawfulStorage.Supp (S := S) (T := T) A.dim) :
    Denotes (default (A := A) (S := S) (T := T)) (fun _ => 0) := by
  obtain ⟨s, h1, h2, h3⟩ := LawfulStorage.new_ok h
  refine ⟨⟨s⟩, ?_, h2, fun i _ => h3 i⟩
  unfold default
  rw [h1]; rfl

theorem fromScalar_denotes (h : LawfulStorage.Supp (S := S) (T := T) A.dim) (c : T) :
    Denotes (fromScalar (A := A) (S := S) c) (single 0 c) := by
  unfold fromScalar
  refine (default_denotes h).map ?_
  intro u hu hz
  refine ⟨_, rfl, hu.set _ _, ?_⟩
  intro i hi
  rw [hu.set_val (Nat.two_pow_pos _), hz i hi]; rfl

theorem one_denotes (h : LawfulStorage.Supp (S := S) (T := T) A.dim) :
    Denotes (one (A := A) (S := S) (T := T)) (single 0 1) := fromScalar_denotes h 1

theorem basisVec_denotes (h : LawfulStorage.Supp (S := S) (T := T) A.dim) {n : Nat} (hn : n < A.dim) :
    Denotes (basisVec (A := A) (S := S) (T := T) n) (single (2 ^ n) 1) := by
  unfold basisVec
  have hd := LawfulStorage.supp_le h
  refine (default_denotes h).map ?_
  intro u hu hz
  refine ⟨_, rfl, hu.set _ _, ?_⟩
  intro i hi
  rw [ushl_one (by omega), hu.set_val (Nat.pow_lt_pow_right (by norm_num) hn), hz i hi]; rfl

/-! ### Folds -/

/-- The coefficient at `j` after a sequence of writes. -/
def lastWrite (l : List (Nat × T)) (j : Nat) (init : T) : T := l.foldl (fun acc p => if j = p.1 then p.2 else acc) init

theorem foldl_set (l : List (Nat × T)) (hl : ∀ p ∈ l, p.1 < 2 ^ A.dim) (u : MV A S) (hu : u.Valid) :
    (l.foldl (fun (r : MV A S) p => r.setByIdx p.1 p.2) u).Valid ∧
      ∀ j, (l.foldl (fun (r : MV A S) p => r.setByIdx p.1 p.2) u).val j = lastWrite l j (u.val j) := by
  induction l generalizing u with
  | nil => exact ⟨hu, fun _ => rfl⟩
  | cons q qs ih =>
    have h := ih (fun p hp => hl p (by simp [hp])) (u.setByIdx q.1 q.2) (hu.set _ _)
    refine ⟨h.1, ?_⟩
    intro j
    simp only [List.foldl_cons, lastWrite]
    rw [h.2 j, hu.set_val (hl q (by simp))]; rfl

theorem lastWrite_not_mem {l : List (Nat × T)} {j : Nat} {init : T} (h : j ∉ l.map Prod.fst) :
    lastWrite l j init = init := by
  induction l generalizing init with
  | nil => rfl
  | cons q qs ih =>
    rw [List.map_cons, List.mem_cons, not_or] at h
    show lastWrite qs j (if j = q.1 then q.2 else init) = init
    rw [if_neg h.1, ih h.2]

theorem lastWrite_mem {l : List (Nat × T)} (hl : (l.map Prod.fst).Nodup) {p : Nat × T} (hp : p ∈ l) {init : T} :
    lastWrite l p.1 init = p.2 := by
  induction l generalizing init with
  | nil => exact absurd hp (by simp)
  | cons q qs ih =>
    rw [List.map_cons, List.nodup_cons] at hl
    show lastWrite qs p.1 (if p.1 = q.1 then q.2 else init) = p.2
    rcases List.mem_cons.mp hp with rfl | hp
    · rw [if_pos rfl, lastWrite_not_mem hl.1]
    · exact ih hl.2 hp

/-- Writing an enumeration of `f` into a zero multivector gives `f`. -/
theorem lastWrite_enum {d : Nat} {l : List (Nat × T)} {f : Nat → T} (h : Enumerates d l f) {j : Nat} (hj : j < 2 ^ d) :
    lastWrite l j 0 = f j := by
  by_cases hm : j ∈ l.map Prod.fst
  · rw [List.mem_map] at hm
    obtain ⟨p, hp, rfl⟩ := hm
    rw [lastWrite_mem h.nodup hp, (h.mem p hp).2]
  · rw [lastWrite_not_mem hm]
    by_contra hc
    exact hm (List.mem_map.mpr ⟨_, h.complete j hj (fun hz => hc hz.symm), rfl⟩)

theorem foldl_set_enum {l : List (Nat × T)} {f : Nat → T} (h : Enumerates A.dim l f) (u : MV A S) (hu : u.Valid)
    (hz : ∀ i < 2 ^ A.dim, u.val i = 0) :
    Denotes (.ok (l.foldl (fun (r : MV A S) p => r.setByIdx p.1 p.2) u)) f := by
  have hs := foldl_set l (fun p hp => (h.mem p hp).1) u hu
  refine ⟨_, rfl, hs.1, ?_⟩
  intro i hi
  rw [hs.2 i, hz i hi, lastWrite_enum h hi]

theorem foldl_set_enum' {l : List (Nat × T)} {f : Nat → T} (h : Enumerates A.dim l f) (π : Nat → Nat)
    (hπ : ∀ i < 2 ^ A.dim, π i < 2 ^ A.dim ∧ π (π i) = i) (ψ : Nat → T → T) (h0 : ∀ i, ψ i 0 = 0)
    (u : MV A S) (hu : u.Valid) (hz : ∀ i < 2 ^ A.dim, u.val i = 0) :
    Denotes (.ok (l.foldl (fun (r : MV A S) p => r.setByIdx (π p.1) (ψ p.1 p.2)) u)) (fun i => ψ (π i) (f (π i))) := by
  have e : l.foldl (fun (r : MV A S) p => r.setByIdx (π p.1) (ψ p.1 p.2)) u =
      (l.map (fun p => (π p.1, ψ p.1 p.2))).foldl (fun (r : MV A S) p => r.setByIdx p.1 p.2) u := by
    rw [List.foldl_map]
  rw [e]
  apply foldl_set_enum _ u hu hz
  refine ⟨?_, ?_, ?_⟩
  · rw [List.map_map]
    have : (Prod.fst ∘ fun p : Nat × T => (π p.1, ψ p.1 p.2)) = π ∘ Prod.fst := rfl
    rw [this, ← List.map_map]
    apply List.Nodup.map_on _ h.nodup
    intro x hx y hy hxy
    rw [List.mem_map] at hx hy
    obtain ⟨p, hp, rfl⟩ := hx
    obtain ⟨q, hq, rfl⟩ := hy
    rw [← (hπ _ (h.mem p hp).1).2, hxy, (hπ _ (h.mem q hq).1).2]
  · intro p hp
    rw [List.mem_map] at hp
    obtain ⟨q, hq, rfl⟩ := hp
    have hm := h.mem q hq
    refine ⟨(hπ _ hm.1).1, ?_⟩
    simp only
    rw [(hπ _ hm.1).2, hm.2]
  · intro i hi hn
    rw [List.mem_map]
    refine ⟨(π i, f (π i)), h.complete _ (hπ i hi).1 ?_, ?_⟩
    · intro hc; exact hn (by rw [hc, h0])
    · simp only
      rw [(hπ i hi).2]

/-- Successful monadic folds over a list. -/
theorem foldlM_set {X : Type} (l : List X) (step : MV A S → X → Res (MV A S)) (w : X → Nat × T)
    (h : ∀ (u : MV A S), ∀ x ∈ l, step u x = .ok (u.setByIdx (w x).1 (w x).2)) (u : MV A S) :
    l.foldlM step u = .ok ((l.map w).foldl (fun (r : MV A S) p => r.setByIdx p.1 p.2) u) := by
  induction l generalizing u with
  | nil => rfl
  | cons x xs ih =>
    rw [List.foldlM_cons, h u x (by simp)]
    exact ih (fun u y hy => h u y (by simp [hy])) _

/-! ### Linear operations -/

theorem add_denotes {a b : MV A S} (ha : a.Valid) (hb : b.Valid) : Denotes (a.add b) (fun i => a.val i + b.val i) := by
  obtain ⟨s, h1, h2, h3⟩ := LawfulStorage.add_ok ha hb
  refine ⟨⟨s⟩, ?_, h2, fun i _ => h3 i⟩
  unfold add
  rw [h1]; rfl

theorem sub_denotes {a b : MV A S} (ha : a.Valid) (hb : b.Valid) : Denotes (a.sub b) (fun i => a.val i - b.val i) := by
  obtain ⟨s, h1, h2, h3⟩ := LawfulStorage.sub_ok ha hb
  refine ⟨⟨s⟩, ?_, h2, fun i _ => h3 i⟩
  unfold sub
  rw [h1]; rfl

theorem fromIndexedIter_ok (h : LawfulStorage.Supp (S := S) (T := T) A.dim) (l : List (Nat × T))
    (hl : ∀ p ∈ l, p.1 < 2 ^ A.dim) :
    Denotes (fromIndexedIter (A := A) (S := S) l) (fun i => lastWrite l i 0) := by
  have hd := LawfulStorage.supp_le h
  unfold fromIndexedIter
  refine (default_denotes h).bind ?_
  intro u hu hz
  rw [foldlM_set l _ id]
  · rw [List.map_id]
    have := foldl_set l hl u hu
    refine ⟨_, rfl, this.1, ?_⟩
    intro i hi
    rw [this.2 i, hz i hi]
  · intro u x hx
    have := hl x hx
    rw [ushl_one (by omega), if_neg (by omega)]; rfl

theorem fromIndexedIter_enum (h : LawfulStorage.Supp (S := S) (T := T) A.dim) {l : List (Nat × T)} {f : Nat → T}
    (hl : Enumerates A.dim l f) : Denotes (fromIndexedIter (A := A) (S := S) l) f :=
  (fromIndexedIter_ok h l (fun p hp => (hl.mem p hp).1)).congr (fun _ hi => lastWrite_enum hl hi)

/-- Operations that write `ψ idx coeff` at the same index. -/
theorem mapFold_denotes {a : MV A S} (ha : a.Valid) (h' : LawfulStorage.Supp (S := S') (T := T) A.dim)
    (ψ : Nat → T → T) (h0 : ∀ i, ψ i 0 = 0) :
    Denotes (do
      let ret ← default (A := A) (S := S') (T := T)
      return a.coeffEnumerate.foldl (fun (ret : MV A S') p => ret.setByIdx p.1 (ψ p.1 p.2)) ret)
      (fun i => ψ i (a.val i)) := by
  refine (default_denotes h').map ?_
  intro u hu hz
  exact foldl_set_enum' ha.enum id (fun i hi => ⟨hi, rfl⟩) ψ h0 u hu hz

theorem toStorageType_denotes {a : MV A S} (ha : a.Valid) (h' : LawfulStorage.Supp (S := S') (T := T) A.dim) :
    Denotes (a.toStorageType (S' := S')) a.val := by
  unfold toStorageType
  refine (default_denotes h').map ?_
  intro u hu hz
  have e : a.coeffEnumerate.foldl (fun (ret : MV A S') p => if p.2 ≠ 0 then ret.setByIdx p.1 p.2 else ret) u =
      (a.coeffEnumerate.filter (fun p => p.2 ≠ 0)).foldl (fun (r : MV A S') p => r.setByIdx p.1 p.2) u := by
    rw [List.foldl_filter]
    simp
  rw [e]
  refine (foldl_set_enum (ha.enum.filter (fun p => decide (p.2 ≠ 0))) u hu hz).congr ?_
  intro i _
  by_cases h : a.val i = 0 <;> simp [h]

theorem gradeExtractAs_denotes {a : MV A S} (ha : a.Valid) (h' : LawfulStorage.Supp (S := S') (T := T) A.dim)
    {k : Nat} (hk : k < 2 ^ 32) :
    Denotes (a.gradeExtractAs (S' := S') k) (fun i => if countOnes i = k then a.val i else 0) := by
  unfold gradeExtractAs
  refine (default_denotes h').map ?_
  intro u hu hz
  exact foldl_set_enum (ha.gradeEnum hk) u hu hz

/-- The computation returns a multivector whose coefficients, as queried with `get_by_idx`, are `c i`. -/
def Coefs (x : Res (MV A S)) (c : Nat → T) : Prop :=
  ∃ u, x = .ok u ∧ ∀ i < 2 ^ A.dim, u.getByIdx i = .ok (c i)

theorem Coefs.unique {x : Res (MV A S)} {c c' : Nat → T} (h : Coefs x c) (h' : Coefs x c') : ∀ i < 2 ^ A.dim, c i = c' i := by
  obtain ⟨u, rfl, hu⟩ := h
  obtain ⟨u', e, hu'⟩ := h'
  injection e with e
  subst e
  intro i hi
  have := (hu i hi).symm.trans (hu' i hi)
  injection this

theorem Coefs.congr {x : Res (MV A S)} {c c' : Nat → T} (h : Coefs x c) (e : ∀ i < 2 ^ A.dim, c i = c' i) : Coefs x c' := by
  obtain ⟨u, rfl, hu⟩ := h
  exact ⟨u, rfl, fun i hi => by rw [hu i hi, e i hi]⟩

theorem Denotes.coefs {x : Res (MV A S)} {c : Nat → T} (h : Denotes x c) : Coefs x c := by
  obtain ⟨u, rfl, hu, hv⟩ := h
  exact ⟨u, rfl, fun i hi => by rw [hu.get hi, hv i hi]⟩

theorem Coefs.val {a : MV A S} (ha : a.Valid) {c : Nat → T} (h : Coefs (.ok a) c) {i : Nat} (hi : i < 2 ^ A.dim) :
    a.val i = c i := by
  obtain ⟨u, e, hu⟩ := h
  injection e with e
  subst e
  have := (ha.get hi).symm.trans (hu i hi)
  injection this

end Weak

variable {A : ClAlg} {S S' : Type} {T : Type} [Ring T] [DecidableEq T]
  [CoeffStorage S T] [LawfulStorage S T] [CoeffStorage S' T] [LawfulStorage S' T]

theorem foldlM_acc {X : Type} (l : List X) (step : MV A S → X → Res (MV A S)) (δ : X → Nat → T)
    (h : ∀ (u : MV A S), u.Valid → ∀ x ∈ l, ∃ u', step u x = .ok u' ∧ u'.Valid ∧ ∀ k < 2 ^ A.dim, u'.val k = u.val k + δ x k)
    (u : MV A S) (hu : u.Valid) :
    ∃ u', l.foldlM step u = .ok u' ∧ u'.Valid ∧ ∀ k < 2 ^ A.dim, u'.val k = u.val k + (l.map (fun x => δ x k)).sum := by
  induction l generalizing u with
  | nil => exact ⟨u, rfl, hu, by simp⟩
  | cons x xs ih =>
    obtain ⟨u1, h1, h2, h3⟩ := h u hu x (by simp)
    obtain ⟨u2, g1, g2, g3⟩ := ih (fun u hu y hy => h u hu y (by simp [hy])) u1 h2
    refine ⟨u2, ?_, g2, ?_⟩
    · rw [List.foldlM_cons, h1]; exact g1
    · intro k hk
      rw [g3 k hk, h3 k hk, List.map_cons, List.sum_cons, add_assoc]

theorem foldlM_sum {X M : Type} [AddCommMonoid M] (l : List X) (step : M → X → Res M) (δ : X → M)
    (h : ∀ (u : M), ∀ x ∈ l, step u x = .ok (u + δ x)) (u : M) :
    l.foldlM step u = .ok (u + (l.map δ).sum) := by
  induction l generalizing u with
  | nil => simp; rfl
  | cons x xs ih =>
    rw [List.foldlM_cons, h u x (by simp)]
    refine (ih (fun u y hy => h u y (by simp [hy])) _).trans ?_
    rw [List.map_cons, List.sum_cons, add_assoc]

theorem neg_denotes {a : MV A S} (ha : a.Valid) : Denotes a.neg (fun i => -a.val i) :=
  (fromIndexedIter_enum ha.supp (ha.enum.map (fun _ c => -c) (fun _ => neg_zero))).unwrap

theorem smul_denotes {a : MV A S} (ha : a.Valid) (t : T) : Denotes (a.smul t) (fun i => a.val i * t) :=
  mapFold_denotes ha ha.supp (fun _ c => c * t) (fun _ => zero_mul t)

theorem flip_denotes {a : MV A S} (ha : a.Valid) : Denotes a.flip (flp A.dim a.val) := by
  refine (mapFold_denotes ha ha.supp (fun i c => if countOnes i % 2 = 0 then c else -c) (by simp)).congr ?_
  intro i hi
  simp only [flp]
  by_cases h : par A.dim i = true
  · have := (countOnes_mod_two hi).mpr h
    rw [h, if_neg (by omega)]; simp
  · have h' : par A.dim i = false := by simpa using h
    rw [h', if_pos ((countOnes_mod_two' hi).mpr h')]; simp

theorem flipSubspace_denotes {a : MV A S} (ha : a.Valid) (mask : Nat) :
    Denotes (a.flipSubspace mask) (fun i => sg (par A.dim (i &&& mask)) • a.val i) := by
  refine (mapFold_denotes ha ha.supp (fun i c => if countOnes (i &&& mask) % 2 = 0 then c else -c) (by simp)).congr ?_
  intro i hi
  have hlt : i &&& mask < 2 ^ A.dim := lt_of_le_of_lt Nat.and_le_left hi
  by_cases h : par A.dim (i &&& mask) = true
  · have := (countOnes_mod_two hlt).mpr h
    rw [h, if_neg (by omega)]; simp
  · have h' : par A.dim (i &&& mask) = false := by simpa using h
    rw [h', if_pos ((countOnes_mod_two' hlt).mpr h')]; simp

omit [DecidableEq T] in
theorem revC_eq {n i : Nat} (hi : i < 2 ^ n) (c : T) : revC i c = rsg n i • c := by
  unfold revC
  rw [rsg_eq, countOnes_eq_cnt hi]
  split <;> simp

theorem rev_denotes {a : MV A S} (ha : a.Valid) : Denotes a.rev (fun i => rsg A.dim i • a.val i) := by
  refine (mapFold_denotes ha ha.supp (fun i c => revC i c) ?_).congr ?_
  · intro i; unfold revC; split <;> simp
  · intro i hi; exact revC_eq hi _

theorem revc_denotes {a : MV A S} (ha : a.Valid) {conj : T → T} (h0 : conj 0 = 0) :
    Denotes (a.revc conj) (fun i => rsg A.dim i • conj (a.val i)) := by
  refine ((fromIndexedIter_enum ha.supp (ha.enum.map (fun i c => revC i (conj c)) ?_)).unwrap).congr ?_
  · intro i; unfold revC; split <;> simp [h0]
  · intro i hi; exact revC_eq hi _

/-! ### Dual -/

theorem dual_index (hA : A.WF) {i : Nat} (hi : i < 2 ^ A.dim) :
    (unot i &&& (A.projMask ||| A.imagMask ||| A.realMask)) = i ^^^ (2 ^ A.dim - 1) := by
  rw [hA.fullMask', Nat.and_comm, mask_and_unot hA.dim_le hi]

theorem disjoint_compl {n i : Nat} (hi : i < 2 ^ n) : (i ^^^ (2 ^ n - 1)) &&& i = 0 := by
  apply Nat.eq_of_testBit_eq
  intro j
  rw [Nat.testBit_and, Nat.testBit_xor, Nat.testBit_two_pow_sub_one, Nat.zero_testBit]
  by_cases hj : j < n
  · simp [hj]
  · rw [testBit_eq_false_of_lt hi (by omega)]; simp

theorem xor_mask_xor_mask (n i : Nat) : i ^^^ (2 ^ n - 1) ^^^ (2 ^ n - 1) = i := by simp [Nat.xor_assoc]

theorem dualFold_denotes (hA : A.WF) {a : MV A S} (ha : a.Valid) (sgn : Nat → Nat → Res Sign) (c : Nat → ℤ)
    (hs : ∀ i < 2 ^ A.dim, ∃ s, sgn (i ^^^ (2 ^ A.dim - 1)) i = .ok s ∧ s ≠ .Null ∧ s.toInt = c i) :
    Denotes (do
      let ret ← default (A := A) (S := S) (T := T)
      a.coeffEnumerate.foldlM (fun (ret : MV A S) p => do
        let dualIdx := unot p.1 &&& (A.projMask ||| A.imagMask ||| A.realMask)
        match (← sgn dualIdx p.1) with
        | .Null => .error .panic
        | .Plus => return ret.setByIdx dualIdx p.2
        | .Minus => return ret.setByIdx dualIdx (-p.2)) ret)
      (fun i => c (i ^^^ (2 ^ A.dim - 1)) • a.val (i ^^^ (2 ^ A.dim - 1))) := by
  refine (default_denotes ha.supp).bind ?_
  intro u hu hz
  rw [foldlM_set _ _ (fun p => (p.1 ^^^ (2 ^ A.dim - 1), c p.1 • p.2))]
  · rw [List.foldl_map]
    exact foldl_set_enum' ha.enum (fun i => i ^^^ (2 ^ A.dim - 1)) (fun i hi => ⟨xor_mask_lt hi, xor_mask_xor_mask _ _⟩)
      (fun i x => c i • x) (by simp) u hu hz
  · intro u p hp
    have hlt := (ha.enum.mem p hp).1
    obtain ⟨s, h1, h2, h3⟩ := hs _ hlt
    simp only [dual_index hA hlt]
    rw [h1]
    cases s with
    | Null => exact absurd rfl h2
    | Plus => rw [← h3]; simp [Sign.toInt, Bind.bind, Except.bind]; rfl
    | Minus => rw [← h3]; simp [Sign.toInt, Bind.bind, Except.bind]; rfl

theorem wedgeSign_compl (hA : A.WF) {a b : Nat} (ha : a < 2 ^ A.dim) (hb : b < 2 ^ A.dim) (hd : a &&& b = 0) :
    ∃ s, A.bladeWedgeProductSign a b = .ok s ∧ s ≠ .Null ∧ s.toInt = bsgn (fun _ => 0) A.dim a b := by
  obtain ⟨s, h1, h2⟩ := ClAlg.bladeWedgeProductSign_eq hA.dim_le ha hb
  refine ⟨s, h1, ?_, h2⟩
  rintro rfl
  unfold ClAlg.bladeWedgeProductSign at h1
  rw [if_neg (by simp [hd]), ClAlg.acProductSign_eq hA.dim_le ha hb] at h1
  simp only [Except.ok.injEq, ClAlg.acSign] at h1
  split at h1 <;> exact absurd h1 (by decide)

theorem dual_denotes (hA : A.WF) {a : MV A S} (ha : a.Valid) : Denotes a.dual (fun i =>
    bsgn (fun _ => 0) A.dim i (i ^^^ (2 ^ A.dim - 1)) • a.val (i ^^^ (2 ^ A.dim - 1))) := by
  refine (dualFold_denotes hA ha (fun x y => A.bladeWedgeProductSign x y)
    (fun i => bsgn (fun _ => 0) A.dim (i ^^^ (2 ^ A.dim - 1)) i) ?_).congr ?_
  · intro i hi
    exact wedgeSign_compl hA (xor_mask_lt hi) hi (disjoint_compl hi)
  · intro i _; rw [xor_mask_xor_mask]

theorem undual_denotes (hA : A.WF) {a : MV A S} (ha : a.Valid) : Denotes a.undual (fun i =>
    bsgn (fun _ => 0) A.dim (i ^^^ (2 ^ A.dim - 1)) i • a.val (i ^^^ (2 ^ A.dim - 1))) := by
  refine (dualFold_denotes hA ha (fun x y => A.bladeWedgeProductSign y x)
    (fun i => bsgn (fun _ => 0) A.dim i (i ^^^ (2 ^ A.dim - 1))) ?_).congr ?_
  · intro i hi
    exact wedgeSign_compl hA hi (xor_mask_lt hi) (by rw [Nat.and_comm]; exact disjoint_compl hi)
  · intro i _; rw [xor_mask_xor_mask]

/-! ### Products -/

theorem accumulate_ok {u : MV A S} (hu : u.Valid) {idx : Nat} (hi : idx < 2 ^ A.dim) {sgn : Res Sign} {s : Sign}
    (hs : sgn = .ok s) (x y : T) :
    ∃ u', u.accumulate idx sgn x y = .ok u' ∧ u'.Valid ∧
      ∀ k < 2 ^ A.dim, u'.val k = u.val k + if k = idx then s.toInt • (x * y) else 0 := by
  subst hs
  unfold accumulate
  rw [hu.get hi]
  cases s with
  | Null =>
    refine ⟨u, rfl, hu, ?_⟩
    intro k _; simp [Sign.toInt]
  | Plus =>
    refine ⟨_, rfl, hu.set _ _, ?_⟩
    intro k _
    rw [hu.set_val hi]
    by_cases h : k = idx
    · subst h; simp [Sign.toInt]
    · simp [h]
  | Minus =>
    refine ⟨_, rfl, hu.set _ _, ?_⟩
    intro k _
    rw [hu.set_val hi]
    by_cases h : k = idx
    · subst h; simp [Sign.toInt, sub_eq_add_neg]
    · simp [h]

theorem product_denotes {a b : MV A S} (ha : a.Valid) (hb : b.Valid) (ι : Nat → Nat → Nat) (sgn : Nat → Nat → Res Sign)
    (c : Nat → Nat → ℤ)
    (h : ∀ i < 2 ^ A.dim, ∀ j < 2 ^ A.dim, ι i j < 2 ^ A.dim ∧ ∃ s, sgn i j = .ok s ∧ s.toInt = c i j) :
    Denotes (do
      let ret ← default (A := A) (S := S) (T := T)
      a.coeffEnumerate.foldlM (fun (ret : MV A S) p =>
        b.coeffEnumerate.foldlM (fun (ret : MV A S) q =>
          ret.accumulate (ι p.1 q.1) (sgn p.1 q.1) p.2 q.2) ret) ret)
      (fun k => ∑ i ∈ range (2 ^ A.dim), ∑ j ∈ range (2 ^ A.dim),
        if k = ι i j then c i j • (a.val i * b.val j) else 0) := by
  refine (default_denotes ha.supp).bind ?_
  intro u hu hz
  obtain ⟨u', h1, h2, h3⟩ := foldlM_acc (A := A) (S := S) a.coeffEnumerate
    (fun (ret : MV A S) p => b.coeffEnumerate.foldlM (fun (ret : MV A S) q =>
          ret.accumulate (ι p.1 q.1) (sgn p.1 q.1) p.2 q.2) ret)
    (fun p k => (b.coeffEnumerate.map (fun q => if k = ι p.1 q.1 then c p.1 q.1 • (p.2 * q.2) else 0)).sum)
    (by
      intro u hu p hp
      apply foldlM_acc (A := A) (S := S) b.coeffEnumerate _
        (fun q k => if k = ι p.1 q.1 then c p.1 q.1 • (p.2 * q.2) else 0) _ u hu
      intro u hu q hq
      have hi := (ha.enum.mem p hp).1
      have hj := (hb.enum.mem q hq).1
      obtain ⟨hι, s, hs1, hs2⟩ := h _ hi _ hj
      rw [← hs2]
      exact accumulate_ok hu hι hs1 _ _) u hu
  refine ⟨u', h1, h2, ?_⟩
  intro k hk
  rw [h3 k hk, hz k hk, zero_add]
  have e : ∀ p ∈ a.coeffEnumerate,
      (b.coeffEnumerate.map (fun q => if k = ι p.1 q.1 then c p.1 q.1 • (p.2 * q.2) else 0)).sum =
      ∑ j ∈ range (2 ^ A.dim), if k = ι p.1 j then c p.1 j • (p.2 * b.val j) else 0 := by
    intro p _
    exact hb.enum.sum (fun j x => if k = ι p.1 j then c p.1 j • (p.2 * x) else 0) (by simp)
  rw [List.map_congr_left e]
  exact ha.enum.sum (fun i x => ∑ j ∈ range (2 ^ A.dim), if k = ι i j then c i j • (x * b.val j) else 0) (by simp)

theorem product_xor_denotes {a b : MV A S} (ha : a.Valid) (hb : b.Valid) (sgn : Nat → Nat → Res Sign)
    (σ : Nat → ℤ) (h : ∀ i < 2 ^ A.dim, ∀ j < 2 ^ A.dim, ∃ s, sgn i j = .ok s ∧ s.toInt = bsgn σ A.dim i j) :
    Denotes (do
      let ret ← default (A := A) (S := S) (T := T)
      a.coeffEnumerate.foldlM (fun (ret : MV A S) p =>
        b.coeffEnumerate.foldlM (fun (ret : MV A S) q =>
          ret.accumulate (p.1 ^^^ q.1) (sgn p.1 q.1) p.2 q.2) ret) ret)
      (geo σ A.dim a.val b.val) := by
  refine (product_denotes ha hb (fun i j => i ^^^ j) sgn (fun i j => bsgn σ A.dim i j)
    (fun i hi j hj => ⟨Nat.xor_lt_two_pow hi hj, h i hi j hj⟩)).congr ?_
  intro k hk
  unfold geo
  apply sum_congr rfl
  intro i hi
  rw [mem_range] at hi
  rw [sum_eq_single (i ^^^ k)]
  · rw [xor_xor_cancel, if_pos rfl]
  · intro j _ hj
    rw [if_neg]
    rintro rfl
    exact hj (xor_xor_cancel _ _).symm
  · intro hc
    exact absurd (mem_range.mpr (Nat.xor_lt_two_pow hi hk)) hc

theorem mul_denotes (hA : A.WF) {a b : MV A S} (ha : a.Valid) (hb : b.Valid) :
    Denotes (a.naiveMulImpl b) (geo A.sigma A.dim a.val b.val) :=
  product_xor_denotes ha hb _ _ (fun _ hi _ hj => ClAlg.bladeGeoProductSign_eq hA hi hj)

theorem naiveWedge_denotes {a b : MV A S} (ha : a.Valid) (hb : b.Valid) :
    Denotes (a.naiveWedgeImpl b) (geo (fun _ => 0) A.dim a.val b.val) :=
  product_xor_denotes ha hb _ _ (fun _ hi _ hj => ClAlg.bladeWedgeProductSign_eq (by have := ha.dim_le; omega) hi hj)

/-! ### Scalars -/

theorem scalarPart_ok {a : MV A S} (ha : a.Valid) : a.scalarPart = .ok (a.val 0) := ha.get (Nat.two_pow_pos _)

theorem vsdot_ok {a b : MV A S} (ha : a.Valid) (hb : b.Valid) :
    a.vsdot b = .ok (∑ i ∈ range (2 ^ A.dim), a.val i * b.val i) := by
  unfold vsdot
  rw [foldlM_sum _ _ (fun p => p.2 * b.val p.1), zero_add]
  · rw [ha.enum.sum (fun i x => x * b.val i) (by simp)]
  · intro u p hp
    rw [hb.get (ha.enum.mem p hp).1]; rfl

theorem signSum_ok (hA : A.WF) {a b : MV A S} (ha : a.Valid) (hb : b.Valid) (ψ : Nat → T → T) (h0 : ∀ i, ψ i 0 = 0) :
    a.coeffEnumerate.foldlM (fun ret p => do
      match (← A.bladeGeoProductSign p.1 p.1) with
      | .Null => return ret
      | .Plus => return ret + ψ p.1 p.2 * (← b.getByIdx p.1)
      | .Minus => return ret - ψ p.1 p.2 * (← b.getByIdx p.1)) 0 =
      (.ok (∑ i ∈ range (2 ^ A.dim), bsgn A.sigma A.dim i i • (ψ i (a.val i) * b.val i)) : Res T) := by
  rw [foldlM_sum _ _ (fun p => bsgn A.sigma A.dim p.1 p.1 • (ψ p.1 p.2 * b.val p.1)), zero_add]
  · rw [ha.enum.sum (fun i x => bsgn A.sigma A.dim i i • (ψ i x * b.val i)) (by simp [h0])]
  · intro u p hp
    have hlt := (ha.enum.mem p hp).1
    obtain ⟨s, h1, h2⟩ := ClAlg.bladeGeoProductSign_eq hA hlt hlt
    rw [h1, hb.get hlt, ← h2]
    cases s with
    | Null => simp [Sign.toInt, Bind.bind, Except.bind]; rfl
    | Plus => simp [Sign.toInt, Bind.bind, Except.bind]; rfl
    | Minus => simp [Sign.toInt, Bind.bind, Except.bind, sub_eq_add_neg]; rfl

theorem vdot_ok (hA : A.WF) {a b : MV A S} (ha : a.Valid) (hb : b.Valid) :
    a.vdot b = .ok (geo A.sigma A.dim a.val b.val 0) := by
  refine (signSum_ok hA ha hb (fun _ x => x) (fun _ => rfl)).trans ?_
  unfold geo
  simp only [Nat.xor_zero]

theorem mag2_ok (hA : A.WF) {a : MV A S} (ha : a.Valid) :
    a.mag2 = .ok (geo A.sigma A.dim (fun i => rsg A.dim i • a.val i) a.val 0) := by
  refine (signSum_ok hA ha ha (fun i x => revC i x) ?_).trans ?_
  · intro i; unfold revC; split <;> simp
  · unfold geo
    simp only [Nat.xor_zero]
    congr 1
    apply sum_congr rfl
    intro i hi
    rw [revC_eq (mem_range.mp hi)]

theorem isZero_iff {a : MV A S} (ha : a.Valid) : a.isZero = true ↔ ∀ i < 2 ^ A.dim, a.val i = 0 := by
  unfold isZero
  rw [List.all_eq_true]
  constructor
  · intro h i hi
    by_contra hc
    have := h _ (ha.enum.complete i hi hc)
    simp at this; exact hc this
  · intro h p hp
    have := ha.enum.mem p hp
    rw [decide_eq_true_eq, this.2, h _ this.1]

/-! ### Powers -/

/-- `n`-fold product of coefficient functions (`f * ... * f`, left associated). -/
def npow (σ : Nat → ℤ) (n : Nat) (f : Nat → T) : Nat → Nat → T
  | 0 => single 0 1
  | k + 1 => geo σ n (npow σ n f k) f

theorem npow_add (σ : Nat → ℤ) (n : Nat) (f : Nat → T) (j k : Nat) {i : Nat} (hi : i < 2 ^ n) :
    npow σ n f (j + k) i = geo σ n (npow σ n f j) (npow σ n f k) i := by
  induction k generalizing i with
  | zero => exact (geo_one_right σ n _ hi).symm
  | succ k ih =>
    show geo σ n (npow σ n f (j + k)) f i = geo σ n (npow σ n f j) (geo σ n (npow σ n f k) f) i
    rw [← geo_assoc]
    exact geo_congr (fun _ _ => rfl) (fun i hi => ih hi) (fun _ _ => rfl) hi

theorem pow_denotes (hA : A.WF) {a : MV A S} (ha : a.Valid) (n : Nat) :
    Denotes (a.pow n) (npow A.sigma A.dim a.val n) := by
  induction n using Nat.strong_induction_on with
  | _ n ih =>
    rw [pow]
    split
    · rename_i h; subst h; exact one_denotes ha.supp
    · split
      · rename_i h; subst h
        exact (Denotes.of_valid ha).congr (fun i _ => (geo_one_left _ _ _ _).symm)
      · rename_i h0 h1
        have hlt : n >>> 1 < n := by rw [Nat.shiftRight_one]; omega
        refine (ih _ hlt).bind ?_
        intro x hx hxv
        have hxx : Denotes (x.naiveMulImpl x) (npow A.sigma A.dim a.val (n >>> 1 + n >>> 1)) := by
          refine (mul_denotes hA hx hx).congr ?_
          intro i hi
          rw [npow_add _ _ _ _ _ hi]
          exact geo_congr (fun _ _ => rfl) hxv hxv hi
        split
        · rename_i h2
          rw [Nat.and_one_is_mod] at h2
          have : n >>> 1 + n >>> 1 = n := by rw [Nat.shiftRight_one]; omega
          rw [this] at hxx; exact hxx
        · rename_i h2
          rw [Nat.and_one_is_mod] at h2
          refine hxx.bind ?_
          intro y hy hyv
          refine (mul_denotes hA hy ha).congr ?_
          intro i hi
          have : n = (n >>> 1 + n >>> 1) + 1 := by rw [Nat.shiftRight_one]; omega
          conv_rhs => rw [this]
          exact geo_congr (fun _ _ => rfl) hyv (fun _ _ => rfl) hi

/-! ### Meet -/

theorem meetIndex (hA : A.WF) {x : Nat} (hx : x < 2 ^ A.dim) :
    (A.realMask ||| A.imagMask ||| A.projMask) &&& unot x = x ^^^ (2 ^ A.dim - 1) := by
  rw [hA.fullMask, mask_and_unot hA.dim_le hx]

/-- The sign used by the direct meet formula. -/
def meetC (n i j : Nat) : ℤ :=
  bsgn (fun _ => 0) n (i ^^^ (2 ^ n - 1)) (j ^^^ (2 ^ n - 1)) * bsgn (fun _ => 0) n (i ^^^ (2 ^ n - 1)) i *
    bsgn (fun _ => 0) n (j ^^^ (2 ^ n - 1)) j * bsgn (fun _ => 0) n (i ^^^ j) (i ^^^ j ^^^ (2 ^ n - 1))

theorem meetSign_eq (hA : A.WF) {i j : Nat} (hi : i < 2 ^ A.dim) (hj : j < 2 ^ A.dim) :
    ∃ s, meetSign A (A.realMask ||| A.imagMask ||| A.projMask) i j = .ok s ∧ s.toInt = meetC A.dim i j := by
  unfold meetSign
  have hx := Nat.xor_lt_two_pow hi hj
  rw [meetIndex hA hi, meetIndex hA hj, meetIndex hA hx]
  obtain ⟨s1, h1, g1⟩ := ClAlg.bladeWedgeProductSign_eq hA.dim_le (xor_mask_lt hi) (xor_mask_lt hj)
  obtain ⟨s2, h2, g2⟩ := ClAlg.bladeWedgeProductSign_eq hA.dim_le (xor_mask_lt hi) hi
  obtain ⟨s3, h3, g3⟩ := ClAlg.bladeWedgeProductSign_eq hA.dim_le (xor_mask_lt hj) hj
  obtain ⟨s4, h4, g4⟩ := ClAlg.bladeWedgeProductSign_eq hA.dim_le hx (xor_mask_lt hx)
  simp only [h1, h2, h3, h4]
  refine ⟨_, rfl, ?_⟩
  simp only [Sign.toInt_mul, g1, g2, g3, g4, meetC]

/-- The meet, as the wedge of the duals brought back by `undual`. -/
def meetF (n : Nat) (f g : Nat → T) : Nat → T := fun k =>
  bsgn (fun _ => 0) n (k ^^^ (2 ^ n - 1)) k •
    geo (fun _ => 0) n (fun i => bsgn (fun _ => 0) n i (i ^^^ (2 ^ n - 1)) • f (i ^^^ (2 ^ n - 1)))
      (fun i => bsgn (fun _ => 0) n i (i ^^^ (2 ^ n - 1)) • g (i ^^^ (2 ^ n - 1))) (k ^^^ (2 ^ n - 1))

theorem naiveMeet_denotes (hA : A.WF) {a b : MV A S} (ha : a.Valid) (hb : b.Valid) :
    Denotes (a.naiveMeetImpl b) (meetF A.dim a.val b.val) := by
  have hm : (2 ^ A.dim - 1 : Nat) < 2 ^ A.dim := by have := Nat.two_pow_pos A.dim; omega
  refine (product_denotes ha hb (fun i j => (A.realMask ||| A.imagMask ||| A.projMask) &&& unot (i ^^^ j))
    (fun i j => meetSign A (A.realMask ||| A.imagMask ||| A.projMask) i j) (fun i j => meetC A.dim i j) ?_).congr ?_
  · intro i hi j hj
    refine ⟨?_, meetSign_eq hA hi hj⟩
    rw [meetIndex hA (Nat.xor_lt_two_pow hi hj)]
    exact xor_mask_lt (Nat.xor_lt_two_pow hi hj)
  · intro k hk
    unfold meetF geo
    rw [smul_sum, ← sum_xor hm]
    apply sum_congr rfl
    intro i hi
    rw [mem_range] at hi
    have hi' := xor_mask_lt hi
    -- the single j that contributes
    have e0 : ∀ j m : Nat, i ^^^ m ^^^ j ^^^ m = i ^^^ j := by
      intro j m
      rw [Nat.xor_assoc, Nat.xor_assoc, Nat.xor_comm j, xor_xor_cancel]
    rw [sum_eq_single (i ^^^ k)]
    · have e1 : i ^^^ (2 ^ A.dim - 1) ^^^ (i ^^^ k) = k ^^^ (2 ^ A.dim - 1) := by
        rw [Nat.xor_comm i, Nat.xor_assoc, xor_xor_cancel, Nat.xor_comm]
      have e2 : i ^^^ (k ^^^ (2 ^ A.dim - 1)) = i ^^^ k ^^^ (2 ^ A.dim - 1) := by rw [Nat.xor_assoc]
      rw [meetIndex hA (Nat.xor_lt_two_pow hi' (Nat.xor_lt_two_pow hi hk)), e0, xor_xor_cancel, if_pos rfl, e2]
      beta_reduce
      rw [xor_mask_xor_mask, smul_mul_smul_comm, smul_smul, smul_smul]
      congr 1
      unfold meetC
      rw [xor_mask_xor_mask, e1, xor_mask_xor_mask]
      ring
    · intro j hj hne
      rw [mem_range] at hj
      rw [if_neg]
      rw [meetIndex hA (Nat.xor_lt_two_pow hi' hj), e0]
      rintro rfl
      exact hne (xor_xor_cancel _ _).symm
    · intro hc
      exact absurd (mem_range.mpr (Nat.xor_lt_two_pow hi hk)) hc

/-! ### Conjugation and division by a scalar -/

theorem cmag2_ok (hA : A.WF) {a : MV A S} (ha : a.Valid) {conj : T → T} (h0 : conj 0 = 0) :
    a.cmag2 conj = .ok (geo A.sigma A.dim (fun i => rsg A.dim i • conj (a.val i)) a.val 0) := by
  refine (revc_denotes ha h0).bind_res ?_
  intro u hu huv
  rw [vdot_ok hA hu ha]
  congr 1
  exact geo_congr (fun _ _ => rfl) huv (fun _ _ => rfl) (Nat.two_pow_pos _)

end MV

namespace MV
variable {A : ClAlg} {S : Type} {T : Type} [DivisionRing T] [DecidableEq T] [CoeffStorage S T] [LawfulStorage S T]

theorem sdiv_denotes {a : MV A S} (ha : a.Valid) {t : T} (ht : t ≠ 0) : Denotes (a.sdiv t) (fun i => a.val i / t) := by
  unfold sdiv
  refine (default_denotes ha.supp).bind ?_
  intro u hu hz
  rw [foldlM_set _ _ (fun p => (p.1, p.2 / t))]
  · rw [List.foldl_map]
    exact foldl_set_enum' ha.enum id (fun i hi => ⟨hi, rfl⟩) (fun _ x => x / t) (by simp) u hu hz
  · intro u p _
    simp only [fdiv, if_neg ht]
    rfl

theorem revm_denotes {a : MV A S} (ha : a.Valid) {m : T} (hm : a.mag2 = .ok m) (h0 : m ≠ 0) :
    Denotes a.revm (fun i => rsg A.dim i • a.val i / m) := by
  unfold revm
  refine (rev_denotes ha).bind ?_
  intro u hu huv
  rw [hm]
  refine (sdiv_denotes hu h0).congr ?_
  intro i hi
  rw [huv i hi]

theorem revcm_denotes {a : MV A S} (ha : a.Valid) {conj : T → T} (hc : conj 0 = 0) {m : T}
    (hm : a.cmag2 conj = .ok m) (h0 : m ≠ 0) :
    Denotes (a.revcm conj) (fun i => rsg A.dim i • conj (a.val i) / m) := by
  unfold revcm
  refine (revc_denotes ha hc).bind ?_
  intro u hu huv
  rw [hm]
  refine (sdiv_denotes hu h0).congr ?_
  intro i hi
  rw [huv i hi]

end MV

end TClifford
