import Verif.Model.Dense
import Verif.Math.Bits
import Mathlib.Data.List.Forall2
/-
Dense multivectors over two coefficient types: if the operations of the coefficients respect a relation, so do the operations of
the multivectors.  No laws of the coefficients are used, so this applies to rounded arithmetic.
-/

set_option linter.unusedSectionVars false

namespace TClifford

/-- Both computations succeed with related results, or fail in the same way. -/
def ResRel {α β : Type} (P : α → β → Prop) : Res α → Res β → Prop
  | .ok x, .ok y => P x y
  | .error e, .error e' => e = e'
  | _, _ => False

namespace ResRel
variable {α β α' β' : Type} {P : α → β → Prop} {Q : α' → β' → Prop}

theorem bind {x : Res α} {y : Res β} (h : ResRel P x y) {f : α → Res α'} {g : β → Res β'} (hf : ∀ u v, P u v → ResRel Q (f u) (g v)) :
    ResRel Q (x >>= f) (y >>= g) := by
  cases x <;> cases y
  · exact h
  · exact h.elim
  · exact h.elim
  · exact hf _ _ h

theorem refl {α : Type} (x : Res α) : ResRel Eq x x := by cases x <;> rfl

theorem unwrap {x : Res α} {y : Res β} (h : ResRel P x y) : ResRel P (unwrap x) (unwrap y) := by
  cases x with
  | ok x => cases y with
    | ok y => exact h
    | error e => exact h.elim
  | error e => cases y with
    | ok y => exact h.elim
    | error e' =>
      cases (show e = e' from h)
      cases e <;> exact rfl

theorem foldlM {γ δ : Type} {L : γ → δ → Prop} {f : α → γ → Res α} {g : β → δ → Res β}
    (hf : ∀ s s' p p', P s s' → L p p' → ResRel P (f s p) (g s' p')) :
    ∀ {l : List γ} {l' : List δ}, List.Forall₂ L l l' → ∀ {s s'}, P s s' → ResRel P (l.foldlM f s) (l'.foldlM g s') := by
  intro l l' h
  induction h with
  | nil => intro s s' hs; exact hs
  | cons hp _ ih =>
    intro s s' hs
    rw [List.foldlM_cons, List.foldlM_cons]
    exact (hf _ _ _ _ hs hp).bind fun u v huv => ih huv

end ResRel

theorem foldl_rel {α β γ δ : Type} {P : α → β → Prop} {L : γ → δ → Prop} {f : α → γ → α} {g : β → δ → β}
    (hf : ∀ s s' p p', P s s' → L p p' → P (f s p) (g s' p')) :
    ∀ {l : List γ} {l' : List δ}, List.Forall₂ L l l' → ∀ {s s'}, P s s' → P (l.foldl f s) (l'.foldl g s') := by
  intro l l' h
  induction h with
  | nil => intro s s' hs; exact hs
  | cons hp _ ih => intro s s' hs; exact ih (hf _ _ _ _ hs hp)

section
variable {T : Type} [Zero T] [One T] [Add T] [Sub T] [Neg T] [Mul T] [DecidableEq T]
variable {T' : Type} [Zero T'] [One T'] [Add T'] [Sub T'] [Neg T'] [Mul T'] [DecidableEq T']

/-- A relation that respects zero and signs. -/
structure SignRel (R : T → T' → Prop) : Prop where
  zero : R 0 0
  nz : ∀ {x x'}, R x x' → (x = 0 ↔ x' = 0)
  neg : ∀ {x x'}, R x x' → R (-x) (-x')

/-- A relation that respects sums, too. -/
structure SumRel (R : T → T' → Prop) : Prop extends SignRel R where
  add : ∀ {x x' y y'}, R x x' → R y y' → R (x + y) (x' + y')
  sub : ∀ {x x' y y'}, R x x' → R y y' → R (x - y) (x' - y')

/-- Products of numbers related by `R₁` and `R₂` are related by `R₃`. -/
def MulRel (R₁ R₂ R₃ : T → T' → Prop) : Prop := ∀ {x x' y y'}, R₁ x x' → R₂ y y' → R₃ (x * y) (x' * y')

/-- Arrays with related entries. -/
def ArrRel (R : T → T' → Prop) (a : Arr1 T) (b : Arr1 T') : Prop := a.len = b.len ∧ ∀ i < a.len, R (a.get i) (b.get i)

namespace MV
variable {A : ClAlg}

/-- Dense multivectors of the right size with related coefficients. -/
structure Rel (R : T → T' → Prop) (a : MV A (ArrayStorage T)) (b : MV A (ArrayStorage T')) : Prop where
  dim : a.coeffs.dim = b.coeffs.dim
  size : a.coeffs.array.len = ushl 1 A.dim
  len : a.coeffs.array.len = b.coeffs.array.len
  val : ∀ i < a.coeffs.array.len, R (a.coeffs.array.get i) (b.coeffs.array.get i)

/-- Enumerated coefficients -/
def PairRel (R : T → T' → Prop) (p : Nat × T) (q : Nat × T') : Prop := p.1 = q.1 ∧ R p.2 q.2

variable {R R₁ R₂ R₃ : T → T' → Prop}

theorem Rel.get (h0 : R 0 0) {a : MV A (ArrayStorage T)} {b : MV A (ArrayStorage T')} (h : Rel R a b) (i : Nat) :
    ResRel R (a.getByIdx i) (b.getByIdx i) := by
  show ResRel R (ArrayStorage.getByIdx _ _) (ArrayStorage.getByIdx _ _)
  unfold ArrayStorage.getByIdx Arr1.index
  rw [← h.len]
  split
  · exact h0
  · split
    · exact h.val i ‹_›
    · exact rfl

theorem Rel.set {a : MV A (ArrayStorage T)} {b : MV A (ArrayStorage T')} (h : Rel R a b) (i : Nat) {v : T} {v' : T'} (hv : R v v') :
    Rel R (a.setByIdx i v) (b.setByIdx i v') := by
  show Rel R ⟨ArrayStorage.setByIdx _ _ _⟩ ⟨ArrayStorage.setByIdx _ _ _⟩
  unfold ArrayStorage.setByIdx
  rw [← h.len]
  split
  · refine ⟨h.dim, h.size, h.len, fun j hj => ?_⟩
    show R (if j = i then v else a.coeffs.array.get j) (if j = i then v' else b.coeffs.array.get j)
    split
    · exact hv
    · exact h.val j hj
  · exact h

theorem forall₂_filter {R : T → T' → Prop} (nz : ∀ {x x'}, R x x' → (x = 0 ↔ x' = 0)) :
    ∀ {l : List (Nat × T)} {l' : List (Nat × T')}, List.Forall₂ (PairRel R) l l' →
      List.Forall₂ (PairRel R) (l.filter fun p => p.2 ≠ 0) (l'.filter fun p => p.2 ≠ 0) := by
  intro l l' h
  induction h with
  | nil => exact .nil
  | @cons p q l l' hp _ ih =>
    by_cases h0 : p.2 = 0
    · have h1 : q.2 = 0 := (nz hp.2).mp h0
      rw [List.filter_cons_of_neg (by simpa using h0), List.filter_cons_of_neg (by simpa using h1)]
      exact ih
    · have h1 : q.2 ≠ 0 := fun h => h0 ((nz hp.2).mpr h)
      rw [List.filter_cons_of_pos (by simpa using h0), List.filter_cons_of_pos (by simpa using h1)]
      exact .cons hp ih

theorem Rel.enum (nz : ∀ {x x'}, R x x' → (x = 0 ↔ x' = 0)) {a : MV A (ArrayStorage T)} {b : MV A (ArrayStorage T')} (h : Rel R a b) :
    List.Forall₂ (PairRel R) a.coeffEnumerate b.coeffEnumerate := by
  show List.Forall₂ (PairRel R) (ArrayStorage.coeffEnumerate _) (ArrayStorage.coeffEnumerate _)
  unfold ArrayStorage.coeffEnumerate
  refine forall₂_filter nz ?_
  rw [← h.len]
  have : ∀ l : List Nat, (∀ i ∈ l, i < a.coeffs.array.len) → List.Forall₂ (PairRel R) (l.map fun i => (i, a.coeffs.array.get i))
      (l.map fun i => (i, b.coeffs.array.get i)) := by
    intro l hl
    induction l with
    | nil => exact .nil
    | cons i l ih => exact .cons ⟨rfl, h.val i (hl i (by simp))⟩ (ih fun j hj => hl j (by simp [hj]))
  exact this _ fun i hi => List.mem_range.mp hi

theorem Rel.default (h0 : R 0 0) : ResRel (Rel R) (MV.default : Res (MV A (ArrayStorage T))) (MV.default : Res (MV A (ArrayStorage T'))) :=
  show Rel R _ _ from ⟨rfl, rfl, rfl, fun _ _ => h0⟩

theorem Rel.accumulate (h3 : SumRel R₃) (hm : MulRel R₁ R₂ R₃) {a : MV A (ArrayStorage T)} {b : MV A (ArrayStorage T')}
    (h : Rel R₃ a b) (i : Nat) (s : Res Sign) {x y : T} {x' y' : T'} (hx : R₁ x x') (hy : R₂ y y') :
    ResRel (Rel R₃) (a.accumulate i s x y) (b.accumulate i s x' y') := by
  unfold MV.accumulate
  refine (h.get h3.zero i).bind fun c c' hc => (ResRel.refl s).bind ?_
  rintro s _ rfl
  cases s
  · exact h
  · exact h.set i (h3.add hc (hm hx hy))
  · exact h.set i (h3.sub hc (hm hx hy))

variable {a b : MV A (ArrayStorage T)} {a' b' : MV A (ArrayStorage T')}

/-- The loops of the products. -/
theorem Rel.loop (h1 : SignRel R₁) (h2 : SignRel R₂) (h3 : SumRel R₃) (hm : MulRel R₁ R₂ R₃) (ha : Rel R₁ a a') (hb : Rel R₂ b b')
    (idx : Nat → Nat → Nat) (sign : Nat → Nat → Res Sign) :
    ResRel (Rel R₃)
      (do
        let ret ← MV.default (A := A) (S := ArrayStorage T)
        a.coeffEnumerate.foldlM (fun (ret : MV A (ArrayStorage T)) p =>
          b.coeffEnumerate.foldlM (fun (ret : MV A (ArrayStorage T)) q => ret.accumulate (idx p.1 q.1) (sign p.1 q.1) p.2 q.2) ret) ret)
      (do
        let ret ← MV.default (A := A) (S := ArrayStorage T')
        a'.coeffEnumerate.foldlM (fun (ret : MV A (ArrayStorage T')) p =>
          b'.coeffEnumerate.foldlM (fun (ret : MV A (ArrayStorage T')) q => ret.accumulate (idx p.1 q.1) (sign p.1 q.1) p.2 q.2) ret) ret) := by
  refine (Rel.default h3.zero).bind fun r r' hr => ResRel.foldlM ?_ (ha.enum h1.nz) hr
  intro s s' p p' hs hp
  refine ResRel.foldlM ?_ (hb.enum h2.nz) hs
  intro s s' q q' hs hq
  rw [hp.1, hq.1]
  exact hs.accumulate h3 hm _ _ hp.2 hq.2

theorem Rel.mul (h1 : SignRel R₁) (h2 : SignRel R₂) (h3 : SumRel R₃) (hm : MulRel R₁ R₂ R₃) (ha : Rel R₁ a a') (hb : Rel R₂ b b') :
    ResRel (Rel R₃) (a.naiveMulImpl b) (a'.naiveMulImpl b') := Rel.loop h1 h2 h3 hm ha hb _ _

theorem Rel.naiveWedge (h1 : SignRel R₁) (h2 : SignRel R₂) (h3 : SumRel R₃) (hm : MulRel R₁ R₂ R₃) (ha : Rel R₁ a a') (hb : Rel R₂ b b') :
    ResRel (Rel R₃) (a.naiveWedgeImpl b) (a'.naiveWedgeImpl b') := Rel.loop h1 h2 h3 hm ha hb _ _

theorem Rel.naiveMeet (h1 : SignRel R₁) (h2 : SignRel R₂) (h3 : SumRel R₃) (hm : MulRel R₁ R₂ R₃) (ha : Rel R₁ a a') (hb : Rel R₂ b b') :
    ResRel (Rel R₃) (a.naiveMeetImpl b) (a'.naiveMeetImpl b') :=
  Rel.loop h1 h2 h3 hm ha hb (fun i j => (A.realMask ||| A.imagMask ||| A.projMask) &&& unot (i ^^^ j))
    (meetSign A (A.realMask ||| A.imagMask ||| A.projMask))

theorem Rel.add (h : SumRel R) (ha : Rel R a a') (hb : Rel R b b') : ResRel (Rel R) (a.add b) (a'.add b') := by
  show ResRel (Rel R) (ArrayStorage.add _ _ >>= _) (ArrayStorage.add _ _ >>= _)
  unfold ArrayStorage.add
  rw [← ha.len, ← hb.len]
  split
  · exact ⟨ha.dim, ha.size, rfl, fun i hi => h.add (ha.val i hi) (hb.val i (by rw [← ‹a.coeffs.array.len = b.coeffs.array.len›]; exact hi))⟩
  · exact rfl

theorem Rel.sub (h : SumRel R) (ha : Rel R a a') (hb : Rel R b b') : ResRel (Rel R) (a.sub b) (a'.sub b') := by
  show ResRel (Rel R) (ArrayStorage.sub _ _ >>= _) (ArrayStorage.sub _ _ >>= _)
  unfold ArrayStorage.sub
  rw [← ha.len, ← hb.len]
  split
  · exact ⟨ha.dim, ha.size, rfl, fun i hi => h.sub (ha.val i hi) (hb.val i (by rw [← ‹a.coeffs.array.len = b.coeffs.array.len›]; exact hi))⟩
  · exact rfl

theorem Rel.fromIndexed (h0 : R 0 0) {l : List (Nat × T)} {l' : List (Nat × T')} (hl : List.Forall₂ (PairRel R) l l') :
    ResRel (Rel R) (fromIndexedIter (A := A) (S := ArrayStorage T) l) (fromIndexedIter (A := A) (S := ArrayStorage T') l') := by
  unfold fromIndexedIter
  refine (Rel.default h0).bind fun r r' hr => ResRel.foldlM ?_ hl hr
  intro s s' p p' hs hp
  rw [hp.1]
  split
  · exact rfl
  · exact hs.set _ hp.2

theorem forall₂_map {f : Nat → T → T} {g : Nat → T' → T'} (hf : ∀ i x x', R x x' → R₁ (f i x) (g i x')) {l : List (Nat × T)}
    {l' : List (Nat × T')} (h : List.Forall₂ (PairRel R) l l') :
    List.Forall₂ (PairRel R₁) (l.map fun p => (p.1, f p.1 p.2)) (l'.map fun p => (p.1, g p.1 p.2)) := by
  induction h with
  | nil => exact .nil
  | cons hp _ ih => exact .cons ⟨hp.1, by dsimp only; rw [hp.1]; exact hf _ _ _ hp.2⟩ ih

theorem Rel.neg (h : SignRel R) (ha : Rel R a a') : ResRel (Rel R) a.neg a'.neg :=
  (Rel.fromIndexed h.zero (forall₂_map (f := fun _ x => -x) (g := fun _ x => -x) (fun _ _ _ => h.neg) (ha.enum h.nz))).unwrap

theorem Rel.setLoop (h : SignRel R) (h0 : R₁ 0 0) (ha : Rel R a a') {f : Nat → T → T} {g : Nat → T' → T'}
    (hf : ∀ i x x', R x x' → R₁ (f i x) (g i x')) (ι : Nat → Nat) :
    ResRel (Rel R₁)
      (do
        let ret ← MV.default (A := A) (S := ArrayStorage T)
        return a.coeffEnumerate.foldl (fun (ret : MV A (ArrayStorage T)) p => ret.setByIdx (ι p.1) (f p.1 p.2)) ret)
      (do
        let ret ← MV.default (A := A) (S := ArrayStorage T')
        return a'.coeffEnumerate.foldl (fun (ret : MV A (ArrayStorage T')) p => ret.setByIdx (ι p.1) (g p.1 p.2)) ret) := by
  refine (Rel.default h0).bind fun r r' hr => ?_
  refine foldl_rel (P := Rel R₁) ?_ (ha.enum h.nz) hr
  intro s s' p p' hs hp
  rw [hp.1]
  exact hs.set _ (hf _ _ _ hp.2)

theorem Rel.rev (h : SignRel R) (ha : Rel R a a') : ResRel (Rel R) a.rev a'.rev :=
  Rel.setLoop h h.zero ha (f := revC) (g := revC) (fun i x x' hx => by unfold revC; split; exacts [hx, h.neg hx]) id

theorem Rel.flip (h : SignRel R) (ha : Rel R a a') : ResRel (Rel R) a.flip a'.flip :=
  Rel.setLoop h h.zero ha (f := fun i x => if countOnes i % 2 = 0 then x else -x) (g := fun i x => if countOnes i % 2 = 0 then x else -x)
    (fun i x x' hx => by split; exacts [hx, h.neg hx]) id

theorem Rel.flipSubspace (h : SignRel R) (mask : Nat) (ha : Rel R a a') : ResRel (Rel R) (a.flipSubspace mask) (a'.flipSubspace mask) :=
  Rel.setLoop h h.zero ha (f := fun i x => if countOnes (i &&& mask) % 2 = 0 then x else -x)
    (g := fun i x => if countOnes (i &&& mask) % 2 = 0 then x else -x) (fun i x x' hx => by split; exacts [hx, h.neg hx]) id

theorem Rel.smul (h : SignRel R₁) (h0 : R₃ 0 0) (hm : MulRel R₁ R₂ R₃) (ha : Rel R₁ a a') {t : T} {t' : T'} (ht : R₂ t t') :
    ResRel (Rel R₃) (a.smul t) (a'.smul t') :=
  Rel.setLoop h h0 ha (f := fun _ x => x * t) (g := fun _ x => x * t') (fun _ _ _ hx => hm hx ht) id

theorem Rel.dualLoop (h : SignRel R) (ha : Rel R a a') (ι : Nat → Nat) (sign : Nat → Res Sign) :
    ResRel (Rel R)
      (do
        let ret ← MV.default (A := A) (S := ArrayStorage T)
        a.coeffEnumerate.foldlM (fun (ret : MV A (ArrayStorage T)) p => do
          match (← sign p.1) with
          | .Null => .error .panic
          | .Plus => return ret.setByIdx (ι p.1) p.2
          | .Minus => return ret.setByIdx (ι p.1) (-p.2)) ret)
      (do
        let ret ← MV.default (A := A) (S := ArrayStorage T')
        a'.coeffEnumerate.foldlM (fun (ret : MV A (ArrayStorage T')) p => do
          match (← sign p.1) with
          | .Null => .error .panic
          | .Plus => return ret.setByIdx (ι p.1) p.2
          | .Minus => return ret.setByIdx (ι p.1) (-p.2)) ret) := by
  refine (Rel.default h.zero).bind fun r r' hr => ResRel.foldlM ?_ (ha.enum h.nz) hr
  intro s s' p p' hs hp
  rw [hp.1]
  refine (ResRel.refl _).bind ?_
  rintro t _ rfl
  cases t
  · exact rfl
  · exact hs.set _ hp.2
  · exact hs.set _ (h.neg hp.2)

theorem Rel.dual (h : SignRel R) (ha : Rel R a a') : ResRel (Rel R) a.dual a'.dual :=
  Rel.dualLoop h ha (fun i => unot i &&& (A.projMask ||| A.imagMask ||| A.realMask))
    (fun i => A.bladeWedgeProductSign (unot i &&& (A.projMask ||| A.imagMask ||| A.realMask)) i)

theorem Rel.undual (h : SignRel R) (ha : Rel R a a') : ResRel (Rel R) a.undual a'.undual :=
  Rel.dualLoop h ha (fun i => unot i &&& (A.projMask ||| A.imagMask ||| A.realMask))
    (fun i => A.bladeWedgeProductSign i (unot i &&& (A.projMask ||| A.imagMask ||| A.realMask)))

end MV

theorem ArrRel.sub {R : T → T' → Prop} {a : Arr1 T} {a' : Arr1 T'} (h : ArrRel R a a') {n m : Nat} (hn : m + n ≤ a.len) :
    ArrRel R ⟨n, fun i => a.get (i + m)⟩ ⟨n, fun i => a'.get (i + m)⟩ :=
  ⟨rfl, fun i hi => h.2 (i + m) (by have : i < n := hi; omega)⟩

set_option maxHeartbeats 1000000 in
/-- The recursive wedge. -/
theorem wedgeImpl_rel {R₁ R₂ R₃ : T → T' → Prop} (h1 : SignRel R₁) (h3 : SumRel R₃) (hm : MulRel R₁ R₂ R₃) (n : Nat) (a b d : Arr1 T)
    (a' b' d' : Arr1 T') (ha : ArrRel R₁ a a') (hb : ArrRel R₂ b b') (hd : ArrRel R₃ d d')
    (la : a.len = 2 ^ n) (lb : b.len = 2 ^ n) (ld : d.len = 2 ^ n) :
    (wedgeImpl a b d).1.len = 2 ^ n ∧ (wedgeImpl a b d).2.len = 2 ^ n ∧
    ArrRel R₁ (wedgeImpl a b d).1 (wedgeImpl a' b' d').1 ∧ ArrRel R₃ (wedgeImpl a b d).2 (wedgeImpl a' b' d').2 := by
  induction n generalizing a b d a' b' d' with
  | zero =>
    have la' : a'.len = 2 ^ 0 := ha.1.symm.trans la
    unfold wedgeImpl
    rw [if_neg (by rw [la]; decide), dif_pos (by simp [la]), if_neg (by rw [la']; decide), dif_pos (by rw [la']; rfl)]
    refine ⟨la, ld, ha, hd.1, fun i hi => ?_⟩
    have hi : i < d.len := hi
    have : i = 0 := by rw [ld] at hi; simpa using hi
    subst this
    simp only [Arr1.set, if_true]
    exact hm (ha.2 0 (by rw [la]; decide)) (hb.2 0 (by rw [lb]; decide))
  | succ n ih =>
    have h2 : 0 < 2 ^ n := Nat.two_pow_pos n
    have hp : 2 ^ (n + 1) = 2 ^ n + 2 ^ n := by rw [Nat.pow_succ]; omega
    have la' : a'.len = 2 ^ (n + 1) := ha.1.symm.trans la
    have lb' : b'.len = 2 ^ (n + 1) := hb.1.symm.trans lb
    have ld' : d'.len = 2 ^ (n + 1) := hd.1.symm.trans ld
    have hhalf : a.len / 2 = 2 ^ n := by rw [la, hp]; omega
    have hhalf' : a'.len / 2 = 2 ^ n := by rw [la', hp]; omega
    unfold wedgeImpl
    rw [if_neg (by omega), dif_neg (by omega), if_neg (show ¬ a'.len = 0 by omega), dif_neg (show ¬ a'.len = 1 by omega)]
    simp only [hhalf, hhalf', Arr1.splitAt]
    have e1 : a.len - 2 ^ n = 2 ^ n := by omega
    have e1' : a'.len - 2 ^ n = 2 ^ n := by omega
    have e2 : b.len - 2 ^ n = 2 ^ n := by omega
    have e2' : b'.len - 2 ^ n = 2 ^ n := by omega
    have e3 : d.len - 2 ^ n = 2 ^ n := by omega
    have e3' : d'.len - 2 ^ n = 2 ^ n := by omega
    simp only [e1, e1', e2, e2', e3, e3']
    have sa0 : ArrRel R₁ ⟨2 ^ n, a.get⟩ ⟨2 ^ n, a'.get⟩ := ⟨rfl, fun i hi => ha.2 i (by have : i < 2 ^ n := hi; omega)⟩
    have sb0 : ArrRel R₂ ⟨2 ^ n, b.get⟩ ⟨2 ^ n, b'.get⟩ := ⟨rfl, fun i hi => hb.2 i (by have : i < 2 ^ n := hi; omega)⟩
    have sd0 : ArrRel R₃ ⟨2 ^ n, d.get⟩ ⟨2 ^ n, d'.get⟩ := ⟨rfl, fun i hi => hd.2 i (by have : i < 2 ^ n := hi; omega)⟩
    have sa1 := ha.sub (n := 2 ^ n) (m := 2 ^ n) (by omega)
    have sb1 := hb.sub (n := 2 ^ n) (m := 2 ^ n) (by omega)
    have sd1 := hd.sub (n := 2 ^ n) (m := 2 ^ n) (by omega)
    obtain ⟨r1a, r1b, r1c, r1d⟩ := ih _ _ _ _ _ _ sa1 sb0 sd1 rfl rfl rfl
    have sal : ArrRel R₁ (alphaInplace ⟨2 ^ n, a.get⟩) (alphaInplace ⟨2 ^ n, a'.get⟩) := by
      refine ⟨rfl, fun i hi => ?_⟩
      simp only [alphaInplace]
      split
      · exact h1.neg (sa0.2 i hi)
      · exact sa0.2 i hi
    obtain ⟨r2a, r2b, r2c, r2d⟩ := ih _ _ _ _ _ _ sal sb1 sd0 rfl rfl rfl
    generalize wedgeImpl (⟨2 ^ n, fun i => a.get (i + 2 ^ n)⟩ : Arr1 T) ⟨2 ^ n, b.get⟩ ⟨2 ^ n, fun i => d.get (i + 2 ^ n)⟩ = r1 at *
    generalize wedgeImpl (⟨2 ^ n, fun i => a'.get (i + 2 ^ n)⟩ : Arr1 T') ⟨2 ^ n, b'.get⟩ ⟨2 ^ n, fun i => d'.get (i + 2 ^ n)⟩ = r1' at *
    generalize wedgeImpl (alphaInplace ⟨2 ^ n, a.get⟩) ⟨2 ^ n, fun i => b.get (i + 2 ^ n)⟩ ⟨2 ^ n, d.get⟩ = r2 at *
    generalize wedgeImpl (alphaInplace ⟨2 ^ n, a'.get⟩) ⟨2 ^ n, fun i => b'.get (i + 2 ^ n)⟩ ⟨2 ^ n, d'.get⟩ = r2' at *
    have sa0' : ArrRel R₁ (⟨2 ^ n, fun idx => if idx < 2 ^ n ∧ countOnes idx &&& 1 ≠ 0 then -r2.1.get idx else r2.1.get idx⟩ : Arr1 T)
        (⟨2 ^ n, fun idx => if idx < 2 ^ n ∧ countOnes idx &&& 1 ≠ 0 then -r2'.1.get idx else r2'.1.get idx⟩ : Arr1 T') := by
      refine ⟨rfl, fun i hi => ?_⟩
      have hi' : i < 2 ^ n := hi
      dsimp only
      split
      · exact h1.neg (r2c.2 i (by omega))
      · exact r2c.2 i (by omega)
    have st : ArrRel R₃ (⟨2 ^ n, r2.2.get⟩ : Arr1 T) (⟨2 ^ n, r2'.2.get⟩ : Arr1 T') := ⟨rfl, fun i hi => r2d.2 i (by have : i < 2 ^ n := hi; omega)⟩
    obtain ⟨r3a, r3b, r3c, r3d⟩ := ih _ _ _ _ _ _ sa0' sb0 st rfl rfl rfl
    generalize wedgeImpl (⟨2 ^ n, fun idx => if idx < 2 ^ n ∧ countOnes idx &&& 1 ≠ 0 then -r2.1.get idx else r2.1.get idx⟩ : Arr1 T)
      ⟨2 ^ n, b.get⟩ ⟨2 ^ n, r2.2.get⟩ = r3 at *
    generalize wedgeImpl (⟨2 ^ n, fun idx => if idx < 2 ^ n ∧ countOnes idx &&& 1 ≠ 0 then -r2'.1.get idx else r2'.1.get idx⟩ : Arr1 T')
      ⟨2 ^ n, b'.get⟩ ⟨2 ^ n, r2'.2.get⟩ = r3' at *
    clear ih e1 e1' e2 e2' e3 e3' hhalf hhalf' la la' lb lb' ld ld' sa0 sb0 sd0 sa1 sb1 sd1 sal sa0' st
    refine ⟨by simp only [Arr1.join]; omega, by simp only [Arr1.join]; omega, ⟨by simp only [Arr1.join], fun i hi => ?_⟩,
      ⟨by simp only [Arr1.join], fun i hi => ?_⟩⟩
    · have hi' : i < 2 ^ n + 2 ^ n := hi
      simp only [Arr1.join]
      split
      · exact r3c.2 i (by omega)
      · exact r1c.2 _ (by omega)
    · have hi' : i < 2 ^ n + 2 ^ n := hi
      simp only [Arr1.join]
      split
      · exact r3d.2 i (by omega)
      · split
        · exact h3.add (r1d.2 _ (by omega)) (r2d.2 _ (by omega))
        · exact r1d.2 _ (by omega)

namespace MV
variable {A : ClAlg} {R R₁ R₂ R₃ : T → T' → Prop} {a b : MV A (ArrayStorage T)} {a' b' : MV A (ArrayStorage T')}

theorem Rel.arr (h : Rel R a a') : ArrRel R a.coeffs.array a'.coeffs.array := ⟨h.len, h.val⟩

/-- The arrays returned by the recursive wedge, as multivectors. -/
theorem Rel.wedgeRec (hd : A.dim ≤ 63) (h1 : SignRel R₁) (h3 : SumRel R₃) (hm : MulRel R₁ R₂ R₃) (ha : Rel R₁ a a')
    (hb : Rel R₂ b b') {d : MV A (ArrayStorage T)} {d' : MV A (ArrayStorage T')} (hd' : Rel R₃ d d') :
    Rel R₃ (⟨⟨d.coeffs.dim, (wedgeImpl a.coeffs.array b.coeffs.array d.coeffs.array).2⟩⟩ : MV A (ArrayStorage T))
      (⟨⟨d'.coeffs.dim, (wedgeImpl a'.coeffs.array b'.coeffs.array d'.coeffs.array).2⟩⟩ : MV A (ArrayStorage T')) := by
  have e := ushl_one (s := A.dim) (by omega)
  obtain ⟨-, w2, -, w4⟩ := wedgeImpl_rel h1 h3 hm A.dim _ _ _ _ _ _ ha.arr hb.arr hd'.arr (ha.size.trans e) (hb.size.trans e)
    (hd'.size.trans e)
  exact ⟨hd'.dim, w2.trans e.symm, w4.1, w4.2⟩

theorem Rel.wedge (hd : A.dim ≤ 63) (h1 : SignRel R₁) (h2 : SignRel R₂) (h3 : SumRel R₃) (hm : MulRel R₁ R₂ R₃) (ha : Rel R₁ a a')
    (hb : Rel R₂ b b') : ResRel (Rel R₃) (a.wedge b) (a'.wedge b') := by
  show ResRel (Rel R₃) (a.wedgeDense b) (a'.wedgeDense b')
  unfold wedgeDense
  split
  · exact ha.naiveWedge h1 h2 h3 hm hb
  · exact (Rel.default h3.zero).bind fun r r' hr => ha.wedgeRec hd h1 h3 hm hb hr

theorem Rel.meet (hd : A.dim ≤ 63) (h1 : SignRel R₁) (h2 : SignRel R₂) (h3 : SumRel R₃) (hm : MulRel R₁ R₂ R₃) (ha : Rel R₁ a a')
    (hb : Rel R₂ b b') : ResRel (Rel R₃) (a.meet b) (a'.meet b') := by
  show ResRel (Rel R₃) (a.meetDense b) (a'.meetDense b')
  unfold meetDense
  split
  · exact ha.naiveMeet h1 h2 h3 hm hb
  · exact (Rel.default h3.zero).bind fun r r' hr => (ha.dual h1).bind fun x x' hx => (hb.dual h2).bind fun y y' hy =>
      (hx.wedgeRec hd h1 h3 hm hy hr).undual h3.toSignRel

theorem Rel.one (h0 : R 0 0) (h1 : R 1 1) : ResRel (Rel R) (MV.one : Res (MV A (ArrayStorage T))) (MV.one : Res (MV A (ArrayStorage T'))) :=
  (Rel.default h0).bind fun _ _ hr => hr.set 0 h1

theorem Rel.pow (h : SumRel R) (h1 : R 1 1) (hm : MulRel R R R) (ha : Rel R a a') (n : Nat) : ResRel (Rel R) (a.pow n) (a'.pow n) := by
  induction n using Nat.strong_induction_on with
  | _ n ih =>
    unfold MV.pow
    split
    · exact Rel.one h.zero h1
    split
    · exact ha
    refine (ih (n >>> 1) (by rw [Nat.shiftRight_one]; omega)).bind fun x x' hx => ?_
    have hs := h.toSignRel
    split
    · exact hx.mul hs hs h hm hx
    · exact (hx.mul hs hs h hm hx).bind fun y y' hy => hy.mul hs hs h hm ha

theorem Rel.vsdot (h1 : SignRel R₁) (h2 : R₂ 0 0) (h3 : SumRel R₃) (hm : MulRel R₁ R₂ R₃) (ha : Rel R₁ a a') (hb : Rel R₂ b b') :
    ResRel R₃ (a.vsdot b) (a'.vsdot b') := by
  unfold MV.vsdot
  refine ResRel.foldlM ?_ (ha.enum h1.nz) h3.zero
  intro s s' p p' hs hp
  rw [hp.1]
  exact (hb.get h2 p'.1).bind fun c c' hc => h3.add hs (hm hp.2 hc)

theorem Rel.vdot (h1 : SignRel R₁) (h2 : R₂ 0 0) (h3 : SumRel R₃) (hm : MulRel R₁ R₂ R₃) (ha : Rel R₁ a a') (hb : Rel R₂ b b') :
    ResRel R₃ (a.vdot b) (a'.vdot b') := by
  unfold MV.vdot
  refine ResRel.foldlM ?_ (ha.enum h1.nz) h3.zero
  intro s s' p p' hs hp
  rw [hp.1]
  refine (ResRel.refl _).bind ?_
  rintro t _ rfl
  cases t
  · exact hs
  · exact (hb.get h2 p'.1).bind fun c c' hc => h3.add hs (hm hp.2 hc)
  · exact (hb.get h2 p'.1).bind fun c c' hc => h3.sub hs (hm hp.2 hc)

theorem Rel.mag2 (h1 : SignRel R₁) (h3 : SumRel R₃) (hm : MulRel R₁ R₁ R₃) (ha : Rel R₁ a a') :
    ResRel R₃ a.mag2 a'.mag2 := by
  unfold MV.mag2
  refine ResRel.foldlM ?_ (ha.enum h1.nz) h3.zero
  intro s s' p p' hs hp
  rw [hp.1]
  have hr : R₁ (revC p'.1 p.2) (revC p'.1 p'.2) := by unfold revC; split; exacts [hp.2, h1.neg hp.2]
  refine (ResRel.refl _).bind ?_
  rintro t _ rfl
  cases t
  · exact hs
  · exact (ha.get h1.zero p'.1).bind fun c c' hc => h3.add hs (hm hr hc)
  · exact (ha.get h1.zero p'.1).bind fun c c' hc => h3.sub hs (hm hr hc)

end MV
end

end TClifford
