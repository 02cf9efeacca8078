import Verif.Model.MakeArray
import Verif.Proofs.MV
import Verif.Proofs.Declare
import Verif.Props.Examples
/-
C96: the unsafe code of `make_array`.
-/

namespace TClifford

open MV

section
variable {T : Type}

theorem makeArrayLoop_eq (f : Nat → Res T) (k : Nat) : ∀ (i : Nat) (pre : List T) (rest : List (Option T)),
    pre.length = i → rest.length = k →
    makeArrayLoop f i k ⟨pre.map some ++ rest⟩ =
      Run.bind (Run.safe ((List.range' i k).mapM f)) fun l => .ok ⟨(pre ++ l).map some⟩ := by
  induction k with
  | zero =>
    intro i pre rest _ hr
    rw [List.length_eq_zero_iff.mp hr]
    simp [makeArrayLoop, Run.safe, Run.bind, pure, Except.pure]
  | succ k ih =>
    intro i pre rest hp hr
    obtain ⟨c, cs, rfl⟩ := List.exists_cons_of_length_eq_add_one hr
    rw [makeArrayLoop, List.range'_succ, List.mapM_cons]
    cases hf : f i with
    | error e => rfl
    | ok v =>
      have hw : Uninit.write ⟨pre.map some ++ c :: cs⟩ i v = .ok ⟨(pre ++ [v]).map some ++ cs⟩ := by
        unfold Uninit.write
        have hl : i < (pre.map some ++ c :: cs).length := by simp; omega
        rw [if_pos hl]
        congr 2
        rw [List.set_append_right _ _ (by simp; omega)]
        simp [hp]
      show Run.bind (Uninit.write _ i v) _ = _
      rw [hw]
      show makeArrayLoop f (i + 1) k _ = _
      rw [ih (i + 1) (pre ++ [v]) cs (by simp; omega) (by simpa using hr)]
      cases hm : (List.range' (i + 1) k).mapM f with
      | error e =>
        show Run.panic e = _
        simp [bind, Except.bind, Run.safe, Run.bind]
      | ok l =>
        show Run.ok _ = _
        simp [bind, Except.bind, Run.safe, Run.bind, pure, Except.pure]

theorem values_some (l : List T) : Uninit.values (l.map some) = .ok l := by
  induction l with
  | nil => rfl
  | cons v l ih => rw [List.map_cons, Uninit.values, ih]; rfl

/-- **C96, `make_array` is the safe loop.** It calls `f` on `0, …, n - 1` in this order, stops at the first panic, and returns
the values otherwise. -/
theorem C96_eq (n : Nat) (f : Nat → Res T) : makeArray n f = Run.safe ((List.range n).mapM f) := by
  unfold makeArray
  have h := makeArrayLoop_eq f n 0 [] (List.replicate n none) rfl (by simp)
  rw [List.map_nil, List.nil_append] at h
  unfold Uninit.uninit
  rw [h, List.range_eq_range']
  cases (List.range' 0 n).mapM f with
  | error e => rfl
  | ok l =>
    show Uninit.values _ = _
    rw [List.nil_append, values_some]; rfl

/-- **C96, no undefined behaviour**: whatever `f` does (it may panic at any index), no write is outside of the array and no
value that was not initialised is read. -/
theorem C96_no_ub (n : Nat) (f : Nat → Res T) : makeArray n f ≠ .ub := by
  rw [C96_eq]
  cases (List.range n).mapM f <;> simp [Run.safe]

theorem mapM_ok {f : Nat → Res T} {g : Nat → T} (l : List Nat) (h : ∀ i ∈ l, f i = .ok (g i)) : l.mapM f = .ok (l.map g) := by
  induction l with
  | nil => rfl
  | cons x xs ih =>
    rw [List.mapM_cons, h x (by simp), ih fun i hi => h i (by simp [hi])]
    rfl

/-- **C96, values.** If `f` does not panic, the array has `n` elements, and element `i` is `f(i)`. -/
theorem C96_value {n : Nat} {f : Nat → Res T} {g : Nat → T} (h : ∀ i < n, f i = .ok (g i)) :
    ∃ l : List T, makeArray n f = .ok l ∧ l.length = n ∧ ∀ i (hi : i < l.length), l[i] = g i := by
  refine ⟨(List.range n).map g, ?_, by simp, fun i hi => by simp⟩
  rw [C96_eq, mapM_ok _ fun i hi => h i (List.mem_range.mp hi)]
  rfl

/-- **C96, panics.** If `f` panics first at index `j`, then so does `make_array`. -/
theorem C96_panic {n j : Nat} {f : Nat → Res T} {e : Err} (hj : j < n) (h : ∀ i < j, ∃ v, f i = .ok v) (he : f j = .error e) :
    makeArray n f = .panic e := by
  rw [C96_eq]
  have h1 : List.range n = List.range j ++ j :: List.range' (j + 1) (n - j - 1) := by
    rw [List.range_eq_range', List.range_eq_range', show n = j + (1 + (n - j - 1)) by omega, ← List.range'_append_1, Nat.add_comm 1]
    simp [List.range'_succ]
  rw [h1, List.mapM_append, List.mapM_cons, he]
  have h2 : ∃ l, (List.range j).mapM f = .ok l := by
    clear h1 he
    have : ∀ l : List Nat, (∀ i ∈ l, ∃ v, f i = .ok v) → ∃ r, l.mapM f = .ok r := by
      intro l
      induction l with
      | nil => exact fun _ => ⟨[], rfl⟩
      | cons x xs ih =>
        intro hl
        obtain ⟨v, hv⟩ := hl x (by simp)
        obtain ⟨r, hr⟩ := ih fun i hi => hl i (by simp [hi])
        exact ⟨v :: r, by rw [List.mapM_cons, hv, hr]; rfl⟩
    exact this _ fun i hi => h i (List.mem_range.mp hi)
  obtain ⟨l, hl⟩ := h2
  rw [hl]
  rfl

end

section
variable {A : ClAlg} {S T : Type} [Ring T] [DecidableEq T] [CoeffStorage S T] [LawfulStorage S T]

/-- **C96, `basis()`**: an array of as many multivectors as generators were declared; number `n` has the coefficient 1 for
the generator number `n` and 0 otherwise. -/
theorem C96_basis {sig : List Sym} {names : List String} (hA : declareAlgebra sig names = some A)
    (hS : LawfulStorage.Supp (S := S) (T := T) A.dim) :
    ∃ l : List (MV A S), MV.basisMem (T := T) A = .ok l ∧ MV.basis (T := T) = .ok l ∧ l.length = sig.length ∧
      ∀ n (hn : n < l.length), l[n].Valid ∧ ∀ i < 2 ^ A.dim, l[n].getByIdx i = .ok (if i = 2 ^ n then 1 else 0) := by
  have hdim : A.dim = sig.length := (declareAlgebra_eq hA).2.2.1
  have h : ∀ n : Nat, ∃ u : MV A S, n < A.dim → basisVec (T := T) n = .ok u ∧ u.Valid ∧ ∀ i < 2 ^ A.dim, u.val i = single (2 ^ n) 1 i := by
    intro n
    by_cases hn : n < A.dim
    · obtain ⟨u, h⟩ := basisVec_denotes (S := S) hS hn
      exact ⟨u, fun _ => h⟩
    · obtain ⟨u, -⟩ := default_denotes (A := A) (S := S) hS
      exact ⟨u, fun h => absurd h hn⟩
  choose g hg using h
  have hm := mapM_ok (List.range A.dim) (f := fun n => basisVec (T := T) n) (g := g) fun i hi => (hg i (List.mem_range.mp hi)).1
  refine ⟨(List.range A.dim).map g, ?_, hm, by simp [hdim], fun n hn => ?_⟩
  · unfold basisMem
    rw [C96_eq, hm]; rfl
  · have hn' : n < A.dim := by simpa using hn
    obtain ⟨-, h2, h3⟩ := hg n hn'
    rw [List.getElem_map, List.getElem_range]
    refine ⟨h2, fun i hi => ?_⟩
    rw [h2.get hi, h3 i hi]; rfl

end

/-- **C96, `signature()` and `signaturef()`** return the squares of the generators in the order of the declaration. -/
theorem C96_signature {A : ClAlg} {sig : List Sym} {names : List String} (hA : declareAlgebra sig names = some A)
    {R : Type} [Ring R] : A.signatureMem = .ok (sig.map Sym.square) ∧
    A.signaturef (R := R) = .ok (sig.map fun s => (Sym.square s : R)) := by
  have h := declareAlgebra_signature hA
  unfold ClAlg.signature at h
  constructor
  · unfold ClAlg.signatureMem
    rw [C96_eq, mapM_ok (g := fun n => if ushl 1 n &&& A.realMask ≠ 0 then 1
      else if ushl 1 n &&& A.imagMask ≠ 0 then -1 else 0) _ fun i _ => rfl, h]
    rfl
  · unfold ClAlg.signaturef
    rw [C96_eq, mapM_ok (g := fun n => if ushl 1 n &&& A.realMask ≠ 0 then 1
      else if ushl 1 n &&& A.imagMask ≠ 0 then -1 else 0) _ fun i _ => rfl]
    have h' := congrArg (List.map (fun z : ℤ => (z : R))) h
    rw [List.map_map, List.map_map] at h'
    show Run.ok _ = Run.ok _
    congr 1
    refine Eq.trans ?_ h'
    refine List.map_congr_left fun n _ => ?_
    simp only [Function.comp]
    split_ifs <;> simp

namespace Ex

example := C96_eq 3 (fun i => if i = 1 then .error .panic else .ok i)
example := C96_no_ub 3 (fun i => if i = 1 then .error .panic else .ok i)
example := C96_value (n := 3) (f := fun i => .ok (i * i)) (g := fun i => i * i) fun _ _ => rfl
example := C96_panic (n := 3) (j := 1) (f := fun i => if i = 1 then .error .panic else .ok i) (e := .panic) (by decide)
  (fun i hi => ⟨i, if_neg (by omega)⟩) rfl
/-- Skipping a cell, or going one too far, would be undefined behaviour. -/
example : Run.bind (makeArrayLoop (fun i => .ok i) 1 2 (Uninit.uninit 3)) Uninit.assumeInit = .ub ∧
    makeArrayLoop (fun i => .ok i) 0 4 (Uninit.uninit 3) = .ub := ⟨rfl, rfl⟩
example := C96_basis (A := M) (S := ArrayStorage ℤ) (T := ℤ) (sig := [.plus, .minus, .null]) (names := []) rfl (show (3 : Nat) ≤ 63 by omega)
example : M.signatureMem = .ok [1, -1, 0] := rfl
example := C96_signature (A := M) (sig := [.plus, .minus, .null]) (names := []) rfl (R := ℚ)

end Ex

end TClifford
