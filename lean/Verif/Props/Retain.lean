import Verif.Model.Retain
import Verif.Props.Access
/-
C54 for closures with a state of their own.
-/

set_option linter.unusedSectionVars false

namespace TClifford

open MV

variable {A : ClAlg} {T σ : Type} [Ring T] [DecidableEq T] [HashOrder T]

/-- The entries that are kept, for entries visited in the order of `l` from the state `s`. -/
def keptS (f : σ → Nat → T → σ × Option T) : σ → List (Nat × T) → List (Nat × T)
  | _, [] => []
  | s, p :: l => ((f s p.1 p.2).2.map (fun v => (p.1, v))).toList ++ keptS f (f s p.1 p.2).1 l

theorem retain_fold (f : σ → Nat → T → σ × Option T) (l : List (Nat × T)) (s : σ) (k : List (Nat × T)) :
    l.foldl (fun (acc : σ × List (Nat × T)) p =>
      let q := f acc.1 p.1 p.2
      (q.1, acc.2 ++ (q.2.map (fun v => (p.1, v))).toList)) (s, k) =
    (l.foldl (fun s p => (f s p.1 p.2).1) s, k ++ keptS f s l) := by
  induction l generalizing s k with
  | nil => simp [keptS]
  | cons p l ih => simp [keptS, ih, List.append_assoc]

theorem lookup_kept_none (f : σ → Nat → T → σ × Option T) {i : Nat} : ∀ (l : List (Nat × T)) (s : σ), (∀ p ∈ l, p.1 ≠ i) →
    (keptS f s l).lookup i = none := by
  intro l
  induction l with
  | nil => intro s _; rfl
  | cons p l ih =>
    intro s h
    have h1 : (i == p.1) = false := by simpa using (h p List.mem_cons_self).symm
    unfold keptS
    rw [List.lookup_append, ih _ fun q hq => h q (List.mem_cons_of_mem _ hq)]
    rcases (f s p.1 p.2).2 with _ | v
    · rfl
    · simp [List.lookup_cons, h1]

theorem lookup_kept (f : σ → Nat → T → σ × Option T) {i : Nat} {c : T} : ∀ (l₁ l₂ : List (Nat × T)) (s : σ),
    ((l₁ ++ (i, c) :: l₂).map Prod.fst).Nodup →
    (keptS f s (l₁ ++ (i, c) :: l₂)).lookup i = (f (l₁.foldl (fun s p => (f s p.1 p.2).1) s) i c).2 := by
  intro l₁ l₂
  induction l₁ with
  | nil =>
    intro s h
    have hn : ∀ p ∈ l₂, p.1 ≠ i := by
      intro p hp e
      exact (List.nodup_cons.mp (show (i :: l₂.map Prod.fst).Nodup from h)).1 (e ▸ List.mem_map_of_mem hp)
    show ((((f s i c).2.map (fun v => (i, v))).toList) ++ keptS f (f s i c).1 l₂).lookup i = _
    rw [List.lookup_append, lookup_kept_none f l₂ _ hn]
    show _ = (f s i c).2
    rcases (f s i c).2 with _ | v
    · rfl
    · simp
  | cons p l₁ ih =>
    intro s h
    have hc := List.nodup_cons.mp (show (p.1 :: (l₁ ++ (i, c) :: l₂).map Prod.fst).Nodup from h)
    have h1 : (i == p.1) = false := by
      have : i ≠ p.1 := by
        intro e
        exact hc.1 (e ▸ List.mem_map_of_mem (f := Prod.fst) (List.mem_append_right l₁ List.mem_cons_self))
      simpa using this
    show (((f s p.1 p.2).2.map (fun v => (p.1, v))).toList ++ keptS f (f s p.1 p.2).1 (l₁ ++ (i, c) :: l₂)).lookup i = _
    rw [List.lookup_append, ih _ hc.2]
    rcases (f s p.1 p.2).2 with _ | v
    · rfl
    · simp [List.lookup_cons, h1]

/-- **C54.** Also with a closure that has a state of its own, `filter_inplace` calls it exactly once for every coefficient other
than zero, in some order `l`, and every coefficient becomes what that call makes of it (zero if the call drops it). -/
theorem C54_stateful {a : MV A (SparseStorage T)} (ha : a.Valid) (f : σ → Nat → T → σ × Option T) (s : σ) :
    ∃ l : List (Nat × T), (l.map Prod.fst).Nodup ∧ (∀ i c, (i, c) ∈ l ↔ i < 2 ^ A.dim ∧ a.getByIdx i = .ok c ∧ c ≠ 0) ∧
      (a.filterInplaceS f s).1 = l.foldl (fun s p => (f s p.1 p.2).1) s ∧
      (∀ l₁ i c l₂, l = l₁ ++ (i, c) :: l₂ →
        (a.filterInplaceS f s).2.getByIdx i = .ok ((f (l₁.foldl (fun s p => (f s p.1 p.2).1) s) i c).2.getD 0)) ∧
      ∀ i < 2 ^ A.dim, a.getByIdx i = .ok 0 → (a.filterInplaceS f s).2.getByIdx i = .ok 0 := by
  have hE := ha.enum
  have hp : (HashOrder.order a.coeffs.coeffs.entries).Perm a.coeffs.coeffs.entries := HashOrder.perm _
  have hnd : ((HashOrder.order a.coeffs.coeffs.entries).map Prod.fst).Nodup := (hp.map _).nodup_iff.mpr ha.2.2.2.1
  have hmem : ∀ i c, (i, c) ∈ HashOrder.order a.coeffs.coeffs.entries ↔ i < 2 ^ A.dim ∧ a.getByIdx i = .ok c ∧ c ≠ 0 := by
    intro i c
    rw [hp.mem_iff]
    constructor
    · intro h
      have h1 := ha.2.2.2.2 _ h
      refine ⟨h1.1, ?_, h1.2⟩
      rw [ha.get h1.1]
      exact congrArg Except.ok (SparseStorage.get_of_mem ha h)
    · rintro ⟨h1, h2, h3⟩
      rw [ha.get h1] at h2
      injection h2 with h2
      subst h2
      exact SparseStorage.mem_of_get ha h3
  have key : a.filterInplaceS f s = ((HashOrder.order a.coeffs.coeffs.entries).foldl (fun s p => (f s p.1 p.2).1) s,
      ⟨{ a.coeffs with coeffs := ⟨keptS f s (HashOrder.order a.coeffs.coeffs.entries)⟩ }⟩) := by
    unfold MV.filterInplaceS HashMap.retainS HashMap.iter
    simp only [retain_fold, List.nil_append]
  refine ⟨_, hnd, hmem, by rw [key], ?_, ?_⟩
  · intro l₁ i c l₂ hl
    rw [key]
    show Except.ok (SparseStorage.getByIdx _ i) = _
    unfold SparseStorage.getByIdx HashMap.get?
    dsimp only
    rw [hl] at hnd ⊢
    rw [lookup_kept f l₁ l₂ s hnd]
  · intro i hi h0
    rw [key]
    show Except.ok (SparseStorage.getByIdx _ i) = _
    unfold SparseStorage.getByIdx HashMap.get?
    dsimp only
    rw [lookup_kept_none f _ s]
    · rfl
    · intro p hp' e
      obtain ⟨j, c⟩ := p
      have := (hmem j c).mp hp'
      simp only at e
      subst e
      rw [h0] at this
      obtain ⟨-, h1, h2⟩ := this
      injection h1 with h1
      exact h2 h1.symm

/-- **C54.** A closure that counts its calls counts the coefficients other than zero. -/
theorem C54_count {a : MV A (SparseStorage T)} (f : Nat → T → Option T) :
    (a.filterInplaceS (fun n i c => (n + 1, f i c)) 0).1 = a.coeffCount := by
  unfold MV.filterInplaceS HashMap.retainS HashMap.iter MV.coeffCount HashMap.len
  dsimp only
  rw [retain_fold (fun n i c => (n + 1, f i c)), ← (HashOrder.perm a.coeffs.coeffs.entries).length_eq]
  generalize HashOrder.order a.coeffs.coeffs.entries = l
  have : ∀ k, l.foldl (fun n (_ : Nat × T) => n + 1) k = k + l.length := by
    induction l with
    | nil => intro k; rfl
    | cons p l ih => intro k; rw [List.foldl_cons, ih, List.length_cons]; omega
  show l.foldl (fun n (_ : Nat × T) => n + 1) 0 = _
  rw [this]
  omega

example := letI : HashOrder ℤ := Ex.revOrder
  C54_stateful Ex.sA_valid (fun (n : Nat) _ c => (n + 1, if n = 0 then some (2 * c) else none)) 0

example := letI : HashOrder ℤ := Ex.revOrder
  C54_count (a := Ex.sA) (fun i c => if i = 5 then none else some (3 * c))

/-- Keep the first coefficient visited, doubled: which one it is depends on the order. -/
example : (letI : HashOrder ℤ := Ex.revOrder;
      (Ex.sA.filterInplaceS (fun (n : Nat) _ c => (n + 1, if n = 0 then some (2 * c) else none)) 0).2.getByIdx 5) = .ok 0 ∧
    (letI : HashOrder ℤ := ⟨id, fun _ => .refl _⟩;
      (Ex.sA.filterInplaceS (fun (n : Nat) _ c => (n + 1, if n = 0 then some (2 * c) else none)) 0).2.getByIdx 5) = .ok 4 := by
  decide +kernel

end TClifford
