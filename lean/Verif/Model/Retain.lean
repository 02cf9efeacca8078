import Verif.Model.Dense
/-
`filter_inplace` with closures that have a state of their own (`FnMut`).
-/

namespace TClifford

variable {A : ClAlg} {T σ : Type} [Zero T] [One T] [Add T] [Sub T] [Neg T] [Mul T] [DecidableEq T] [HashOrder T]

/-- `map.retain(f)` of the standard library: the closure `f` is called for the entries one after another, in the order of the
map, with the state `s` that the calls before have left. -/
def HashMap.retainS (m : HashMap T) (f : σ → Nat → T → σ × Option T) (s : σ) : σ × HashMap T :=
  let r := m.iter.foldl (fun (acc : σ × List (Nat × T)) p =>
    let q := f acc.1 p.1 p.2
    (q.1, acc.2 ++ (q.2.map (fun v => (p.1, v))).toList)) (s, [])
  (r.1, ⟨r.2⟩)

/-- `filter_inplace` (and `filtered`), src/mv_sparse.rs:47-63; returns the state of the closure, too. -/
def MV.filterInplaceS (a : MV A (SparseStorage T)) (f : σ → Nat → T → σ × Option T) (s : σ) : σ × MV A (SparseStorage T) :=
  let r := a.coeffs.coeffs.retainS f s
  (r.1, ⟨{ a.coeffs with coeffs := r.2 }⟩)

end TClifford
