import Mathlib.Algebra.BigOperators.Group.Finset.Basic
import Mathlib.Algebra.Ring.Defs
import Mathlib.Algebra.Ring.Int.Defs
import Mathlib.Data.Finset.Prod
/-
Specification of the exterior product of coefficient families indexed by bit masks.
-/

namespace TClifford.Spec

open Finset

/-- Sign of reordering the descending word of `i` followed by the descending word of `j` (disjoint) into one descending word:
`-1` to the number of pairs of a generator of `i` and a later, higher generator of `j`. -/
def shuffleSign (n i j : Nat) : ℤ :=
  (-1) ^ ((range n ×ˢ range n).filter (fun p => i.testBit p.1 = true ∧ j.testBit p.2 = true ∧ p.1 < p.2)).card

/-- Coefficient `k` of the exterior product: sum over the splittings of `k` into a subset `i` and its complement. -/
def wedgeCoeff {T : Type} [Ring T] (n : Nat) (f g : Nat → T) (k : Nat) : T :=
  ∑ i ∈ (range (2 ^ n)).filter (fun i => i &&& k = i), shuffleSign n i (k ^^^ i) • (f i * g (k ^^^ i))

end TClifford.Spec
