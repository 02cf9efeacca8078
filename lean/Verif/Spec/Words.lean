import Mathlib.Logic.Relation
import Mathlib.Data.Nat.Bitwise
import Verif.Model.Algebra
/-
Independent specification of the product of basis blades: rewriting of words in the generators.
Nothing here refers to the sign functions of the model.
-/

namespace TClifford.Spec

/-- One rewriting step on signed words in the generators `0, 1, 2, ...`, where the generator `x` has square `σ x`:
exchange two distinct neighbours and negate, or replace two equal neighbours by the square. -/
inductive Step (σ : Nat → ℤ) : ℤ × List Nat → ℤ × List Nat → Prop
  | swap (s : ℤ) (u v : List Nat) (x y : Nat) (h : x ≠ y) : Step σ (s, u ++ x :: y :: v) (-s, u ++ y :: x :: v)
  | contract (s : ℤ) (u v : List Nat) (x : Nat) : Step σ (s, u ++ x :: x :: v) (s * σ x, u ++ v)

/-- Any number of steps. -/
abbrev Rewrites (σ : Nat → ℤ) := Relation.ReflTransGen (Step σ)

/-- The generators contained in a blade index, written in descending order. -/
def word (n a : Nat) : List Nat := ((List.range n).filter (fun i => a.testBit i)).reverse

/-- The square of the generator `i` in a declared signature. -/
def squareOf (sig : List Sym) (i : Nat) : ℤ :=
  match sig[i]? with
  | some .plus => 1
  | some .minus => -1
  | some .null => 0
  | none => 1

end TClifford.Spec
