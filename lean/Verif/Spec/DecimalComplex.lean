import Verif.Spec.Decimal
import Verif.Model.Cx
/-
What the text of a complex number means: two decimals and a sign between them, followed by `i`.
-/

namespace TClifford.Decimal

/-- Cut a text at the first sign that does not belong to an exponent (`p` is the character before the text). -/
def cutAt (e : Char) : Char → List Char → Option (List Char × Char × List Char)
  | _, [] => none
  | p, c :: l => if (c = '+' ∨ c = '-') ∧ p ≠ e then some ([], c, l) else (cutAt e c l).map fun t => (c :: t.1, t.2)

/-- A number without a sign, or `NaN`. -/
def readPart (f : Fmt) (e : Char) (l : List Char) : Option (Flt f) :=
  if l = ['N', 'a', 'N'] then some .nonFinite else (readUnsigned e l).map Flt.ofRat

/-- A number with its sign given separately. -/
def withSign {f : Fmt} (s : Char) (x : Flt f) : Flt f := if s = '-' then -x else x

/-- The complex number that a text without a sign in front denotes, with the sign `s`. -/
def readCxUnsigned (f : Fmt) (e s : Char) (l : List Char) : Option (Cx (Flt f)) := do
  let t ← cutAt e ' ' l
  let x ← readPart f e t.1
  if t.2.2.getLast? = some 'i' then
    let y ← readPart f e t.2.2.dropLast
    return ⟨withSign s x, withSign t.2.1 y⟩
  else none

/-- The complex number that a text denotes. -/
def readCx (f : Fmt) (e : Char) (s : String) : Option (Cx (Flt f)) :=
  match s.toList with
  | '-' :: l => readCxUnsigned f e '-' l
  | '+' :: l => readCxUnsigned f e '+' l
  | l => readCxUnsigned f e '+' l

end TClifford.Decimal
