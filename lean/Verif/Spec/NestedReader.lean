import Verif.Spec.Reader
/-
A reader for texts of multivectors whose coefficients may be multivectors themselves; like Verif/Spec/Reader.lean it is
independent of the code which writes the texts.

A text is a sequence of terms separated by ` + ` outside of parentheses.  A term is a coefficient, in parentheses or not,
optionally followed by a space and axis names of the algebra separated by `^`.
-/

namespace TClifford.Spec

/-- The nesting depth after a character. -/
def deeper (d : Nat) (c : Char) : Nat := if c = '(' then d + 1 else if c = ')' then d - 1 else d

/-- Split at the spaces outside of parentheses; `d` is the number of parentheses open at the beginning. -/
def splitTop : Nat → List Char → List (List Char)
  | _, [] => [[]]
  | d, c :: cs =>
    if c = ' ' ∧ d = 0 then [] :: splitTop 0 cs
    else match splitTop (deeper d c) cs with
      | [] => [[c]]
      | t :: ts => (c :: t) :: ts

section
variable {T : Type} (readC : String → Option T) (axisName : Nat → String) (dim : Nat)

/-- A coefficient that has been split at the spaces, possibly in parentheses as a whole. -/
def readCoeffTokens : List (List Char) → Option T
  | ['(' :: rest] => if rest.getLast? = some ')' then readC (String.ofList rest.dropLast) else none
  | toks => readC (String.ofList ([' '].intercalate toks))

/-- A term that has been split at the spaces: if there is something in front of the last token and it is a product of generators,
it is the blade, and the rest the coefficient; otherwise everything is the coefficient. -/
def readTerm (toks : List (List Char)) : Option (T × List Nat) :=
  match toks.getLast?, toks.dropLast with
  | some l, c :: cs =>
    match readLabel axisName dim l with
    | some w => (readCoeffTokens readC (c :: cs)).map fun v => (v, w)
    | none => (readCoeffTokens readC toks).map fun v => (v, [])
  | _, _ => (readCoeffTokens readC toks).map fun v => (v, [])

/-- The terms of a text. -/
def readNested (s : String) : Option (List (T × List Nat)) :=
  ((splitTop 0 s.toList).splitOn ['+']).mapM (readTerm readC axisName dim)

end

end TClifford.Spec
