import Verif.Model.Multivector
/-
A reader for the texts of multivectors, independent of the code which writes them.

A text is a sequence of terms separated by ` + `.  A term is a coefficient, in parentheses or not, optionally followed by a space
and axis names separated by `^`; it stands for the coefficient times the product of the named basis vectors in the order
written.
-/

namespace TClifford.Spec

section
variable {T : Type} (readC : String → Option T) (axisName : Nat → String) (dim : Nat)

/-- A coefficient, possibly in parentheses. -/
def readCoeff (tok : List Char) : Option T :=
  match tok with
  | '(' :: rest => if rest.getLast? = some ')' then readC (String.ofList rest.dropLast) else none
  | _ => readC (String.ofList tok)

/-- The generator with this name. -/
def readAxis (nm : List Char) : Option Nat := (List.range dim).find? (fun i => (axisName i).toList = nm)

/-- A product of generators. -/
def readLabel (tok : List Char) : Option (List Nat) := (tok.splitOn '^').mapM (readAxis axisName dim)

/-- The terms of a text which has been split at the spaces. -/
def readTokens : List (List Char) → Option (List (T × List Nat))
  | [] => none
  | [c] => do
    let v ← readCoeff readC c
    return [(v, [])]
  | [c, l] => do
    let v ← readCoeff readC c
    let w ← readLabel axisName dim l
    return [(v, w)]
  | c :: l :: p :: rest =>
    if l = ['+'] then do
      let v ← readCoeff readC c
      let ts ← readTokens (p :: rest)
      return (v, []) :: ts
    else if p = ['+'] then do
      let v ← readCoeff readC c
      let w ← readLabel axisName dim l
      let ts ← readTokens rest
      return (v, w) :: ts
    else none

/-- The terms of a text: coefficients and words in the generators. -/
def readText (s : String) : Option (List (T × List Nat)) := readTokens readC axisName dim (s.toList.splitOn ' ')

end

section
variable {A : ClAlg} {S T : Type} [Ring T] [DecidableEq T] [CoeffStorage S T]

/-- The multivector a term stands for. -/
def termValue (t : T × List Nat) : Res (MV A S) := do
  let c ← MV.fromScalar t.1
  t.2.foldlM (fun acc i => do
    let e ← MV.basisVec (T := T) i
    acc.naiveMulImpl e) c

/-- The multivector the terms stand for: their sum. -/
def termsValue (ts : List (T × List Nat)) : Res (MV A S) := do
  let z ← MV.default (T := T)
  ts.foldlM (fun acc t => do
    let x ← termValue t
    acc.add x) z

end

end TClifford.Spec
