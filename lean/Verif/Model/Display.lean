import Verif.Model.Multivector
/-
Models the formatting code of src/lib.rs:534-592 (`impl_formatting!`).
-/

namespace TClifford

namespace MV
variable {A : ClAlg} {S T : Type} [Zero T] [One T] [Add T] [Sub T] [Neg T] [Mul T] [DecidableEq T] [CoeffStorage S T]

/-- One printed term: the coefficient text (in parentheses when it contains a sign or the `+` flag is set),
then a space and the label unless the label is empty.  src/lib.rs:553-579.
`fmtCoeff` is `$fmt_trait::fmt` with the flags of the formatter, `signCheck` is the `format!($sign_checker_fmt, _)`. -/
def fmtTerm (fmtCoeff signCheck : T → String) (alternate signPlus : Bool) (idx : Nat) (coeff : T) : String :=
  let displayed := if alternate then revC idx coeff else coeff
  let innerSign := signPlus || (signCheck displayed).toList.any (fun c => c = '+' || c = '-')
  let body := if innerSign then "(" ++ fmtCoeff displayed ++ ")" else fmtCoeff displayed
  let lbl := if alternate then A.bladeLabelRev idx else A.bladeLabel idx
  if lbl.length > 0 then body ++ " " ++ lbl else body

/-- The whole text, src/lib.rs:542-585: terms with non-zero coefficient separated by ` + `, or the text of zero. -/
def display (fmtCoeff signCheck : T → String) (alternate signPlus : Bool) (a : MV A S) : String :=
  let terms := (a.coeffEnumerate.filter (fun p => p.2 ≠ 0)).map
    (fun p => fmtTerm (A := A) fmtCoeff signCheck alternate signPlus p.1 p.2)
  if terms = [] then fmtCoeff 0 else String.intercalate " + " terms

end MV

end TClifford
