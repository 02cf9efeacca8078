import Verif.Model.Basic
import Verif.Model.Precomputed
/-
Models src/algebra.rs: the `declare_algebra!` macro, the algebra traits and the blade product signs.
-/

namespace TClifford

/-- A token of a signature: `+`, `-`, `0` (src/algebra.rs:412). -/
inductive Sym where
  | plus
  | minus
  | null
  deriving DecidableEq, Repr

/-- The data provided by an implementation of `ClAlgebraBase`, src/algebra.rs:19-34.
`realDim`, `imagDim`, `projDim` are fields because `Even<A>` overrides the default methods. -/
structure ClAlg where
  dim : Nat
  realMask : Nat
  imagMask : Nat
  projMask : Nat
  realDim : Nat
  imagDim : Nat
  projDim : Nat
  axisName : Nat → String

/-- `produce_mask_internal_plus!` / `_minus!` / `_null!`, src/algebra.rs:212-279.  The three macros are the same
up to the token they look for, here `s`.  `shift` is the position of the first token. -/
def produceMask (s : Sym) : Nat → List Sym → Nat
  | _, [] => 0
  | shift, t :: ts => (if t = s then ushl 1 shift else ushl 0 shift) ||| produceMask s (shift + 1) ts

/-- `order_check_end!`, src/algebra.rs:289-299 (`false` = compile error). -/
def orderCheckEnd : List Sym → Bool
  | [] => true
  | .null :: ts => orderCheckEnd ts
  | _ => false

/-- `order_check!`, src/algebra.rs:300-309 (`false` = compile error; the macro has no rule for an empty list). -/
def orderCheck : List Sym → Bool
  | [] => false
  | [_] => true
  | .null :: ts => orderCheckEnd ts
  | _ :: ts => orderCheck ts

/-- `axis_name_func!`, src/algebra.rs:347-361, with user-provided names or (empty list) the default names `e0, e1, ...`.
Indexing the name array out of range panics in Rust; here the name is then the empty string. -/
def axisNameFunc (names : List String) (n : Nat) : String :=
  match names with
  | [] => "e" ++ toString n
  | _ => (names[n]?).getD ""

/-- `declare_algebra!` + `impl_algebra_base!`, src/algebra.rs:377-453.  `none` = the macro invocation does not compile:
the order check fails, the number of names differs from the number of generators, or there are more than 64 generators
(`const_assert!` at src/algebra.rs:398). -/
def declareAlgebra (sig : List Sym) (names : List String) : Option ClAlg :=
  if orderCheck sig = false then none
  else if names ≠ [] ∧ names.length ≠ sig.length then none
  else if 64 < sig.length then none
  else some {
    dim := sig.length
    realMask := produceMask .plus 0 sig
    imagMask := produceMask .minus 0 sig
    projMask := produceMask .null 0 sig
    realDim := countOnes (produceMask .plus 0 sig)
    imagDim := countOnes (produceMask .minus 0 sig)
    projDim := countOnes (produceMask .null 0 sig)
    axisName := axisNameFunc names }

/-- `impl_split_signature!`, src/algebra.rs:320-326: is `SplitSignature` implemented? -/
def implSplitSignature : List Sym → Bool
  | [.plus, .minus] => true
  | .plus :: .minus :: ts => implSplitSignature ts
  | _ => false

/-- `impl_non_degenerate!`, src/algebra.rs:328-345: is `NonDegenerate` implemented? -/
def implNonDegenerate : List Sym → Bool
  | [.plus] => true
  | [.minus] => true
  | .plus :: ts => implNonDegenerate ts
  | .minus :: ts => implNonDegenerate ts
  | _ => false

/-- `$(+),+,0` matcher of `impl_pga!`, src/algebra.rs:314: one or more `+` followed by exactly one `0`. -/
def pgaMatch : List Sym → Bool
  | [.plus, .null] => true
  | .plus :: ts => pgaMatch ts
  | _ => false

/-- `impl_pga!`, src/algebra.rs:311-318 and 403: `some d` if `PGAlgebra<d>` is implemented. -/
def implPga (sig : List Sym) : Option Nat :=
  if pgaMatch sig then some (sig.length - 1) else none

/-- `impl_complex_or_quaternionic!`, src/algebra.rs:363-375: `ComplexAlgebra`. -/
def implComplex (sig : List Sym) : Bool := decide (sig = [.minus])

/-- `impl_complex_or_quaternionic!`, src/algebra.rs:363-375: `QuaternionicAlgebra`. -/
def implQuaternionic (sig : List Sym) : Bool := decide (sig = [.minus, .minus])

/-- `impl_complex_or_quaternionic!`, src/algebra.rs:363-375: `DivisionAlgebra`. -/
def implDivision (sig : List Sym) : Bool := implComplex sig || implQuaternionic sig

/-- Free function `ac_product_sign`, src/algebra.rs:124-135.  The loop variable `s` runs over `(1..dim).rev()`. -/
def acProductSignLoop (dim a b : Nat) : Sign :=
  let transpositions := ((List.range' 1 (dim - 1)).reverse).foldl
    (fun t s => t + countOnes (ushl a s &&& b)) 0
  if transpositions &&& 1 = 0 then .Plus else .Minus

namespace ClAlg

/-- The table lookup `(AC_PRODUCT_SIGNS[dim][a] >> b) & 1` of src/algebra.rs:159 and 172; panics when `a` is out of
range of the table row.  The shift amount is taken modulo 64, as in a release build (see `ushl`). -/
def tableBit (dim a b : Nat) : Res Nat :=
  match (AC_PRODUCT_SIGNS[dim]?).bind (·[a]?) with
  | none => .error .panic
  | some w => .ok ((w >>> (b % 64)) &&& 1)

/-- `ClAlgebra::ac_product_sign`, src/algebra.rs:156-166. -/
def acProductSign (A : ClAlg) (a b : Nat) : Res Sign :=
  if A.dim ≤ 6 then do
    let bit ← tableBit A.dim a b
    return if bit = 0 then .Plus else .Minus
  else
    .ok (acProductSignLoop A.dim a b)

/-- `ClAlgebra::ac_negated_product_sign`, src/algebra.rs:168-183. -/
def acNegatedProductSign (A : ClAlg) (a b : Nat) : Res Sign :=
  if A.dim ≤ 6 then do
    let bit ← tableBit A.dim a b
    return if bit = 0 then .Minus else .Plus
  else
    match acProductSignLoop A.dim a b with
    | .Plus => .ok .Minus
    | .Minus => .ok .Plus
    | .Null => .error .panic

/-- `ClAlgebra::blade_wedge_product_sign`, src/algebra.rs:185-190. -/
def bladeWedgeProductSign (A : ClAlg) (a b : Nat) : Res Sign :=
  if a &&& b ≠ 0 then .ok .Null
  else A.acProductSign a b

/-- `ClAlgebra::blade_geo_product_sign`, src/algebra.rs:192-201. -/
def bladeGeoProductSign (A : ClAlg) (a b : Nat) : Res Sign :=
  if a &&& b &&& A.projMask ≠ 0 then .ok .Null
  else if countOnes (a &&& b &&& A.imagMask) % 2 = 0 then A.acProductSign a b
  else A.acNegatedProductSign a b

/-- `ClAlgebra::index_iter`, src/algebra.rs:203-205. -/
def indexIter (A : ClAlg) : List Nat := List.range (ushl 1 A.dim)

/-- `ClAlgebra::blade_label`, src/algebra.rs:141-147. -/
def bladeLabel (A : ClAlg) (idx : Nat) : String :=
  String.intercalate "^"
    ((((List.range A.dim).reverse).filter (fun i => idx &&& ushl 1 i ≠ 0)).map A.axisName)

/-- `ClAlgebra::blade_label_rev`, src/algebra.rs:149-154. -/
def bladeLabelRev (A : ClAlg) (idx : Nat) : String :=
  String.intercalate "^"
    (((List.range A.dim).filter (fun i => idx &&& ushl 1 i ≠ 0)).map A.axisName)

/-- `ClBasis::signature`, src/algebra.rs:84-94 (`signaturef`, 96-106, is the same with floats). -/
def signature (A : ClAlg) : List Int :=
  (List.range A.dim).map fun n =>
    if ushl 1 n &&& A.realMask ≠ 0 then 1
    else if ushl 1 n &&& A.imagMask ≠ 0 then -1
    else 0

end ClAlg

end TClifford
