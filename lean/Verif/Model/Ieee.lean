import Verif.Model.Cx
/-
The floating point types of the crate with all their values: IEEE 754 binary formats (`f32`, `f64`) with the two zeros, the
infinities and NaN (one NaN: the crate never looks at its bits).  Verif/Model/Float.lean has one zero and one value for all
that is not finite; `Ieee.toFlt` below forgets the difference, and Verif/Proofs/Ieee.lean shows that addition, subtraction,
multiplication and negation commute with it, and division whenever the divisor is finite.
-/

namespace TClifford

/-- Values of a binary floating point format. -/
inductive Ieee (f : Fmt) : Type
  | num (x : { x : ℚ // f.Repr x })
  | negZero
  | inf (neg : Bool)
  | nan
  deriving DecidableEq

namespace Ieee
variable {f : Fmt}

/-- The sign bit (of numbers and infinities). -/
def signBit : Ieee f → Bool
  | .num x => decide (x.1 < 0)
  | .negZero => true
  | .inf s => s
  | .nan => false

/-- Zero with a sign. -/
def zero (neg : Bool) : Ieee f := if neg then .negZero else .num ⟨0, by
  unfold Fmt.Repr Fmt.rnd Fmt.maxFin rne
  have h1 := f.hp
  have : (1 : ℚ) ≤ 2 ^ f.p := one_le_pow₀ (by norm_num)
  constructor
  · simp
  · rw [abs_zero]
    exact mul_nonneg (by linarith) (by positivity)⟩

/-- The result of an operation on finite numbers with exact result `x`; a result that is or rounds to zero gets the sign `s`. -/
def round (s : Bool) (x : ℚ) : Ieee f :=
  if f.rnd x = 0 then zero s
  else if h : f.Repr (f.rnd x) then .num ⟨f.rnd x, h⟩ else .inf (decide (x < 0))

instance : Zero (Ieee f) := ⟨zero false⟩
instance : One (Ieee f) := ⟨round false 1⟩

/-- The value of a finite number, `none` for infinities and NaN. -/
def val? : Ieee f → Option ℚ
  | .num x => some x.1
  | .negZero => some 0
  | .inf _ => none
  | .nan => none

/-- `-x` -/
def neg : Ieee f → Ieee f
  | .num x => round true (-x.1)
  | .negZero => zero false
  | .inf s => .inf (!s)
  | .nan => .nan

/-- `x + y`; a sum that is zero is negative only if both summands are. -/
def add (x y : Ieee f) : Ieee f :=
  match x, y with
  | .nan, _ => .nan
  | _, .nan => .nan
  | .inf s, .inf t => if s = t then .inf s else .nan
  | .inf s, _ => .inf s
  | _, .inf t => .inf t
  | x, y => round (x.signBit && y.signBit) (x.val?.getD 0 + y.val?.getD 0)

/-- `x * y` -/
def mul (x y : Ieee f) : Ieee f :=
  let s := xor x.signBit y.signBit
  match x.val?, y.val? with
  | some a, some b => round s (a * b)
  | some a, none => if y = .nan ∨ a = 0 then .nan else .inf s
  | none, some b => if x = .nan ∨ b = 0 then .nan else .inf s
  | none, none => if x = .nan ∨ y = .nan then .nan else .inf s

/-- `x / y` -/
def div (x y : Ieee f) : Ieee f :=
  let s := xor x.signBit y.signBit
  match x.val?, y.val? with
  | some a, some b => if b = 0 then (if a = 0 then .nan else .inf s) else round s (a / b)
  | some _, none => if y = .nan then .nan else zero s
  | none, some _ => if x = .nan then .nan else .inf s
  | none, none => .nan

instance : Neg (Ieee f) := ⟨neg⟩
instance : Add (Ieee f) := ⟨add⟩
instance : Sub (Ieee f) := ⟨fun x y => x + -y⟩
instance : Mul (Ieee f) := ⟨mul⟩
instance : Div (Ieee f) := ⟨div⟩

/-- `x == y`: the zeros are equal, NaN is not equal to itself. -/
def eq (x y : Ieee f) : Bool :=
  match x.val?, y.val? with
  | some a, some b => decide (a = b)
  | none, none => decide (x = y ∧ x ≠ .nan)
  | _, _ => false

/-- `x > y` -/
def gt (x y : Ieee f) : Bool :=
  match x, y with
  | .nan, _ => false
  | _, .nan => false
  | .inf s, .inf t => !s && t
  | .inf s, _ => !s
  | _, .inf t => t
  | x, y => decide (y.val?.getD 0 < x.val?.getD 0)

/-- `f64::abs` -/
def abs : Ieee f → Ieee f
  | .nan => .nan
  | x => if x.signBit then -x else x

/-- One zero, and one value for all that is not finite. -/
def toFlt : Ieee f → Flt f
  | .num x => .num x
  | .negZero => 0
  | .inf _ => .nonFinite
  | .nan => .nonFinite

end Ieee

end TClifford
