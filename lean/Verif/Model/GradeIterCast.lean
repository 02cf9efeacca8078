import Verif.Model.IndexUtils
/-
`GradeIter` of src/index_utils.rs with the machine arithmetic of `isize` and the casts between `usize` and `isize`, for any weight
and both builds.  Verif/Model/IndexUtils.lean has the same iterator with exact integers; Verif/Proofs/GradeIterCast.lean
proves that the two agree for weights below `2^63`.
-/

namespace TClifford

/-- A result of `isize` arithmetic: a debug build (`chk`) panics on overflow, a release build wraps around. -/
def isz (chk : Bool) (x : Int) : Res Int :=
  if -2 ^ 63 ≤ x ∧ x < 2 ^ 63 then .ok x else if chk then .error .panic else .ok (x.bmod (2 ^ 64))

/-- `n as isize` for a `usize`. -/
def asIsize (n : Nat) : Int := (n : Int).bmod (2 ^ 64)

/-- `x as usize` for an `isize`. -/
def asUsize (x : Int) : Nat := (x % 2 ^ 64).toNat

/-- `1 << pos` for an `isize` `pos`. -/
def shlI (chk : Bool) (pos : Int) : Res Nat :=
  if 0 ≤ pos ∧ pos < 64 then .ok (ushl 1 pos.toNat) else if chk then .error .panic else .ok (ushl 1 (pos % 64).toNat)

/-- The struct `GradeIter`, src/index_utils.rs:3-10; `leaf` is one with `subiter: None`. -/
inductive GIter
  | leaf (weight : Nat) (pos : Int)
  | node (weight : Nat) (pos : Int) (subiter : GIter)

namespace GIter

/-- The field `weight`. -/
def weight : GIter → Nat
  | leaf w _ => w
  | node w _ _ => w

/-- The field `pos`. -/
def pos : GIter → Int
  | leaf _ p => p
  | node _ p _ => p

/-- `self.pos = p` -/
def setPos : GIter → Int → GIter
  | leaf w _, p => leaf w p
  | node w _ s, p => node w p s

/-- `grade_iter(len, weight)`, src/index_utils.rs:58-64. -/
def new (chk : Bool) (len weight : Nat) : Res GIter := do
  return leaf weight (← isz chk (asIsize len - 1))

/-- `refresh`, src/index_utils.rs:14-20. -/
def refresh (chk : Bool) : GIter → Int → Res GIter
  | leaf w _, len => do
    let p ← isz chk (len - 1)
    return leaf w p
  | node w _ s, len => do
    let p ← isz chk (len - 1)
    let s ← s.refresh chk p
    return node w p s

/-- Lines 37-40 of src/index_utils.rs: the sub-iterator, created if there is none. -/
def getSub (chk : Bool) : GIter → Res GIter
  | leaf w p => new chk (asUsize p) (w - 1)
  | node _ _ s => .ok s

/-- Lines 47-48 of src/index_utils.rs. -/
def shift (chk : Bool) (w : Nat) (pos : Int) (sub : GIter) : Res GIter := do
  let p ← isz chk (pos - 1)
  let s ← sub.refresh chk p
  return node w p s

/-- `next`, src/index_utils.rs:26-52.  `fuel` bounds the depth of nested calls of `next`; `none` = the call has not returned
when the fuel is used up. -/
def next (chk : Bool) : (fuel : Nat) → GIter → Option (Res (Option Nat × GIter))
  | 0, _ => none
  | fuel + 1, it =>
    match isz chk (it.pos + 1) with
    | .error e => some (.error e)
    | .ok p1 =>
      if p1 < asIsize it.weight then some (.ok (none, it))
      else if it.weight = 0 then some (.ok (some 0, it.setPos (-2)))
      else
        match it.getSub chk with
        | .error e => some (.error e)
        | .ok sub =>
          match next chk fuel sub with
          | none => none
          | some (.error e) => some (.error e)
          | some (.ok (some subindex, sub)) =>
            match shlI chk it.pos with
            | .error e => some (.error e)
            | .ok b => some (.ok (some (b ||| subindex), node it.weight it.pos sub))
          | some (.ok (none, sub)) =>
            match shift chk it.weight it.pos sub with
            | .error e => some (.error e)
            | .ok it => next chk fuel it

end GIter

end TClifford
