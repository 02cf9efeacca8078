import Verif.Model.Basic
/-
Models src/index_utils.rs: the resumable recursive iterator over all integers of a given bit weight.
-/

namespace TClifford

/-- State of `GradeIter`, src/index_utils.rs:3-10 (file lines), for iterators of weight `w`.

The Rust struct is `{ weight, pos, subiter : Option<Box<GradeIter>> }`.  Sub-iterators are only ever created by
`grade_iter(_, self.weight - 1)` (line 39) and `weight` is never modified, so the weight is a type index here;
an iterator of weight 0 never creates a sub-iterator (line 31-35 returns first). -/
def GradeIter : Nat → Type
  | 0 => Int
  | w + 1 => Int × Option (GradeIter w)

/-- `grade_iter(len, weight)`, src/index_utils.rs:58-64.  `len` is an `Int` because `refresh` computes with `isize`. -/
def gradeIter (w : Nat) (len : Int) : GradeIter w :=
  match w with
  | 0 => len - 1
  | _ + 1 => (len - 1, none)

/-- `GradeIter::refresh`, src/index_utils.rs:14-20. -/
def GradeIter.refresh : (w : Nat) → GradeIter w → Int → GradeIter w
  | 0, _, len => len - 1
  | _ + 1, (_, none), len => (len - 1, none)
  | w + 1, (_, some sub), len => (len - 1, some (GradeIter.refresh w sub (len - 1)))

/-- `GradeIter::next`, src/index_utils.rs:26-52. -/
def GradeIter.next : (w : Nat) → GradeIter w → Option Nat × GradeIter w
  | 0, pos =>
    let pos : Int := pos
    -- weight == 0: return 0 and ensure that the next iteration will return None
    if pos + 1 < 0 then (none, pos) else (some 0, (-2 : Int))
  | w + 1, (pos, subiter) =>
    if _h : pos + 1 < (w + 1 : Int) then (none, (pos, subiter))
    else
      -- if we just started the iteration subiter is None, create a new one
      let sub := subiter.getD (gradeIter w pos)
      match GradeIter.next w sub with
      | (some subindex, sub') => (some (ushl 1 pos.toNat ||| subindex), (pos, some sub'))
      | (none, sub') =>
        -- subiter finished, shift the highest bit position
        GradeIter.next (w + 1) (pos - 1, some (GradeIter.refresh w sub' (pos - 1)))
  termination_by w it => (w, match w, it with | 0, _ => 0 | _ + 1, (pos, _) => (pos + 1).toNat)
  decreasing_by
    · exact Prod.Lex.left _ _ (Nat.lt_succ_self w)
    · apply Prod.Lex.right
      omega

/-- Consuming the iterator: call `next` until it returns `None`, at most `fuel` times. -/
def GradeIter.collect : (fuel : Nat) → (w : Nat) → GradeIter w → List Nat
  | 0, _, _ => []
  | fuel + 1, w, it =>
    match GradeIter.next w it with
    | (some x, it') => x :: GradeIter.collect fuel w it'
    | (none, _) => []

/-- All values produced by `grade_iter(len, weight)`; at most `2^len` distinct values exist below `2^len`, and
`Verif/Props` proves that the iterator is exhausted within this fuel. -/
def gradeIterList (len weight : Nat) : List Nat :=
  GradeIter.collect (2 ^ len + 1) weight (gradeIter weight (len : Int))

end TClifford
