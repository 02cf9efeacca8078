import Verif.Props.FFTRound
import Verif.Props.VdotRound
import Verif.Props.Tests
/-
C33 with rounding: the reverse of a product of transforms.
-/

namespace TClifford

open MV

/-- The reverse of a matrix of two rows. -/
theorem iflO_one {K : Type} [Zero K] [Add K] [Sub K] [Neg K] [SignLaws K] (M : Nat → Nat → K) {i j : Nat} (hi : i < 2) (hj : j < 2) :
    iflO 1 M i j = M (1 - i) (1 - j) := by
  rw [iflO_succ]
  interval_cases i <;> interval_cases j <;> rfl

theorem mmO_one {X Y : Nat → Nat → Cx F64} (i j : Nat) : mmO 1 X Y i j = X i 0 * Y 0 j + X i 1 * Y 1 j := by
  show (0 + X i 0 * Y 0 j) + X i 1 * Y 1 j = _
  rw [SumLaws.zero_add]

theorem mmO_nil {X Y : Nat → Nat → Cx F64} (i j : Nat) : mmO 0 X Y i j = X i 0 * Y 0 j := SumLaws.zero_add _

/-- **C33 with rounding.** With at most two generators, none of them null, `(r * s).rev()` and `s.rev() * r.rev()` have the same entries,
for all arrays of the right shape: the two products of every sum only change places. -/
theorem C33_rounded_array_rev {A : ClAlg} (hA : A.WF) (h2 : A.dim ≤ 2) (hp : A.projDim = 0) {r s : FFTRepr A (Cx F64)}
    (hr : r.arr.dims = (2 ^ A.projDim, 2 ^ ((A.realDim + A.imagDim + 1) / 2), 2 ^ ((A.realDim + A.imagDim + 1) / 2)))
    (hs : s.arr.dims = (2 ^ A.projDim, 2 ^ ((A.realDim + A.imagDim + 1) / 2), 2 ^ ((A.realDim + A.imagDim + 1) / 2))) :
    Same3 (do let p ← r.mul s; let q ← p.rev; return q.intoArray3)
      (do let x ← s.rev; let y ← r.rev; let q ← x.mul y; return q.intoArray3) := by
  have hd : A.dim < 63 := by omega
  have hr' : r.arr.Is A.projDim A.half := by
    unfold Arr3.dims at hr; simp only [Prod.mk.injEq] at hr; exact hr
  have hs' : s.arr.Is A.projDim A.half := by
    unfold Arr3.dims at hs; simp only [Prod.mk.injEq] at hs; exact hs
  obtain ⟨p, e1, p1, p2⟩ := mul_ops SignLaws.neg_neg hr' hs'
  obtain ⟨q, e2, q1, q2⟩ := rev_ops hA hd p1
  obtain ⟨x, e3, x1, x2⟩ := rev_ops hA hd hs'
  obtain ⟨y, e4, y1, y2⟩ := rev_ops hA hd hr'
  obtain ⟨z, e5, z1, z2⟩ := mul_ops SignLaws.neg_neg x1 y1
  rw [e1, e3]
  simp only [bind, Except.bind, e2, e4, e5]
  refine ⟨_, _, rfl, rfl, same3_of q1 z1 (X := q.arr.get) (fun w _ i _ j _ => rfl) fun w hw i hi j hj => ?_⟩
  have hw0 : w = 0 := by rw [hp] at hw; omega
  subst hw0
  show z.arr.get 0 i j = q.arr.get 0 i j
  rw [z2 0 hw i hi j hj, q2 0 hw i hi j hj]
  beta_reduce
  have hn : A.half ≤ 1 := by
    have : A.nn + A.projDim = A.dim := hA.dims
    unfold ClAlg.half; omega
  have rv : ∀ M : Nat → Nat → Cx F64, ∀ i j, revO A.projDim A.half 0 M i j = iflO A.half (fun i j => M j i) i j := fun M i j => by
    rw [hp]; rfl
  have g0 : 0 < 2 ^ A.projDim := Nat.two_pow_pos _
  rw [rv]
  have hW : ∀ X Y : Nat → Nat → Nat → Cx F64, WO A.half A.projDim X Y 0 = mmO A.half (X 0) (Y 0) := fun X Y => by rw [hp]; rfl
  rw [hW]
  have p2' := p2 0 g0
  have x2' := x2 0 g0
  have y2' := y2 0 g0
  rw [hW] at p2'
  simp only [MEq, rv] at x2' y2' p2'
  generalize A.half = m at *
  interval_cases m
  · have hi0 : i = 0 := by omega
    have hj0 : j = 0 := by omega
    subst hi0 hj0
    show _ = p.arr.get 0 0 0
    rw [p2' 0 hi 0 hi, mmO_nil, mmO_nil, x2' 0 hi 0 hi, y2' 0 hi 0 hi]
    exact Cx.mul_comm' _ _
  · have b0 : 0 < 2 ^ 1 := by norm_num
    have b1 : 1 < 2 ^ 1 := by norm_num
    have ci : 1 - i < 2 ^ 1 := by omega
    have cj : 1 - j < 2 ^ 1 := by omega
    rw [iflO_one _ hi hj, p2' _ cj _ ci, mmO_one, mmO_one, x2' i hi 0 b0, x2' i hi 1 b1, y2' 0 b0 j hj, y2' 1 b1 j hj,
      iflO_one _ hi b0, iflO_one _ hi b1, iflO_one _ b0 hj, iflO_one _ b1 hj, SignLaws.add_comm]
    exact congrArg₂ (· + ·) (Cx.mul_comm' _ _) (Cx.mul_comm' _ _)

namespace Ex
open Tests

/-- Two transforms of the algebra of four generators: a row `1, 2^53, -2^53, 0` and a column of ones. -/
def rRow : FFTRepr Cl22 (TClifford.Cx F64) := ⟨⟨1, 4, 4, fun _ i j => if i = 0 then
  (if j = 0 then 1 else if j = 1 then ⟨Flt.ofRat (2 ^ 53), 0⟩ else if j = 2 then ⟨-Flt.ofRat (2 ^ 53), 0⟩ else 0) else 0⟩⟩

def rCol : FFTRepr Cl22 (TClifford.Cx F64) := ⟨⟨1, 4, 4, fun _ _ j => if j = 0 then 1 else 0⟩⟩

/-- `declare_algebra!(N2, [+, -])`. -/
def N2 : ClAlg := (declareAlgebra [.plus, .minus] []).get rfl

theorem N2_wf : N2.WF := declareAlgebra_wf (show declareAlgebra [.plus, .minus] [] = some N2 from rfl)

/-- Transforms of the algebra of two generators. -/
def rTwo (x : ℚ) : FFTRepr N2 (TClifford.Cx F64) := ⟨⟨1, 2, 2, fun _ i j => ⟨Flt.ofRat (x + i), Flt.ofRat (x * j)⟩⟩⟩

example : Same3 (do let p ← (rTwo (1 / 3)).mul (rTwo (1 / 7)); let q ← p.rev; return q.intoArray3)
    (do let x ← (rTwo (1 / 7)).rev; let y ← (rTwo (1 / 3)).rev; let q ← x.mul y; return q.intoArray3) :=
  C33_rounded_array_rev N2_wf (by decide) (by decide) (by decide) (by decide)

end Ex

open Ex Tests in
/-- With four generators this fails: the four products of a sum are added in the opposite order. -/
theorem C33_rounded_array_rev_false : (do
      let p ← rRow.mul rCol
      let q ← p.rev
      let x ← rCol.rev
      let y ← rRow.rev
      let z ← x.mul y
      return q.beq z : Res Bool) = .ok false := by decide +kernel

end TClifford
