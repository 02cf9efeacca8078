import Verif.Props.FFTFloat
/-
C41 with rounding: complexification multiplies by powers of `i`, which is exact.
-/

set_option linter.unusedSectionVars false

namespace TClifford

open MV

/-- The conversions lose nothing (on the values satisfying `Q`), not even after a multiplication by a power of `i` and one by its inverse. -/
class TurnConv (T : Type) [Zero T] [IntoComplex T (Cx F64)] [FromComplex T (Cx F64)] (Q : T → Prop) : Prop where
  turn : ∀ {x : T}, Q x → ∀ n, (FromComplex.from_ (iPow n * (iPowNeg n * (IntoComplex.into x : Cx F64))) : T) = x
  into_zero : (IntoComplex.into (0 : T) : Cx F64) = 0
  from_zero : (FromComplex.from_ (0 : Cx F64) : T) = 0

namespace Turn

theorem inj {v w : Cx F64} (hv : v.Fin) (hw : w.Fin) (h : v.val = w.val) : v = w := by
  refine Cx.ext' (FloatModel.re_inj hv.1 hw.1 ?_) (FloatModel.re_inj hv.2 hw.2 ?_)
  · exact congrArg Complex.re h
  · exact congrArg Complex.im h

theorem turn {v : Cx F64} (h : v.Fin) (n : Nat) : iPow n * (iPowNeg n * v) = v := by
  rw [Cx.iPowNeg_eq]
  obtain ⟨h1, h2⟩ := Cx.iPow_mul_ok h (3 * n)
  obtain ⟨h3, h4⟩ := Cx.iPow_mul_ok h1 n
  refine inj h3 h ?_
  rw [h4, h2, ← Cx.iPowNeg_eq, ← mul_assoc, iPow_mul_iPowNeg, one_mul]

theorem turn' {v : Cx F64} (h : v.Fin) (n : Nat) : iPowNeg n * (iPow n * v) = v := by
  rw [Cx.iPowNeg_eq]
  obtain ⟨h1, h2⟩ := Cx.iPow_mul_ok h n
  obtain ⟨h3, h4⟩ := Cx.iPow_mul_ok h1 (3 * n)
  refine inj h3 h ?_
  rw [h4, h2, ← Cx.iPowNeg_eq, ← mul_assoc, iPowNeg_mul_iPow, one_mul]

theorem turn_zero (n : Nat) : (iPow n * 0 : Cx F64) = 0 := by
  obtain ⟨h1, h2⟩ := Cx.iPow_mul_ok (Cx.zero_Fin (F := F64)).1 n
  exact inj h1 Cx.zero_Fin.1 (by rw [h2, Cx.zero_Fin.2, mul_zero])

theorem turn_zero' (n : Nat) : (iPowNeg n * 0 : Cx F64) = 0 := by rw [Cx.iPowNeg_eq]; exact turn_zero _

end Turn

/-! ### The four coefficient types -/

open Flt in
theorem cast_cast {x : F32} (h : Flt.Fin x) : (cast (cast x : F64) : F32) = x := by
  obtain ⟨x, rfl⟩ := cases_fin h
  obtain ⟨h1, h2⟩ := cast_f64 (fin_num x)
  obtain ⟨y, hy⟩ := cases_fin h1
  rw [hy] at h2 ⊢
  show (ofRat y.1 : F32) = _
  have e : y.1 = x.1 := h2
  rw [e]
  exact ofRat_repr x

open Flt in
theorem nonFinite_left (x : F64) : (nonFinite * x : F64) = nonFinite ∧ (x * nonFinite : F64) = nonFinite ∧ (nonFinite - x : F64) = nonFinite ∧
    (x - nonFinite : F64) = nonFinite ∧ (nonFinite + x : F64) = nonFinite ∧ (x + nonFinite : F64) = nonFinite := by
  cases x <;> exact ⟨rfl, rfl, rfl, rfl, rfl, rfl⟩

/-- A product with a number whose real part is not finite. -/
theorem mul_nf (c : Cx F64) (y : F64) : c * ⟨.nonFinite, y⟩ = ⟨.nonFinite, .nonFinite⟩ := by
  refine Cx.ext' ?_ ?_
  · show c.re * .nonFinite - c.im * y = _
    rw [(nonFinite_left _).2.1]; exact (nonFinite_left _).2.2.1
  · show c.re * y + c.im * .nonFinite = _
    rw [(nonFinite_left c.im).2.1]; exact (nonFinite_left _).2.2.2.2.2

/-- `f64`: infinities and NaNs included. -/
instance : TurnConv F64 (fun _ => True) where
  turn {x} _ n := by
    show (iPow n * (iPowNeg n * (⟨x, 0⟩ : Cx F64))).re = x
    match x with
    | .nonFinite => rw [mul_nf, mul_nf]
    | .num x => rw [Turn.turn ⟨Flt.fin_num x, FloatModel.fin_zero⟩]
  into_zero := rfl
  from_zero := rfl

/-- `f32`: infinities and NaNs included. -/
instance : TurnConv F32 (fun _ => True) where
  turn {x} _ n := by
    show ((iPow n * (iPowNeg n * (⟨x.cast, 0⟩ : Cx F64))).re.cast : F32) = x
    match x with
    | .nonFinite =>
      show ((iPow n * (iPowNeg n * (⟨.nonFinite, 0⟩ : Cx F64))).re.cast : F32) = _
      rw [mul_nf, mul_nf]; rfl
    | .num x => rw [Turn.turn ⟨(Flt.cast_f64 (Flt.fin_num x)).1, FloatModel.fin_zero⟩]; exact cast_cast (Flt.fin_num x)
  into_zero := by decide +kernel
  from_zero := by decide +kernel

/-- `Complex64`. -/
instance : TurnConv (Cx F64) Cx.Fin where
  turn h n := Turn.turn h n
  into_zero := rfl
  from_zero := rfl

/-- `Complex32`. -/
instance : TurnConv (Cx F32) Cx.Fin where
  turn {x} h n := by
    show (⟨(iPow n * (iPowNeg n * (⟨x.re.cast, x.im.cast⟩ : Cx F64))).re.cast, (iPow n * (iPowNeg n * (⟨x.re.cast, x.im.cast⟩ : Cx F64))).im.cast⟩ : Cx F32) = x
    rw [Turn.turn ⟨(Flt.cast_f64 h.1).1, (Flt.cast_f64 h.2).1⟩]
    exact Cx.ext' (cast_cast h.1) (cast_cast h.2)
  into_zero := by decide +kernel
  from_zero := by decide +kernel

section
variable {A : ClAlg} {T : Type} [Zero T] [One T] [Add T] [Sub T] [Neg T] [Mul T] [DecidableEq T] [IntoComplex T (Cx F64)] [FromComplex T (Cx F64)]

/-- **C41.** `a.complexify().decomplexify() == a` exactly with `f32`, `f64`, `Complex32` and `Complex64` coefficients (finite ones, in the complex case), for all storages. -/
theorem C41_rounded {Q : T → Prop} [TurnConv T Q] {S S' : Type} [CoeffStorage S T] [LawfulStorage S T] [CoeffStorage S' (Cx F64)] [LawfulStorage S' (Cx F64)]
    {a : MV A S} (ha : a.Valid) (hQ : ∀ i < 2 ^ A.dim, Q (a.val i)) (h' : LawfulStorage.Supp (S := S') (T := Cx F64) A.dim) :
    (do let c ← (a.complexify : Res (MV A.complexification S')); (c.decomplexify : Res (MV A S))) ≈ᵣ .ok a := by
  refine Agree.of_denotes ((complexify_ops (K := Cx F64) (fun n => ?_) ha h').decomplexify_ops (fun n => ?_) ha.supp) (.of_valid ha) fun k hk => ?_
  · rw [TurnConv.into_zero (Q := Q), Turn.turn_zero']
  · rw [Turn.turn_zero, TurnConv.from_zero (Q := Q)]
  · exact TurnConv.turn (hQ k hk) _

/-- **C41.** With finite `Complex64` coefficients also `c.decomplexify().complexify() == c` exactly. -/
theorem C41_rounded_back {S S' : Type} [CoeffStorage S (Cx F64)] [LawfulStorage S (Cx F64)] [CoeffStorage S' (Cx F64)] [LawfulStorage S' (Cx F64)]
    {c : MV A.complexification S} (hc : c.Valid) (hF : ∀ i < 2 ^ A.dim, (c.val i).Fin) (h' : LawfulStorage.Supp (S := S') (T := Cx F64) A.dim) :
    (do let a ← (c.decomplexify : Res (MV A S')); (a.complexify : Res (MV A.complexification S))) ≈ᵣ .ok c := by
  refine Agree.of_denotes ((MV.decomplexify_ops (T := Cx F64) (fun n => Turn.turn_zero n) hc h').bind fun u hu hv =>
    (complexify_ops (K := Cx F64) (fun n => Turn.turn_zero' n) hu hc.supp).congr fun i hi => cx_congr (hv i hi)) (.of_valid hc) fun k hk => ?_
  exact Turn.turn' (hF k hk) _

end

/-! ### Examples -/

namespace Ex

/-- The algebra of `dc_test`, src/complexification.rs:221. -/
def DC : ClAlg := (declareAlgebra [.plus, .minus, .plus, .minus, .plus, .plus, .null, .null, .null] []).get rfl

/-- The multivector `a` of `dc_test`: the sum of the generators; `b`: the sum of the blades of grade 2. -/
def dcG (g : Nat) : MV DC (ArrayStorage F64) := ⟨⟨9, ⟨512, fun i => if countOnes i = g then 1 else 0⟩⟩⟩

theorem dcG_valid (g : Nat) : (dcG g).Valid := ⟨by decide, rfl, rfl⟩

end Ex

/-- **C87.** `dc_test`, src/complexification.rs:219-240. -/
theorem C87_dc : ∀ g : Nat, (do let c ← ((Ex.dcG g).complexify : Res (MV Ex.DC.complexification (ArrayStorage (Cx F64)))); (c.decomplexify : Res (MV Ex.DC (ArrayStorage F64)))) ≈ᵣ
    .ok (Ex.dcG g) := fun g => C41_rounded (Q := fun _ => True) (Ex.dcG_valid g) (fun _ _ => trivial) (by show (9 : Nat) ≤ 63; omega)

/-- The coefficient of the generator `e1`, whose square is `-1`, becomes `-i`. -/
example : (do let c ← ((Ex.dcG 1).complexify : Res (MV Ex.DC.complexification (ArrayStorage (Cx F64)))); return (c.coeffs.array.get 1, c.coeffs.array.get 2)) =
    (.ok (1, -HasI.I) : Res (Cx F64 × Cx F64)) := by decide +kernel

example [HashOrder F32] [HashOrder (Cx F64)] (a : MV Ex.DC (SparseStorage F32)) (ha : a.Valid) :=
  C41_rounded (Q := fun _ => True) (S' := SparseStorage (Cx F64)) ha (fun _ _ => trivial) (by simp [LawfulStorage.Supp]; decide)

/-- All coefficients `1/3 - 3 i` (rounded). -/
def Ex.dcC : MV Ex.DC.complexification (ArrayStorage (Cx F64)) := ⟨⟨9, ⟨512, fun _ => ⟨1 / (1 + 1 + 1), -(1 + 1 + 1)⟩⟩⟩⟩

theorem Ex.dcC_valid : Ex.dcC.Valid := ⟨by decide, rfl, rfl⟩

example : (do let a ← (Ex.dcC.decomplexify : Res (MV Ex.DC (ArrayStorage (Cx F64)))); (a.complexify : Res (MV Ex.DC.complexification (ArrayStorage (Cx F64))))) ≈ᵣ .ok Ex.dcC :=
  C41_rounded_back Ex.dcC_valid (fun i hi => by
    rw [show Ex.dcC.val i = ⟨1 / (1 + 1 + 1), -(1 + 1 + 1)⟩ from if_pos hi]
    exact ⟨show (1 / (1 + 1 + 1) : F64) ≠ .nonFinite by decide +kernel, show (-(1 + 1 + 1) : F64) ≠ .nonFinite by decide +kernel⟩) (by show (9 : Nat) ≤ 63; omega)

end TClifford
