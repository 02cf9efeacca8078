import Verif.Model.Dense
import Verif.Proofs.Declare
import Verif.Proofs.MV
import Mathlib.Data.Rat.Defs
import Mathlib.Algebra.Field.Rat
import Mathlib.Algebra.Ring.Int.Defs
/-
Concrete algebras and multivectors used to show that the hypotheses of the theorems can be met.
-/

namespace TClifford.Ex

/-- An iteration order that differs from the order of the entry list. -/
@[reducible] def revOrder {T : Type} : HashOrder T := ⟨List.reverse, List.reverse_perm⟩

/-- Signature `[+, -, 0]`. -/
def sigM : List Sym := [.plus, .minus, .null]

/-- `declare_algebra!(M, [+, -, 0])`. -/
def M : ClAlg := (declareAlgebra sigM []).get rfl

theorem M_decl : declareAlgebra sigM [] = some M := rfl

theorem M_wf : M.WF := declareAlgebra_wf M_decl

/-- Signature `[+,+,+]`. -/
def sigE : List Sym := [.plus, .plus, .plus]

/-- `declare_algebra!(E, [+, +, +], ["x", "y", "z"])`. -/
def E : ClAlg := (declareAlgebra sigE ["x", "y", "z"]).get rfl

theorem E_decl : declareAlgebra sigE ["x", "y", "z"] = some E := rfl

theorem E_wf : E.WF := declareAlgebra_wf E_decl

/-- A seven-dimensional algebra (no sign table) with all three kinds of generators. -/
def sig7 : List Sym := [.plus, .minus, .plus, .minus, .plus, .null, .null]

/-- `declare_algebra!(A7, [+, -, +, -, +, 0, 0])`. -/
def A7 : ClAlg := (declareAlgebra sig7 []).get rfl

theorem A7_decl : declareAlgebra sig7 [] = some A7 := rfl

theorem A7_wf : A7.WF := declareAlgebra_wf A7_decl

/-- A dense multivector of `M` with coefficients 1, 2, ..., 8. -/
def mA : MV M (ArrayStorage ℤ) := ⟨⟨3, ⟨8, fun i => i + 1⟩⟩⟩

/-- A dense multivector of `M` with coefficients 0, -1, 4, -9, ... . -/
def mB : MV M (ArrayStorage ℤ) := ⟨⟨3, ⟨8, fun i => if i % 2 = 0 then i * i else -(i * i)⟩⟩⟩

/-- A dense multivector of `M` with some zero coefficients. -/
def mC : MV M (ArrayStorage ℤ) := ⟨⟨3, ⟨8, fun i => if i < 3 then 0 else 7 - i⟩⟩⟩

theorem mA_valid : mA.Valid := ⟨by decide, rfl, rfl⟩
theorem mB_valid : mB.Valid := ⟨by decide, rfl, rfl⟩
theorem mC_valid : mC.Valid := ⟨by decide, rfl, rfl⟩

/-- A sparse multivector of `M`. -/
def sA : MV M (SparseStorage ℤ) := ⟨⟨3, 8, ⟨[(5, 2), (0, 3), (6, -1)]⟩⟩⟩

/-- A sparse multivector of `M`. -/
def sB : MV M (SparseStorage ℤ) := ⟨⟨3, 8, ⟨[(1, 4), (2, 3), (7, -5)]⟩⟩⟩

theorem sA_valid : @MV.Valid M (SparseStorage ℤ) ℤ _ _ _ _ (@SparseStorage.instCoeffStorage ℤ _ _ _ _ revOrder) (@SparseStorage.instLawfulStorage ℤ _ _ _ _ _ revOrder) sA := by
  refine ⟨by decide, rfl, rfl, by decide, ?_⟩
  decide

theorem sB_valid : @MV.Valid M (SparseStorage ℤ) ℤ _ _ _ _ (@SparseStorage.instCoeffStorage ℤ _ _ _ _ revOrder) (@SparseStorage.instLawfulStorage ℤ _ _ _ _ _ revOrder) sB := by
  refine ⟨by decide, rfl, rfl, by decide, ?_⟩
  decide

/-- A dense multivector of `A7`. -/
def a7A : MV A7 (ArrayStorage ℤ) := ⟨⟨7, ⟨128, fun i => 3 * i - 100⟩⟩⟩

/-- A dense multivector of `A7`. -/
def a7B : MV A7 (ArrayStorage ℤ) := ⟨⟨7, ⟨128, fun i => i * i - 50⟩⟩⟩

theorem a7A_valid : a7A.Valid := ⟨by decide, rfl, rfl⟩
theorem a7B_valid : a7B.Valid := ⟨by decide, rfl, rfl⟩

/-- A dense multivector of `E` over the rationals. -/
def eA : MV E (ArrayStorage ℚ) := ⟨⟨3, ⟨8, fun i => (i + 1) / 2⟩⟩⟩

/-- A dense multivector of `E` over the rationals. -/
def eB : MV E (ArrayStorage ℚ) := ⟨⟨3, ⟨8, fun i => 3 - i⟩⟩⟩

theorem eA_valid : eA.Valid := ⟨by decide, rfl, rfl⟩
theorem eB_valid : eB.Valid := ⟨by decide, rfl, rfl⟩

end TClifford.Ex
