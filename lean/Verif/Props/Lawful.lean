import Verif.Proofs.Wedge
/-
The theorems about all storages are stated for a storage `S` with `[LawfulStorage S T]` (and `[LawfulWedge A S]` when they use
`wedge` or `meet`).  Here: the three storages of the library are lawful, for the dimensions they are meant for.  Every claim of
MANIFEST.json whose theorems are stated in this way lists these theorems too.
-/

namespace TClifford

variable (T : Type)

/-- The dense, the sparse (with any iteration order of the hash map) and the quaternion storage are lawful.  Dense and sparse
storage support up to 63 generators, quaternion storage exactly two. -/
theorem storages_lawful [Zero T] [Add T] [Sub T] [CoeffLaws T] [DecidableEq T] :
    (∃ h : LawfulStorage (ArrayStorage T) T, ∀ d, h.Supp d ↔ d ≤ 63) ∧
    (∀ [HashOrder T], ∃ h : LawfulStorage (SparseStorage T) T, ∀ d, h.Supp d ↔ d ≤ 63) ∧
    (∃ h : LawfulStorage (QStorage T) T, ∀ d, h.Supp d ↔ d = 2) :=
  ⟨⟨inferInstance, fun _ => Iff.rfl⟩, ⟨inferInstance, fun _ => Iff.rfl⟩, ⟨inferInstance, fun _ => Iff.rfl⟩⟩

/-- `wedge` and `meet` of dense and of sparse multivectors are lawful. -/
theorem wedges_lawful [Ring T] [DecidableEq T] (A : ClAlg) :
    LawfulWedge A (ArrayStorage T) ∧ (∀ [HashOrder T], LawfulWedge A (SparseStorage T)) :=
  ⟨inferInstance, inferInstance⟩

end TClifford
