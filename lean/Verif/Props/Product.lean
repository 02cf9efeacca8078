import Verif.Props.Examples
import Verif.Proofs.Lift
import Verif.Proofs.Words
/-
Geometric product and vector space structure: C04, C05, C06, C15, C16, C17, C52.

`x ≈ᵣ y` says that both computations return a (valid) multivector and that the library's `==` answers `true`.
`Valid` is the representation invariant of the storage; every operation of the library preserves it (C20).
-/

set_option linter.unusedSectionVars false

namespace TClifford

open MV

section ring
variable {T : Type} [Ring T] [DecidableEq T] {S : Type} [CoeffStorage S T] [LawfulStorage S T] {A : ClAlg}

/-- **C04.** `(a * b) * c == a * (b * c)`. -/
theorem C04_mul_assoc (hA : A.WF) {a b c : MV A S} (ha : a.Valid) (hb : b.Valid) (hc : c.Valid) :
    (do let ab ← a.naiveMulImpl b; ab.naiveMulImpl c) ≈ᵣ (do let bc ← b.naiveMulImpl c; a.naiveMulImpl bc) :=
  Agree.of_denotes ((mul_denotes hA ha hb).mul hA (.of_valid hc)) (Denotes.mul hA (.of_valid ha) (mul_denotes hA hb hc))
    (fun k _ => geo_assoc _ _ _ _ _ k)

example : (do let ab ← Ex.mA.naiveMulImpl Ex.mB; ab.naiveMulImpl Ex.mC) ≈ᵣ
    (do let bc ← Ex.mB.naiveMulImpl Ex.mC; Ex.mA.naiveMulImpl bc) :=
  C04_mul_assoc Ex.M_wf Ex.mA_valid Ex.mB_valid Ex.mC_valid

/-- **C05.** `(a + b) * c == a*c + b*c`. -/
theorem C05_add_mul (hA : A.WF) {a b c : MV A S} (ha : a.Valid) (hb : b.Valid) (hc : c.Valid) :
    (do let s ← a.add b; s.naiveMulImpl c) ≈ᵣ (do let x ← a.naiveMulImpl c; let y ← b.naiveMulImpl c; x.add y) :=
  Agree.of_denotes ((add_denotes ha hb).mul hA (.of_valid hc)) ((mul_denotes hA ha hc).add (mul_denotes hA hb hc))
    (fun k _ => geo_add_left _ _ _ _ _ k)

/-- **C05.** `a * (b + c) == a*b + a*c`. -/
theorem C05_mul_add (hA : A.WF) {a b c : MV A S} (ha : a.Valid) (hb : b.Valid) (hc : c.Valid) :
    (do let s ← b.add c; a.naiveMulImpl s) ≈ᵣ (do let x ← a.naiveMulImpl b; let y ← a.naiveMulImpl c; x.add y) :=
  Agree.of_denotes (Denotes.mul hA (.of_valid ha) (add_denotes hb hc)) ((mul_denotes hA ha hb).add (mul_denotes hA ha hc))
    (fun k _ => geo_add_right _ _ _ _ _ k)

example := C05_mul_add Ex.M_wf Ex.mA_valid Ex.mB_valid Ex.mC_valid

/-- **C05.** `one() * a == a`. -/
theorem C05_one_mul (hA : A.WF) {a : MV A S} (ha : a.Valid) :
    (do let o ← one (T := T) (A := A) (S := S); o.naiveMulImpl a) ≈ᵣ .ok a :=
  Agree.of_denotes ((one_denotes ha.supp).mul hA (.of_valid ha)) (.of_valid ha) (fun k _ => geo_one_left _ _ _ k)

example := C05_one_mul Ex.M_wf Ex.mA_valid

/-- **C05.** `a * one() == a`. -/
theorem C05_mul_one (hA : A.WF) {a : MV A S} (ha : a.Valid) :
    (do let o ← one (T := T) (A := A) (S := S); a.naiveMulImpl o) ≈ᵣ .ok a :=
  Agree.of_denotes (Denotes.mul hA (.of_valid ha) (one_denotes ha.supp)) (.of_valid ha)
    (fun _ hk => geo_one_right _ _ _ hk)

example := C05_mul_one Ex.A7_wf Ex.a7A_valid

/-- **C05.** `zero() * a == zero()` and `a * zero() == zero()`. -/
theorem C05_zero_mul (hA : A.WF) {a : MV A S} (ha : a.Valid) :
    (do let z ← MV.default (T := T) (A := A) (S := S); z.naiveMulImpl a) ≈ᵣ MV.default (T := T) ∧
    (do let z ← MV.default (T := T) (A := A) (S := S); a.naiveMulImpl z) ≈ᵣ MV.default (T := T) :=
  ⟨Agree.of_denotes ((default_denotes ha.supp).mul hA (.of_valid ha)) (default_denotes ha.supp)
      (fun k _ => geo_zero_left _ _ _ k),
    Agree.of_denotes (Denotes.mul hA (.of_valid ha) (default_denotes ha.supp)) (default_denotes ha.supp)
      (fun k _ => geo_zero_right _ _ _ k)⟩

example := C05_zero_mul Ex.M_wf Ex.mB_valid

/-- **C05.** Scalars on the right move through the right operand: `a * (b * t) == (a * b) * t` for every scalar. -/
theorem C05_mul_smul (hA : A.WF) {a b : MV A S} (ha : a.Valid) (hb : b.Valid) (t : T) :
    (do let bt ← b.smul t; a.naiveMulImpl bt) ≈ᵣ (do let ab ← a.naiveMulImpl b; ab.smul t) :=
  Agree.of_denotes (Denotes.mul hA (.of_valid ha) (smul_denotes hb t)) ((mul_denotes hA ha hb).smul t)
    (fun k _ => geo_smul_right _ _ _ _ _ k)

/-- **C05.** A central scalar moves freely: `(a * t) * b == (a * b) * t`. -/
theorem C05_smul_mul (hA : A.WF) {a b : MV A S} (ha : a.Valid) (hb : b.Valid) {t : T} (ht : ∀ x : T, t * x = x * t) :
    (do let as ← a.smul t; as.naiveMulImpl b) ≈ᵣ (do let ab ← a.naiveMulImpl b; ab.smul t) :=
  Agree.of_denotes ((smul_denotes ha t).mul hA (.of_valid hb)) ((mul_denotes hA ha hb).smul t)
    (fun k _ => by
      rw [geo_smul_mid]
      simp only [ht]
      exact geo_smul_right _ _ _ _ _ k)

example := C05_smul_mul Ex.M_wf Ex.mA_valid Ex.mB_valid (t := -3) (fun _ => Int.mul_comm _ _)

/-- **C05.** `(-a) * b == -(a * b) == a * (-b)`. -/
theorem C05_neg_mul (hA : A.WF) {a b : MV A S} (ha : a.Valid) (hb : b.Valid) :
    (do let x ← a.neg; x.naiveMulImpl b) ≈ᵣ (do let x ← a.naiveMulImpl b; x.neg) ∧
    (do let x ← b.neg; a.naiveMulImpl x) ≈ᵣ (do let x ← a.naiveMulImpl b; x.neg) :=
  ⟨Agree.of_denotes ((neg_denotes ha).mul hA (.of_valid hb)) ((mul_denotes hA ha hb).neg)
      (fun k _ => geo_neg_left _ _ _ _ k),
    Agree.of_denotes (Denotes.mul hA (.of_valid ha) (neg_denotes hb)) ((mul_denotes hA ha hb).neg)
      (fun k _ => geo_neg_right _ _ _ _ k)⟩

example := C05_neg_mul Ex.M_wf Ex.mA_valid Ex.mC_valid

example :
    letI : HashOrder ℤ := Ex.revOrder
    (do let s ← Ex.sA.add Ex.sB; s.naiveMulImpl Ex.sA) ≈ᵣ
      (do let x ← Ex.sA.naiveMulImpl Ex.sA; let y ← Ex.sB.naiveMulImpl Ex.sA; x.add y) :=
  letI : HashOrder ℤ := Ex.revOrder
  C05_add_mul Ex.M_wf Ex.sA_valid Ex.sB_valid Ex.sA_valid

example : (do let bt ← Ex.a7B.smul 3; Ex.a7A.naiveMulImpl bt) ≈ᵣ (do let ab ← Ex.a7A.naiveMulImpl Ex.a7B; ab.smul 3) :=
  C05_mul_smul Ex.A7_wf Ex.a7A_valid Ex.a7B_valid 3

/-! ### C06 -/

/-- **C06.** The generators returned by `basis()` square to the scalars of `signature()` and anticommute. -/
theorem C06_generators {sig : List Sym} {names : List String} (hA : declareAlgebra sig names = some A)
    (hS : LawfulStorage.Supp (S := S) (T := T) A.dim) :
    ∃ e : List (MV A S), basis (T := T) = .ok e ∧ e.length = sig.length ∧ A.signature.length = sig.length ∧
      (∀ i (hi : i < e.length) (hi' : i < A.signature.length),
        e[i].naiveMulImpl e[i] ≈ᵣ fromScalar (T := T) ((A.signature[i] : ℤ) : T)) ∧
      ∀ i j (hi : i < e.length) (hj : j < e.length), i ≠ j →
        e[i].naiveMulImpl e[j] ≈ᵣ (do let x ← e[j].naiveMulImpl e[i]; x.neg) := by
  obtain ⟨e, h1, h2, h3⟩ := basis_ok (A := A) hS
  have hwf := declareAlgebra_wf hA
  have hd : A.dim = sig.length := (declareAlgebra_eq hA).2.2.1
  have hsl : A.signature.length = sig.length := by rw [declareAlgebra_signature hA, List.length_map]
  have hmul : ∀ i j (hi : i < e.length) (hj : j < e.length), Denotes (e[i].naiveMulImpl e[j])
      (single (2 ^ i ^^^ 2 ^ j) ((bsgn A.sigma A.dim (2 ^ i) (2 ^ j) : ℤ) : T)) := by
    intro i j hi hj
    refine (Denotes.mul hwf (h3 i hi) (h3 j hj)).congr ?_
    intro k hk
    rw [geo_single_single _ (Nat.pow_lt_pow_right (by norm_num) (by omega))]
    simp
  refine ⟨e, h1, by omega, hsl, ?_, ?_⟩
  · intro i hi hi'
    refine Agree.of_denotes (hmul i i hi hi) (fromScalar_denotes hS _) ?_
    intro k hk
    rw [Nat.xor_self, bsgn_two_pow_eq _ (by omega)]
    have : A.signature[i] = A.sigma i := by
      simp only [declareAlgebra_signature hA, List.getElem_map]
      rw [declareAlgebra_sigma hA]
    rw [this]
  · intro i j hi hj hij
    refine Agree.of_denotes (hmul i j hi hj) ((hmul j i hj hi).neg) ?_
    intro k hk
    rw [bsgn_two_pow_ne _ (by omega) (by omega) hij, bsgn_two_pow_ne _ (by omega) (by omega) hij.symm,
      Nat.xor_comm (2 ^ j)]
    have hs : (if i < j then (-1 : ℤ) else 1) = -(if j < i then (-1 : ℤ) else 1) := by
      rcases Nat.lt_or_gt_of_ne hij with h | h
      · rw [if_pos h, if_neg (by omega)]
      · rw [if_neg (by omega), if_pos h]; rfl
    rw [hs]
    unfold single
    split <;> simp

example : ∃ e : List (MV Ex.A7 (ArrayStorage ℤ)), basis (T := ℤ) = .ok e ∧
    (∃ h : 3 < e.length, e[3].naiveMulImpl e[3] ≈ᵣ fromScalar (T := ℤ) (-1)) ∧
    ∃ (h : 6 < e.length) (h' : 3 < e.length), e[6].naiveMulImpl e[3] ≈ᵣ (do let x ← e[3].naiveMulImpl e[6]; x.neg) := by
  obtain ⟨e, h1, h2, h3, h4, h5⟩ := C06_generators (S := ArrayStorage ℤ) (T := ℤ) Ex.A7_decl (show Ex.A7.dim ≤ 63 by decide)
  have hl : e.length = 7 := h2
  refine ⟨e, h1, ⟨by omega, ?_⟩, by omega, by omega, h5 6 3 (by omega) (by omega) (by omega)⟩
  exact h4 3 (by omega) (by decide)

/-! ### C15 -/

/-- **C15.** `a.vdot(&b) == (a * b).scalar_part()`. -/
theorem C15_vdot (hA : A.WF) {a b : MV A S} (ha : a.Valid) (hb : b.Valid) :
    ∃ t, a.vdot b = .ok t ∧ (do let p ← a.naiveMulImpl b; p.scalarPart) = .ok t :=
  ⟨_, vdot_ok hA ha hb, (mul_denotes hA ha hb).scalarPart⟩

/-- **C15.** `a.mag2() == (a.rev() * a).scalar_part()`. -/
theorem C15_mag2 (hA : A.WF) {a : MV A S} (ha : a.Valid) :
    ∃ t, a.mag2 = .ok t ∧ (do let r ← a.rev; let p ← r.naiveMulImpl a; p.scalarPart) = .ok t := by
  refine ⟨_, mag2_ok hA ha, ?_⟩
  have h := ((rev_denotes ha).mul hA (.of_valid ha)).scalarPart
  rw [← h, bind_assoc]; rfl

example := C15_mag2 Ex.A7_wf Ex.a7A_valid

/-- **C15.** `a.vsdot(&b)` is the plain dot product of the coefficients. -/
theorem C15_vsdot {a b : MV A S} (ha : a.Valid) (hb : b.Valid) :
    ∃ (x y : Nat → T), (∀ i < 2 ^ A.dim, a.getByIdx i = .ok (x i) ∧ b.getByIdx i = .ok (y i)) ∧
      a.vsdot b = .ok (∑ i ∈ Finset.range (2 ^ A.dim), x i * y i) :=
  ⟨_, _, fun _ hi => ⟨ha.get hi, hb.get hi⟩, vsdot_ok ha hb⟩

example := C15_vsdot Ex.mA_valid Ex.mB_valid

example : ∃ t, Ex.a7A.vdot Ex.a7B = .ok t ∧ (do let p ← Ex.a7A.naiveMulImpl Ex.a7B; p.scalarPart) = .ok t :=
  C15_vdot Ex.A7_wf Ex.a7A_valid Ex.a7B_valid

/-- Null generators do not contribute: in `[+,-,0]` the coefficients 1..8 give 1 + 4 - 9 + 16. -/
example : Ex.mA.vdot Ex.mA = .ok 12 ∧ Ex.mA.mag2 = .ok (-20) := by decide +kernel

/-! ### C17 -/

/-- `a * a * ... * a` (`n` factors). -/
def nfold (a : MV A S) : Nat → Res (MV A S)
  | 0 => one (T := T)
  | n + 1 => do let p ← nfold a n; p.naiveMulImpl a

theorem nfold_denotes (hA : A.WF) {a : MV A S} (ha : a.Valid) (n : Nat) :
    Denotes (nfold a n) (npow A.sigma A.dim a.val n) := by
  induction n with
  | zero => exact one_denotes ha.supp
  | succ n ih => exact ih.mul hA (.of_valid ha)

/-- **C17.** `a.pow(n)` is the `n`-fold product. -/
theorem C17_pow (hA : A.WF) {a : MV A S} (ha : a.Valid) (n : Nat) : a.pow n ≈ᵣ nfold a n :=
  Agree.of_denotes (pow_denotes hA ha n) (nfold_denotes hA ha n) (fun _ _ => rfl)

/-- **C17.** `a.pow(m + n) == a.pow(m) * a.pow(n)`. -/
theorem C17_pow_add (hA : A.WF) {a : MV A S} (ha : a.Valid) (m n : Nat) :
    a.pow (m + n) ≈ᵣ (do let x ← a.pow m; let y ← a.pow n; x.naiveMulImpl y) :=
  Agree.of_denotes (pow_denotes hA ha _) ((pow_denotes hA ha m).mul hA (pow_denotes hA ha n))
    (fun _ hi => npow_add _ _ _ m n hi)

example : Ex.mA.pow 13 ≈ᵣ nfold Ex.mA 13 := C17_pow Ex.M_wf Ex.mA_valid 13
example : Ex.eB.pow (5 + 6) ≈ᵣ (do let x ← Ex.eB.pow 5; let y ← Ex.eB.pow 6; x.naiveMulImpl y) :=
  C17_pow_add Ex.E_wf Ex.eB_valid 5 6

/-! ### C52 -/

/-- **C52.** Addition is commutative. -/
theorem C52_add_comm {a b : MV A S} (ha : a.Valid) (hb : b.Valid) : a.add b ≈ᵣ b.add a :=
  Agree.of_denotes (add_denotes ha hb) (add_denotes hb ha) (fun _ _ => add_comm _ _)

example := C52_add_comm Ex.mA_valid Ex.mB_valid

/-- **C52.** Addition is associative. -/
theorem C52_add_assoc {a b c : MV A S} (ha : a.Valid) (hb : b.Valid) (hc : c.Valid) :
    (do let x ← a.add b; x.add c) ≈ᵣ (do let x ← b.add c; a.add x) :=
  Agree.of_denotes ((add_denotes ha hb).add (.of_valid hc)) (Denotes.add (.of_valid ha) (add_denotes hb hc))
    (fun _ _ => add_assoc _ _ _)

example := C52_add_assoc Ex.mA_valid Ex.mB_valid Ex.mC_valid

/-- **C52.** `zero() + a == a` and `a + (-a) == zero()`. -/
theorem C52_zero_neg {a : MV A S} (ha : a.Valid) :
    (do let z ← MV.default (T := T) (A := A) (S := S); z.add a) ≈ᵣ .ok a ∧
    (do let n ← a.neg; a.add n) ≈ᵣ MV.default (T := T) :=
  ⟨Agree.of_denotes ((default_denotes ha.supp).add (.of_valid ha)) (.of_valid ha) (fun _ _ => zero_add _),
    Agree.of_denotes (Denotes.add (.of_valid ha) (neg_denotes ha)) (default_denotes ha.supp) (fun _ _ => add_neg_cancel _)⟩

example := C52_zero_neg Ex.a7A_valid

/-- **C52.** `a - b == a + (-b)`. -/
theorem C52_sub_eq {a b : MV A S} (ha : a.Valid) (hb : b.Valid) : a.sub b ≈ᵣ (do let n ← b.neg; a.add n) :=
  Agree.of_denotes (sub_denotes ha hb) (Denotes.add (.of_valid ha) (neg_denotes hb)) (fun _ _ => sub_eq_add_neg _ _)

/-- **C52.** `(a * s) * t == a * (s * t)`, `(a + b) * s == a*s + b*s`, `a * (s + t) == a*s + a*t` and `a * 1 == a`. -/
theorem C52_smul {a b : MV A S} (ha : a.Valid) (hb : b.Valid) (s t : T) :
    (do let x ← a.smul s; x.smul t) ≈ᵣ a.smul (s * t) ∧
    (do let x ← a.add b; x.smul s) ≈ᵣ (do let x ← a.smul s; let y ← b.smul s; x.add y) ∧
    a.smul (s + t) ≈ᵣ (do let x ← a.smul s; let y ← a.smul t; x.add y) ∧
    a.smul (1 : T) ≈ᵣ .ok a :=
  ⟨Agree.of_denotes ((smul_denotes ha s).smul t) (smul_denotes ha _) (fun _ _ => mul_assoc _ _ _),
    Agree.of_denotes ((add_denotes ha hb).smul s) ((smul_denotes ha s).add (smul_denotes hb s)) (fun _ _ => add_mul _ _ _),
    Agree.of_denotes (smul_denotes ha _) ((smul_denotes ha s).add (smul_denotes ha t)) (fun _ _ => mul_add _ _ _),
    Agree.of_denotes (smul_denotes ha _) (.of_valid ha) (fun _ _ => mul_one _)⟩

example := C52_smul Ex.mA_valid Ex.mB_valid 5 (-7)

/-- **C52.** What the operations do to a coefficient. -/
theorem C52_coefficients {a b : MV A S} (ha : a.Valid) (hb : b.Valid) (t : T) {i : Nat} (hi : i < 2 ^ A.dim) :
    ∃ x y, a.getByIdx i = .ok x ∧ b.getByIdx i = .ok y ∧ (do let s ← a.add b; s.getByIdx i) = .ok (x + y) ∧
      (do let s ← a.sub b; s.getByIdx i) = .ok (x - y) ∧ (do let s ← a.neg; s.getByIdx i) = .ok (-x) ∧
      (do let s ← a.smul t; s.getByIdx i) = .ok (x * t) := by
  refine ⟨_, _, ha.get hi, hb.get hi, ?_, ?_, ?_, ?_⟩
  · exact (add_denotes ha hb).bind_res (fun u hu huv => by rw [hu.get hi, huv i hi])
  · exact (sub_denotes ha hb).bind_res (fun u hu huv => by rw [hu.get hi, huv i hi])
  · exact (neg_denotes ha).bind_res (fun u hu huv => by rw [hu.get hi, huv i hi])
  · exact (smul_denotes ha t).bind_res (fun u hu huv => by rw [hu.get hi, huv i hi])

example := C52_coefficients Ex.mA_valid Ex.mB_valid 5 (i := 6) (by decide)

example :
    letI : HashOrder ℤ := Ex.revOrder
    Ex.sA.sub Ex.sB ≈ᵣ (do let n ← Ex.sB.neg; Ex.sA.add n) :=
  letI : HashOrder ℤ := Ex.revOrder
  C52_sub_eq Ex.sA_valid Ex.sB_valid

end ring

section division
variable {T : Type} [DivisionRing T] [DecidableEq T] {S : Type} [CoeffStorage S T] [LawfulStorage S T] {A : ClAlg}

/-- **C52.** `(a / s) * s == a` for `s != 0`. -/
theorem C52_div_smul {a : MV A S} (ha : a.Valid) {s : T} (hs : s ≠ 0) : (do let x ← a.sdiv s; x.smul s) ≈ᵣ .ok a :=
  Agree.of_denotes ((sdiv_denotes ha hs).smul s) (.of_valid ha) (fun _ _ => div_mul_cancel₀ _ hs)

/-- Division by zero: dividing a non-zero multivector by zero leaves the field (`inf`/`NaN` for floats). -/
theorem C52_div_zero {a : MV A S} (ha : a.Valid) (h : a.isZero = false) : a.sdiv (0 : T) = .error .nonFinite := by
  have hne : a.coeffEnumerate ≠ [] := by
    intro hc
    have : a.isZero = true := by unfold isZero; rw [hc]; rfl
    rw [h] at this; exact absurd this (by simp)
  unfold sdiv
  obtain ⟨z, hz, -⟩ := default_denotes (A := A) (S := S) ha.supp
  rw [hz]
  rcases hl : a.coeffEnumerate with _ | ⟨p, ps⟩
  · exact absurd hl hne
  · have h1 : fdiv p.2 (0 : T) = .error .nonFinite := by unfold fdiv; rw [if_pos rfl]
    show (List.foldlM (m := Res) (fun (ret : MV A S) (p : Nat × T) => do
      let v ← fdiv p.2 (0 : T)
      return ret.setByIdx p.1 v) z (p :: ps)) = _
    rw [List.foldlM_cons, h1]; rfl

example : Ex.eA.sdiv (0 : ℚ) = .error .nonFinite := C52_div_zero Ex.eA_valid (by decide +kernel)

example : (do let x ← Ex.eA.sdiv (3 : ℚ); x.smul (3 : ℚ)) ≈ᵣ .ok Ex.eA := C52_div_smul Ex.eA_valid (by norm_num)

end division

section field
variable {T : Type} [Field T] [DecidableEq T] {S : Type} [CoeffStorage S T] [LawfulStorage S T] {A : ClAlg}

/-- **C16.** If `a.mag2() != 0` then `(a.revm() * a).scalar_part() == 1` and `a.revm() * a.mag2() == a.rev()`. -/
theorem C16_revm (hA : A.WF) {a : MV A S} (ha : a.Valid) {m : T} (hm : a.mag2 = .ok m) (h0 : m ≠ 0) :
    (do let r ← a.revm; let p ← r.naiveMulImpl a; p.scalarPart) = .ok 1 ∧
    (do let r ← a.revm; r.smul m) ≈ᵣ a.rev := by
  have h := revm_denotes ha hm h0
  constructor
  · have h1 := (h.mul hA (.of_valid ha)).scalarPart
    have h2 : geo A.sigma A.dim (fun i => rsg A.dim i • a.val i / m) a.val 0 = 1 := by
      have hg := mag2_ok hA ha
      rw [hm] at hg
      have hg' : m = geo A.sigma A.dim (fun i => rsg A.dim i • a.val i) a.val 0 := by simpa using hg
      have : (fun i => rsg A.dim i • a.val i / m) = fun i => m⁻¹ * (rsg A.dim i • a.val i) := by
        funext i; rw [div_eq_mul_inv, mul_comm]
      rw [this, geo_smul_left, ← hg', inv_mul_cancel₀ h0]
    rw [h2] at h1
    rw [← h1, bind_assoc]; rfl
  · exact Agree.of_denotes (h.smul m) (rev_denotes ha) (fun _ _ => div_mul_cancel₀ _ h0)

/-- **C16.** With `a.mag2() == 0`, `revm` of a non-zero multivector has no finite result. -/
theorem C16_revm_zero {a : MV A S} (ha : a.Valid) (h : a.isZero = false) (hm : a.mag2 = .ok (0 : T)) :
    a.revm = .error .nonFinite := by
  unfold revm
  obtain ⟨r, h1, h2, h3⟩ := rev_denotes ha
  rw [h1, hm]
  show r.sdiv (0 : T) = _
  apply C52_div_zero h2
  rw [Bool.eq_false_iff] at h ⊢
  intro hc
  apply h
  rw [isZero_iff ha]
  rw [isZero_iff h2] at hc
  intro i hi
  have h4 : r.val i = rsg A.dim i • a.val i := h3 i hi
  rw [hc i hi] at h4
  have h5 : rsg A.dim i • (rsg A.dim i • a.val i) = 0 := by rw [← h4, smul_zero]
  rwa [smul_smul, rsg_mul_self, one_smul] at h5

/-- The null vector `e₀ + e₁` of `[+,-,0]`. -/
example : (⟨⟨3, ⟨8, fun i => if i = 1 ∨ i = 2 then 1 else 0⟩⟩⟩ : MV Ex.M (ArrayStorage ℚ)).revm = .error .nonFinite :=
  C16_revm_zero (show MV.Valid _ from ⟨by decide, rfl, rfl⟩) (by decide +kernel) (by decide +kernel)

example : (do let r ← Ex.eA.revm; let p ← r.naiveMulImpl Ex.eA; p.scalarPart) = .ok 1 :=
  (C16_revm Ex.E_wf Ex.eA_valid (m := 51) (by decide +kernel) (by norm_num)).1

/-- The documentation of `revm` says "Magnitude of `s.revm() * s` is one".  It is only the scalar part that is one.
-/
theorem C16_doc_claim_false : ∃ a : MV Ex.E (ArrayStorage ℚ), a.Valid ∧ a.mag2 = .ok (51 : ℚ) ∧
    (do let r ← a.revm; let p ← r.naiveMulImpl a; p.mag2) ≠ .ok (1 : ℚ) :=
  ⟨Ex.eA, Ex.eA_valid, by decide +kernel, by decide +kernel⟩

end field

end TClifford
