import Verif.Proofs.GA
import Verif.Props.Product
import Verif.Props.Examples
/-
Multivectors as coefficients of multivectors: C57.

The library compares and tests its coefficients with `==` and `is_zero` only, so a multivector used as a coefficient stands for
its class under `==`.  `Coeff A S` is the type of these classes; its operations are those of the model, and it is a ring with
decidable equality, which is what the model asks of a coefficient type.
-/

set_option linter.unusedSectionVars false

namespace TClifford

open MV

/-- The result of a computation that is known to succeed with a valid multivector. -/
noncomputable def getV {A : ClAlg} {S T : Type} [Ring T] [DecidableEq T] [CoeffStorage S T] [LawfulStorage S T] {x : Res (MV A S)}
    (h : ∃ u, x = .ok u ∧ u.Valid) : {a : MV A S // a.Valid} := ⟨h.choose, h.choose_spec.2⟩

theorem getV_eq {A : ClAlg} {S T : Type} [Ring T] [DecidableEq T] [CoeffStorage S T] [LawfulStorage S T] {x : Res (MV A S)}
    (h : ∃ u, x = .ok u ∧ u.Valid) : x = .ok (getV h).1 := h.choose_spec.1

section
variable (A : ClAlg) (S : Type) {T : Type} [Ring T] [DecidableEq T] [CoeffStorage S T] [LawfulStorage S T]

/-- `==` on valid multivectors. -/
def beqSetoid : Setoid {a : MV A S // a.Valid} where
  r a b := a.1.beq b.1 = true
  iseqv :=
    { refl := fun a => (beq_iff a.2 a.2).mpr fun _ _ => rfl
      symm := fun {a b} h => (beq_iff b.2 a.2).mpr fun i hi => ((beq_iff a.2 b.2).mp h i hi).symm
      trans := fun {a b c} h h' => (beq_iff a.2 c.2).mpr fun i hi =>
        ((beq_iff a.2 b.2).mp h i hi).trans ((beq_iff b.2 c.2).mp h' i hi) }

/-- Multivectors up to `==`, as coefficients. -/
def Coeff : Type := Quotient (beqSetoid A S)

end

namespace Coeff
variable {A : ClAlg} {S T : Type} [Ring T] [DecidableEq T] [CoeffStorage S T] [LawfulStorage S T]

/-- The coefficient made from a multivector. -/
def mk (a : MV A S) (ha : a.Valid) : Coeff A S := Quotient.mk (beqSetoid A S) ⟨a, ha⟩

theorem mk_eq {a b : MV A S} {ha : a.Valid} {hb : b.Valid} : mk a ha = mk b hb ↔ a.beq b = true :=
  ⟨fun h => Quotient.exact (s := beqSetoid A S) h, fun h => Quotient.sound (s := beqSetoid A S) h⟩

theorem ind {P : Coeff A S → Prop} (h : ∀ a ha, P (mk a ha)) (x : Coeff A S) : P x :=
  Quotient.inductionOn x fun a => h a.1 a.2

/-- Equality of coefficients is `==`. -/
instance : DecidableEq (Coeff A S) := fun x y =>
  Quotient.recOnSubsingleton₂ x y fun a b =>
    decidable_of_iff (a.1.beq b.1 = true) (mk_eq (ha := a.2) (hb := b.2)).symm

/-- The coefficients. -/
def toGA : Coeff A S → GA A.sigma A.dim T :=
  Quotient.lift (fun a => a.1.ga) fun a b h => ga_eq_iff.mpr ((beq_iff a.2 b.2).mp h)

theorem toGA_mk (a : MV A S) (ha : a.Valid) : (mk a ha).toGA = a.ga := rfl

theorem toGA_inj {x y : Coeff A S} (h : x.toGA = y.toGA) : x = y := by
  induction x using ind with | _ a ha =>
  induction y using ind with | _ b hb =>
  exact mk_eq.mpr ((beq_iff ha hb).mpr (ga_eq_iff.mp h))

/-- Lifting a binary operation of the model that computes an operation of the coefficient ring. -/
noncomputable def lift2 (op : MV A S → MV A S → Res (MV A S)) (f : GA A.sigma A.dim T → GA A.sigma A.dim T → GA A.sigma A.dim T)
    (h : ∀ a b : MV A S, a.Valid → b.Valid → Is (op a b) (f a.ga b.ga)) : Coeff A S → Coeff A S → Coeff A S :=
  Quotient.map₂ (fun a b => getV (x := op a.1 b.1) (by obtain ⟨u, hu, hv, -⟩ := (h a.1 b.1 a.2 b.2).ok; exact ⟨u, hu, hv⟩)) (by
    intro a a' haa b b' hbb
    have ha : a.1.ga = a'.1.ga := ga_eq_iff.mpr ((beq_iff a.2 a'.2).mp haa)
    have hb : b.1.ga = b'.1.ga := ga_eq_iff.mpr ((beq_iff b.2 b'.2).mp hbb)
    show (getV _).1.beq (getV _).1 = true
    have h1 := h a.1 b.1 a.2 b.2
    have h2 := h a'.1 b'.1 a'.2 b'.2
    rw [ha, hb] at h1
    rw [getV_eq (x := op a.1 b.1) (by obtain ⟨u, hu, hv, -⟩ := (h a.1 b.1 a.2 b.2).ok; exact ⟨u, hu, hv⟩)] at h1
    rw [getV_eq (x := op a'.1 b'.1) (by obtain ⟨u, hu, hv, -⟩ := (h a'.1 b'.1 a'.2 b'.2).ok; exact ⟨u, hu, hv⟩)] at h2
    obtain ⟨u, v, hu, hv, -, -, hb⟩ := h1.agree h2 rfl
    injection hu with hu
    injection hv with hv
    rw [hu, hv]
    exact hb)

theorem lift2_mk {op : MV A S → MV A S → Res (MV A S)} {f} (h) (a b : MV A S) (ha : a.Valid) (hb : b.Valid) :
    ∃ c hc, op a b = .ok c ∧ lift2 op f h (mk a ha) (mk b hb) = mk c hc :=
  ⟨_, (getV (x := op a b) (by obtain ⟨u, hu, hv, -⟩ := (h a b ha hb).ok; exact ⟨u, hu, hv⟩)).2, getV_eq _, rfl⟩

theorem lift2_ga {op : MV A S → MV A S → Res (MV A S)} {f} (h) (x y : Coeff A S) :
    (lift2 op f h x y).toGA = f x.toGA y.toGA := by
  induction x using ind with | _ a ha =>
  induction y using ind with | _ b hb =>
  obtain ⟨c, hc, hop, e⟩ := lift2_mk h a b ha hb
  rw [e, toGA_mk, toGA_mk, toGA_mk]
  obtain ⟨u, hu, -, hg⟩ := (h a b ha hb).ok
  rw [hop] at hu
  injection hu with hu
  rw [hu, hg]

/-- Lifting a constant of the model. -/
noncomputable def lift0 (x : Res (MV A S)) (g : GA A.sigma A.dim T) (h : Is x g) : Coeff A S :=
  Quotient.mk (beqSetoid A S) (getV (x := x) (by obtain ⟨u, hu, hv, -⟩ := h.ok; exact ⟨u, hu, hv⟩))

theorem lift0_mk {x : Res (MV A S)} {g} (h : Is x g) : ∃ c hc, x = .ok c ∧ lift0 x g h = mk c hc :=
  ⟨_, (getV (x := x) (by obtain ⟨u, hu, hv, -⟩ := h.ok; exact ⟨u, hu, hv⟩)).2, getV_eq _, rfl⟩

theorem lift0_ga {x : Res (MV A S)} {g} (h : Is x g) : (lift0 x g h).toGA = g := by
  obtain ⟨c, hc, hop, e⟩ := lift0_mk h
  rw [e, toGA_mk]
  obtain ⟨u, hu, -, hg⟩ := h.ok
  rw [hop] at hu
  injection hu with hu
  rw [hu, hg]

/-- The algebra is well-formed and small enough for the storage. -/
class Usable (A : ClAlg) (S : Type) {T : outParam Type} [Ring T] [DecidableEq T] [CoeffStorage S T] [LawfulStorage S T] : Prop where
  wf : A.WF
  supp : LawfulStorage.Supp (S := S) (T := T) A.dim

variable [hU : Usable A S]

/-- `+` of multivectors. -/
noncomputable instance : Add (Coeff A S) := ⟨lift2 MV.add (· + ·) fun _ _ ha hb => is_add ha hb⟩
/-- `-` of multivectors. -/
noncomputable instance : Sub (Coeff A S) := ⟨lift2 MV.sub (· - ·) fun _ _ ha hb => is_sub ha hb⟩
/-- Unary `-` of multivectors. -/
noncomputable instance : Neg (Coeff A S) := ⟨fun x => lift2 (fun a _ => a.neg) (fun g _ => -g) (fun _ _ ha _ => is_neg ha) x x⟩
/-- `*` of multivectors. -/
noncomputable instance : Mul (Coeff A S) := ⟨lift2 MV.naiveMulImpl (· * ·) fun _ _ ha hb => is_mul hU.wf ha hb⟩
/-- `zero()` of multivectors. -/
noncomputable instance : Zero (Coeff A S) := ⟨lift0 (MV.default (T := T)) 0 (Is.zero hU.supp)⟩
/-- `one()` of multivectors. -/
noncomputable instance : One (Coeff A S) := ⟨lift0 (MV.one (T := T)) 1 (Is.one hU.supp)⟩

theorem ga_add (x y : Coeff A S) : (x + y).toGA = x.toGA + y.toGA := lift2_ga _ x y
theorem ga_sub (x y : Coeff A S) : (x - y).toGA = x.toGA - y.toGA := lift2_ga _ x y
theorem ga_neg (x : Coeff A S) : (-x).toGA = -x.toGA := lift2_ga (f := fun g _ => -g) _ x x
theorem ga_mul (x y : Coeff A S) : (x * y).toGA = x.toGA * y.toGA := lift2_ga _ x y
theorem ga_zero : (0 : Coeff A S).toGA = 0 := lift0_ga _
theorem ga_one : (1 : Coeff A S).toGA = 1 := lift0_ga _

noncomputable instance : Ring (Coeff A S) where
  add_assoc x y z := toGA_inj (by rw [ga_add, ga_add, ga_add, ga_add, add_assoc])
  zero_add x := toGA_inj (by rw [ga_add, ga_zero, zero_add])
  add_zero x := toGA_inj (by rw [ga_add, ga_zero, add_zero])
  add_comm x y := toGA_inj (by rw [ga_add, ga_add, add_comm])
  left_distrib x y z := toGA_inj (by rw [ga_mul, ga_add, ga_add, ga_mul, ga_mul, mul_add])
  right_distrib x y z := toGA_inj (by rw [ga_mul, ga_add, ga_add, ga_mul, ga_mul, add_mul])
  zero_mul x := toGA_inj (by rw [ga_mul, ga_zero, zero_mul])
  mul_zero x := toGA_inj (by rw [ga_mul, ga_zero, mul_zero])
  mul_assoc x y z := toGA_inj (by rw [ga_mul, ga_mul, ga_mul, ga_mul, mul_assoc])
  one_mul x := toGA_inj (by rw [ga_mul, ga_one, one_mul])
  mul_one x := toGA_inj (by rw [ga_mul, ga_one, mul_one])
  neg_add_cancel x := toGA_inj (by rw [ga_add, ga_neg, neg_add_cancel, ga_zero])
  sub_eq_add_neg x y := toGA_inj (by rw [ga_sub, ga_add, ga_neg, sub_eq_add_neg])
  nsmul := nsmulRec
  zsmul := zsmulRec

/-- **C57.** The ring operations on coefficients are the operations of the model on multivectors; equality is `==`, and
`is_zero` is equality with zero. -/
theorem C57_operations {a b : MV A S} (ha : a.Valid) (hb : b.Valid) :
    (∃ c hc, a.add b = .ok c ∧ mk a ha + mk b hb = mk c hc) ∧ (∃ c hc, a.sub b = .ok c ∧ mk a ha - mk b hb = mk c hc) ∧
    (∃ c hc, a.naiveMulImpl b = .ok c ∧ mk a ha * mk b hb = mk c hc) ∧ (∃ c hc, a.neg = .ok c ∧ -mk a ha = mk c hc) ∧
    (∃ c hc, MV.default (A := A) (S := S) (T := T) = .ok c ∧ (0 : Coeff A S) = mk c hc) ∧
    (∃ c hc, MV.one (A := A) (S := S) (T := T) = .ok c ∧ (1 : Coeff A S) = mk c hc) ∧
    (mk a ha = mk b hb ↔ a.beq b = true) ∧ (mk a ha = 0 ↔ a.isZero = true) := by
  refine ⟨lift2_mk _ a b ha hb, lift2_mk _ a b ha hb, lift2_mk _ a b ha hb, lift2_mk (op := fun a _ => a.neg) _ a a ha ha, lift0_mk _,
    lift0_mk _, mk_eq, ?_⟩
  rw [isZero_iff ha]
  constructor
  · intro h
    have := congrArg toGA h
    rw [ga_zero, toGA_mk, ga, ← GA.of_zero] at this
    exact GA.of_inj this
  · intro h
    refine toGA_inj ?_
    rw [ga_zero, toGA_mk, ga, ← GA.of_zero]
    exact GA.of_congr h

end Coeff

/-! ### Any depth -/

/-- A coefficient type: what the library asks of `T`. -/
structure CoeffType where
  T : Type
  [ring : Ring T]
  [dec : DecidableEq T]

attribute [instance] CoeffType.ring CoeffType.dec

/-- One level of nesting: an algebra and any lawful storage which supports it. -/
structure Level where
  A : ClAlg
  S : CoeffType → Type
  [storage : ∀ R : CoeffType, CoeffStorage (S R) R.T]
  [lawful : ∀ R : CoeffType, LawfulStorage (S R) R.T]
  [usable : ∀ R : CoeffType, Coeff.Usable A (S R)]

attribute [instance] Level.storage Level.lawful Level.usable

/-- `Multivector<_, A>`. -/
def Level.dense (A : ClAlg) (hA : A.WF) (hd : A.dim ≤ 63) : Level where
  A := A
  S R := ArrayStorage R.T
  usable _ := ⟨hA, hd⟩

/-- `SparseMultivector<_, A>`, with any iteration order of the hash maps. -/
def Level.sparse (A : ClAlg) (hA : A.WF) (hd : A.dim ≤ 63) (o : (T : Type) → HashOrder T) : Level :=
  letI := o
  { A := A
    S := fun R => SparseStorage R.T
    usable := fun _ => ⟨hA, hd⟩ }

/-- Multivectors of one level over a coefficient type, as a coefficient type. -/
noncomputable def Level.over (l : Level) (R : CoeffType) : CoeffType := ⟨Coeff l.A (l.S R)⟩

/-- Multivectors of multivectors of … over `R`, the outermost level first. -/
noncomputable def tower : List Level → CoeffType → CoeffType
  | [], R => R
  | l :: ls, R => l.over (tower ls R)

/-- **C57.** To any depth, in any mixture of dense and sparse storage, multivectors of multivectors satisfy the ring axioms
up to `==`. -/
theorem C57_depth (ls : List Level) (R : CoeffType) {B : ClAlg} (hB : B.WF) {S : Type} [CoeffStorage S (tower ls R).T]
    [LawfulStorage S (tower ls R).T] {a b c : MV B S} (ha : a.Valid) (hb : b.Valid) (hc : c.Valid) :
    (do let x ← a.naiveMulImpl b; x.naiveMulImpl c) ≈ᵣ (do let y ← b.naiveMulImpl c; a.naiveMulImpl y) ∧
    (do let y ← b.add c; a.naiveMulImpl y) ≈ᵣ (do let x ← a.naiveMulImpl b; let y ← a.naiveMulImpl c; x.add y) ∧
    (do let y ← b.add c; y.naiveMulImpl a) ≈ᵣ (do let x ← b.naiveMulImpl a; let y ← c.naiveMulImpl a; x.add y) ∧
    a.add b ≈ᵣ b.add a ∧
    (do let x ← a.add b; x.add c) ≈ᵣ (do let y ← b.add c; a.add y) ∧
    (do let z ← MV.default (T := (tower ls R).T); a.add z) ≈ᵣ .ok a ∧
    (do let o ← MV.one (T := (tower ls R).T); a.naiveMulImpl o) ≈ᵣ .ok a ∧
    (do let o ← MV.one (T := (tower ls R).T); o.naiveMulImpl a) ≈ᵣ .ok a ∧
    (do let n ← a.neg; a.add n) ≈ᵣ MV.default (T := (tower ls R).T) ∧
    a.sub b ≈ᵣ (do let n ← b.neg; a.add n) := by
  have hS := ha.supp
  refine ⟨?_, ?_, ?_, ?_, ?_, ?_, ?_, ?_, ?_, ?_⟩
  · exact Is.agree ((is_mul hB ha hb).bind fun x hx hg => (is_mul hB hx hc).congr (by rw [hg]))
      ((is_mul hB hb hc).bind fun y hy hg => (is_mul hB ha hy).congr (by rw [hg])) (mul_assoc _ _ _)
  · exact Is.agree ((is_add hb hc).bind fun y hy hg => (is_mul hB ha hy).congr (by rw [hg]))
      ((is_mul hB ha hb).bind fun x hx hg => (is_mul hB ha hc).bind fun y hy hg' => (is_add hx hy).congr (by rw [hg, hg']))
      (mul_add _ _ _)
  · exact Is.agree ((is_add hb hc).bind fun y hy hg => (is_mul hB hy ha).congr (by rw [hg]))
      ((is_mul hB hb ha).bind fun x hx hg => (is_mul hB hc ha).bind fun y hy hg' => (is_add hx hy).congr (by rw [hg, hg']))
      (add_mul _ _ _)
  · exact Is.agree (is_add ha hb) (is_add hb ha) (add_comm _ _)
  · exact Is.agree ((is_add ha hb).bind fun x hx hg => (is_add hx hc).congr (by rw [hg]))
      ((is_add hb hc).bind fun y hy hg => (is_add ha hy).congr (by rw [hg])) (add_assoc _ _ _)
  · exact Is.agree ((Is.zero hS).bind fun z hz hg => (is_add ha hz).congr (by rw [hg])) (Is.of_valid ha) (add_zero _)
  · exact Is.agree ((Is.one hS).bind fun z hz hg => (is_mul hB ha hz).congr (by rw [hg])) (Is.of_valid ha) (mul_one _)
  · exact Is.agree ((Is.one hS).bind fun z hz hg => (is_mul hB hz ha).congr (by rw [hg])) (Is.of_valid ha) (one_mul _)
  · exact Is.agree ((is_neg ha).bind fun n hn hg => (is_add ha hn).congr (by rw [hg])) (Is.zero hS) (add_neg_cancel _)
  · exact Is.agree (is_sub ha hb) ((is_neg hb).bind fun n hn hg => (is_add ha hn).congr (by rw [hg])) (sub_eq_add_neg _ _)

/-- **C57.** Inner multivectors are embedded as scalars of the outer algebra: `from_scalar` is a ring homomorphism, and its
values commute with the outer basis vectors although inner multivectors need not commute with each other. -/
theorem C57_embedding (ls : List Level) (R : CoeffType) {B : ClAlg} (hB : B.WF) {S : Type} [CoeffStorage S (tower ls R).T]
    [LawfulStorage S (tower ls R).T] (hS : LawfulStorage.Supp (S := S) (T := (tower ls R).T) B.dim) (s t : (tower ls R).T) :
    (do let x ← fromScalar (A := B) (S := S) s; let y ← fromScalar (A := B) (S := S) t; x.naiveMulImpl y) ≈ᵣ
      fromScalar (s * t) ∧
    (do let x ← fromScalar (A := B) (S := S) s; let y ← fromScalar (A := B) (S := S) t; x.add y) ≈ᵣ fromScalar (s + t) ∧
    ∀ k < B.dim,
      (do let x ← fromScalar (A := B) (S := S) s; let e ← basisVec (T := (tower ls R).T) k; x.naiveMulImpl e) ≈ᵣ
      (do let x ← fromScalar (A := B) (S := S) s; let e ← basisVec (T := (tower ls R).T) k; e.naiveMulImpl x) := by
  have h0 : 0 < 2 ^ B.dim := Nat.two_pow_pos _
  refine ⟨?_, ?_, ?_⟩
  · refine Agree.of_denotes ((fromScalar_denotes hS s).mul hB (fromScalar_denotes hS t)) (fromScalar_denotes hS _) fun k _ => ?_
    rw [geo_single_single _ h0, bsgn_zero_left, Nat.xor_self, one_smul]
  · refine Agree.of_denotes ((fromScalar_denotes hS s).add (fromScalar_denotes hS t)) (fromScalar_denotes hS _) fun k _ => ?_
    unfold single
    split <;> simp
  · intro k hk
    have hk' : 2 ^ k < 2 ^ B.dim := Nat.pow_lt_pow_right (by norm_num) hk
    refine Agree.of_denotes ((fromScalar_denotes hS s).mul hB (basisVec_denotes hS hk))
      ((fromScalar_denotes hS s).bind fun x hx hxf => (basisVec_denotes hS hk).bind fun e he hef => (mul_denotes hB he hx).congr
        fun i hi => geo_congr (fun _ _ => rfl) hef hxf hi) fun i _ => ?_
    rw [geo_single_single _ h0, geo_single_single _ hk', bsgn_zero_left, bsgn_zero_right, Nat.zero_xor, Nat.xor_zero, mul_one, one_mul]

/-! ### Examples -/

namespace Ex

/-- The integers as coefficients. -/
def Zc : CoeffType := ⟨ℤ⟩

/-- Dense multivectors of `E`. -/
def levelE : Level := .dense E E_wf (by decide)

/-- Dense multivectors of `E` as coefficients, and sparse ones of `M` over them. -/
def levels : List Level := [.sparse M M_wf (by decide) (fun _ => revOrder), levelE]

/-- Two different non-commuting inner coefficients: the first two basis vectors of `E`. -/
example : ∃ x y : (tower [levelE] Zc).T, x * y ≠ y * x := by
  have hS : LawfulStorage.Supp (S := ArrayStorage ℤ) (T := ℤ) E.dim := (by decide : E.dim ≤ 63)
  have : Coeff.Usable E (ArrayStorage ℤ) := ⟨E_wf, hS⟩
  obtain ⟨a, -, hav, haf⟩ := basisVec_denotes (A := E) (S := ArrayStorage ℤ) (T := ℤ) hS (n := 0) (by decide)
  obtain ⟨b, -, hbv, hbf⟩ := basisVec_denotes (A := E) (S := ArrayStorage ℤ) (T := ℤ) hS (n := 1) (by decide)
  refine ⟨Coeff.mk a hav, Coeff.mk b hbv, ?_⟩
  intro h
  have h' : (Coeff.mk a hav * Coeff.mk b hbv).toGA = (Coeff.mk b hbv * Coeff.mk a hav).toGA := congrArg Coeff.toGA h
  rw [Coeff.ga_mul, Coeff.ga_mul, Coeff.toGA_mk, Coeff.toGA_mk, ga, ga, GA.of_congr haf, GA.of_congr hbf, ← GA.of_mul, ← GA.of_mul] at h'
  have := GA.of_inj h' 3 (by decide)
  rw [geo_single_single _ (by decide), geo_single_single _ (by decide)] at this
  revert this
  decide

/-- Three levels: dense multivectors of `A7` over `levels` over the integers. -/
example (x y z : (tower levels Zc).T) := C57_depth levels Zc A7_wf
  (a := (⟨⟨7, ⟨128, fun i => if i = 5 then x else 0⟩⟩⟩ : MV A7 (ArrayStorage (tower levels Zc).T)))
  (b := ⟨⟨7, ⟨128, fun i => if i = 3 then y else z⟩⟩⟩)
  (c := ⟨⟨7, ⟨128, fun i => if i = 9 then z else x⟩⟩⟩) ⟨by decide, rfl, rfl⟩ ⟨by decide, rfl, rfl⟩ ⟨by decide, rfl, rfl⟩

example (x y : (tower levels Zc).T) := C57_embedding levels Zc A7_wf (S := ArrayStorage (tower levels Zc).T)
  (by show A7.dim ≤ 63; decide) x y

example : True := by
  have : Coeff.Usable M (ArrayStorage ℤ) := ⟨M_wf, by show M.dim ≤ 63; decide⟩
  have := Coeff.C57_operations mA_valid mB_valid
  trivial

end Ex

end TClifford
