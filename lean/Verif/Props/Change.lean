import Verif.Props.Float
import Verif.Proofs.Int
import Verif.Props.Examples
import Verif.Props.Product
import Mathlib.Data.Int.Cast.Lemmas
/-
Change of the coefficient type: C76 (ring homomorphisms), C77 (machine integers).
-/

set_option linter.unusedSectionVars false

namespace TClifford

open MV Finset

section
variable {A : ClAlg} {S S' T T' : Type} [Ring T] [DecidableEq T] [CoeffStorage S T] [LawfulStorage S T]
  [Ring T'] [DecidableEq T'] [CoeffStorage S' T'] [LawfulStorage S' T']

/-- The coefficients of `a'` are the images of the coefficients of `a`. -/
def Under (φ : T → T') (a : MV A S) (a' : MV A S') : Prop :=
  a.Valid ∧ a'.Valid ∧ ∀ i < 2 ^ A.dim, ∃ c, a.getByIdx i = .ok c ∧ a'.getByIdx i = .ok (φ c)

/-- The same for results; both computations succeed. -/
def UnderR (φ : T → T') (x : Res (MV A S)) (x' : Res (MV A S')) : Prop :=
  ∃ a a', x = .ok a ∧ x' = .ok a' ∧ Under φ a a'

/-- The same for scalar results. -/
def UnderS (φ : T → T') (x : Res T) (x' : Res T') : Prop := ∃ c, x = .ok c ∧ x' = .ok (φ c)

theorem Under.val {φ : T → T'} {a : MV A S} {a' : MV A S'} (h : Under φ a a') {i : Nat} (hi : i < 2 ^ A.dim) :
    a'.val i = φ (a.val i) := by
  obtain ⟨h1, h2, h3⟩ := h
  obtain ⟨c, e1, e2⟩ := h3 i hi
  rw [h1.get hi] at e1
  rw [h2.get hi] at e2
  injection e1 with e1
  injection e2 with e2
  rw [e2, e1]

theorem Under.of_val {φ : T → T'} {a : MV A S} {a' : MV A S'} (h : a.Valid) (h' : a'.Valid)
    (hv : ∀ i < 2 ^ A.dim, a'.val i = φ (a.val i)) : Under φ a a' :=
  ⟨h, h', fun i hi => ⟨a.val i, h.get hi, by rw [h'.get hi, hv i hi]⟩⟩

theorem UnderR.of_denotes {φ : T → T'} {x : Res (MV A S)} {x' : Res (MV A S')} {f : Nat → T} {f' : Nat → T'}
    (h : Denotes x f) (h' : Denotes x' f') (hf : ∀ i < 2 ^ A.dim, f' i = φ (f i)) : UnderR φ x x' := by
  obtain ⟨a, e1, v1, w1⟩ := h
  obtain ⟨a', e2, v2, w2⟩ := h'
  exact ⟨a, a', e1, e2, Under.of_val v1 v2 fun i hi => by rw [w1 i hi, w2 i hi, hf i hi]⟩

theorem map_geo (φ : T →+* T') (σ : Nat → ℤ) (n : Nat) {f g : Nat → T} {f' g' : Nat → T'} (hf : ∀ i < 2 ^ n, f' i = φ (f i))
    (hg : ∀ i < 2 ^ n, g' i = φ (g i)) {k : Nat} (hk : k < 2 ^ n) : geo σ n f' g' k = φ (geo σ n f g k) := by
  unfold geo
  rw [map_sum]
  refine sum_congr rfl fun i hi => ?_
  have hi := mem_range.mp hi
  rw [map_zsmul, map_mul, hf i hi, hg _ (Nat.xor_lt_two_pow hi hk)]

theorem map_npow (φ : T →+* T') (σ : Nat → ℤ) (n : Nat) {f : Nat → T} {f' : Nat → T'} (hf : ∀ i < 2 ^ n, f' i = φ (f i))
    (m : Nat) : ∀ k < 2 ^ n, npow σ n f' m k = φ (npow σ n f m k) := by
  induction m with
  | zero => intro k hk; unfold npow single; split <;> simp
  | succ m ih => intro k hk; exact map_geo φ σ n ih hf hk

theorem xor_top_lt {n k : Nat} (hk : k < 2 ^ n) : k ^^^ (2 ^ n - 1) < 2 ^ n :=
  Nat.xor_lt_two_pow hk (by have := Nat.two_pow_pos n; omega)

theorem map_meetF (φ : T →+* T') (n : Nat) {f g : Nat → T} {f' g' : Nat → T'} (hf : ∀ i < 2 ^ n, f' i = φ (f i))
    (hg : ∀ i < 2 ^ n, g' i = φ (g i)) {k : Nat} (hk : k < 2 ^ n) : meetF n f' g' k = φ (meetF n f g k) := by
  unfold meetF
  rw [map_zsmul]
  congr 1
  refine map_geo φ _ n (fun i hi => ?_) (fun i hi => ?_) (xor_top_lt hk)
  · rw [map_zsmul, hf _ (xor_top_lt hi)]
  · rw [map_zsmul, hg _ (xor_top_lt hi)]

/-- **C76.** If the coefficients of `a'`, `b'` are the images of those of `a`, `b` under a ring homomorphism, the same holds
for the results of all operations (and the operations succeed for both). -/
theorem C76_operations [WedgeProduct A S] [LawfulWedge A S] [WedgeProduct A S'] [LawfulWedge A S'] (hA : A.WF) (φ : T →+* T')
    {a b : MV A S} {a' b' : MV A S'} (ha : Under φ a a') (hb : Under φ b b') (t : T) (mask n : Nat) :
    UnderR φ (a.add b) (a'.add b') ∧ UnderR φ (a.sub b) (a'.sub b') ∧ UnderR φ a.neg a'.neg ∧
    UnderR φ (a.smul t) (a'.smul (φ t)) ∧ UnderR φ (a.naiveMulImpl b) (a'.naiveMulImpl b') ∧
    UnderR φ (a.wedge b) (a'.wedge b') ∧ UnderR φ (a.meet b) (a'.meet b') ∧ UnderR φ a.rev a'.rev ∧
    UnderR φ a.flip a'.flip ∧ UnderR φ (a.flipSubspace mask) (a'.flipSubspace mask) ∧ UnderR φ a.dual a'.dual ∧
    UnderR φ a.undual a'.undual ∧ UnderR φ (a.pow n) (a'.pow n) ∧
    (n < 2 ^ 32 → UnderR φ (a.gradeExtract n) (a'.gradeExtract n)) := by
  have va : ∀ i < 2 ^ A.dim, a'.val i = φ (a.val i) := fun i hi => ha.val hi
  have vb : ∀ i < 2 ^ A.dim, b'.val i = φ (b.val i) := fun i hi => hb.val hi
  obtain ⟨a1, a2, -⟩ := ha
  obtain ⟨b1, b2, -⟩ := hb
  refine ⟨.of_denotes (add_denotes a1 b1) (add_denotes a2 b2) ?_, .of_denotes (sub_denotes a1 b1) (sub_denotes a2 b2) ?_,
    .of_denotes (neg_denotes a1) (neg_denotes a2) ?_, .of_denotes (smul_denotes a1 t) (smul_denotes a2 _) ?_,
    .of_denotes (mul_denotes hA a1 b1) (mul_denotes hA a2 b2) (fun i hi => map_geo φ _ _ va vb hi),
    .of_denotes (LawfulWedge.wedge a1 b1) (LawfulWedge.wedge a2 b2) (fun i hi => map_geo φ _ _ va vb hi),
    .of_denotes (LawfulWedge.meet hA a1 b1) (LawfulWedge.meet hA a2 b2) (fun i hi => map_meetF φ _ va vb hi),
    .of_denotes (rev_denotes a1) (rev_denotes a2) ?_, .of_denotes (flip_denotes a1) (flip_denotes a2) ?_,
    .of_denotes (flipSubspace_denotes a1 mask) (flipSubspace_denotes a2 mask) ?_,
    .of_denotes (dual_denotes hA a1) (dual_denotes hA a2) ?_, .of_denotes (undual_denotes hA a1) (undual_denotes hA a2) ?_,
    .of_denotes (pow_denotes hA a1 n) (pow_denotes hA a2 n) (map_npow φ _ _ va n),
    fun hn => .of_denotes (gradeExtractAs_denotes a1 a1.supp hn) (gradeExtractAs_denotes a2 a2.supp hn) ?_⟩
  · intro i hi; rw [va i hi, vb i hi, map_add]
  · intro i hi; rw [va i hi, vb i hi, map_sub]
  · intro i hi; rw [va i hi, map_neg]
  · intro i hi; rw [va i hi, map_mul]
  · intro i hi; rw [va i hi, map_zsmul]
  · intro i hi; unfold flp; rw [va i hi, map_zsmul]
  · intro i hi; rw [va i hi, map_zsmul]
  · intro i hi; rw [va _ (xor_top_lt hi), map_zsmul]
  · intro i hi; rw [va _ (xor_top_lt hi), map_zsmul]
  · intro i hi; split
    · rw [va i hi]
    · rw [map_zero]

/-- **C76.** The same for the scalar-valued functions. -/
theorem C76_scalars (hA : A.WF) (φ : T →+* T') {a b : MV A S} {a' b' : MV A S'} (ha : Under φ a a') (hb : Under φ b b') :
    UnderS φ a.scalarPart a'.scalarPart ∧ UnderS φ (a.vsdot b) (a'.vsdot b') ∧ UnderS φ (a.vdot b) (a'.vdot b') ∧
    UnderS φ a.mag2 a'.mag2 := by
  have va : ∀ i < 2 ^ A.dim, a'.val i = φ (a.val i) := fun i hi => ha.val hi
  have vb : ∀ i < 2 ^ A.dim, b'.val i = φ (b.val i) := fun i hi => hb.val hi
  obtain ⟨a1, a2, -⟩ := ha
  obtain ⟨b1, b2, -⟩ := hb
  have h0 := Nat.two_pow_pos A.dim
  refine ⟨⟨_, scalarPart_ok a1, ?_⟩, ⟨_, vsdot_ok a1 b1, ?_⟩, ⟨_, vdot_ok hA a1 b1, ?_⟩, ⟨_, mag2_ok hA a1, ?_⟩⟩
  · rw [scalarPart_ok a2, va 0 h0]
  · rw [vsdot_ok a2 b2, map_sum]
    congr 1
    exact sum_congr rfl fun i hi => by rw [va i (mem_range.mp hi), vb i (mem_range.mp hi), map_mul]
  · rw [vdot_ok hA a2 b2, map_geo φ _ _ va vb h0]
  · rw [mag2_ok hA a2, map_geo φ _ _ (fun i hi => by rw [va i hi, map_zsmul]) va h0]

/-- **C76.** An injective homomorphism keeps and reflects `==` and `is_zero`. -/
theorem C76_injective (φ : T →+* T') (hφ : Function.Injective φ) {a b : MV A S} {a' b' : MV A S'} (ha : Under φ a a')
    (hb : Under φ b b') : a'.beq b' = a.beq b ∧ a'.isZero = a.isZero := by
  constructor
  · rw [Bool.eq_iff_iff, beq_iff ha.2.1 hb.2.1, beq_iff ha.1 hb.1]
    refine forall₂_congr fun i hi => ?_
    rw [ha.val hi, hb.val hi]
    exact hφ.eq_iff
  · rw [Bool.eq_iff_iff, isZero_iff ha.2.1, isZero_iff ha.1]
    refine forall₂_congr fun i hi => ?_
    rw [ha.val hi]
    exact map_eq_zero_iff φ hφ

/-- **C76.** Every expression in `+`, `-`, `*`, `wedge`, `meet`, the involutions and duals commutes with a homomorphism of
the coefficients. -/
theorem C76_expression [WedgeProduct A S] [LawfulWedge A S] [WedgeProduct A S'] [LawfulWedge A S'] (hA : A.WF) (φ : T →+* T')
    {ρ : Nat → MV A S} {ρ' : Nat → MV A S'} (hρ : ∀ i, Under φ (ρ i) (ρ' i)) (e : GExpr) :
    UnderR φ (e.eval ρ) (e.eval ρ') := by
  induction e with
  | X i => exact ⟨_, _, rfl, rfl, hρ i⟩
  | add e f ihe ihf | sub e f ihe ihf | mul e f ihe ihf | wedge e f ihe ihf | meet e f ihe ihf =>
    obtain ⟨u, u', p1, p2, p3⟩ := ihe
    obtain ⟨v, v', q1, q2, q3⟩ := ihf
    obtain ⟨h1, h2, -, -, h3, h4, h5, -⟩ := C76_operations hA φ p3 q3 0 0 0
    simp only [GExpr.eval, p1, p2, q1, q2]
    first | exact h1 | exact h2 | exact h3 | exact h4 | exact h5
  | flipSubspace mask e ih =>
    obtain ⟨u, u', p1, p2, p3⟩ := ih
    obtain ⟨-, -, -, -, -, -, -, -, -, h, -⟩ := C76_operations hA φ p3 p3 0 mask 0
    simp only [GExpr.eval, p1, p2]
    exact h
  | neg e ih | rev e ih | flip e ih | dual e ih | undual e ih =>
    obtain ⟨u, u', p1, p2, p3⟩ := ih
    obtain ⟨-, -, h1, -, -, -, -, h2, h3, -, h4, h5, -⟩ := C76_operations hA φ p3 p3 0 0 0
    simp only [GExpr.eval, p1, p2]
    first | exact h1 | exact h2 | exact h3 | exact h4 | exact h5

end

section
variable {A : ClAlg} {S S' T T' : Type} [Field T] [DecidableEq T] [CoeffStorage S T] [LawfulStorage S T]
  [Field T'] [DecidableEq T'] [CoeffStorage S' T'] [LawfulStorage S' T']

/-- **C76.** For fields also division by a scalar and `revm` commute with the homomorphism. -/
theorem C76_division (hA : A.WF) (φ : T →+* T') {a : MV A S} {a' : MV A S'} (ha : Under φ a a') {t m : T} (ht : t ≠ 0)
    (hm : a.mag2 = .ok m) (h0 : m ≠ 0) : UnderR φ (a.sdiv t) (a'.sdiv (φ t)) ∧ UnderR φ a.revm a'.revm := by
  have va : ∀ i < 2 ^ A.dim, a'.val i = φ (a.val i) := fun i hi => ha.val hi
  obtain ⟨-, -, -, c, e1, e2⟩ := C76_scalars hA φ ha ha
  obtain ⟨a1, a2, -⟩ := ha
  rw [hm] at e1
  injection e1 with e1
  subst e1
  have hφ : ∀ {x : T}, x ≠ 0 → φ x ≠ 0 := fun h => (map_ne_zero φ).mpr h
  refine ⟨.of_denotes (sdiv_denotes a1 ht) (sdiv_denotes a2 (hφ ht)) ?_,
    .of_denotes (revm_denotes a1 hm h0) (revm_denotes a2 e2 (hφ h0)) ?_⟩
  · intro i hi; rw [va i hi, map_div₀]
  · intro i hi; rw [va i hi, map_div₀, map_zsmul]

end

/-! ### Machine integers -/

section
variable {A : ClAlg} {S S' : Type} [CoeffStorage S' ℤ] [LawfulStorage S' ℤ]

/-- **C77, release build.** With wrapping arithmetic every expression gives the exact integer coefficients modulo `2^w`.  So
every coefficient whose exact value is in range is right, even if intermediate results overflow. -/
theorem C77_release {w : Nat} (hw : 0 < w) [CoeffStorage S (BitVec w)] [LawfulStorage S (BitVec w)] [WedgeProduct A S] [LawfulWedge A S]
    [WedgeProduct A S'] [LawfulWedge A S'] (hA : A.WF) {ρ : Nat → MV A S} {ρ' : Nat → MV A S'} {c : Nat → Nat → ℤ}
    (hρ : ∀ i, (ρ i).Valid ∧ ∀ j < 2 ^ A.dim, (ρ i).getByIdx j = .ok (BitVec.ofInt w (c i j)))
    (hρ' : ∀ i, (ρ' i).Valid ∧ ∀ j < 2 ^ A.dim, (ρ' i).getByIdx j = .ok (c i j)) (e : GExpr) :
    ∃ u v, e.eval ρ = .ok u ∧ e.eval ρ' = .ok v ∧ ∀ j < 2 ^ A.dim, ∃ m, v.getByIdx j = .ok m ∧
      u.getByIdx j = .ok (BitVec.ofInt w m) ∧ (-2 ^ (w - 1) ≤ m → m < 2 ^ (w - 1) → (BitVec.ofInt w m).toInt = m) := by
  obtain ⟨v, u, h1, h2, -, -, h3⟩ := C76_expression (ρ := ρ') (ρ' := ρ) hA (Int.castRingHom (BitVec w))
    (fun i => ⟨(hρ' i).1, (hρ i).1, fun j hj => ⟨c i j, (hρ' i).2 j hj, (hρ i).2 j hj⟩⟩) e
  refine ⟨u, v, h2, h1, fun j hj => ?_⟩
  obtain ⟨m, e1, e2⟩ := h3 j hj
  refine ⟨m, e1, e2, fun l1 l2 => ?_⟩
  rw [BitVec.toInt_ofInt]
  obtain ⟨k, rfl⟩ : ∃ k, w = k + 1 := ⟨w - 1, by omega⟩
  rw [Nat.add_sub_cancel] at l1 l2
  have e : ((2 ^ (k + 1) : Nat) : ℤ) = 2 * 2 ^ k := by push_cast; ring
  apply Int.bmod_eq_of_le
  · rw [e]; omega
  · rw [e]; omega

/-- **C77, division.** `mv / t` with integer coefficients divides every coefficient, rounding towards zero: the remainder is
smaller than `t` and has the sign of the coefficient.  The one quotient that does not fit, `MIN / -1`, panics (in debug and in
release builds), as does division by zero of any coefficient other than zero. -/
theorem C77_division {w : Nat} [CoeffStorage S (CInt w)] [LawfulStorage S (CInt w)] {a : MV A S} {c : Nat → ℤ}
    (ha : a.Valid) (hc : ∀ j < 2 ^ A.dim, IFits w (c j) ∧ a.getByIdx j = .ok (CInt.ofInt (c j))) {t : ℤ} (ht : IFits w t) :
    (t ≠ 0 → ∃ u, a.sdiv (CInt.ofInt t) = .ok u ∧ u.Valid ∧ ∀ j < 2 ^ A.dim, ∃ q r : ℤ, c j = q * t + r ∧ |r| < |t| ∧ 0 ≤ r * c j ∧
      u.getByIdx j = .ok (if c j = -2 ^ (w - 1) ∧ t = -1 then .overflow else CInt.ofInt q)) ∧
    (t = 0 → (∃ j < 2 ^ A.dim, c j ≠ 0) → ∃ e, a.sdiv (CInt.ofInt t) = .error e) := by
  have hof : ∀ {x : ℤ} (h : IFits w x), (CInt.ofInt x : CInt w) = .num ⟨x, h⟩ := fun h => by unfold CInt.ofInt; rw [dif_pos h]
  have h00 : IFits w 0 := ⟨by simp, by positivity⟩
  have hdiv : ∀ {x y : ℤ}, IFits w x → IFits w y → y ≠ 0 → (CInt.ofInt x / CInt.ofInt y : CInt w) = CInt.ofInt (x.tdiv y) := by
    intro x y hx hy h0
    rw [hof hx, hof hy]
    exact if_neg h0
  have hne : ∀ {x : ℤ}, IFits w x → x ≠ 0 → (CInt.ofInt x : CInt w) ≠ 0 := by
    intro x hx h0 h
    change CInt.ofInt x = CInt.ofInt 0 at h
    rw [hof hx, hof h00] at h
    injection h with h
    exact h0 (congrArg Subtype.val h)
  constructor
  · intro h0
    have key : Denotes (a.sdiv (CInt.ofInt t)) (fun i => a.val i / CInt.ofInt t) := by
      unfold sdiv
      refine (default_denotes ha.supp).bind ?_
      intro u hu hz
      rw [foldlM_set _ _ (fun p => (p.1, p.2 / CInt.ofInt t))]
      · rw [List.foldl_map]
        refine foldl_set_enum' ha.enum id (fun i hi => ⟨hi, rfl⟩) (fun _ x => x / CInt.ofInt t) (fun _ => ?_) u hu hz
        show CInt.ofInt 0 / CInt.ofInt t = CInt.ofInt 0
        rw [hdiv h00 ht h0, Int.zero_tdiv]
      · intro u p _
        simp only [fdiv, if_neg (hne ht h0)]
        rfl
    obtain ⟨u, hu, huv, huf⟩ := key
    beta_reduce at huf
    refine ⟨u, hu, huv, fun j hj => ?_⟩
    obtain ⟨h1, h2⟩ := hc j hj
    rw [ha.get hj] at h2
    refine ⟨(c j).tdiv t, (c j).tmod t, ?_, ?_, ?_, ?_⟩
    · rw [mul_comm]; exact (Int.mul_tdiv_add_tmod (c j) t).symm
    · rw [← Int.natCast_natAbs, ← Int.natCast_natAbs, Int.natAbs_tmod]
      exact_mod_cast Nat.mod_lt _ (Int.natAbs_pos.mpr h0)
    · rcases le_total 0 (c j) with h | h
      · exact mul_nonneg (Int.tmod_nonneg _ h) h
      · refine mul_nonneg_of_nonpos_of_nonpos ?_ h
        have := Int.tmod_nonneg t (show 0 ≤ -c j by omega)
        rw [Int.neg_tmod] at this
        omega
    · rw [huv.get hj, huf j hj, Except.ok.inj h2, hdiv h1 ht h0]
      split
      · rename_i hm
        rw [hm.1, hm.2, Int.tdiv_neg, Int.tdiv_one, neg_neg]
        congr 1
        unfold CInt.ofInt
        exact dif_neg fun h => lt_irrefl _ h.2
      · rfl
  · rintro rfl ⟨j, hj, hjne⟩
    obtain ⟨u, hu, -⟩ := default_denotes (A := A) (S := S) ha.supp
    unfold sdiv
    rw [hu]
    obtain ⟨h1, h2⟩ := hc j hj
    rw [ha.get hj] at h2
    have hmem := ha.enum.complete j hj (by rw [Except.ok.inj h2]; exact hne h1 hjne)
    cases hl : a.coeffEnumerate with
    | nil => rw [hl] at hmem; cases hmem
    | cons p l =>
      refine ⟨.nonFinite, ?_⟩
      show (List.foldlM (fun (ret : MV A S) (p : Nat × CInt w) => (do return ret.setByIdx p.1 (← fdiv p.2 (CInt.ofInt 0)) : Res (MV A S))) u (p :: l)) = _
      rw [List.foldlM_cons]
      simp only [fdiv, if_pos (show (CInt.ofInt 0 : CInt w) = 0 from rfl)]
      rfl

/-- **C77, debug build.** With overflow checks no operation of an expression overflows, and the result is exact, if the sums of
absolute values, added for sums and multiplied for products, stay below `2^(w-1)`. -/
theorem C77_debug {w : Nat} [Fact (1 < w)] [CoeffStorage S (CInt w)] [LawfulStorage S (CInt w)] [WedgeProduct A S] [FloatWedge A S]
    [WedgeProduct A S'] [LawfulWedge A S'] (hA : A.WF) {ρ : Nat → MV A S} {ρ' : Nat → MV A S'} {c : Nat → Nat → ℤ} {l : Nat → ℝ}
    (hρ : ∀ i, (ρ i).Valid ∧ ∀ j < 2 ^ A.dim, (ρ i).getByIdx j = .ok (CInt.ofInt (c i j)))
    (hρ' : ∀ i, (ρ' i).Valid ∧ ∀ j < 2 ^ A.dim, (ρ' i).getByIdx j = .ok (c i j))
    (hc : ∀ i, ∀ j < 2 ^ A.dim, |c i j| < 2 ^ (w - 1)) (hl : ∀ i, ∑ j ∈ range (2 ^ A.dim), |(c i j : ℝ)| ≤ l i)
    (e : GExpr) (he : e.Fits (2 ^ (w - 1) - 1) l) :
    ∃ u v, e.eval ρ = .ok u ∧ e.eval ρ' = .ok v ∧ ∀ j < 2 ^ A.dim, ∃ m, v.getByIdx j = .ok m ∧ |m| < 2 ^ (w - 1) ∧
      u.getByIdx j = .ok (CInt.ofInt m) := by
  have hd : A.dim ≤ 63 := LawfulStorage.supp_le (hρ' 0).1.supp
  let r : Nat → MV A (ArrayStorage ℝ) := fun i => ⟨⟨A.dim, ⟨2 ^ A.dim, fun j => (c i j : ℝ)⟩⟩⟩
  have hr : ∀ i, (r i).Valid := fun i => ⟨hd, rfl, rfl⟩
  have hget : ∀ i, ∀ j < 2 ^ A.dim, (r i).val j = c i j := fun i j hj => arr_val (hr i) hj
  have htop : ∀ {m : ℤ}, |m| < 2 ^ (w - 1) ↔ |m| ≤ CInt.top w := by
    intro m; unfold CInt.top; omega
  have hok : ∀ i, ∀ j < 2 ^ A.dim, (CInt.ofInt (c i j) : CInt w).Ok ∧ (CInt.ofInt (c i j) : CInt w).toInt = c i j :=
    fun i j hj => CInt.ok_ofInt (htop.mp (hc i j hj))
  have hsame : ∀ i, SameValues (ρ i) (r i) (fun j => CInt.ofInt (c i j)) := by
    intro i
    refine ⟨(hρ i).1, hr i, ⟨_, rfl, (hρ i).2⟩, ⟨_, rfl, fun j hj => ?_⟩, fun j hj => (hok i j hj).1⟩
    rw [(hr i).get hj, hget i j hj]
    show _ = Except.ok (((CInt.ofInt (c i j) : CInt w).toInt : ℤ) : ℝ)
    rw [(hok i j hj).2]
  have hre : ∀ i, ∀ j < 2 ^ A.dim, FloatModel.re (CInt.ofInt (c i j) : CInt w) = c i j := by
    intro i j hj
    show (((CInt.ofInt (c i j) : CInt w).toInt : ℤ) : ℝ) = _
    rw [(hok i j hj).2]
  obtain ⟨u, u', z, p1, p2, p3, p4, p5⟩ := C71_expression hA hsame (fun i j hj => ⟨c i j, hre i j hj⟩)
    (fun i => (sum_congr rfl fun j hj => by rw [hre i j (mem_range.mp hj)]).trans_le (hl i)) e
    (by show e.Fits ((CInt.top w : ℤ) : ℝ) l; unfold CInt.top; push_cast; exact he)
  obtain ⟨v, v', q1, q2, -, -, q3⟩ := C76_expression (ρ := ρ') (ρ' := r) hA (Int.castRingHom ℝ)
    (fun i => ⟨(hρ' i).1, hr i, fun j hj => ⟨c i j, (hρ' i).2 j hj, by rw [(hr i).get hj, hget i j hj]; rfl⟩⟩) e
  rw [p2] at q2
  injection q2 with q2
  subst q2
  refine ⟨u, v, p1, q1, fun j hj => ?_⟩
  obtain ⟨m, e1, e2⟩ := q3 j hj
  have k1 := p3.finite j hj
  have k2 : u.getByIdx j = .ok (z j) := by rw [p3.valid.get hj, p3.val hj]
  rw [p3.valid'.get hj, p3.val' hj] at e2
  injection e2 with e2
  have e2 : (z j).toInt = m := by
    have : (((z j).toInt : ℤ) : ℝ) = (m : ℝ) := e2
    exact_mod_cast this
  obtain ⟨t1, t2, -⟩ := CInt.Ok.toInt k1
  rw [e2] at t1 t2
  exact ⟨m, e1, htop.mpr t2, by rw [k2, t1]⟩

end

/-! ### Examples -/

namespace Ex

/-- `mA` over the rationals. -/
def mAq : MV M (ArrayStorage ℚ) := ⟨⟨3, ⟨8, fun i => i + 1⟩⟩⟩

/-- `mB` over the rationals. -/
def mBq : MV M (ArrayStorage ℚ) := ⟨⟨3, ⟨8, fun i => if i % 2 = 0 then i * i else -(i * i)⟩⟩⟩

theorem underA : Under (Int.castRingHom ℚ) mA mAq :=
  .of_val mA_valid ⟨by decide, rfl, rfl⟩ (show ∀ i < 8, mAq.val i = ((mA.val i : ℤ) : ℚ) by decide +kernel)

theorem underB : Under (Int.castRingHom ℚ) mB mBq :=
  .of_val mB_valid ⟨by decide, rfl, rfl⟩ (show ∀ i < 8, mBq.val i = ((mB.val i : ℤ) : ℚ) by decide +kernel)

example := C76_operations M_wf (Int.castRingHom ℚ) underA underB 7 5 2
example := C76_scalars M_wf (Int.castRingHom ℚ) underA underB
example : mAq.beq mBq = mA.beq mB ∧ mAq.isZero = mA.isZero :=
  C76_injective (Int.castRingHom ℚ) (RingHom.injective_int _) underA underB
example : UnderR (Int.castRingHom ℚ) ((GExpr.mul (.X 0) (.wedge (.X 1) (.dual (.X 0)))).eval (fun i => if i = 0 then mA else mB))
    ((GExpr.mul (.X 0) (.wedge (.X 1) (.dual (.X 0)))).eval (fun i => if i = 0 then mAq else mBq)) :=
  C76_expression M_wf _ (fun i => by split; exacts [underA, underB]) _
example : UnderR (RingHom.id ℚ) (mAq.sdiv 3) (mAq.sdiv 3) ∧ UnderR (RingHom.id ℚ) mAq.revm mAq.revm :=
  C76_division M_wf (RingHom.id ℚ) (m := -20) (.of_val underA.2.1 underA.2.1 fun _ _ => rfl) (by norm_num) (by decide +kernel) (by norm_num)

/-- A multivector with `i8` coefficients in a release build. -/
def r8 (c : Nat → ℤ) : MV M (ArrayStorage (BitVec 8)) := ⟨⟨3, ⟨8, fun i => BitVec.ofInt 8 (c i)⟩⟩⟩

/-- A multivector with `i8` coefficients in a debug build. -/
def d8 (c : Nat → ℤ) : MV M (ArrayStorage (CInt 8)) := ⟨⟨3, ⟨8, fun i => CInt.ofInt (c i)⟩⟩⟩

/-- A multivector with exact coefficients. -/
def z8 (c : Nat → ℤ) : MV M (ArrayStorage ℤ) := ⟨⟨3, ⟨8, c⟩⟩⟩

instance : Fact (1 < 8) := ⟨by decide⟩

theorem r8_ok (c : Nat → ℤ) : (r8 c).Valid ∧ ∀ j < 2 ^ M.dim, (r8 c).getByIdx j = .ok (BitVec.ofInt 8 (c j)) := by
  have h : (r8 c).Valid := ⟨by decide, rfl, rfl⟩
  exact ⟨h, fun j hj => by rw [h.get hj, arr_val h hj]; rfl⟩

theorem z8_ok (c : Nat → ℤ) : (z8 c).Valid ∧ ∀ j < 2 ^ M.dim, (z8 c).getByIdx j = .ok (c j) := by
  have h : (z8 c).Valid := ⟨by decide, rfl, rfl⟩
  exact ⟨h, fun j hj => by rw [h.get hj, arr_val h hj]; rfl⟩

theorem d8_ok (c : Nat → ℤ) : (d8 c).Valid ∧ ∀ j < 2 ^ M.dim, (d8 c).getByIdx j = .ok (CInt.ofInt (c j)) := by
  have h : (d8 c).Valid := ⟨by decide, rfl, rfl⟩
  exact ⟨h, fun j hj => by rw [h.get hj, arr_val' h hj]; rfl⟩

/-- `16 + 16 e0` and `16 - 16 e0`. -/
def c16 (i : Nat) : Nat → ℤ := fun j => if j = 0 then 16 else if j = 1 then (if i = 0 then 16 else -16) else 0

/-- Every single product overflows, but in a release build the result is right, in a debug build the program panics. -/
example : (do let p ← (r8 (c16 0)).naiveMulImpl (r8 (c16 1)); p.getByIdx 0) = .ok 0 ∧
    (do let p ← (z8 (c16 0)).naiveMulImpl (z8 (c16 1)); p.getByIdx 0) = .ok 0 ∧
    (do let p ← (d8 (c16 0)).naiveMulImpl (d8 (c16 1)); p.getByIdx 0) = .ok .overflow := by
  refine ⟨?_, ?_, ?_⟩ <;> decide +kernel

example := C77_release (w := 8) (by decide) M_wf (fun i => r8_ok (c16 i)) (fun i => z8_ok (c16 i)) (.mul (.X 0) (.X 1))

/-- `(16 + 16 e0) / -3 = -5 - 5 e0` -/
example : (do let p ← (d8 (c16 0)).sdiv (CInt.ofInt (-3)); p.getByIdx 1) = .ok (CInt.ofInt (-5)) := by decide +kernel
example := C77_division (w := 8) (d8_ok (c16 1)).1 (fun j hj => ⟨(by decide : ∀ j < 8, IFits 8 (c16 1 j)) j hj, (d8_ok (c16 1)).2 j hj⟩)
  (t := -3) (by decide)

/-- Small coefficients. -/
def c2 (i : Nat) : Nat → ℤ := fun j => if j = i then 2 else if j = i + 3 then -3 else 0

example := C77_debug (w := 8) M_wf (c := fun i => c2 (i % 4)) (l := fun _ => 5) (fun i => d8_ok _) (fun i => z8_ok _)
  (by
    intro i j _
    unfold c2
    split
    · norm_num
    · split <;> norm_num)
  (by
    intro i
    have h : ∀ k < 4, ∑ j ∈ range (2 ^ M.dim), |c2 k j| ≤ 5 := by decide +kernel
    exact_mod_cast h (i % 4) (Nat.mod_lt _ (by norm_num)))
  (.sub (.mul (.X 0) (.rev (.X 1))) (.wedge (.X 2) (.X 3))) (by simp only [GExpr.Fits, GExpr.bound]; norm_num)

/-- The laws of the exact algebra hold for `i8` in a release build. -/
example (c d e : Nat → ℤ) : (do let ab ← (r8 c).naiveMulImpl (r8 d); ab.naiveMulImpl (r8 e)) ≈ᵣ
    (do let bc ← (r8 d).naiveMulImpl (r8 e); (r8 c).naiveMulImpl bc) :=
  C04_mul_assoc M_wf (r8_ok c).1 (r8_ok d).1 (r8_ok e).1

end Ex

end TClifford
