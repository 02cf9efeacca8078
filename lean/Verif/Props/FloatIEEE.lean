import Verif.Props.Float
import Verif.Props.Product
/-
`f64` and `f32`: the constants of C69 to C71, the order of summation (C72) and examples.
-/

set_option linter.unusedSectionVars false

namespace TClifford

open MV Finset FloatModel

set_option exponentiation.threshold 2000 in
/-- The constants for `f64`: relative error `2^-53`, underflow error `2^-1075`, exact integers up to `2^53`, overflow
beyond `(2^53 - 1) 2^971`. -/
theorem C69_f64 : u F64 = 1 / 2 ^ 53 ∧ η F64 = 1 / 2 ^ 1075 ∧ M F64 = 2 ^ 53 ∧ Ω F64 = (2 ^ 53 - 1) * 2 ^ 971 ∧
    ∀ x : F64, re x = (x.toRat : ℝ) ∧ (fin x ↔ x ≠ .nonFinite) := by
  refine ⟨?_, ?_, rfl, ?_, fun x => ⟨rfl, Iff.rfl⟩⟩
  · show ((Fmt.f64.unitRoundoff : ℚ) : ℝ) = _
    rw [show Fmt.f64.unitRoundoff = 1 / 2 ^ 53 from rfl]; push_cast; rfl
  · show ((Fmt.f64.halfMin : ℚ) : ℝ) = _
    rw [show Fmt.f64.halfMin = 1 / 2 ^ 1075 by
      unfold Fmt.halfMin Fmt.f64
      rw [show (1075 : ℕ) = 1074 + 1 from rfl, pow_succ, zpow_neg, ← div_div]
      simp only [one_div]; norm_cast]
    push_cast; rfl
  · show ((Fmt.f64.maxFin : ℚ) : ℝ) = _
    rw [Fmt.maxFin, show Fmt.f64.emax = ((971 : ℕ) : ℤ) from rfl, show Fmt.f64.p = 53 from rfl, zpow_natCast]
    push_cast
    rfl

/-- The constants for `f32`. -/
theorem C69_f32 : u F32 = 1 / 2 ^ 24 ∧ η F32 = 1 / 2 ^ 150 ∧ M F32 = 2 ^ 24 ∧ Ω F32 = (2 ^ 24 - 1) * 2 ^ 104 ∧
    ∀ x : F32, re x = (x.toRat : ℝ) ∧ (fin x ↔ x ≠ .nonFinite) := by
  refine ⟨?_, ?_, rfl, ?_, fun x => ⟨rfl, Iff.rfl⟩⟩
  · show ((Fmt.f32.unitRoundoff : ℚ) : ℝ) = _
    rw [show Fmt.f32.unitRoundoff = 1 / 2 ^ 24 from rfl]; push_cast; rfl
  · show ((Fmt.f32.halfMin : ℚ) : ℝ) = _
    rw [show Fmt.f32.halfMin = 1 / 2 ^ 150 by
      unfold Fmt.halfMin Fmt.f32
      rw [show (150 : ℕ) = 149 + 1 from rfl, pow_succ, zpow_neg, ← div_div]
      simp only [one_div]; norm_cast]
    push_cast; rfl
  · show ((Fmt.f32.maxFin : ℚ) : ℝ) = _
    rw [Fmt.maxFin, show Fmt.f32.emax = ((104 : ℕ) : ℤ) from rfl, show Fmt.f32.p = 24 from rfl, zpow_natCast]
    push_cast
    rfl

/-- **C69, rounding.** For each IEEE format: a sum, difference, product or quotient of finite numbers is a finite number that is
nearest to the exact result, if the exact result is at most the largest finite number. -/
theorem C69_nearest {f : Fmt} {x y : Flt f} (hx : x ≠ .nonFinite) (hy : y ≠ .nonFinite) :
    (|x.toRat + y.toRat| ≤ f.maxFin → x + y ≠ .nonFinite ∧
      ∀ z : Flt f, z ≠ .nonFinite → |(x + y).toRat - (x.toRat + y.toRat)| ≤ |z.toRat - (x.toRat + y.toRat)|) ∧
    (|x.toRat - y.toRat| ≤ f.maxFin → x - y ≠ .nonFinite ∧
      ∀ z : Flt f, z ≠ .nonFinite → |(x - y).toRat - (x.toRat - y.toRat)| ≤ |z.toRat - (x.toRat - y.toRat)|) ∧
    (|x.toRat * y.toRat| ≤ f.maxFin → x * y ≠ .nonFinite ∧
      ∀ z : Flt f, z ≠ .nonFinite → |(x * y).toRat - x.toRat * y.toRat| ≤ |z.toRat - x.toRat * y.toRat|) ∧
    (y.toRat ≠ 0 → |x.toRat / y.toRat| ≤ f.maxFin → x / y ≠ .nonFinite ∧
      ∀ z : Flt f, z ≠ .nonFinite → |(x / y).toRat - x.toRat / y.toRat| ≤ |z.toRat - x.toRat / y.toRat|) := by
  have key : ∀ q : ℚ, |q| ≤ f.maxFin → (Flt.ofRat q : Flt f) ≠ .nonFinite ∧
      ∀ z : Flt f, z ≠ .nonFinite → |(Flt.ofRat q : Flt f).toRat - q| ≤ |z.toRat - q| := by
    intro q hq
    obtain ⟨h1, h2⟩ := Flt.ofRat_ok (f := f) hq
    refine ⟨h1, fun z hz => ?_⟩
    obtain ⟨z, rfl⟩ := Flt.cases_fin hz
    rw [h2]
    exact Fmt.rnd_nearest f z.2.1
  obtain ⟨x, rfl⟩ := Flt.cases_fin hx
  obtain ⟨y, rfl⟩ := Flt.cases_fin hy
  refine ⟨?_, ?_, ?_, ?_⟩
  · rw [Flt.add_num]; exact key _
  · rw [Flt.sub_num]; exact key _
  · rw [Flt.mul_num]; exact key _
  · intro h
    rw [Flt.div_num, if_neg (show y.1 ≠ 0 from h)]; exact key _

/-- Dense and sparse `wedge` and `meet` of floating point multivectors compute the sums of their definition, in some order. -/
theorem float_wedges_lawful (A : ClAlg) (f : Fmt) :
    FloatWedge A (ArrayStorage (Flt f)) ∧ (∀ [HashOrder (Flt f)], FloatWedge A (SparseStorage (Flt f))) :=
  ⟨inferInstance, inferInstance⟩

theorem one_add_pow_le {w : ℝ} (hw : 0 ≤ w) (n : ℕ) (h : n * w ≤ 1) : (1 + w) ^ n ≤ 1 + n * w + n ^ 2 * w ^ 2 := by
  induction n with
  | zero => simp
  | succ n ih =>
    push_cast at h
    have hn : (n : ℝ) * w ≤ 1 := by nlinarith
    have hn0 : (0 : ℝ) ≤ n := Nat.cast_nonneg n
    rw [pow_succ]
    have := mul_le_mul_of_nonneg_right (ih hn) (show 0 ≤ 1 + w by linarith)
    refine this.trans ?_
    push_cast
    have h1 : (n : ℝ) * (n * w) * w ^ 2 ≤ n * 1 * w ^ 2 := by
      apply mul_le_mul_of_nonneg_right _ (sq_nonneg w)
      exact mul_le_mul_of_nonneg_left hn hn0
    nlinarith [sq_nonneg w]

section
variable {F : Type} [Zero F] [One F] [Add F] [Sub F] [Neg F] [Mul F] [Div F] [FloatModel F] [DecidableEq F]

theorem errB_le {a : ℝ} (ha : 0 ≤ a) {N : ℕ} (h : ((N : ℝ) + 1) ^ 2 * u F ≤ 1) :
    errB F a N ≤ (N + 2) * u F * a + 3 * N * η F := by
  unfold errB
  have hu := u_nonneg (F := F)
  have hη := η_nonneg (F := F)
  have hN : (0 : ℝ) ≤ N := Nat.cast_nonneg N
  have h1 : (((N + 1 : ℕ) : ℝ)) * u F ≤ 1 := by push_cast; nlinarith
  have h2 := one_add_pow_le hu (N + 1) h1
  push_cast at h2 h1
  have h3 : ((N : ℝ) + 1) ^ 2 * u F ^ 2 ≤ u F := by nlinarith
  have h4 : (1 + u F) ^ N ≤ 3 := by
    have := one_add_pow_le hu N (by nlinarith)
    have h5 : (N : ℝ) * u F ≤ 1 := by nlinarith
    have h6 : (N : ℝ) ^ 2 * u F ^ 2 ≤ 1 := by
      rw [← mul_pow]; exact pow_le_one₀ (by positivity) h5
    linarith
  have h7 : a * ((1 + u F) ^ (N + 1) - 1) ≤ a * ((N + 2) * u F) := by
    apply mul_le_mul_of_nonneg_left _ ha
    linarith
  have h8 : η F * N * (1 + u F) ^ N ≤ η F * N * 3 := mul_le_mul_of_nonneg_left h4 (by positivity)
  linarith

theorem nTerms_le (s : Finset ℕ) (x y : Nat → F) : nTerms s x y ≤ #s := card_filter_le _ _

theorem absSum_le {s : Finset ℕ} {x y : Nat → F} {c d : ℝ} (hx : ∀ i ∈ s, |re (x i)| ≤ c) (hy : ∀ i ∈ s, |re (y i)| ≤ d) :
    absSum s x y ≤ #s * (c * d) := by
  unfold absSum
  rw [← nsmul_eq_mul]
  apply sum_le_card_nsmul
  intro i hi
  exact mul_le_mul (hx i hi) (hy i hi) (abs_nonneg _) ((abs_nonneg _).trans (hx i hi))

/-- The bound in a simpler form, for sums over at most `2^n` terms. -/
theorem near_simple {n : Nat} {B : ℝ} (hn : ((2 : ℝ) ^ n + 1) ^ 2 * u F ≤ 1)
    (hΩ : 3 * (2 ^ n * (B * B)) + 3 * 2 ^ n * η F ≤ Ω F) {x y : Nat → F}
    (hx : ∀ i < 2 ^ n, |re (x i)| ≤ B) (hy : ∀ i < 2 ^ n, |re (y i)| ≤ B) :
    let s := range (2 ^ n)
    absSum s x y + errB F (absSum s x y) (nTerms s x y) ≤ Ω F ∧
      errB F (absSum s x y) (nTerms s x y) ≤ (2 ^ n + 2) * u F * absSum s x y + 3 * 2 ^ n * η F := by
  intro s
  have hu := u_nonneg (F := F)
  have hη := η_nonneg (F := F)
  have h0 := absSum_nonneg s x y
  have hN : (nTerms s x y : ℝ) ≤ 2 ^ n := by
    have := nTerms_le s x y
    rw [card_range] at this
    exact_mod_cast this
  have hN0 : (0 : ℝ) ≤ nTerms s x y := Nat.cast_nonneg _
  have h1 : errB F (absSum s x y) (nTerms s x y) ≤ errB F (absSum s x y) (2 ^ n) :=
    errB_mono h0 le_rfl (by have := nTerms_le s x y; rwa [card_range] at this)
  have h2 : errB F (absSum s x y) (2 ^ n) ≤ (2 ^ n + 2) * u F * absSum s x y + 3 * 2 ^ n * η F := by
    have := errB_le (F := F) h0 (N := 2 ^ n) (by push_cast; exact hn)
    push_cast at this
    exact this
  have h3 : absSum s x y ≤ 2 ^ n * (B * B) := by
    have := absSum_le (s := s) (x := x) (y := y) (fun i hi => hx i (mem_range.mp hi)) (fun i hi => hy i (mem_range.mp hi))
    rw [card_range] at this
    exact_mod_cast this
  have h4 : (2 ^ n + 2) * u F ≤ 2 := by
    have : (1 : ℝ) ≤ 2 ^ n := one_le_pow₀ (by norm_num)
    nlinarith
  have h5 : (2 ^ n + 2) * u F * absSum s x y ≤ 2 * absSum s x y := mul_le_mul_of_nonneg_right h4 h0
  exact ⟨by linarith, h1.trans h2⟩

end

section
variable {A : ClAlg} {S' : Type} [CoeffStorage S' ℝ] [LawfulStorage S' ℝ] {a' b' : MV A S'}

set_option exponentiation.threshold 2000 in
/-- **C70, `f64` products.** In algebras of dimension at most 25, with coefficients of absolute value at most `2^480`:
all coefficients of the product are finite and off by at most
`(2^n + 2) 2^-53 Σ_i |x_i| |y_{i⊕k}| + 3·2^n·2^-1075`. -/
theorem C70_mul_f64 (hA : A.WF) (hd : A.dim ≤ 25) {S : Type} [CoeffStorage S F64] [LawfulStorage S F64] {a b : MV A S}
    {x y : Nat → F64} (ha : SameValues a a' x) (hb : SameValues b b' y) (hx : ∀ i < 2 ^ A.dim, |((x i).toRat : ℝ)| ≤ 2 ^ 480)
    (hy : ∀ i < 2 ^ A.dim, |((y i).toRat : ℝ)| ≤ 2 ^ 480) :
    ∃ r r' z e, a.naiveMulImpl b = .ok r ∧ a'.naiveMulImpl b' = .ok r' ∧ Coefs (.ok r) z ∧ Coefs (.ok r') e ∧
      ∀ k < 2 ^ A.dim, z k ≠ .nonFinite ∧ |((z k).toRat : ℝ) - e k| ≤
        (2 ^ A.dim + 2) / 2 ^ 53 * ∑ i ∈ range (2 ^ A.dim), |((x i).toRat : ℝ)| * |((y (i ^^^ k)).toRat : ℝ)| +
          3 * 2 ^ A.dim / 2 ^ 1075 := by
  obtain ⟨r, r', z, e, h1, h2, -, -, h3, h4, h5⟩ := C70_mul hA ha hb
  refine ⟨r, r', z, e, h1, h2, h3, h4, fun k hk => ?_⟩
  obtain ⟨cu, cη, -, cΩ, -⟩ := C69_f64
  have hp : (2 : ℝ) ^ A.dim ≤ 2 ^ 25 := pow_le_pow_right₀ (by norm_num) hd
  have hp0 : (0 : ℝ) ≤ 2 ^ A.dim := by positivity
  have key := near_simple (F := F64) (n := A.dim) (B := 2 ^ 480) (x := x) (y := fun i => y (i ^^^ k))
    (by
      rw [cu]
      have : ((2 : ℝ) ^ A.dim + 1) ^ 2 ≤ (2 ^ 25 + 1) ^ 2 := pow_le_pow_left₀ (by positivity) (by linarith) 2
      refine (mul_le_mul_of_nonneg_right this (by positivity)).trans ?_
      norm_num)
    (by
      rw [cη, cΩ]
      have e1 : (3 : ℝ) * (2 ^ A.dim * (2 ^ 480 * 2 ^ 480)) ≤ 3 * (2 ^ 25 * (2 ^ 480 * 2 ^ 480)) := by
        have := mul_le_mul_of_nonneg_right hp (show (0 : ℝ) ≤ 2 ^ 480 * 2 ^ 480 by positivity)
        exact mul_le_mul_of_nonneg_left this (by norm_num)
      have e2 : (3 : ℝ) * 2 ^ A.dim * (1 / 2 ^ 1075) ≤ 3 * 2 ^ 25 * 1 := by
        apply mul_le_mul (by linarith) _ (by positivity) (by positivity)
        rw [div_le_one (by positivity)]
        exact one_le_pow₀ (by norm_num)
      refine (add_le_add e1 e2).trans ?_
      norm_num)
    hx (fun i hi => hy _ (Nat.xor_lt_two_pow hi hk))
  obtain ⟨g1, g2⟩ := h5 k hk key.1
  refine ⟨g1, (g2.trans key.2).trans (le_of_eq ?_)⟩
  rw [cu, cη]
  unfold absSum
  simp only [show ∀ v : F64, re v = (v.toRat : ℝ) from fun _ => rfl]
  ring

/-- **C70, `f32` products.** In algebras of dimension at most 11, with coefficients of absolute value at most `2^50`. -/
theorem C70_mul_f32 (hA : A.WF) (hd : A.dim ≤ 11) {S : Type} [CoeffStorage S F32] [LawfulStorage S F32] {a b : MV A S}
    {x y : Nat → F32} (ha : SameValues a a' x) (hb : SameValues b b' y) (hx : ∀ i < 2 ^ A.dim, |((x i).toRat : ℝ)| ≤ 2 ^ 50)
    (hy : ∀ i < 2 ^ A.dim, |((y i).toRat : ℝ)| ≤ 2 ^ 50) :
    ∃ r r' z e, a.naiveMulImpl b = .ok r ∧ a'.naiveMulImpl b' = .ok r' ∧ Coefs (.ok r) z ∧ Coefs (.ok r') e ∧
      ∀ k < 2 ^ A.dim, z k ≠ .nonFinite ∧ |((z k).toRat : ℝ) - e k| ≤
        (2 ^ A.dim + 2) / 2 ^ 24 * ∑ i ∈ range (2 ^ A.dim), |((x i).toRat : ℝ)| * |((y (i ^^^ k)).toRat : ℝ)| +
          3 * 2 ^ A.dim / 2 ^ 150 := by
  obtain ⟨r, r', z, e, h1, h2, -, -, h3, h4, h5⟩ := C70_mul hA ha hb
  refine ⟨r, r', z, e, h1, h2, h3, h4, fun k hk => ?_⟩
  obtain ⟨cu, cη, -, cΩ, -⟩ := C69_f32
  have hp : (2 : ℝ) ^ A.dim ≤ 2 ^ 11 := pow_le_pow_right₀ (by norm_num) hd
  have hp0 : (0 : ℝ) ≤ 2 ^ A.dim := by positivity
  have key := near_simple (F := F32) (n := A.dim) (B := 2 ^ 50) (x := x) (y := fun i => y (i ^^^ k))
    (by
      rw [cu]
      have : ((2 : ℝ) ^ A.dim + 1) ^ 2 ≤ (2 ^ 11 + 1) ^ 2 := pow_le_pow_left₀ (by positivity) (by linarith) 2
      refine (mul_le_mul_of_nonneg_right this (by positivity)).trans ?_
      norm_num)
    (by
      rw [cη, cΩ]
      have e1 : (3 : ℝ) * (2 ^ A.dim * (2 ^ 50 * 2 ^ 50)) ≤ 3 * (2 ^ 11 * (2 ^ 50 * 2 ^ 50)) := by
        have := mul_le_mul_of_nonneg_right hp (show (0 : ℝ) ≤ 2 ^ 50 * 2 ^ 50 by positivity)
        exact mul_le_mul_of_nonneg_left this (by norm_num)
      have e2 : (3 : ℝ) * 2 ^ A.dim * (1 / 2 ^ 150) ≤ 3 * 2 ^ 11 * 1 := by
        apply mul_le_mul (by linarith) _ (by positivity) (by positivity)
        rw [div_le_one (by positivity)]
        exact one_le_pow₀ (by norm_num)
      refine (add_le_add e1 e2).trans ?_
      norm_num)
    hx (fun i hi => hy _ (Nat.xor_lt_two_pow hi hk))
  obtain ⟨g1, g2⟩ := h5 k hk key.1
  refine ⟨g1, (g2.trans key.2).trans (le_of_eq ?_)⟩
  rw [cu, cη]
  unfold absSum
  simp only [show ∀ v : F32, re v = (v.toRat : ℝ) from fun _ => rfl]
  ring

end

/-! ### Order of summation -/

section
variable {F : Type} [Zero F] [One F] [Add F] [Sub F] [Neg F] [Mul F] [Div F] [FloatModel F] [DecidableEq F]
variable {A : ClAlg} {S₁ S₂ : Type} {_ : CoeffStorage S₁ F} {_ : LawfulStorage S₁ F} {_ : CoeffStorage S₂ F}
  {_ : LawfulStorage S₂ F} {S' : Type} [CoeffStorage S' ℝ] [LawfulStorage S' ℝ]

/-- **C72, how much the storage matters.** The products of the same floating point multivectors in two storages, or in
sparse storages with two iteration orders, differ by at most twice the bound of C70. -/
theorem C72_storages_partial (hA : A.WF) {a₁ b₁ : MV A S₁} {a₂ b₂ : MV A S₂} {a' b' : MV A S'} {x y : Nat → F}
    (ha₁ : SameValues a₁ a' x) (hb₁ : SameValues b₁ b' y) (ha₂ : SameValues a₂ a' x) (hb₂ : SameValues b₂ b' y) :
    let M := fun k => absSum (range (2 ^ A.dim)) x (fun i => y (i ^^^ k))
    let N := fun k => nTerms (range (2 ^ A.dim)) x (fun i => y (i ^^^ k))
    ∃ z₁ z₂, Coefs (a₁.naiveMulImpl b₁) z₁ ∧ Coefs (a₂.naiveMulImpl b₂) z₂ ∧
      ∀ k < 2 ^ A.dim, M k + errB F (M k) (N k) ≤ Ω F → fin (z₁ k) ∧ fin (z₂ k) ∧
        |re (z₁ k) - re (z₂ k)| ≤ 2 * errB F (M k) (N k) := by
  intro M N
  obtain ⟨r₁, r₁', z₁, e₁, p1, p2, -, -, p3, p4, p5⟩ := C70_mul hA ha₁ hb₁
  obtain ⟨r₂, r₂', z₂, e₂, q1, q2, -, -, q3, q4, q5⟩ := C70_mul hA ha₂ hb₂
  rw [p2] at q2
  injection q2 with q2
  subst q2
  refine ⟨z₁, z₂, by rw [p1]; exact p3, by rw [q1]; exact q3, fun k hk h => ?_⟩
  obtain ⟨f1, g1⟩ := p5 k hk h
  obtain ⟨f2, g2⟩ := q5 k hk h
  refine ⟨f1, f2, ?_⟩
  rw [← p4.unique q4 k hk] at g2
  rw [abs_le] at *
  constructor <;> linarith [g1.1, g1.2, g2.1, g2.2]

end

namespace Ex

/-- The `f64` nearest to `q`. -/
def n64 (q : ℚ) : F64 := Flt.ofRat q

/-- Sparse `f64` multivectors of `E`. -/
def sX : MV E (SparseStorage F64) := ⟨⟨3, 8, ⟨[(1, n64 (2 ^ 53)), (2, n64 1), (4, n64 1)]⟩⟩⟩
def sY : MV E (SparseStorage F64) := ⟨⟨3, 8, ⟨[(1, n64 1), (2, n64 1), (4, n64 1)]⟩⟩⟩

/-- The order of the entry list. -/
@[reducible] def idOrder64 {T : Type} : HashOrder T := ⟨id, fun _ => .refl _⟩

theorem sX_valid (o : HashOrder F64) : @MV.Valid E (SparseStorage F64) F64 _ _ _ _
    (@SparseStorage.instCoeffStorage F64 _ _ _ _ o) (@SparseStorage.instLawfulStorage F64 _ _ _ _ _ o) sX := by
  refine ⟨by decide, rfl, rfl, by decide, ?_⟩
  decide +kernel

end Ex

/-- **C72: the order of the hash map is visible.** The scalar part of the same product of sparse `f64` multivectors is
`2^53` or `2^53 + 2`, depending on the order in which the hash map of the left operand is visited. -/
theorem C72_order_false :
    (letI : HashOrder F64 := Ex.idOrder64; do (← Ex.sX.naiveMulImpl Ex.sY).getByIdx 0 : Res F64) = .ok (Ex.n64 (2 ^ 53)) ∧
    (letI : HashOrder F64 := Ex.revOrder; do (← Ex.sX.naiveMulImpl Ex.sY).getByIdx 0 : Res F64) =
      .ok (Ex.n64 (2 ^ 53 + 2)) ∧
    Ex.n64 (2 ^ 53) ≠ Ex.n64 (2 ^ 53 + 2) := by
  decide +kernel

/-- The scalar `q` as a dense `f64` multivector of `E`. -/
def Ex.c64 (q : ℚ) : MV Ex.E (ArrayStorage F64) := ⟨⟨3, ⟨8, fun i => if i = 0 then Ex.n64 q else 0⟩⟩⟩

/-- **C72: sums and products are not associative, and do not distribute.** Scalar `f64` multivectors. -/
theorem C72_laws_false :
    (do (← (← (Ex.c64 (2 ^ 53)).add (Ex.c64 1)).add (Ex.c64 1)).getByIdx 0 : Res F64) ≠
      (do (← (Ex.c64 (2 ^ 53)).add (← (Ex.c64 1).add (Ex.c64 1))).getByIdx 0) ∧
    (do (← (← (Ex.c64 (3 / 10)).naiveMulImpl (Ex.c64 (6 / 10))).naiveMulImpl (Ex.c64 3)).getByIdx 0 : Res F64) ≠
      (do (← (Ex.c64 (3 / 10)).naiveMulImpl (← (Ex.c64 (6 / 10)).naiveMulImpl (Ex.c64 3))).getByIdx 0) ∧
    (do (← (Ex.c64 (3 / 10)).naiveMulImpl (← (Ex.c64 (3 / 10)).add (Ex.c64 (6 / 10)))).getByIdx 0 : Res F64) ≠
      (do (← (← (Ex.c64 (3 / 10)).naiveMulImpl (Ex.c64 (3 / 10))).add
        (← (Ex.c64 (3 / 10)).naiveMulImpl (Ex.c64 (6 / 10)))).getByIdx 0) := by
  decide +kernel

namespace Ex

/-- Coefficients 1/10, 2/10, …, rounded to `f64`. -/
def xF (i : Nat) : F64 := n64 ((i + 1) / 10)

/-- Coefficients 1, -2, 3, -4, …. -/
def xG (i : Nat) : F64 := n64 (if i % 2 = 0 then i + 1 else -(i + 1))

/-- The dense floating point multivector of `E` with the coefficients `x`. -/
def dense64 {f : Fmt} (x : Nat → Flt f) : MV E (ArrayStorage (Flt f)) := ⟨⟨3, ⟨8, x⟩⟩⟩

/-- The same with real coefficients. -/
noncomputable def denseR {f : Fmt} (x : Nat → Flt f) : MV E (ArrayStorage ℝ) := ⟨⟨3, ⟨8, fun i => ((x i).toRat : ℝ)⟩⟩⟩

theorem same64 {f : Fmt} {x : Nat → Flt f} (h : ∀ i < 8, x i ≠ .nonFinite) : SameValues (dense64 x) (denseR x) x := by
  have h1 : (dense64 x).Valid := ⟨by decide, rfl, rfl⟩
  have h2 : (denseR x).Valid := ⟨by decide, rfl, rfl⟩
  refine ⟨h1, h2, ⟨_, rfl, fun i hi => ?_⟩, ⟨_, rfl, fun i hi => ?_⟩, h⟩
  · rw [h1.get hi, arr_val' h1 hi]; rfl
  · rw [h2.get hi]
    congr 1
    show (if i < 8 then _ else _) = _
    rw [if_pos (show i < 8 from hi)]
    rfl

theorem eight_le : (8 : ℝ) ≤ 2 ^ 480 := by
  have := one_le_pow₀ (n := 477) (show (1 : ℝ) ≤ 2 by norm_num)
  calc (8 : ℝ) = 1 * 2 ^ 3 := by norm_num
    _ ≤ 2 ^ 477 * 2 ^ 3 := mul_le_mul_of_nonneg_right this (by norm_num)
    _ = 2 ^ 480 := by rw [← pow_add]

theorem sameF : SameValues (dense64 xF) (denseR xF) xF := same64 (by decide +kernel)
theorem sameG : SameValues (dense64 xG) (denseR xG) xG := same64 (by decide +kernel)

theorem xF_le : ∀ i < 2 ^ E.dim, |((xF i).toRat : ℝ)| ≤ 2 ^ 480 := by
  intro i hi
  have h : ∀ i < 8, |(xF i).toRat| ≤ 8 := by decide +kernel
  exact le_trans (by exact_mod_cast h i hi) eight_le

theorem xG_le : ∀ i < 2 ^ E.dim, |((xG i).toRat : ℝ)| ≤ 2 ^ 480 := by
  intro i hi
  have h : ∀ i < 8, |(xG i).toRat| ≤ 8 := by decide +kernel
  exact le_trans (by exact_mod_cast h i hi) eight_le

/-- The coefficients 1/10, 2/10, …, rounded to `f32`. -/
def xF32 (i : Nat) : F32 := Flt.ofRat ((i + 1) / 10)

theorem sameF32 : SameValues (dense64 xF32) (denseR xF32) xF32 := same64 (by decide +kernel)

theorem xF32_le : ∀ i < 2 ^ E.dim, |((xF32 i).toRat : ℝ)| ≤ 2 ^ 50 := by
  intro i hi
  have h : ∀ i < 8, |(xF32 i).toRat| ≤ 2 ^ 50 := by decide +kernel
  exact_mod_cast h i hi

theorem xG_int : ∀ i < 2 ^ E.dim, ∃ m : ℤ, re (xG i) = m := by
  intro i hi
  have h : ∀ i < 8, (xG i).toRat = ((if i % 2 = 0 then (i : ℤ) + 1 else -(i + 1) : ℤ) : ℚ) := by decide +kernel
  refine ⟨if i % 2 = 0 then (i : ℤ) + 1 else -(i + 1), ?_⟩
  show ((xG i).toRat : ℝ) = _
  rw [h i hi, Rat.cast_intCast]

theorem xG_norm : normOne E.dim xG ≤ 36 := by
  have h : ∑ i ∈ range 8, |(xG i).toRat| ≤ 36 := by decide +kernel
  show ∑ i ∈ range 8, |((xG i).toRat : ℝ)| ≤ 36
  have h' : ((∑ i ∈ range 8, |(xG i).toRat| : ℚ) : ℝ) ≤ 36 := by exact_mod_cast h
  rw [show ((∑ i ∈ range 8, |(xG i).toRat| : ℚ) : ℝ) = Rat.castHom ℝ _ from rfl, map_sum] at h'
  simpa using h'

/-- The roundings are real: the coefficient of `xF` is not 1/10, and products are not exact. -/
example : (xF 0).toRat ≠ 1 / 10 ∧ (xF 0 * xF 0).toRat ≠ (xF 0).toRat * (xF 0).toRat := by decide +kernel

example := C69_add sameF sameG
example := C69_sub sameF sameG
example := C69_smul sameF (t := n64 (1 / 3)) (show n64 (1 / 3) ≠ .nonFinite by decide +kernel)
example := C69_sdiv sameF (t := n64 3) (show n64 3 ≠ .nonFinite by decide +kernel) (by decide +kernel)
example := C69_exact E_wf sameF (k := 2) (by norm_num) 5
example := C70_mul E_wf sameF sameG
example := C70_vsdot sameF sameG
example := C70_vdot E_wf sameF sameG
example := C70_mag2 E_wf sameF
example := C70_wedge sameF sameG
example := C70_meet E_wf sameF sameG
example := C70_mul_f64 E_wf (by decide) sameF sameG xF_le xG_le
example := C70_mul_f32 E_wf (by decide) sameF32 sameF32 xF32_le xF32_le
example := C72_storages_partial E_wf sameF sameG sameF sameG
example := (C69_nearest (x := n64 (1 / 10)) (y := n64 (2 / 10)) (by decide +kernel) (by decide +kernel)).1 (by decide +kernel)
theorem xG_small : normOne E.dim xG * normOne E.dim xG ≤ 2 ^ 53 ∧ normOne E.dim xG + normOne E.dim xG ≤ 2 ^ 53 := by
  have h := xG_norm
  have h0 := normOne_nonneg E.dim xG
  constructor <;> nlinarith
example := C71_wedge sameG sameG xG_int xG_int xG_small.1
example := C71_meet sameG sameG xG_int xG_int E_wf xG_small.1
example := C71_add sameG sameG xG_int xG_int xG_small.2
example := C71_sub sameG sameG xG_int xG_int xG_small.2
example := C71_exact E_wf sameG xG_int 5
/-- `(x0 + x1) * x2.rev()` -/
example := C71_expression E_wf (l := fun _ => 36) (fun _ => sameG) (fun _ => xG_int) (fun _ => xG_norm)
  (.mul (.add (.X 0) (.X 1)) (.rev (.X 2))) (by
    have hM : (FloatModel.M F64) = 2 ^ 53 := rfl
    simp only [GExpr.Fits, GExpr.bound, hM]; norm_num)
example := C71_mul sameG sameG xG_int xG_int E_wf (by
  have h := xG_norm
  have h0 := normOne_nonneg E.dim xG
  show _ ≤ (2 : ℝ) ^ 53
  nlinarith)

/-- Associativity for integer coefficients, from associativity over the reals. -/
example : (GExpr.mul (.mul (.X 0) (.X 1)) (.X 2)).eval (fun _ => dense64 xG) ≈ᵣ
    (GExpr.mul (.X 0) (.mul (.X 1) (.X 2))).eval (fun _ => dense64 xG) := by
  have hM : (FloatModel.M F64) = 2 ^ 53 := rfl
  refine C71_identity E_wf (l := fun _ => 36) (fun _ => sameG) (fun _ => xG_int) (fun _ => xG_norm) ?_ ?_ ?_
  · simp only [GExpr.Fits, GExpr.bound, hM]; norm_num
  · simp only [GExpr.Fits, GExpr.bound, hM]; norm_num
  · exact C04_mul_assoc E_wf sameG.valid' sameG.valid' sameG.valid'

end Ex

end TClifford
