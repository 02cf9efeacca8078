import Verif.Proofs.FloatCx
import Verif.Props.FloatExpr
import Verif.Props.FFTFloatPow
/-
Complex floating point coefficients (`Complex64`, `Complex32`): C99.
-/

set_option linter.unusedSectionVars false

namespace TClifford

open MV Finset FloatModel

section
variable {F : Type} [Zero F] [One F] [Add F] [Sub F] [Neg F] [Mul F] [Div F] [FloatModel F] [FloatSigns F] [DecidableEq F]
variable {A : ClAlg} {S : Type} [CoeffStorage S (Cx F)] [LawfulStorage S (Cx F)] {S' : Type} [CoeffStorage S' ℂ] [LawfulStorage S' ℂ]

/-- The coefficients of `a`, as queried with `get_by_idx`, are the complex numbers `x i` with finite parts, and `a'` is the
multivector with the same coefficients as exact complex numbers. -/
structure MV.SameValuesC (a : MV A S) (a' : MV A S') (x : Nat → Cx F) : Prop where
  valid : a.Valid
  valid' : a'.Valid
  coefs : Coefs (.ok a) x
  coefs' : Coefs (.ok a') (fun i => ⟨re (x i).re, re (x i).im⟩)
  finite : ∀ i < 2 ^ A.dim, fin (x i).re ∧ fin (x i).im

/-- Sum of the absolute values of the real and imaginary parts. -/
noncomputable def normC (n : Nat) (x : Nat → Cx F) : ℝ := ∑ i ∈ range (2 ^ n), (|re (x i).re| + |re (x i).im|)

/-- The coefficients are Gaussian integers. -/
def Gaussian (n : Nat) (x : Nat → Cx F) : Prop := ∀ i < 2 ^ n, (∃ m : ℤ, re (x i).re = m) ∧ ∃ m : ℤ, re (x i).im = m

/-- Both computations succeed, with the same Gaussian integers, and `L` bounds the sum of the absolute values. -/
def MV.ExactC (p : Res (MV A S)) (q : Res (MV A S')) (L : ℝ) : Prop :=
  ∃ r r' z, p = .ok r ∧ q = .ok r' ∧ SameValuesC r r' z ∧ Gaussian A.dim z ∧ normC A.dim z ≤ L

/-- Both computations succeed, and the parts of the computed coefficients are finite and off by at most `ε` together. -/
def MV.NearC (p : Res (MV A S)) (q : Res (MV A S')) (ε : ℝ) : Prop :=
  ∃ r r' z w, p = .ok r ∧ q = .ok r' ∧ r.Valid ∧ r'.Valid ∧ Coefs (.ok r) z ∧ Coefs (.ok r') w ∧
    ∀ k < 2 ^ A.dim, fin (z k).re ∧ fin (z k).im ∧ |re (z k).re - (w k).re| + |re (z k).im - (w k).im| ≤ ε

theorem normC_nonneg (n : Nat) (x : Nat → Cx F) : 0 ≤ normC n x := sum_nonneg fun _ _ => by positivity

theorem MV.SameValuesC.val {a : MV A S} {a' : MV A S'} {x : Nat → Cx F} (h : SameValuesC a a' x) {i : Nat} (hi : i < 2 ^ A.dim) :
    a.val i = x i := h.coefs.val h.valid hi

theorem MV.SameValuesC.val' {a : MV A S} {a' : MV A S'} {x : Nat → Cx F} (h : SameValuesC a a' x) {i : Nat} (hi : i < 2 ^ A.dim) :
    a'.val i = (x i).val := h.coefs'.val h.valid' hi

/-- Computed and exact multivector, for a relation `Q`. -/
def MV.RelC (Q : CxRel (Cx F)) (l : Nat) (a : MV A S) (a' : MV A S') (b : ℝ) : Prop :=
  a.Valid ∧ a'.Valid ∧ ∃ β : Nat → ℝ, ∑ k ∈ range (2 ^ A.dim), β k ≤ b ∧ ∀ k < 2 ^ A.dim, Q.R l (a.val k) (a'.val k) (β k)

variable {Q : CxRel (Cx F)}

theorem MV.RelC.mono {l l' : Nat} {a : MV A S} {a' : MV A S'} {b b' : ℝ} (h : RelC Q l a a' b) (hl : l ≤ l') (hb : b ≤ b') :
    RelC Q l' a a' b' := by
  obtain ⟨h1, h2, β, h3, h4⟩ := h
  exact ⟨h1, h2, β, h3.trans hb, fun k hk => Q.mono (h4 k hk) hl le_rfl⟩

theorem MV.RelC.signed {l : Nat} {a : MV A S} {a' : MV A S'} {b : ℝ} (h : RelC Q l a a' b) {p : Res (MV A S)} {q : Res (MV A S')}
    (c : Nat → ℤ) {π : Nat} (hc : ∀ i, c i = 1 ∨ c i = -1) (hπ : π < 2 ^ A.dim)
    (hp : Denotes p (fun i => sgnC (c i) (a.val (i ^^^ π)))) (hq : Denotes q (fun i => c i • a'.val (i ^^^ π))) :
    ∃ r r', p = .ok r ∧ q = .ok r' ∧ RelC Q l r r' b := by
  obtain ⟨-, -, β, h3, h4⟩ := h
  obtain ⟨r, e1, k1, k2⟩ := hp
  obtain ⟨r', e2, k3, k4⟩ := hq
  refine ⟨r, r', e1, e2, k1, k3, fun k => β (k ^^^ π), ?_, fun k hk => ?_⟩
  · rw [sum_xor hπ β]; exact h3
  · have g := h4 _ (Nat.xor_lt_two_pow hk hπ)
    rw [k2 k hk, k4 k hk]
    beta_reduce
    rcases hc k with h | h <;> rw [h]
    · simpa [sgnC] using g
    · simpa [sgnC] using Q.neg g

theorem MV.RelC.signed' {l : Nat} {a : MV A S} {a' : MV A S'} {b : ℝ} (h : RelC Q l a a' b) {p : Res (MV A S)} {q : Res (MV A S')}
    (c : Nat → ℤ) (hc : ∀ i, c i = 1 ∨ c i = -1) (hp : Denotes p (fun i => sgnC (c i) (a.val i)))
    (hq : Denotes q (fun i => c i • a'.val i)) : ∃ r r', p = .ok r ∧ q = .ok r' ∧ RelC Q l r r' b :=
  h.signed c hc (Nat.two_pow_pos _) (hp.congr fun i _ => by rw [Nat.xor_zero]) (hq.congr fun i _ => by rw [Nat.xor_zero])

theorem MV.RelC.linear {l : Nat} {a a₂ : MV A S} {a' a₂' : MV A S'} {b b₂ : ℝ} (h : RelC Q l a a' b) (h' : RelC Q l a₂ a₂' b₂)
    {p : Res (MV A S)} {q : Res (MV A S')} {op : Cx F → Cx F → Cx F} {op' : ℂ → ℂ → ℂ}
    (hop : ∀ {v z b w y c}, Q.R l v z b → Q.R l w y c → Q.ok (l + 1) (b + c) → Q.R (l + 1) (op v w) (op' z y) (b + c))
    (hp : Denotes p (fun i => op (a.val i) (a₂.val i))) (hq : Denotes q (fun i => op' (a'.val i) (a₂'.val i)))
    (hok : Q.ok (l + 1) (b + b₂)) : ∃ r r', p = .ok r ∧ q = .ok r' ∧ RelC Q (l + 1) r r' (b + b₂) := by
  obtain ⟨-, -, β, h3, h4⟩ := h
  obtain ⟨-, -, γ, h5, h6⟩ := h'
  obtain ⟨r, e1, k1, k2⟩ := hp
  obtain ⟨r', e2, k3, k4⟩ := hq
  refine ⟨r, r', e1, e2, k1, k3, fun k => β k + γ k, by rw [sum_add_distrib]; linarith, fun k hk => ?_⟩
  have lb : β k ≤ b := (single_le_sum (f := β) (fun k hk => Q.nonneg (h4 k (mem_range.mp hk))) (mem_range.mpr hk)).trans h3
  have lg : γ k ≤ b₂ := (single_le_sum (f := γ) (fun k hk => Q.nonneg (h6 k (mem_range.mp hk))) (mem_range.mpr hk)).trans h5
  rw [k2 k hk, k4 k hk]
  exact hop (h4 k hk) (h6 k hk) (Q.ok_mono hok le_rfl (add_le_add lb lg))

/-- Products: every coefficient is a sum over all blades `i`, of the coefficients with index `i ⊕ π` and `i ⊕ (k ⊕ τ)`. -/
theorem MV.RelC.product (hQ : Cx.Sums Q) {l l' : Nat} {a a₂ : MV A S} {a' a₂' : MV A S'} {b b₂ : ℝ} (h : RelC Q l a a' b)
    (h' : RelC Q l' a₂ a₂' b₂) {p : Res (MV A S)} {q : Res (MV A S')} (c : Nat → Nat → ℤ) {π τ : Nat} (hπ : π < 2 ^ A.dim) (hτ : τ < 2 ^ A.dim)
    (hc : ∀ i < 2 ^ A.dim, ∀ k < 2 ^ A.dim, |c i k| ≤ 1)
    (hp : ∃ r, p = .ok r ∧ r.Valid ∧ ∀ k < 2 ^ A.dim, Cx.Acc Q (r.val k)
      (∑ i ∈ range (2 ^ A.dim), Cx.tau (c i k) (a.val (i ^^^ π)) (a₂.val (i ^^^ (k ^^^ τ)))))
    (hq : Denotes q (fun k => ∑ i ∈ range (2 ^ A.dim), c i k • (a'.val (i ^^^ π) * a₂'.val (i ^^^ (k ^^^ τ)))))
    {E : ℝ} (hE : E = 4 ^ A.dim * Q.D) (hok : Q.ok (l + l' + (2 ^ A.dim + 1) + 1) (b * b₂ + E)) :
    ∃ r r', p = .ok r ∧ q = .ok r' ∧ RelC Q (l + l' + (2 ^ A.dim + 1) + 1) r r' (b * b₂ + E) := by
  obtain ⟨-, -, β, h3, h4⟩ := h
  obtain ⟨-, -, γ, h5, h6⟩ := h'
  obtain ⟨r, e1, k1, k2⟩ := hp
  obtain ⟨r', e2, k3, k4⟩ := hq
  have hD := Q.D_nonneg
  have hβ : ∀ k < 2 ^ A.dim, 0 ≤ β k := fun k hk => Q.nonneg (h4 k hk)
  have hγ : ∀ k < 2 ^ A.dim, 0 ≤ γ k := fun k hk => Q.nonneg (h6 k hk)
  have hb : 0 ≤ ∑ k ∈ range (2 ^ A.dim), β k := sum_nonneg fun k hk => hβ k (mem_range.mp hk)
  have hb₂ : 0 ≤ ∑ k ∈ range (2 ^ A.dim), γ k := sum_nonneg fun k hk => hγ k (mem_range.mp hk)
  set δ : Nat → ℝ := fun k => ∑ i ∈ range (2 ^ A.dim), β (i ^^^ π) * γ (i ^^^ (k ^^^ τ)) + (2 ^ A.dim : ℕ) * Q.D with hδ
  have idx : ∀ i < 2 ^ A.dim, ∀ k < 2 ^ A.dim, i ^^^ (k ^^^ τ) < 2 ^ A.dim := fun i hi k hk =>
    Nat.xor_lt_two_pow hi (Nat.xor_lt_two_pow hk hτ)
  have hδ0 : ∀ k < 2 ^ A.dim, 0 ≤ δ k := fun k hk => add_nonneg (sum_nonneg fun i hi =>
    mul_nonneg (hβ _ (Nat.xor_lt_two_pow (mem_range.mp hi) hπ)) (hγ _ (idx i (mem_range.mp hi) k hk))) (by positivity)
  have hsum : ∑ k ∈ range (2 ^ A.dim), δ k ≤ b * b₂ + E := by
    rw [hδ, sum_add_distrib, sum_const, card_range, nsmul_eq_mul, sum_comm]
    refine add_le_add ?_ (le_of_eq ?_)
    · refine le_trans (le_of_eq ?_) (mul_le_mul h3 h5 hb₂ (hb.trans h3))
      rw [← sum_xor hπ β, sum_mul]
      refine sum_congr rfl fun i hi => ?_
      rw [← mul_sum]
      congr 1
      rw [← sum_xor (Nat.xor_lt_two_pow (mem_range.mp hi) hτ) γ]
      refine sum_congr rfl fun k _ => ?_
      rw [← Nat.xor_assoc, Nat.xor_comm i k, Nat.xor_assoc]
    · rw [hE, show (4 : ℝ) = 2 * 2 by norm_num, mul_pow]; push_cast; ring
  refine ⟨r, r', e1, e2, k1, k3, δ, hsum, fun k hk => ?_⟩
  have hle : δ k ≤ b * b₂ + E :=
    (single_le_sum (f := δ) (fun k hk => hδ0 k (mem_range.mp hk)) (mem_range.mpr hk)).trans hsum
  rw [k4 k hk]
  exact hQ.sum (fun i hi => hc i (mem_range.mp hi) k hk) (by rw [card_range])
    (fun i hi => h4 _ (Nat.xor_lt_two_pow (mem_range.mp hi) hπ)) (fun i hi => h6 _ (idx i (mem_range.mp hi) k hk)) (k2 k hk)
    (Q.ok_mono hok le_rfl hle)

variable [WedgeProduct A S] [FloatWedge A S] [WedgeProduct A S'] [LawfulWedge A S']

/-- Evaluation of an expression, for a relation `Q`. -/
theorem GExpr.relC (hQ : Cx.Sums Q) (hA : A.WF) {ρ : Nat → MV A S} {ρ' : Nat → MV A S'} {l : Nat → ℝ}
    (hρ : ∀ i, RelC Q 0 (ρ i) (ρ' i) (l i)) {E : ℝ} (hE : E = 4 ^ A.dim * Q.D)
    (e : GExpr) (he : e.Within Q.ok (2 ^ A.dim + 1) E l) :
    ∃ r r', e.eval ρ = .ok r ∧ e.eval ρ' = .ok r' ∧ RelC Q (e.level (2 ^ A.dim + 1)) r r' (e.size E l) := by
  have hm : (2 ^ A.dim - 1 : Nat) < 2 ^ A.dim := by have := Nat.two_pow_pos A.dim; omega
  have h0 := Nat.two_pow_pos A.dim
  have good : ∀ {l : Nat} {a : MV A S} {a' : MV A S'} {b : ℝ}, RelC Q l a a' b → ∀ i < 2 ^ A.dim, Cx.Good Q (a.val i) :=
    fun h i hi => hQ.good (h.2.2.choose_spec.2 i hi)
  induction e with
  | X i => exact ⟨_, _, rfl, rfl, hρ i⟩
  | add e f ihe ihf =>
    obtain ⟨h1, h2, h3⟩ := he
    obtain ⟨a, a', p1, p2, p3⟩ := ihe h1
    obtain ⟨b, b', q1, q2, q3⟩ := ihf h2
    simp only [eval, p1, p2, q1, q2]
    exact (p3.mono (le_max_left _ _) le_rfl).linear (q3.mono (le_max_right _ _) le_rfl) Q.add (add_denotes p3.1 q3.1)
      (add_denotes p3.2.1 q3.2.1) h3
  | sub e f ihe ihf =>
    obtain ⟨h1, h2, h3⟩ := he
    obtain ⟨a, a', p1, p2, p3⟩ := ihe h1
    obtain ⟨b, b', q1, q2, q3⟩ := ihf h2
    simp only [eval, p1, p2, q1, q2]
    exact (p3.mono (le_max_left _ _) le_rfl).linear (q3.mono (le_max_right _ _) le_rfl) Q.sub (sub_denotes p3.1 q3.1)
      (sub_denotes p3.2.1 q3.2.1) h3
  | mul e f ihe ihf =>
    obtain ⟨h1, h2, h3⟩ := he
    obtain ⟨a, a', p1, p2, p3⟩ := ihe h1
    obtain ⟨b, b', q1, q2, q3⟩ := ihf h2
    simp only [eval, p1, p2, q1, q2]
    obtain ⟨r, g1, g2, g3⟩ := mul_inv (Cx.sumInv Q) hA p3.1 q3.1 (good p3) (good q3)
    refine p3.product hQ q3 (fun i k => bsgn A.sigma A.dim i (i ^^^ k)) h0 h0
      (fun i hi k hk => bsgn_sigma_abs hA hi (Nat.xor_lt_two_pow hi hk)) ⟨r, g1, g2, fun k hk => ?_⟩
      ((mul_denotes hA p3.2.1 q3.2.1).congr fun k _ => ?_) hE h3
    · simp only [Nat.xor_zero]; exact g3 k hk
    · simp only [Nat.xor_zero]; rfl
  | wedge e f ihe ihf =>
    obtain ⟨h1, h2, h3⟩ := he
    obtain ⟨a, a', p1, p2, p3⟩ := ihe h1
    obtain ⟨b, b', q1, q2, q3⟩ := ihf h2
    simp only [eval, p1, p2, q1, q2]
    obtain ⟨r, g1, g2, g3⟩ := FloatWedge.wedge (Cx.sumInv Q) p3.1 q3.1 (good p3) (good q3)
    refine p3.product hQ q3 (fun i k => bsgn (fun _ => 0) A.dim i (i ^^^ k)) h0 h0
      (fun i hi k hk => bsgn_wedge_abs) ⟨r, g1, g2, fun k hk => ?_⟩
      ((LawfulWedge.wedge p3.2.1 q3.2.1).congr fun k _ => ?_) hE h3
    · simp only [Nat.xor_zero]; exact g3 k hk
    · simp only [Nat.xor_zero]; rfl
  | meet e f ihe ihf =>
    obtain ⟨h1, h2, h3⟩ := he
    obtain ⟨a, a', p1, p2, p3⟩ := ihe h1
    obtain ⟨b, b', q1, q2, q3⟩ := ihf h2
    simp only [eval, p1, p2, q1, q2]
    obtain ⟨r, g1, g2, g3⟩ := FloatWedge.meet (Cx.sumInv Q) hA p3.1 q3.1 (good p3) (good q3)
    have ex : ∀ i k, i ^^^ (k ^^^ (2 ^ A.dim - 1)) ^^^ (2 ^ A.dim - 1) = i ^^^ (k ^^^ 0) := fun i k => by
      rw [Nat.xor_assoc, Nat.xor_assoc, Nat.xor_self]
    refine p3.product hQ q3 (fun i k => meetT A.dim i k) hm h0
      (fun i hi k hk => meetT_abs _ _ _) ⟨r, g1, g2, fun k hk => ?_⟩
      ((LawfulWedge.meet hA p3.2.1 q3.2.1).congr fun k _ => ?_) hE h3
    · have := g3 k hk
      simp only [ex] at this
      exact this
    · rw [meetF_eq]
      simp only [ex]
  | neg e ih =>
    obtain ⟨a, a', p1, p2, p3⟩ := ih he
    simp only [eval, p1, p2]
    refine MV.RelC.signed' (p := a.neg) (q := a'.neg) p3 (fun _ => -1) (fun _ => .inr rfl) ((neg_fl p3.1).congr fun i _ => ?_)
      ((neg_denotes p3.2.1).congr fun i _ => ?_)
    · simp [sgnC]
    · simp
  | rev e ih =>
    obtain ⟨a, a', p1, p2, p3⟩ := ih he
    simp only [eval, p1, p2]
    exact MV.RelC.signed' (p := a.rev) (q := a'.rev) p3 _ (fun i => rsg_unit _ _) (rev_fl p3.1) (rev_denotes p3.2.1)
  | flip e ih =>
    obtain ⟨a, a', p1, p2, p3⟩ := ih he
    simp only [eval, p1, p2]
    exact MV.RelC.signed' (p := a.flip) (q := a'.flip) p3 _ (fun i => sg_cases _) (flip_fl p3.1) (flip_denotes p3.2.1)
  | flipSubspace mask e ih =>
    obtain ⟨a, a', p1, p2, p3⟩ := ih he
    simp only [eval, p1, p2]
    exact MV.RelC.signed' (p := a.flipSubspace mask) (q := a'.flipSubspace mask) p3 _ (fun i => sg_cases _) (flipSubspace_fl p3.1 mask) (flipSubspace_denotes p3.2.1 mask)
  | dual e ih =>
    obtain ⟨a, a', p1, p2, p3⟩ := ih he
    simp only [eval, p1, p2]
    exact MV.RelC.signed (p := a.dual) (q := a'.dual) p3 _ (fun i => dualSign_unit) hm (dual_fl hA p3.1) (dual_denotes hA p3.2.1)
  | undual e ih =>
    obtain ⟨a, a', p1, p2, p3⟩ := ih he
    simp only [eval, p1, p2]
    exact MV.RelC.signed (p := a.undual) (q := a'.undual) p3 _ (fun i => dualSign_unit') hm (undual_fl hA p3.1) (undual_denotes hA p3.2.1)

omit [WedgeProduct A S] [FloatWedge A S] [WedgeProduct A S'] [LawfulWedge A S'] in
theorem MV.SameValuesC.exact (h4 : 4 ≤ M F) {a : MV A S} {a' : MV A S'} {x : Nat → Cx F} (h : SameValuesC a a' x)
    (hz : Gaussian A.dim x) {b : ℝ} (hb : normC A.dim x ≤ b) : RelC (Cx.exactRel h4) 0 a a' b := by
  refine ⟨h.valid, h.valid', fun k => Cx.n1 (x k).val, hb, fun k hk => ?_⟩
  rw [h.val hk, h.val' hk]
  exact ⟨h.finite k hk, rfl, hz k hk, le_rfl⟩

omit [WedgeProduct A S] [FloatWedge A S] [WedgeProduct A S'] [LawfulWedge A S'] in
theorem MV.SameValuesC.near (h4 : 4 ≤ M F) (hu : 0 < u F) {a : MV A S} {a' : MV A S'} {x : Nat → Cx F} (h : SameValuesC a a' x)
    {b : ℝ} (hb : normC A.dim x ≤ b) : RelC (Cx.nearRel h4 hu) 0 a a' b := by
  refine ⟨h.valid, h.valid', fun k => Cx.n1 (x k).val, hb, fun k hk => ?_⟩
  rw [h.val hk, h.val' hk]
  exact ⟨h.finite k hk, le_rfl, by rw [sub_self, Cx.n1_zero]; simp⟩

theorem GExpr.size_zero (l : Nat → ℝ) (e : GExpr) : e.size 0 l = e.bound l := by
  induction e <;> simp_all [size, bound]

theorem GExpr.within_fits {m : ℝ} {N : Nat} {l : Nat → ℝ} (e : GExpr) (h : e.Fits m l) : e.Within (fun _ b => b ≤ m) N 0 l := by
  induction e <;> simp_all [Fits, Within, size_zero]

/-- **C99, Gaussian integers.** An expression in multivectors whose coefficients have integer real and imaginary parts is
evaluated exactly if the sums of the absolute values of the parts, added for sums and multiplied for products, stay below `M`
(`2^53` for `Complex64`). -/
theorem C99_gaussian (hA : A.WF) (h4 : 4 ≤ M F) {ρ : Nat → MV A S} {ρ' : Nat → MV A S'} {x : Nat → Nat → Cx F} {l : Nat → ℝ}
    (hρ : ∀ i, SameValuesC (ρ i) (ρ' i) (x i)) (hz : ∀ i, Gaussian A.dim (x i)) (hl : ∀ i, normC A.dim (x i) ≤ l i)
    (e : GExpr) (he : e.Fits (M F) l) : ExactC (e.eval ρ) (e.eval ρ') (e.bound l) := by
  obtain ⟨r, r', e1, e2, v, v', β, h1, h2⟩ := GExpr.relC (Cx.exact_sums h4) hA (fun i => (hρ i).exact h4 (hz i) (hl i)) (E := 0)
    (by show (0 : ℝ) = _ * (0 : ℝ); simp) e (e.within_fits he)
  refine ⟨r, r', r.val, e1, e2, ⟨v, v', Denotes.coefs ⟨r, rfl, v, fun _ _ => rfl⟩, (Denotes.coefs ⟨r', rfl, v', fun _ _ => rfl⟩).congr
    fun k hk => (h2 k hk).2.1.symm, fun k hk => (h2 k hk).1⟩, fun k hk => ?_, ?_⟩
  · obtain ⟨-, g2, g3, -⟩ := h2 k hk
    rw [← g2] at g3
    exact g3
  · rw [← e.size_zero]
    refine le_trans (sum_le_sum fun k hk => ?_) h1
    obtain ⟨-, g2, -, g3⟩ := h2 k (mem_range.mp hk)
    rw [← g2] at g3
    exact g3

/-- **C99, identities.** An identity that holds over the complex numbers holds for multivectors of Gaussian integers for which
no subexpression gets too large. -/
theorem C99_identity (hA : A.WF) (h4 : 4 ≤ M F) {ρ : Nat → MV A S} {ρ' : Nat → MV A S'} {x : Nat → Nat → Cx F} {l : Nat → ℝ}
    (hρ : ∀ i, SameValuesC (ρ i) (ρ' i) (x i)) (hz : ∀ i, Gaussian A.dim (x i)) (hl : ∀ i, normC A.dim (x i) ≤ l i)
    {e f : GExpr} (he : e.Fits (M F) l) (hf : f.Fits (M F) l) (h : e.eval ρ' ≈ᵣ f.eval ρ') : e.eval ρ ≈ᵣ f.eval ρ := by
  obtain ⟨u, v, z, p1, p2, p3, -, -⟩ := C99_gaussian hA h4 hρ hz hl e he
  obtain ⟨u', v', z', q1, q2, q3, -, -⟩ := C99_gaussian hA h4 hρ hz hl f hf
  obtain ⟨w, w', e1, e2, hw, hw', h⟩ := h
  rw [p2] at e1
  rw [q2] at e2
  injection e1 with e1
  injection e2 with e2
  subst e1 e2
  refine ⟨u, u', p1, q1, p3.valid, q3.valid, (beq_iff p3.valid q3.valid).mpr fun i hi => ?_⟩
  have key := (beq_iff hw hw').mp h i hi
  rw [p3.val' hi, q3.val' hi] at key
  rw [p3.val hi, q3.val hi]
  exact Cx.ext' (re_inj (p3.finite i hi).1 (q3.finite i hi).1 (congrArg Complex.re key))
    (re_inj (p3.finite i hi).2 (q3.finite i hi).2 (congrArg Complex.im key))

/-- **C99, rounding errors.** `L` counts the roundings on a path from the variables to the result and `B` bounds the result:
the parts of every coefficient are finite and together within `((1+u)^L - 1) B` of the exact value, if this stays in the
range. -/
theorem C99_expression (hA : A.WF) (h4 : 4 ≤ M F) (hu : 0 < u F) {ρ : Nat → MV A S} {ρ' : Nat → MV A S'} {x : Nat → Nat → Cx F} {l : Nat → ℝ}
    (hρ : ∀ i, SameValuesC (ρ i) (ρ' i) (x i)) (hl : ∀ i, normC A.dim (x i) ≤ l i) (e : GExpr) {E B : ℝ} {L : Nat}
    (hE : E = 4 ^ A.dim * (4 * η F / u F)) (hB : B = e.size E l) (hL : L = e.level (2 ^ A.dim + 1))
    (he : e.Within (fun l b => (1 + u F) ^ l * b ≤ Ω F) (2 ^ A.dim + 1) E l) :
    NearC (e.eval ρ) (e.eval ρ') (((1 + u F) ^ L - 1) * B) := by
  obtain ⟨r, r', e1, e2, v, v', β, h1, h2⟩ := GExpr.relC (Cx.near_sums h4 hu) hA (fun i => (hρ i).near h4 hu (hl i)) hE e he
  refine ⟨r, r', r.val, r'.val, e1, e2, v, v', Denotes.coefs ⟨r, rfl, v, fun _ _ => rfl⟩, Denotes.coefs ⟨r', rfl, v', fun _ _ => rfl⟩,
    fun k hk => ?_⟩
  have h : ∀ k < 2 ^ A.dim, Cx.Near (e.level (2 ^ A.dim + 1)) (r.val k) (r'.val k) (β k) := h2
  refine ⟨(h k hk).1.1, (h k hk).1.2, (h k hk).2.2.trans ?_⟩
  rw [hL, hB]
  have := one_le_pow₀ (one_le_one_add_u (F := F)) (n := e.level (2 ^ A.dim + 1))
  exact mul_le_mul_of_nonneg_left
    ((single_le_sum (f := β) (fun k hk => (h k (mem_range.mp hk)).nonneg) (mem_range.mpr hk)).trans h1) (by linarith)

end

/-! ### Transforms -/

namespace FExpr

theorem geo_normC (A : ClAlg) (hA : A.WF) (f g : Nat → ℂ) : ∑ k ∈ range (2 ^ A.dim), Cx.n1 (geo A.sigma A.dim f g k) ≤
    (∑ k ∈ range (2 ^ A.dim), Cx.n1 (f k)) * ∑ k ∈ range (2 ^ A.dim), Cx.n1 (g k) := by
  have h1 : ∀ k < 2 ^ A.dim, Cx.n1 (geo A.sigma A.dim f g k) ≤ ∑ i ∈ range (2 ^ A.dim), Cx.n1 (f i) * Cx.n1 (g (i ^^^ k)) := by
    intro k hk
    refine (Cx.n1_sum _ _).trans (sum_le_sum fun i hi => ?_)
    rw [mem_range] at hi
    exact (Cx.n1_zsmul (bsgn_sigma_abs hA hi (Nat.xor_lt_two_pow hi hk)) _).trans (Cx.n1_mul _ _)
  refine (sum_le_sum fun k hk => h1 k (mem_range.mp hk)).trans_eq ?_
  rw [sum_comm, sum_mul]
  refine sum_congr rfl fun i hi => ?_
  rw [← mul_sum]
  congr 1
  refine Eq.trans ?_ (sum_xor (mem_range.mp hi) (fun k => Cx.n1 (g k)))
  exact sum_congr rfl fun k _ => by rw [Nat.xor_comm]

theorem exact_normC {A : ClAlg} (hA : A.WF) {x : Nat → Nat → ℂ} {l : Nat → ℝ}
    (hl : ∀ i, ∑ k ∈ range (2 ^ A.dim), Cx.n1 (x i k) ≤ l i) (e : FExpr) :
    ∑ k ∈ range (2 ^ A.dim), Cx.n1 (e.exact A x k) ≤ e.size 0 l := by
  induction e with
  | X i => exact hl i
  | add e f ihe ihf =>
    refine (sum_le_sum fun k _ => Cx.n1_add _ _).trans ?_
    rw [sum_add_distrib]
    exact add_le_add ihe ihf
  | sub e f ihe ihf =>
    refine (sum_le_sum fun k _ => ?_).trans (sum_add_distrib.trans_le (add_le_add ihe ihf))
    show Cx.n1 (e.exact A x k - f.exact A x k) ≤ _
    rw [sub_eq_add_neg, ← Cx.n1_neg (f.exact A x k)]
    exact Cx.n1_add _ _
  | mul e f ihe ihf =>
    refine (geo_normC A hA _ _).trans ?_
    show _ ≤ _ + (0 : ℝ)
    rw [_root_.add_zero]
    exact mul_le_mul ihe ihf (sum_nonneg fun _ _ => Cx.n1_nonneg _) ((sum_nonneg fun _ _ => Cx.n1_nonneg _).trans ihe)
  | neg e ihe =>
    simp only [exact, Cx.n1_neg]
    exact ihe
  | rev e ihe =>
    refine le_trans (sum_le_sum fun k _ => Cx.n1_zsmul ?_ _) ihe
    rcases rsg_cases A.dim k with h | h <;> rw [h] <;> simp
  | flip e ihe =>
    refine le_trans (sum_le_sum fun k _ => Cx.n1_zsmul ?_ _) ihe
    cases par A.dim k <;> simp

theorem exact_gint {A : ClAlg} {x : Nat → Nat → ℂ} (hx : ∀ i, ∀ k < 2 ^ A.dim, Cx.GInt (x i k)) (e : FExpr) :
    ∀ k < 2 ^ A.dim, Cx.GInt (e.exact A x k) := by
  induction e with
  | X i => exact hx i
  | add e f ihe ihf => exact fun k hk => (ihe k hk).add (ihf k hk)
  | sub e f ihe ihf =>
    intro k hk
    show Cx.GInt (e.exact A x k - f.exact A x k)
    rw [sub_eq_add_neg, ← neg_one_zsmul]
    exact (ihe k hk).add ((ihf k hk).zsmul _)
  | mul e f ihe ihf =>
    exact fun k hk => Cx.GInt.sum fun i hi =>
      ((ihe i (mem_range.mp hi)).mul (ihf _ (Nat.xor_lt_two_pow (mem_range.mp hi) hk))).zsmul _
  | neg e ihe =>
    intro k hk
    show Cx.GInt (-e.exact A x k)
    rw [← neg_one_zsmul]
    exact (ihe k hk).zsmul _
  | rev e ihe => exact fun k hk => (ihe k hk).zsmul _
  | flip e ihe => exact fun k hk => (ihe k hk).zsmul _

end FExpr

/-- Complex numbers are converted to and from another format by converting the parts. -/
class ConvC (G F : Type) [Zero G] [One G] [Add G] [Sub G] [Neg G] [Mul G] [Div G] [FloatModel G]
    [Zero F] [One F] [Add F] [Sub F] [Neg F] [Mul F] [Div F] [FloatModel F] [IntoComplex G (Cx F)] [FromComplex G (Cx F)]
    [IntoComplex (Cx G) (Cx F)] [FromComplex (Cx G) (Cx F)] : Prop where
  into_re : ∀ c : Cx G, (IntoComplex.into c : Cx F).re = (IntoComplex.into c.re : Cx F).re
  into_im : ∀ c : Cx G, (IntoComplex.into c : Cx F).im = (IntoComplex.into c.im : Cx F).re
  from_re : ∀ v : Cx F, (FromComplex.from_ v : Cx G).re = FromComplex.from_ v
  from_im : ∀ v : Cx F, (FromComplex.from_ v : Cx G).im = FromComplex.from_ (⟨v.im, v.re⟩ : Cx F)

instance {F : Type} [Zero F] [One F] [Add F] [Sub F] [Neg F] [Mul F] [Div F] [FloatModel F] : ConvC F F where
  into_re _ := rfl
  into_im _ := rfl
  from_re _ := rfl
  from_im _ := rfl

instance : ConvC F32 F64 where
  into_re _ := rfl
  into_im _ := rfl
  from_re _ := rfl
  from_im _ := rfl

section
variable {F : Type} [Zero F] [One F] [Add F] [Sub F] [Neg F] [Mul F] [Div F] [FloatModel F] [FloatSigns F] [DecidableEq F]
variable {G : Type} [Zero G] [One G] [Add G] [Sub G] [Neg G] [Mul G] [Div G] [FloatModel G] [FloatSigns G] [DecidableEq G]
  [IntoComplex G (Cx F)] [FromComplex G (Cx F)] [ConvModel G F] [IntoComplex (Cx G) (Cx F)] [FromComplex (Cx G) (Cx F)] [ConvC G F]
variable {A : ClAlg} {S' : Type} [CoeffStorage S' ℂ] [LawfulStorage S' ℂ] [WedgeProduct A S']

omit [FloatSigns F] [DecidableEq F] [FloatSigns G] [DecidableEq G] in
theorem ConvC.into_ok {c : Cx G} (h : c.Fin) : (IntoComplex.into c : Cx F).Fin ∧ (IntoComplex.into c : Cx F).val = c.val := by
  obtain ⟨a1, a2⟩ := ConvModel.into_ok (F := F) h.1
  obtain ⟨b1, b2⟩ := ConvModel.into_ok (F := F) h.2
  refine ⟨⟨by rw [ConvC.into_re]; exact a1.1, by rw [ConvC.into_im]; exact b1.1⟩, Complex.ext ?_ ?_⟩
  · show re (IntoComplex.into c : Cx F).re = _
    rw [ConvC.into_re]
    exact congrArg Complex.re a2
  · show re (IntoComplex.into c : Cx F).im = _
    rw [ConvC.into_im]
    exact congrArg Complex.re b2

theorem ConvC.into_zero : (IntoComplex.into (0 : Cx G) : Cx F) = 0 := by
  apply Cx.ext'
  · rw [ConvC.into_re]
    exact congrArg Cx.re (ConvModel.into_zero (T := G) (F := F))
  · rw [ConvC.into_im]
    exact congrArg Cx.re (ConvModel.into_zero (T := G) (F := F))

theorem ConvC.fft_zero (n : Nat) : iPowNeg n * IntoComplex.into (0 : Cx G) = (0 : Cx F) := by
  rw [into_zero, Cx.iPowNeg_eq, ConvModel.iPow_mul_zero]

theorem ConvC.ifft_zero (h : 0 ≤ M G) (n : Nat) : (FromComplex.from_ (iPow n * 0 : Cx F) : Cx G) = 0 := by
  have h0 : (FromComplex.from_ (0 : Cx F) : G) = 0 := by
    have := ConvModel.ifft_zero (T := G) (F := F) h n
    rw [ConvModel.iPow_mul_zero] at this
    exact this
  rw [ConvModel.iPow_mul_zero]
  apply Cx.ext'
  · rw [ConvC.from_re]; exact h0
  · rw [ConvC.from_im]; exact h0

/-- **C99, Gaussian integers through the transforms.** -/
theorem C99_fft_gaussian (hA : A.WF) (hd : A.dim < 63) (h4 : 4 ≤ M F) {ρ : Nat → MV A (ArrayStorage (Cx G))} {ρ' : Nat → MV A S'}
    {x : Nat → Nat → Cx G} {l : Nat → ℝ} (hρ : ∀ i, SameValuesC (ρ i) (ρ' i) (x i)) (hz : ∀ i, Gaussian A.dim (x i))
    (hl : ∀ i, normC A.dim (x i) ≤ l i) (e : FExpr)
    (he : e.Fits (fun _ b => b ≤ M F) A.half A.projDim 0 l) (hF : 4 * e.size 0 l ≤ M F) (hT : e.size 0 l ≤ M G) :
    ExactC (e.viaFFT (Cx F) ρ) (e.toG.eval ρ') (e.size 0 l) := by
  have hnorm := FExpr.exact_normC hA (x := fun i k => (x i k).val) hl e
  have hint := FExpr.exact_gint (A := A) (x := fun i k => (x i k).val) (fun i k hk => hz i k hk) e
  have hM : 0 ≤ M G := (sum_nonneg fun _ _ => Cx.n1_nonneg _).trans (hnorm.trans hT)
  obtain ⟨w, h1, h2⟩ := FExpr.viaRep (Q := Cx.exactRel h4) hA hd Cx.neg_neg' ConvC.fft_zero (ConvC.ifft_zero hM)
    (fun i => (hρ i).valid) (x := fun i k => (x i k).val) (b := fun i k => Cx.n1 (x i k).val) hl (E := 0) (by
      show (0 : ℝ) = _ * (_ * (_ * (0 : ℝ))); simp)
    (fun i k hk => by
      rw [(hρ i).val hk]
      obtain ⟨g1, g2⟩ := ConvC.into_ok (F := F) ((hρ i).finite k hk)
      exact ⟨g1, g2, hz i k hk, le_rfl⟩) e he (fun k hk => by
      show Cx.GInt (iPowNeg _ * e.exact A (fun i k => (x i k).val) k)
      rw [Cx.iPowNeg_eq]
      exact (Cx.GInt.iPow _).mul (hint k hk)) (by
      show 4 * (e.size 0 l + A.half * (0 : ℝ)) ≤ M F
      rw [MulZeroClass.mul_zero, _root_.add_zero]; exact hF)
  have hk : ∀ k < 2 ^ A.dim, (FromComplex.from_ (w k) : Cx G).Fin ∧ (FromComplex.from_ (w k) : Cx G).val = e.exact A (fun i k => (x i k).val) k := by
    intro k hk
    obtain ⟨g1, g2, -, -⟩ := h2 k hk
    have g2' : (w k).val = e.exact A (fun i k => (x i k).val) k := g2
    obtain ⟨⟨m, hm⟩, n, hn⟩ := hint k hk
    have hb : Cx.n1 (e.exact A (fun i k => (x i k).val) k) ≤ M G :=
      (single_le_sum (f := fun k => Cx.n1 (e.exact A (fun i k => (x i k).val) k)) (fun _ _ => Cx.n1_nonneg _)
        (mem_range.mpr hk)).trans (hnorm.trans hT)
    have e1 : re (w k).re = m := (congrArg Complex.re g2').trans hm
    have e2 : re (w k).im = n := (congrArg Complex.im g2').trans hn
    obtain ⟨j1, j2⟩ := ConvModel.from_int (T := G) g1 e1 (by rw [← hm]; exact (Cx.abs_re_le _).trans hb)
    obtain ⟨j3, j4⟩ := ConvModel.from_int (T := G) (v := ⟨(w k).im, (w k).re⟩) ⟨g1.2, g1.1⟩ e2 (by rw [← hn]; exact (Cx.abs_im_le _).trans hb)
    refine ⟨⟨by rw [ConvC.from_re]; exact j1, by rw [ConvC.from_im]; exact j3⟩, Complex.ext ?_ ?_⟩
    · show re (FromComplex.from_ (w k) : Cx G).re = _
      rw [ConvC.from_re, j2, hm]
    · show re (FromComplex.from_ (w k) : Cx G).im = _
      rw [ConvC.from_im, j4, hn]
  obtain ⟨r, e1, hr, hr'⟩ := h1
  obtain ⟨s, e2, hs, hs'⟩ := FExpr.toG_denotes hA (fun i => (hρ i).valid') (x := fun i k => (x i k).val)
    (fun i k hk => (hρ i).val' hk) e
  refine ⟨r, s, fun k => FromComplex.from_ (w k), e1, e2, ⟨hr, hs, Denotes.coefs ⟨r, rfl, hr, hr'⟩,
    (Denotes.coefs ⟨s, rfl, hs, hs'⟩).congr fun k h => (hk k h).2.symm, fun k h => (hk k h).1⟩,
    fun k h => ?_, ?_⟩
  · have := hint k h
    rw [← (hk k h).2] at this
    exact this
  · refine le_trans (le_of_eq ?_) hnorm
    exact sum_congr rfl fun k h => by rw [← (hk k (mem_range.mp h)).2]; rfl

theorem MV.ExactC.agree {p p' : Res (MV A (ArrayStorage (Cx G)))} {q : Res (MV A S')} {L L' : ℝ} (h : ExactC p q L) (h' : ExactC p' q L') :
    p ≈ᵣ p' := by
  obtain ⟨u, v, z, p1, p2, p3, -, -⟩ := h
  obtain ⟨u', v', z', q1, q2, q3, -, -⟩ := h'
  rw [p2] at q2
  injection q2 with q2
  subst q2
  refine ⟨u, u', p1, q1, p3.valid, q3.valid, (beq_iff p3.valid q3.valid).mpr fun i hi => ?_⟩
  have key : (z i).val = (z' i).val := by rw [← p3.val' hi, ← q3.val' hi]
  rw [p3.val hi, q3.val hi]
  exact Cx.ext' (re_inj (p3.finite i hi).1 (q3.finite i hi).1 (congrArg Complex.re key))
    (re_inj (p3.finite i hi).2 (q3.finite i hi).2 (congrArg Complex.im key))

theorem FExpr.fits_toG {m : ℝ} {h s : Nat} {l : Nat → ℝ} (e : FExpr) (he : e.Fits (fun _ b => b ≤ m) h s 0 l) :
    e.toG.Fits m l ∧ e.toG.bound l = e.size 0 l := by
  induction e <;> simp_all [Fits, toG, GExpr.Fits, GExpr.bound, size]

/-- **C99, both routes agree.** -/
theorem C99_fft_agree [LawfulWedge A S'] (hA : A.WF) (hd : A.dim < 63) (h4 : 4 ≤ M F) (h4' : 4 ≤ M G) {ρ : Nat → MV A (ArrayStorage (Cx G))} {ρ' : Nat → MV A S'}
    {x : Nat → Nat → Cx G} {l : Nat → ℝ} (hρ : ∀ i, SameValuesC (ρ i) (ρ' i) (x i)) (hz : ∀ i, Gaussian A.dim (x i))
    (hl : ∀ i, normC A.dim (x i) ≤ l i) (e : FExpr)
    (he : e.Fits (fun _ b => b ≤ M F) A.half A.projDim 0 l) (he' : e.Fits (fun _ b => b ≤ M G) A.half A.projDim 0 l)
    (hF : 4 * e.size 0 l ≤ M F) (hT : e.size 0 l ≤ M G) :
    e.viaFFT (Cx F) ρ ≈ᵣ e.toG.eval ρ :=
  (C99_fft_gaussian hA hd h4 hρ hz hl e he hF hT).agree (C99_gaussian hA h4' hρ hz hl e.toG (e.fits_toG he').1)

/-- **C99, rounding errors through the transforms.** -/
theorem C99_fft_expression (hA : A.WF) (hd : A.dim < 63) (h4 : 4 ≤ M F) (hu : 0 < u F) (hM : 0 ≤ M G)
    {ρ : Nat → MV A (ArrayStorage (Cx G))} {ρ' : Nat → MV A S'} {x : Nat → Nat → Cx G} {l : Nat → ℝ}
    (hρ : ∀ i, SameValuesC (ρ i) (ρ' i) (x i)) (hl : ∀ i, normC A.dim (x i) ≤ l i) (e : FExpr) {E B : ℝ} {L : Nat}
    (hE : E = 3 ^ A.projDim * (2 ^ A.half * (2 ^ A.half * Cx.uflow F)))
    (hB : B = e.size E l + A.half * Cx.uflow F) (hL : L = e.level A.half A.projDim + 3 * A.half)
    (he : e.Fits (fun l b => (1 + u F) ^ l * b ≤ Ω F) A.half A.projDim E l)
    (hF : (1 + u F) ^ L * (4 * B) ≤ Ω F) (hT : (1 + u F) ^ L * B ≤ Ω G) :
    NearC (e.viaFFT (Cx F) ρ) (e.toG.eval ρ')
      (((1 + u F) ^ L - 1) * B + (ConvModel.cu G F * ((1 + u F) ^ L * B) + 2 * ConvModel.cη G F)) := by
  obtain ⟨w, h1, h2⟩ := FExpr.viaRep (Q := Cx.nearRel h4 hu) hA hd Cx.neg_neg' ConvC.fft_zero (ConvC.ifft_zero hM)
    (fun i => (hρ i).valid) (x := fun i k => (x i k).val) (b := fun i k => Cx.n1 (x i k).val) hl hE
    (fun i k hk => by
      rw [(hρ i).val hk]
      obtain ⟨g1, g2⟩ := ConvC.into_ok (F := F) ((hρ i).finite k hk)
      exact ⟨g1, le_rfl, by
        rw [g2]
        show Cx.n1 ((x i k).val - (x i k).val) ≤ _
        rw [sub_self, Cx.n1_zero]; simp⟩) e he (fun k hk => trivial) (by
      rw [← hL]
      show (1 + u F) ^ L * (4 * (e.size E l + A.half * Cx.uflow F)) ≤ Ω F
      rw [← hB]; exact hF)
  obtain ⟨r, e1, hr, hr'⟩ := h1
  obtain ⟨s, e2, hs, hs'⟩ := FExpr.toG_denotes hA (fun i => (hρ i).valid') (x := fun i k => (x i k).val)
    (fun i k hk => (hρ i).val' hk) e
  refine ⟨r, s, fun k => FromComplex.from_ (w k), e.exact A fun i k => (x i k).val, e1, e2, hr, hs,
    Denotes.coefs ⟨r, rfl, hr, hr'⟩, Denotes.coefs ⟨s, rfl, hs, hs'⟩, fun k hk => ?_⟩
  have h : Cx.Near (e.level A.half A.projDim + 3 * A.half) (w k) (e.exact A (fun i k => (x i k).val) k) (e.size E l + A.half * Cx.uflow F) := h2 k hk
  rw [← hL, ← hB] at h
  have hs := h.size
  have a1 : |re (w k).re| + |re (w k).im| ≤ (1 + u F) ^ L * B := hs
  have p1 := abs_nonneg (re (w k).re)
  have p2 := abs_nonneg (re (w k).im)
  obtain ⟨g1, g2⟩ := ConvModel.from_ok (T := G) h.1 (by linarith)
  obtain ⟨g3, g4⟩ := ConvModel.from_ok (T := G) (v := ⟨(w k).im, (w k).re⟩) ⟨h.1.2, h.1.1⟩ (by show |re (w k).im| ≤ _; linarith)
  rw [ConvC.from_re, ConvC.from_im]
  refine ⟨g1, g3, ?_⟩
  have h3 : |re (w k).re - (e.exact A (fun i k => (x i k).val) k).re| + |re (w k).im - (e.exact A (fun i k => (x i k).val) k).im| ≤
    ((1 + u F) ^ L - 1) * B := h.2.2
  have t1 := abs_sub_le (re (FromComplex.from_ (w k) : G)) (re (w k).re) (e.exact A (fun i k => (x i k).val) k).re
  have t2 := abs_sub_le (re (FromComplex.from_ (⟨(w k).im, (w k).re⟩ : Cx F) : G)) (re (w k).im) (e.exact A (fun i k => (x i k).val) k).im
  have m := mul_le_mul_of_nonneg_left a1 (ConvModel.cu_nonneg (T := G) (F := F))
  change |re (FromComplex.from_ (⟨(w k).im, (w k).re⟩ : Cx F) : G) - re (w k).im| ≤ ConvModel.cu G F * |re (w k).im| + ConvModel.cη G F at g4
  linarith

/-- **C99, products through the transforms.** With `h = ⌈(p+q)/2⌉` and `s` the number of null directions,
`L = 2^h + 5h + s + 2` roundings. -/
theorem C99_fft_mul (hA : A.WF) (hd : A.dim < 63) (h4 : 4 ≤ M F) (hu : 0 < u F) (hM : 0 ≤ M G)
    {a b : MV A (ArrayStorage (Cx G))} {a' b' : MV A S'} {x y : Nat → Cx G} (ha : SameValuesC a a' x) (hb : SameValuesC b b' y) {h L : Nat} {B : ℝ} (hh : h = (A.realDim + A.imagDim + 1) / 2)
    (hL : L = 2 ^ h + 5 * h + A.projDim + 2)
    (hB : normC A.dim x * normC A.dim y + (3 ^ A.projDim * 4 ^ h + h) * (4 * η F / u F) ≤ B)
    (hx : (1 + u F) ^ L * normC A.dim x ≤ Ω F) (hy : (1 + u F) ^ L * normC A.dim y ≤ Ω F)
    (hF : (1 + u F) ^ L * (4 * B) ≤ Ω F) (hT : (1 + u F) ^ L * B ≤ Ω G) :
    NearC (a.mulFFT F b) (a'.naiveMulImpl b')
      (((1 + u F) ^ L - 1) * B + (ConvModel.cu G F * ((1 + u F) ^ L * B) + 2 * ConvModel.cη G F)) := by
  have hh' : h = A.half := hh
  subst hh'
  have n1 := normC_nonneg A.dim x
  have n2 := normC_nonneg A.dim y
  have hD := Cx.uflow_nonneg (F := F)
  have hpw := Cx.one_le_pow' (F := F) L
  set B' := normC A.dim x * normC A.dim y + (3 ^ A.projDim * 4 ^ A.half + A.half) * Cx.uflow F with hB'
  have hBB : B' ≤ B := hB
  have hB0 : 0 ≤ B' := by positivity
  have e4 : (3 : ℝ) ^ A.projDim * (2 ^ A.half * (2 ^ A.half * Cx.uflow F)) = 3 ^ A.projDim * 4 ^ A.half * Cx.uflow F := by
    rw [show (4 : ℝ) = 2 * 2 by norm_num, mul_pow]; ring
  have hle : ∀ {l : Nat} {c c' : ℝ}, l ≤ L → 0 ≤ c → c ≤ c' → (1 + u F) ^ l * c ≤ (1 + u F) ^ L * c' := fun hl hc hcc =>
    mul_le_mul (Cx.pow_le' hl) hcc hc (by linarith)
  have hp1 : 1 ≤ 2 ^ A.half := Nat.one_le_two_pow
  have key := C99_fft_expression (F := F) hA hd h4 hu hM (ρ := fun i => if i = 0 then a else b) (ρ' := fun i => if i = 0 then a' else b')
    (x := fun i => if i = 0 then x else y) (l := fun i => normC A.dim (if i = 0 then x else y))
    (fun i => by by_cases h : i = 0 <;> simp only [h, if_true, if_false] <;> assumption)
    (fun _ => le_rfl) (.mul (.X 0) (.X 1)) (E := 3 ^ A.projDim * 4 ^ A.half * Cx.uflow F) (B := B') (L := L) e4.symm (by
      show B' = normC A.dim x * normC A.dim y + 3 ^ A.projDim * 4 ^ A.half * Cx.uflow F + A.half * Cx.uflow F
      rw [hB']; ring) (by
      show L = A.half + A.half + 2 + 2 ^ A.half + A.projDim + 3 * A.half
      omega)
    ⟨(hle (by omega) n1 le_rfl).trans hx, (hle (by omega) n2 le_rfl).trans hy, (hle (l := A.half + A.half + 2 + 2 ^ A.half + A.projDim) (c' := 4 * B) (by omega) (by
      show 0 ≤ normC A.dim x * normC A.dim y + 3 ^ A.projDim * 4 ^ A.half * Cx.uflow F
      positivity) (by
      show normC A.dim x * normC A.dim y + 3 ^ A.projDim * 4 ^ A.half * Cx.uflow F ≤ 4 * B
      have : 0 ≤ (A.half : ℝ) * Cx.uflow F := by positivity
      have : B' = normC A.dim x * normC A.dim y + 3 ^ A.projDim * 4 ^ A.half * Cx.uflow F + A.half * Cx.uflow F := by
        rw [hB']; ring
      linarith)).trans hF⟩ ((hle le_rfl (by linarith) (by linarith)).trans hF) ((hle le_rfl hB0 hBB).trans hT)
  have e1 : (FExpr.mul (.X 0) (.X 1)).viaFFT (Cx F) (fun i => if i = 0 then a else b) = a.mulFFT F b := by
    unfold FExpr.viaFFT MV.mulFFT
    simp only [FExpr.evalFFT, bind_assoc]
    rfl
  have e2 : (FExpr.mul (.X 0) (.X 1)).toG.eval (fun i => if i = 0 then a' else b') = a'.naiveMulImpl b' := rfl
  rw [e1, e2] at key
  obtain ⟨r, r', z, w, p1, p2, p3, p4, p5, p6, p7⟩ := key
  refine ⟨r, r', z, w, p1, p2, p3, p4, p5, p6, fun k hk => ⟨(p7 k hk).1, (p7 k hk).2.1, (p7 k hk).2.2.trans ?_⟩⟩
  have g1 : ((1 + u F) ^ L - 1) * B' ≤ ((1 + u F) ^ L - 1) * B := mul_le_mul_of_nonneg_left hBB (by linarith)
  have g2 : ConvModel.cu G F * ((1 + u F) ^ L * B') ≤ ConvModel.cu G F * ((1 + u F) ^ L * B) :=
    mul_le_mul_of_nonneg_left (hle le_rfl hB0 hBB) ConvModel.cu_nonneg
  linarith

end

section
variable {A : ClAlg} {S' : Type} [CoeffStorage S' ℂ] [LawfulStorage S' ℂ] [WedgeProduct A S'] {a' b' : MV A S'}

set_option exponentiation.threshold 2000 in
/-- **C99, products of `Complex64` multivectors through the transforms.** -/
theorem C99_fft_mul_c64 (hA : A.WF) (hd : A.dim < 63) {a b : MV A (ArrayStorage (Cx F64))} {x y : Nat → Cx F64} (ha : SameValuesC a a' x)
    (hb : SameValuesC b b' y) (hx : normC A.dim x ≤ 2 ^ 500) (hy : normC A.dim y ≤ 2 ^ 500) {h L : Nat}
    (hh : h = (A.realDim + A.imagDim + 1) / 2) (hL : L = 2 ^ h + 5 * h + A.projDim + 2) :
    NearC (a.mulFFT F64 b) (a'.naiveMulImpl b')
      (L / 2 ^ 52 * (normC A.dim x * normC A.dim y + 1 / 2 ^ 800)) := by
  obtain ⟨cu, cη, cM, cΩ, -⟩ := C69_f64
  have hdim : A.realDim + A.imagDim + A.projDim = A.dim := hA.dims
  obtain ⟨k1, k2, k3⟩ := consts_f64 (h := h) (s := A.projDim) (L := L) (by omega) (by omega) hL
  have n1 := normC_nonneg A.dim x
  have n2 := normC_nonneg A.dim y
  have hxy : normC A.dim x * normC A.dim y ≤ 2 ^ 1000 := by
    refine (mul_le_mul hx hy n2 (by positivity)).trans_eq ?_
    rw [← pow_add]
  have hB0 : 0 ≤ normC A.dim x * normC A.dim y + 1 / 2 ^ 800 := by positivity
  have hB : normC A.dim x * normC A.dim y + 1 / 2 ^ 800 ≤ 2 ^ 1001 := by
    have : (1 : ℝ) / 2 ^ 800 ≤ 2 ^ 1000 := by
      rw [div_le_iff₀ (by positivity), ← pow_add]
      exact one_le_pow₀ (by norm_num)
    rw [pow_succ]
    linarith
  have hpw : (1 + u F64) ^ L ≤ 2 := k2.trans (by norm_num)
  have hp0 := Cx.one_le_pow' (F := F64) L
  have key := C99_fft_mul (F := F64) hA hd (by rw [cM]; norm_num) (by rw [cu]; positivity) (by rw [cM]; positivity) ha hb hh hL
    (B := normC A.dim x * normC A.dim y + 1 / 2 ^ 800) (by linarith)
    ((mul_le_mul hpw hx n1 (by norm_num)).trans (by rw [cΩ]; norm_num))
    ((mul_le_mul hpw hy n2 (by norm_num)).trans (by rw [cΩ]; norm_num))
    ((mul_le_mul hpw (mul_le_mul_of_nonneg_left hB (by norm_num)) (by positivity) (by norm_num)).trans (by rw [cΩ]; norm_num))
    ((mul_le_mul hpw hB hB0 (by norm_num)).trans (by rw [cΩ]; norm_num))
  obtain ⟨r, r', z, w, p1, p2, p3, p4, p5, p6, p7⟩ := key
  refine ⟨r, r', z, w, p1, p2, p3, p4, p5, p6, fun k hk => ⟨(p7 k hk).1, (p7 k hk).2.1, (p7 k hk).2.2.trans ?_⟩⟩
  have c1 : ConvModel.cu F64 F64 = 0 := rfl
  have c2 : ConvModel.cη F64 F64 = 0 := rfl
  rw [c1, c2]
  have := mul_le_mul_of_nonneg_right k1 hB0
  linarith

set_option exponentiation.threshold 2000 in
/-- **C99, products of `Complex32` multivectors through the transforms.** The transforms are computed in `Complex64`. -/
theorem C99_fft_mul_c32 (hA : A.WF) (hd : A.dim < 63) {a b : MV A (ArrayStorage (Cx F32))} {x y : Nat → Cx F32} (ha : SameValuesC a a' x)
    (hb : SameValuesC b b' y) (hx : normC A.dim x ≤ 2 ^ 60) (hy : normC A.dim y ≤ 2 ^ 60) {h L : Nat}
    (hh : h = (A.realDim + A.imagDim + 1) / 2) (hL : L = 2 ^ h + 5 * h + A.projDim + 2) :
    NearC (a.mulFFT F64 b) (a'.naiveMulImpl b')
      ((1 / 2 ^ 24 * (1 + 1 / 2 ^ 20) + L / 2 ^ 52) * (normC A.dim x * normC A.dim y + 1 / 2 ^ 800) + 1 / 2 ^ 149) := by
  obtain ⟨cu, cη, cM, cΩ, -⟩ := C69_f64
  obtain ⟨du, dη, dM, dΩ, -⟩ := C69_f32
  have hdim : A.realDim + A.imagDim + A.projDim = A.dim := hA.dims
  obtain ⟨k1, k2, k3⟩ := consts_f64 (h := h) (s := A.projDim) (L := L) (by omega) (by omega) hL
  have n1 := normC_nonneg A.dim x
  have n2 := normC_nonneg A.dim y
  have hxy : normC A.dim x * normC A.dim y ≤ 2 ^ 120 := by
    refine (mul_le_mul hx hy n2 (by positivity)).trans_eq ?_
    rw [← pow_add]
  have hB0 : 0 ≤ normC A.dim x * normC A.dim y + 1 / 2 ^ 800 := by positivity
  have hB : normC A.dim x * normC A.dim y + 1 / 2 ^ 800 ≤ 2 ^ 121 := by
    have : (1 : ℝ) / 2 ^ 800 ≤ 2 ^ 120 := by
      rw [div_le_iff₀ (by positivity), ← pow_add]
      exact one_le_pow₀ (by norm_num)
    rw [pow_succ]
    linarith
  have hpw : (1 + u F64) ^ L ≤ 2 := k2.trans (by norm_num)
  have hp0 := Cx.one_le_pow' (F := F64) L
  have key := C99_fft_mul (F := F64) hA hd (by rw [cM]; norm_num) (by rw [cu]; positivity) (by rw [dM]; positivity) ha hb hh hL
    (B := normC A.dim x * normC A.dim y + 1 / 2 ^ 800) (by linarith)
    ((mul_le_mul hpw hx n1 (by norm_num)).trans (by rw [cΩ]; norm_num))
    ((mul_le_mul hpw hy n2 (by norm_num)).trans (by rw [cΩ]; norm_num))
    ((mul_le_mul hpw (mul_le_mul_of_nonneg_left hB (by norm_num)) (by positivity) (by norm_num)).trans (by rw [cΩ]; norm_num))
    ((mul_le_mul hpw hB hB0 (by norm_num)).trans (by rw [dΩ]; norm_num))
  obtain ⟨r, r', z, w, p1, p2, p3, p4, p5, p6, p7⟩ := key
  refine ⟨r, r', z, w, p1, p2, p3, p4, p5, p6, fun k hk => ⟨(p7 k hk).1, (p7 k hk).2.1, (p7 k hk).2.2.trans ?_⟩⟩
  have c1 : ConvModel.cu F32 F64 = 1 / 2 ^ 24 := du
  have c2 : ConvModel.cη F32 F64 = 1 / 2 ^ 150 := dη
  rw [c1, c2]
  have g1 := mul_le_mul_of_nonneg_right k1 hB0
  have g2 := mul_le_mul_of_nonneg_left (mul_le_mul_of_nonneg_right k2 hB0) (show (0 : ℝ) ≤ 1 / 2 ^ 24 by positivity)
  linarith

set_option exponentiation.threshold 2000 in
/-- **C99, rounding errors of `Complex64`.** If no size exceeds `2^1022`, the errors are at most `L 2^-52` times the size, for up
to `2^52` roundings. -/
theorem C99_expression_c64 [LawfulWedge A S'] (hA : A.WF) {S : Type} [CoeffStorage S (Cx F64)] [LawfulStorage S (Cx F64)] [WedgeProduct A S] [FloatWedge A S]
    {ρ : Nat → MV A S} {ρ' : Nat → MV A S'} {x : Nat → Nat → Cx F64} {l : Nat → ℝ}
    (hρ : ∀ i, SameValuesC (ρ i) (ρ' i) (x i)) (hl : ∀ i, normC A.dim (x i) ≤ l i) (e : GExpr) {E B : ℝ} {L : Nat}
    (hE : E = 4 ^ A.dim / 2 ^ 1020) (hB : B = e.size E l) (hL : L = e.level (2 ^ A.dim + 1)) (hL' : L ≤ 2 ^ 52)
    (he : e.Within (fun _ b => b ≤ 2 ^ 1022) (2 ^ A.dim + 1) E l) :
    NearC (e.eval ρ) (e.eval ρ') (L / 2 ^ 52 * B) := by
  obtain ⟨cu, cη, cM, cΩ, -⟩ := C69_f64
  have small : ∀ n : Nat, n ≤ 2 ^ 52 → (n : ℝ) * u F64 ≤ 1 / 2 := fun n hn => by
    have : (n : ℝ) ≤ 2 ^ 52 := by exact_mod_cast hn
    rw [cu]; linarith
  have hEE : E = 4 ^ A.dim * (4 * η F64 / u F64) := by
    rw [hE, cη, cu, show (1075 : ℕ) = 1020 + 53 + 2 from rfl, pow_add, pow_add]
    field_simp
    norm_num
  have hE0 : 0 ≤ E := by rw [hE]; positivity
  have key := C99_expression hA (by rw [cM]; norm_num) (by rw [cu]; positivity) hρ hl e hEE hB hL (he.imp fun n hn b hb => by
    have k1 := pow_sub_one_le (u_nonneg (F := F64)) (small n (by omega))
    have k2 := small n (by omega)
    have k3 := one_le_pow₀ (one_le_one_add_u (F := F64)) (n := n)
    have k4 : (1 + u F64) ^ n ≤ 7 / 4 := by linarith
    rw [cΩ]
    refine (mul_le_mul_of_nonneg_left hb (by linarith)).trans ((mul_le_mul_of_nonneg_right k4 (by positivity)).trans ?_)
    norm_num)
  obtain ⟨r, r', z, w, p1, p2, p3, p4, p5, p6, p7⟩ := key
  refine ⟨r, r', z, w, p1, p2, p3, p4, p5, p6, fun k hk => ⟨(p7 k hk).1, (p7 k hk).2.1, (p7 k hk).2.2.trans ?_⟩⟩
  have k1 := pow_sub_one_le (u_nonneg (F := F64)) (small L hL')
  have hu0 := u_nonneg (F := F64)
  have e2 : (L : ℝ) / 2 ^ 52 = 2 * (L * u F64) := by rw [cu]; ring
  rw [e2]
  have hx : 0 ≤ (L : ℝ) * u F64 := by positivity
  have hB0 : 0 ≤ B := by
    rw [hB]
    clear * - hE0 hl
    have hl0 : ∀ i, 0 ≤ l i := fun i => (normC_nonneg _ _).trans (hl i)
    induction e with
    | X i => exact hl0 i
    | add e f ihe ihf | sub e f ihe ihf => exact add_nonneg ihe ihf
    | mul e f ihe ihf | wedge e f ihe ihf | meet e f ihe ihf => exact add_nonneg (mul_nonneg ihe ihf) hE0
    | neg e ih | rev e ih | flip e ih | flipSubspace _ e ih | dual e ih | undual e ih => exact ih
  exact mul_le_mul_of_nonneg_right (by linarith) hB0

end

namespace Ex

/-- Coefficients `(1 - 2i), (-2 + 3i), …`. -/
def xGC (i : Nat) : Cx F64 := ⟨xG i, xG (i + 1)⟩

/-- Coefficients `(0.1 + 0.2i), (0.2 + 0.3i), …`, rounded. -/
def xFC (i : Nat) : Cx F64 := ⟨xF i, xF (i + 1)⟩

def xFC32 (i : Nat) : Cx F32 := ⟨xF32 i, xF32 (i + 1)⟩

/-- The dense complex multivector of `E` with the coefficients `x`. -/
def denseC {f : Fmt} (x : Nat → Cx (Flt f)) : MV E (ArrayStorage (Cx (Flt f))) := ⟨⟨3, ⟨8, x⟩⟩⟩

/-- The same with exact coefficients. -/
noncomputable def denseCC {f : Fmt} (x : Nat → Cx (Flt f)) : MV E (ArrayStorage ℂ) :=
  ⟨⟨3, ⟨8, fun i => ⟨((x i).re.toRat : ℝ), ((x i).im.toRat : ℝ)⟩⟩⟩⟩

theorem sameC {f : Fmt} {x : Nat → Cx (Flt f)} (h : ∀ i < 8, (x i).re ≠ .nonFinite ∧ (x i).im ≠ .nonFinite) :
    SameValuesC (denseC x) (denseCC x) x := by
  have h1 : (denseC x).Valid := ⟨by decide, rfl, rfl⟩
  have h2 : (denseCC x).Valid := ⟨by decide, rfl, rfl⟩
  refine ⟨h1, h2, ⟨_, rfl, fun i hi => ?_⟩, ⟨_, rfl, fun i hi => ?_⟩, h⟩
  · rw [h1.get hi, arr_val' h1 hi]; rfl
  · rw [h2.get hi]
    congr 1
    show (if i < 8 then _ else _) = _
    rw [if_pos (show i < 8 from hi)]
    rfl

theorem sameGC : SameValuesC (denseC xGC) (denseCC xGC) xGC := sameC (by decide +kernel)
theorem sameFC : SameValuesC (denseC xFC) (denseCC xFC) xFC := sameC (by decide +kernel)
theorem sameFC32 : SameValuesC (denseC xFC32) (denseCC xFC32) xFC32 := sameC (by decide +kernel)

theorem xGC_gauss : Gaussian E.dim xGC := by
  intro i hi
  have h : ∀ i < 9, (xG i).toRat = ((if i % 2 = 0 then (i : ℤ) + 1 else -(i + 1) : ℤ) : ℚ) := by decide +kernel
  have h' : ∀ i < 9, ∃ m : ℤ, ((xG i).toRat : ℝ) = m := fun i hi => ⟨_, by rw [h i hi, Rat.cast_intCast]⟩
  have hi' : i < 8 := hi
  exact ⟨h' i (by omega), h' (i + 1) (by omega)⟩

theorem normC_le {f : Fmt} {x : Nat → Cx (Flt f)} {c : ℚ} (h : ∑ i ∈ range 8, (|(x i).re.toRat| + |(x i).im.toRat|) ≤ c) :
    normC E.dim x ≤ c := by
  have h' : ((∑ i ∈ range 8, (|(x i).re.toRat| + |(x i).im.toRat|) : ℚ) : ℝ) ≤ c := by exact_mod_cast h
  rw [show ((∑ i ∈ range 8, (|(x i).re.toRat| + |(x i).im.toRat|) : ℚ) : ℝ) = Rat.castHom ℝ _ from rfl, map_sum] at h'
  show ∑ i ∈ range 8, (|((x i).re.toRat : ℝ)| + |((x i).im.toRat : ℝ)|) ≤ c
  simpa using h'

theorem xGC_norm : normC E.dim xGC ≤ 80 := by exact_mod_cast normC_le (c := 80) (by decide +kernel)
theorem xFC_norm : normC E.dim xFC ≤ 64 := by exact_mod_cast normC_le (c := 64) (by decide +kernel)
theorem xFC32_norm : normC E.dim xFC32 ≤ 64 := by exact_mod_cast normC_le (c := 64) (by decide +kernel)

/-- `x0 * x1 * ~x0 - (x0 ∧ dual x1) ∨ x2` -/
example := C99_gaussian E_wf four_le (fun _ => sameGC) (fun _ => xGC_gauss) (l := fun _ => 80) (fun _ => xGC_norm) exprS (by
  have hM : (FloatModel.M F64) = 2 ^ 53 := rfl
  simp only [exprS, GExpr.Fits, GExpr.bound, hM]
  norm_num)

/-- `(x0 x1) x2 = x0 (x1 x2)` for Gaussian integers. -/
example : GExpr.eval (fun _ => denseC xGC) (.mul (.mul (.X 0) (.X 1)) (.X 2)) ≈ᵣ
    GExpr.eval (fun _ => denseC xGC) (.mul (.X 0) (.mul (.X 1) (.X 2))) :=
  C99_identity E_wf four_le (fun _ => sameGC) (fun _ => xGC_gauss) (l := fun _ => 80) (fun _ => xGC_norm) (by
    have hM : (FloatModel.M F64) = 2 ^ 53 := rfl
    simp only [GExpr.Fits, GExpr.bound, hM]
    norm_num) (by
    have hM : (FloatModel.M F64) = 2 ^ 53 := rfl
    simp only [GExpr.Fits, GExpr.bound, hM]
    norm_num) (C04_mul_assoc E_wf sameGC.valid' sameGC.valid' sameGC.valid')

set_option exponentiation.threshold 2000 in
theorem exprS_withinC : exprS.Within (fun _ b => b ≤ 2 ^ 1022) (2 ^ E.dim + 1) (4 ^ E.dim / 2 ^ 1020) (fun _ => 64) := by
  have hd : E.dim = 3 := rfl
  have h : (4 : ℝ) ^ 3 / 2 ^ 1020 ≤ 1 := by
    rw [div_le_one (by positivity)]
    exact le_trans (by norm_num : (4 : ℝ) ^ 3 ≤ 2 ^ 6) (pow_le_pow_right₀ (by norm_num) (by norm_num))
  have h0 : (0 : ℝ) ≤ 4 ^ 3 / 2 ^ 1020 := by positivity
  have h1 : (2 : ℝ) ^ 100 ≤ 2 ^ 1022 := pow_le_pow_right₀ (by norm_num) (by norm_num)
  simp only [exprS, GExpr.Within, GExpr.size, hd]
  generalize (4 : ℝ) ^ 3 / 2 ^ 1020 = t at *
  generalize (2 : ℝ) ^ 1022 = w at *
  refine ⟨⟨⟨trivial, trivial, ?_⟩, trivial, ?_⟩, ⟨⟨trivial, trivial, ?_⟩, trivial, ?_⟩, ?_⟩ <;> norm_num at h1 ⊢ <;> linarith

example := C99_expression_c64 E_wf (fun _ => sameFC) (fun _ => xFC_norm) exprS rfl rfl rfl (by decide) exprS_withinC

/-- `x0 * x1 * ~x0 - flip x2` -/
example := C99_fft_gaussian (F := F64) E_wf (by decide) four_le (fun _ => sameGC) (fun _ => xGC_gauss) (l := fun _ => 80) (fun _ => xGC_norm)
  exprF (by
    have hM : (FloatModel.M F64) = 2 ^ 53 := rfl
    simp only [exprF, FExpr.Fits, FExpr.size, hM]; norm_num) (by
    have hM : (FloatModel.M F64) = 2 ^ 53 := rfl
    simp only [exprF, FExpr.size, hM]; norm_num) (by
    have hM : (FloatModel.M F64) = 2 ^ 53 := rfl
    simp only [exprF, FExpr.size, hM]; norm_num)

example := C99_fft_expression (F := F64) E_wf (by decide) four_le (by rw [C69_f64.1]; positivity) (by rw [C69_f64.2.2.1]; positivity)
  (l := fun _ => 64) (fun _ => sameFC) (fun _ => xFC_norm) exprF rfl rfl rfl
  (exprF_fits (by
    have h : (0 : ℝ) ≤ E.half * Cx.uflow F64 := mul_nonneg (Nat.cast_nonneg _) tiny64.2
    linarith [tiny64.1]))
  (ok64 (by decide) (exprF_total (by norm_num) (by norm_num)))
  (ok64 (by decide) (by simpa using exprF_total (c := 1) (by norm_num) (by norm_num)))

/-- `x0 * x1 * ~x0 - flip x2` -/
example := C99_fft_agree (F := F64) E_wf (by decide) four_le four_le (fun _ => sameGC) (fun _ => xGC_gauss) (l := fun _ => 80) (fun _ => xGC_norm)
  (.sub (.mul (.mul (.X 0) (.X 1)) (.rev (.X 0))) (.flip (.X 2))) (by
    have hM : (FloatModel.M F64) = 2 ^ 53 := rfl
    simp only [FExpr.Fits, FExpr.size, hM]; norm_num) (by
    have hM : (FloatModel.M F64) = 2 ^ 53 := rfl
    simp only [FExpr.Fits, FExpr.size, hM]; norm_num) (by
    have hM : (FloatModel.M F64) = 2 ^ 53 := rfl
    simp only [FExpr.size, hM]; norm_num) (by
    have hM : (FloatModel.M F64) = 2 ^ 53 := rfl
    simp only [FExpr.size, hM]; norm_num)

set_option exponentiation.threshold 2000 in
example := C99_fft_mul_c64 E_wf (by decide) sameFC sameFC (xFC_norm.trans (by norm_num)) (xFC_norm.trans (by norm_num)) rfl rfl
example := C99_fft_mul_c32 E_wf (by decide) sameFC32 sameFC32 (xFC32_norm.trans (by norm_num)) (xFC32_norm.trans (by norm_num)) rfl rfl

/-- The two products of Gaussian integers are equal; those of rounded coefficients are not. -/
example : (do
    let u ← (denseC xGC).mulFFT F64 (denseC xGC)
    let v ← (denseC xGC).naiveMulImpl (denseC xGC)
    let u' ← (denseC xFC).mulFFT F64 (denseC xFC)
    let v' ← (denseC xFC).naiveMulImpl (denseC xFC)
    return ((← (List.range 8).mapM u.getByIdx) = (← (List.range 8).mapM v.getByIdx) ∧
      (← (List.range 8).mapM u'.getByIdx) ≠ (← (List.range 8).mapM v'.getByIdx) : Bool) : Res Bool) = .ok true := by
  decide +kernel

end Ex

end TClifford
