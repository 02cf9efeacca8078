import Verif.Props.Float
import Verif.Props.FloatIEEE
/-
Rounding errors of expressions: C70 (coefficients in floating point arithmetic, products computed directly).
-/

set_option linter.unusedSectionVars false

namespace TClifford

open MV Finset FloatModel

namespace GExpr

/-- Number of successive roundings, for `N` blades. -/
def level (N : Nat) : GExpr → Nat
  | X _ => 0
  | add e f | sub e f => max (e.level N) (f.level N) + 1
  | mul e f | wedge e f | meet e f => e.level N + f.level N + N + 1
  | neg e | rev e | flip e | flipSubspace _ e | dual e | undual e => e.level N

/-- Bound for the sum of the absolute values of the coefficients from bounds `l i` for the variables; `E` is added for
every product. -/
def size (E : ℝ) (l : Nat → ℝ) : GExpr → ℝ
  | X i => l i
  | add e f | sub e f => e.size E l + f.size E l
  | mul e f | wedge e f | meet e f => e.size E l * f.size E l + E
  | neg e | rev e | flip e | flipSubspace _ e | dual e | undual e => e.size E l

/-- All sums and products in the expression satisfy `P` (number of roundings) (size). -/
def Within (P : Nat → ℝ → Prop) (N : Nat) (E : ℝ) (l : Nat → ℝ) : GExpr → Prop
  | X _ => True
  | add e f | sub e f => e.Within P N E l ∧ f.Within P N E l ∧ P (max (e.level N) (f.level N) + 1) (e.size E l + f.size E l)
  | mul e f | wedge e f | meet e f =>
    e.Within P N E l ∧ f.Within P N E l ∧ P (e.level N + f.level N + N + 1) (e.size E l * f.size E l + E)
  | neg e | rev e | flip e | flipSubspace _ e | dual e | undual e => e.Within P N E l

end GExpr

section
variable {F : Type} [Zero F] [One F] [Add F] [Sub F] [Neg F] [Mul F] [Div F] [FloatModel F] [DecidableEq F]

theorem one_le_one_add_u : (1 : ℝ) ≤ 1 + u F := by have := u_nonneg (F := F); linarith

/-- A sum of products of approximate numbers. -/
theorem Acc.near (hu : 0 < u F) {v : F} {s : Finset ℕ} {c : ℕ → ℤ} {x y : ℕ → F} {w w' β γ : ℕ → ℝ} {l l' N : ℕ}
    (h : Acc v (∑ i ∈ s, tau (c i) (x i) (y i))) (hc : ∀ i ∈ s, |c i| ≤ 1) (hN : #s ≤ N)
    (hx : ∀ i ∈ s, |w i| ≤ β i ∧ |re (x i) - w i| ≤ ((1 + u F) ^ l - 1) * β i)
    (hy : ∀ i ∈ s, |w' i| ≤ γ i ∧ |re (y i) - w' i| ≤ ((1 + u F) ^ l' - 1) * γ i)
    (hok : (1 + u F) ^ (l + l' + N + 1) * (∑ i ∈ s, β i * γ i + N * (η F / u F)) ≤ Ω F) :
    fin v ∧ |∑ i ∈ s, c i • (w i * w' i)| ≤ ∑ i ∈ s, β i * γ i + N * (η F / u F) ∧
      |re v - ∑ i ∈ s, c i • (w i * w' i)| ≤ ((1 + u F) ^ (l + l' + N + 1) - 1) * (∑ i ∈ s, β i * γ i + N * (η F / u F)) := by
  have hη := η_nonneg (F := F)
  have hp := one_le_one_add_u (F := F)
  have hP : (1 : ℝ) ≤ (1 + u F) ^ l := one_le_pow₀ hp
  have hQ : (1 : ℝ) ≤ (1 + u F) ^ l' := one_le_pow₀ hp
  have hR : (1 : ℝ) ≤ (1 + u F) ^ (N + 1) := one_le_pow₀ hp
  have hpN : (1 : ℝ) ≤ (1 + u F) ^ N := one_le_pow₀ hp
  have eR : (1 + u F) ^ (N + 1) = (1 + u F) ^ N + u F * (1 + u F) ^ N := by rw [pow_succ]; ring
  have eall : (1 + u F) ^ (l + l' + N + 1) = (1 + u F) ^ l * (1 + u F) ^ l' * (1 + u F) ^ (N + 1) := by
    rw [← pow_add, ← pow_add]; rfl
  have hβ : ∀ i ∈ s, 0 ≤ β i := fun i hi => (abs_nonneg _).trans (hx i hi).1
  have hγ : ∀ i ∈ s, 0 ≤ γ i := fun i hi => (abs_nonneg _).trans (hy i hi).1
  have hS : 0 ≤ ∑ i ∈ s, β i * γ i := sum_nonneg fun i hi => mul_nonneg (hβ i hi) (hγ i hi)
  have hD : 0 ≤ (N : ℝ) * (η F / u F) := by positivity
  -- sizes of the computed factors
  have sx : ∀ i ∈ s, |re (x i)| ≤ (1 + u F) ^ l * β i := fun i hi => by
    have := abs_sub_abs_le_abs_sub (re (x i)) (w i)
    linarith [hx i hi |>.1, hx i hi |>.2]
  have sy : ∀ i ∈ s, |re (y i)| ≤ (1 + u F) ^ l' * γ i := fun i hi => by
    have := abs_sub_abs_le_abs_sub (re (y i)) (w' i)
    linarith [hy i hi |>.1, hy i hi |>.2]
  have hM : absSum s x y ≤ (1 + u F) ^ l * (1 + u F) ^ l' * ∑ i ∈ s, β i * γ i := by
    unfold absSum
    rw [mul_sum]
    refine sum_le_sum fun i hi => (mul_le_mul (sx i hi) (sy i hi) (abs_nonneg _) ?_).trans_eq (by ring)
    exact mul_nonneg (by linarith) (hβ i hi)
  have hNN : nTerms s x y ≤ N := (card_filter_le _ _).trans hN
  have hE := errB_mono (F := F) (absSum_nonneg s x y) hM hNN
  have hηN : η F * (1 + u F) ^ N ≤ η F / u F * ((1 + u F) ^ (N + 1) - 1) := by
    have : η F * (1 + u F) ^ N = η F / u F * (u F * (1 + u F) ^ N) := by field_simp
    rw [this]
    exact mul_le_mul_of_nonneg_left (by linarith) (by positivity)
  have hE' : errB F ((1 + u F) ^ l * (1 + u F) ^ l' * ∑ i ∈ s, β i * γ i) N ≤
      (1 + u F) ^ l * (1 + u F) ^ l' * (∑ i ∈ s, β i * γ i) * ((1 + u F) ^ (N + 1) - 1) +
        N * (η F / u F) * ((1 + u F) ^ (N + 1) - 1) := by
    unfold errB
    have := mul_le_mul_of_nonneg_left hηN (Nat.cast_nonneg (α := ℝ) N)
    linarith
  have hPQ : 1 ≤ (1 + u F) ^ l * (1 + u F) ^ l' := one_le_mul_of_one_le_of_one_le hP hQ
  -- abbreviations
  rw [eall] at hok ⊢
  have main := h
  set P := (1 + u F) ^ l
  set Q := (1 + u F) ^ l'
  set R := (1 + u F) ^ (N + 1)
  set T := ∑ i ∈ s, β i * γ i with hT
  set D := (N : ℝ) * (η F / u F)
  have hPQR : R ≤ P * Q * R := le_mul_of_one_le_left (by linarith) hPQ
  have h1 : R * D ≤ P * Q * R * D := mul_le_mul_of_nonneg_right hPQR hD
  obtain ⟨g1, g2⟩ := Acc.of_sum (subset_refl _) main hc (fun i h1 h2 => absurd h1 h2) (by nlinarith only [hE, hE', hM, hok, h1, hD])
  have bw : |∑ i ∈ s, c i • (w i * w' i)| ≤ T := by
    refine (abs_sum_le_sum_abs _ _).trans (sum_le_sum fun i hi => ?_)
    rw [zsmul_eq_mul, abs_mul, abs_mul]
    have h1 : |(c i : ℝ)| ≤ 1 := by exact_mod_cast hc i hi
    exact (mul_le_of_le_one_left (by positivity) h1).trans
      (mul_le_mul (hx i hi).1 (hy i hi).1 (abs_nonneg _) (hβ i hi))
  have bd : |∑ i ∈ s, c i • (re (x i) * re (y i)) - ∑ i ∈ s, c i • (w i * w' i)| ≤ (P * Q - 1) * T := by
    rw [← sum_sub_distrib, hT, mul_sum]
    refine (abs_sum_le_sum_abs _ _).trans (sum_le_sum fun i hi => ?_)
    rw [← smul_sub, zsmul_eq_mul, abs_mul]
    have h1 : |(c i : ℝ)| ≤ 1 := by exact_mod_cast hc i hi
    refine (mul_le_of_le_one_left (abs_nonneg _) h1).trans ?_
    have e : re (x i) * re (y i) - w i * w' i = (re (x i) - w i) * re (y i) + w i * (re (y i) - w' i) := by ring
    rw [e]
    refine (abs_add_le _ _).trans ?_
    rw [abs_mul, abs_mul]
    have a1 := mul_le_mul (hx i hi).2 (sy i hi) (abs_nonneg _) (mul_nonneg (by linarith) (hβ i hi))
    have a2 := mul_le_mul (hx i hi).1 (hy i hi).2 (abs_nonneg _) (hβ i hi)
    calc _ ≤ (P - 1) * β i * (Q * γ i) + β i * ((Q - 1) * γ i) := add_le_add a1 a2
      _ = (P * Q - 1) * (β i * γ i) := by ring
  refine ⟨g1, by linarith, ?_⟩
  have tri := abs_sub_le (re v) (∑ i ∈ s, c i • (re (x i) * re (y i))) (∑ i ∈ s, c i • (w i * w' i))
  nlinarith only [tri, g2, bd, hE, hE', h1, hD]

variable {A : ClAlg} {S : Type} [CoeffStorage S F] [LawfulStorage S F] {S' : Type} [CoeffStorage S' ℝ] [LawfulStorage S' ℝ]

/-- The computed multivector `a` approximates `a'` after `l` roundings; `b` bounds the sum of the absolute values. -/
def MV.Approx (l : Nat) (a : MV A S) (a' : MV A S') (b : ℝ) : Prop :=
  a.Valid ∧ a'.Valid ∧ ∃ β : Nat → ℝ, ∑ k ∈ range (2 ^ A.dim), β k ≤ b ∧ ∀ k < 2 ^ A.dim, fin (a.val k) ∧ |a'.val k| ≤ β k ∧
    |re (a.val k) - a'.val k| ≤ ((1 + u F) ^ l - 1) * β k

theorem MV.Approx.mono {l l' : Nat} {a : MV A S} {a' : MV A S'} {b b' : ℝ} (h : Approx l a a' b) (hl : l ≤ l') (hb : b ≤ b') :
    Approx l' a a' b' := by
  obtain ⟨h1, h2, β, h3, h4⟩ := h
  refine ⟨h1, h2, β, h3.trans hb, fun k hk => ⟨(h4 k hk).1, (h4 k hk).2.1, (h4 k hk).2.2.trans ?_⟩⟩
  have := pow_le_pow_right₀ (one_le_one_add_u (F := F)) hl
  exact mul_le_mul_of_nonneg_right (by linarith) ((abs_nonneg _).trans (h4 k hk).2.1)

theorem MV.SameValues.approx {a : MV A S} {a' : MV A S'} {x : Nat → F} (h : SameValues a a' x) {b : ℝ} (hb : normOne A.dim x ≤ b) :
    Approx 0 a a' b := by
  refine ⟨h.valid, h.valid', fun k => |re (x k)|, hb, fun k hk => ⟨h.good k hk, ?_, ?_⟩⟩
  · rw [h.val' hk]
  · rw [h.val' hk, h.val hk]; simp

/-- Operations that move coefficients and change signs. -/
theorem MV.Approx.signed {l : Nat} {a : MV A S} {a' : MV A S'} {b : ℝ} (h : Approx l a a' b) {p : Res (MV A S)} {q : Res (MV A S')}
    (c : Nat → ℤ) {π : Nat} (hc : ∀ i, c i = 1 ∨ c i = -1) (hπ : π < 2 ^ A.dim)
    (hp : Denotes p (fun i => sgnC (c i) (a.val (i ^^^ π)))) (hq : Denotes q (fun i => c i • a'.val (i ^^^ π))) :
    ∃ r r', p = .ok r ∧ q = .ok r' ∧ Approx l r r' b := by
  obtain ⟨-, -, β, h3, h4⟩ := h
  obtain ⟨r, e1, k1, k2⟩ := hp
  obtain ⟨r', e2, k3, k4⟩ := hq
  refine ⟨r, r', e1, e2, k1, k3, fun k => β (k ^^^ π), ?_, fun k hk => ?_⟩
  · rw [sum_xor hπ β]; exact h3
  · obtain ⟨g1, g2, g3⟩ := h4 _ (Nat.xor_lt_two_pow hk hπ)
    rw [k2 k hk, k4 k hk]
    beta_reduce
    refine ⟨fin_sgnC _ g1, ?_, ?_⟩
    · rcases hc k with h | h <;> rw [h] <;> simpa using g2
    · rw [re_sgnC (hc k) g1]
      rcases hc k with h | h <;> rw [h]
      · simpa using g3
      · rw [← abs_neg] at g3
        refine le_of_eq_of_le (congrArg _ ?_) g3
        simp; ring

theorem MV.Approx.signed' {l : Nat} {a : MV A S} {a' : MV A S'} {b : ℝ} (h : Approx l a a' b) {p : Res (MV A S)} {q : Res (MV A S')}
    (c : Nat → ℤ) (hc : ∀ i, c i = 1 ∨ c i = -1) (hp : Denotes p (fun i => sgnC (c i) (a.val i)))
    (hq : Denotes q (fun i => c i • a'.val i)) : ∃ r r', p = .ok r ∧ q = .ok r' ∧ Approx l r r' b :=
  h.signed c hc (Nat.two_pow_pos _) (hp.congr fun i _ => by rw [Nat.xor_zero]) (hq.congr fun i _ => by rw [Nat.xor_zero])

/-- Sums and differences. -/
theorem MV.Approx.linear {l : Nat} {a a₂ : MV A S} {a' a₂' : MV A S'} {b b₂ : ℝ} (h : Approx l a a' b) (h' : Approx l a₂ a₂' b₂)
    {p : Res (MV A S)} {q : Res (MV A S')} {op : F → F → F} {s : ℝ} (hs : s = 1 ∨ s = -1)
    (hop : ∀ {x y : F}, fin x → fin y → |re x + s * re y| ≤ Ω F → fin (op x y) ∧ |re (op x y) - (re x + s * re y)| ≤ u F * |re x + s * re y|)
    (hp : Denotes p (fun i => op (a.val i) (a₂.val i))) (hq : Denotes q (fun i => a'.val i + s * a₂'.val i))
    (hok : (1 + u F) ^ (l + 1) * (b + b₂) ≤ Ω F) :
    ∃ r r', p = .ok r ∧ q = .ok r' ∧ Approx (l + 1) r r' (b + b₂) := by
  obtain ⟨-, -, β, h3, h4⟩ := h
  obtain ⟨-, -, γ, h5, h6⟩ := h'
  obtain ⟨r, e1, k1, k2⟩ := hp
  obtain ⟨r', e2, k3, k4⟩ := hq
  have hp1 := one_le_one_add_u (F := F)
  have hu := u_nonneg (F := F)
  have hP : (1 : ℝ) ≤ (1 + u F) ^ l := one_le_pow₀ hp1
  have hβ : ∀ k < 2 ^ A.dim, 0 ≤ β k := fun k hk => (abs_nonneg _).trans (h4 k hk).2.1
  have hγ : ∀ k < 2 ^ A.dim, 0 ≤ γ k := fun k hk => (abs_nonneg _).trans (h6 k hk).2.1
  refine ⟨r, r', e1, e2, k1, k3, fun k => β k + γ k, by rw [sum_add_distrib]; linarith, fun k hk => ?_⟩
  obtain ⟨f1, f2, f3⟩ := h4 k hk
  obtain ⟨g1, g2, g3⟩ := h6 k hk
  rw [k2 k hk, k4 k hk]
  beta_reduce
  have lb : β k ≤ b := (single_le_sum (f := β) (fun k hk => hβ k (mem_range.mp hk)) (mem_range.mpr hk)).trans h3
  have lg : γ k ≤ b₂ := (single_le_sum (f := γ) (fun k hk => hγ k (mem_range.mp hk)) (mem_range.mpr hk)).trans h5
  have abs_s : ∀ t : ℝ, |s * t| = |t| := fun t => by rcases hs with h | h <;> rw [h] <;> simp
  have d : |re (a.val k) + s * re (a₂.val k) - (a'.val k + s * a₂'.val k)| ≤ ((1 + u F) ^ l - 1) * (β k + γ k) := by
    have e : re (a.val k) + s * re (a₂.val k) - (a'.val k + s * a₂'.val k) =
        (re (a.val k) - a'.val k) + s * (re (a₂.val k) - a₂'.val k) := by ring
    rw [e]
    refine (abs_add_le _ _).trans ?_
    rw [abs_s]
    linarith
  have w : |a'.val k + s * a₂'.val k| ≤ β k + γ k := by
    refine (abs_add_le _ _).trans ?_
    rw [abs_s]
    linarith
  have z : |re (a.val k) + s * re (a₂.val k)| ≤ (1 + u F) ^ l * (β k + γ k) := by
    have := abs_sub_abs_le_abs_sub (re (a.val k) + s * re (a₂.val k)) (a'.val k + s * a₂'.val k)
    linarith
  have hbg : 0 ≤ β k + γ k := add_nonneg (hβ k hk) (hγ k hk)
  have hΩ : (1 + u F) ^ l * (β k + γ k) ≤ Ω F := by
    refine le_trans (mul_le_mul (pow_le_pow_right₀ hp1 (Nat.le_succ l)) (add_le_add lb lg) hbg ?_) hok
    exact (zero_le_one.trans (one_le_pow₀ hp1))
  obtain ⟨o1, o2⟩ := hop f1 g1 (z.trans hΩ)
  refine ⟨o1, w, ?_⟩
  have tri := abs_sub_le (re (op (a.val k) (a₂.val k))) (re (a.val k) + s * re (a₂.val k)) (a'.val k + s * a₂'.val k)
  have m := mul_le_mul_of_nonneg_left z hu
  rw [pow_succ]
  linarith

/-- Products: every coefficient is a sum over all blades `i`, of the coefficients with index `i ⊕ π` and `i ⊕ (k ⊕ τ)`. -/
theorem MV.Approx.product (hu : 0 < u F) {l l' : Nat} {a a₂ : MV A S} {a' a₂' : MV A S'} {b b₂ : ℝ} (h : Approx l a a' b)
    (h' : Approx l' a₂ a₂' b₂) {p : Res (MV A S)} {q : Res (MV A S')} (c : Nat → Nat → ℤ) {π τ : Nat} (hπ : π < 2 ^ A.dim) (hτ : τ < 2 ^ A.dim)
    (hc : ∀ i < 2 ^ A.dim, ∀ k < 2 ^ A.dim, |c i k| ≤ 1)
    (hp : ∃ r, p = .ok r ∧ r.Valid ∧ ∀ k < 2 ^ A.dim, Acc (r.val k)
      (∑ i ∈ range (2 ^ A.dim), tau (c i k) (a.val (i ^^^ π)) (a₂.val (i ^^^ (k ^^^ τ)))))
    (hq : Denotes q (fun k => ∑ i ∈ range (2 ^ A.dim), c i k • (a'.val (i ^^^ π) * a₂'.val (i ^^^ (k ^^^ τ)))))
    {E : ℝ} (hE : E = 4 ^ A.dim * (η F / u F)) (hok : (1 + u F) ^ (l + l' + 2 ^ A.dim + 1) * (b * b₂ + E) ≤ Ω F) :
    ∃ r r', p = .ok r ∧ q = .ok r' ∧ Approx (l + l' + 2 ^ A.dim + 1) r r' (b * b₂ + E) := by
  obtain ⟨-, -, β, h3, h4⟩ := h
  obtain ⟨-, -, γ, h5, h6⟩ := h'
  obtain ⟨r, e1, k1, k2⟩ := hp
  obtain ⟨r', e2, k3, k4⟩ := hq
  have hη := η_nonneg (F := F)
  have hβ : ∀ k < 2 ^ A.dim, 0 ≤ β k := fun k hk => (abs_nonneg _).trans (h4 k hk).2.1
  have hγ : ∀ k < 2 ^ A.dim, 0 ≤ γ k := fun k hk => (abs_nonneg _).trans (h6 k hk).2.1
  have hb : 0 ≤ ∑ k ∈ range (2 ^ A.dim), β k := sum_nonneg fun k hk => hβ k (mem_range.mp hk)
  have hb₂ : 0 ≤ ∑ k ∈ range (2 ^ A.dim), γ k := sum_nonneg fun k hk => hγ k (mem_range.mp hk)
  set δ : Nat → ℝ := fun k => ∑ i ∈ range (2 ^ A.dim), β (i ^^^ π) * γ (i ^^^ (k ^^^ τ)) + (2 ^ A.dim : ℕ) * (η F / u F) with hδ
  have idx : ∀ i < 2 ^ A.dim, ∀ k < 2 ^ A.dim, i ^^^ (k ^^^ τ) < 2 ^ A.dim := fun i hi k hk =>
    Nat.xor_lt_two_pow hi (Nat.xor_lt_two_pow hk hτ)
  have hδ0 : ∀ k < 2 ^ A.dim, 0 ≤ δ k := fun k hk => add_nonneg (sum_nonneg fun i hi =>
    mul_nonneg (hβ _ (Nat.xor_lt_two_pow (mem_range.mp hi) hπ)) (hγ _ (idx i (mem_range.mp hi) k hk))) (by positivity)
  have hsum : ∑ k ∈ range (2 ^ A.dim), δ k ≤ b * b₂ + E := by
    rw [hδ, sum_add_distrib, sum_const, card_range, nsmul_eq_mul, sum_comm]
    refine add_le_add ?_ (le_of_eq ?_)
    · refine le_trans (le_of_eq ?_) (mul_le_mul h3 h5 hb₂ (hb.trans h3))
      rw [← sum_xor hπ β, sum_mul]
      refine sum_congr rfl fun i hi => ?_
      rw [← mul_sum]
      congr 1
      rw [← sum_xor (Nat.xor_lt_two_pow (mem_range.mp hi) hτ) γ]
      refine sum_congr rfl fun k _ => ?_
      rw [← Nat.xor_assoc, Nat.xor_comm i k, Nat.xor_assoc]
    · rw [hE, show (4 : ℝ) = 2 * 2 by norm_num, mul_pow]; push_cast; ring
  refine ⟨r, r', e1, e2, k1, k3, δ, hsum, fun k hk => ?_⟩
  have hle : δ k ≤ b * b₂ + E :=
    (single_le_sum (f := δ) (fun k hk => hδ0 k (mem_range.mp hk)) (mem_range.mpr hk)).trans hsum
  have key := Acc.near hu (k2 k hk) (w := fun i => a'.val (i ^^^ π)) (w' := fun i => a₂'.val (i ^^^ (k ^^^ τ))) (β := fun i => β (i ^^^ π))
    (γ := fun i => γ (i ^^^ (k ^^^ τ))) (l := l) (l' := l') (N := 2 ^ A.dim) (fun i hi => hc i (mem_range.mp hi) k hk) (by rw [card_range])
    (fun i hi => (h4 _ (Nat.xor_lt_two_pow (mem_range.mp hi) hπ)).2) (fun i hi => (h6 _ (idx i (mem_range.mp hi) k hk)).2)
    (le_trans (mul_le_mul_of_nonneg_left hle (zero_le_one.trans (one_le_pow₀ one_le_one_add_u))) hok)
  rw [k4 k hk]
  exact key

variable [WedgeProduct A S] [FloatWedge A S] [WedgeProduct A S'] [LawfulWedge A S']

/-- Evaluation of an expression. -/
theorem GExpr.approx (hA : A.WF) (hu : 0 < u F) {ρ : Nat → MV A S} {ρ' : Nat → MV A S'} {x : Nat → Nat → F} {l : Nat → ℝ}
    (hρ : ∀ i, SameValues (ρ i) (ρ' i) (x i)) (hl : ∀ i, normOne A.dim (x i) ≤ l i) {E : ℝ} (hE : E = 4 ^ A.dim * (η F / u F))
    (e : GExpr) (he : e.Within (fun l b => (1 + u F) ^ l * b ≤ Ω F) (2 ^ A.dim) E l) :
    ∃ r r', e.eval ρ = .ok r ∧ e.eval ρ' = .ok r' ∧ Approx (e.level (2 ^ A.dim)) r r' (e.size E l) := by
  have hm : (2 ^ A.dim - 1 : Nat) < 2 ^ A.dim := by have := Nat.two_pow_pos A.dim; omega
  have h0 := Nat.two_pow_pos A.dim
  induction e with
  | X i => exact ⟨_, _, rfl, rfl, (hρ i).approx (hl i)⟩
  | add e f ihe ihf =>
    obtain ⟨h1, h2, h3⟩ := he
    obtain ⟨a, a', p1, p2, p3⟩ := ihe h1
    obtain ⟨b, b', q1, q2, q3⟩ := ihf h2
    simp only [eval, p1, p2, q1, q2]
    exact (p3.mono (le_max_left _ _) le_rfl).linear (q3.mono (le_max_right _ _) le_rfl) (.inl rfl)
      (fun hx hy h => by rw [one_mul] at *; exact add_ok hx hy h) (add_denotes p3.1 q3.1)
      ((add_denotes p3.2.1 q3.2.1).congr fun i _ => by rw [one_mul]) h3
  | sub e f ihe ihf =>
    obtain ⟨h1, h2, h3⟩ := he
    obtain ⟨a, a', p1, p2, p3⟩ := ihe h1
    obtain ⟨b, b', q1, q2, q3⟩ := ihf h2
    simp only [eval, p1, p2, q1, q2]
    exact (p3.mono (le_max_left _ _) le_rfl).linear (q3.mono (le_max_right _ _) le_rfl) (.inr rfl)
      (fun {x y} hx hy h => by
        have e : re x + -1 * re y = re x - re y := by ring
        rw [e] at h ⊢
        exact sub_ok hx hy h) (sub_denotes p3.1 q3.1)
      ((sub_denotes p3.2.1 q3.2.1).congr fun i _ => by ring) h3
  | mul e f ihe ihf =>
    obtain ⟨h1, h2, h3⟩ := he
    obtain ⟨a, a', p1, p2, p3⟩ := ihe h1
    obtain ⟨b, b', q1, q2, q3⟩ := ihf h2
    simp only [eval, p1, p2, q1, q2]
    obtain ⟨r, g1, g2, g3⟩ := mul_inv sumInv_acc hA p3.1 q3.1 (fun i hi => (p3.2.2.choose_spec.2 i hi).1)
      (fun i hi => (q3.2.2.choose_spec.2 i hi).1)
    refine p3.product hu q3 (fun i k => bsgn A.sigma A.dim i (i ^^^ k)) h0 h0
      (fun i hi k hk => bsgn_sigma_abs hA hi (Nat.xor_lt_two_pow hi hk)) ⟨r, g1, g2, fun k hk => ?_⟩
      ((mul_denotes hA p3.2.1 q3.2.1).congr fun k _ => ?_) hE h3
    · simp only [Nat.xor_zero]; exact g3 k hk
    · simp only [Nat.xor_zero]; rfl
  | wedge e f ihe ihf =>
    obtain ⟨h1, h2, h3⟩ := he
    obtain ⟨a, a', p1, p2, p3⟩ := ihe h1
    obtain ⟨b, b', q1, q2, q3⟩ := ihf h2
    simp only [eval, p1, p2, q1, q2]
    obtain ⟨r, g1, g2, g3⟩ := FloatWedge.wedge sumInv_acc p3.1 q3.1 (fun i hi => (p3.2.2.choose_spec.2 i hi).1)
      (fun i hi => (q3.2.2.choose_spec.2 i hi).1)
    refine p3.product hu q3 (fun i k => bsgn (fun _ => 0) A.dim i (i ^^^ k)) h0 h0
      (fun i hi k hk => bsgn_wedge_abs) ⟨r, g1, g2, fun k hk => ?_⟩
      ((LawfulWedge.wedge p3.2.1 q3.2.1).congr fun k _ => ?_) hE h3
    · simp only [Nat.xor_zero]; exact g3 k hk
    · simp only [Nat.xor_zero]; rfl
  | meet e f ihe ihf =>
    obtain ⟨h1, h2, h3⟩ := he
    obtain ⟨a, a', p1, p2, p3⟩ := ihe h1
    obtain ⟨b, b', q1, q2, q3⟩ := ihf h2
    simp only [eval, p1, p2, q1, q2]
    obtain ⟨r, g1, g2, g3⟩ := FloatWedge.meet sumInv_acc hA p3.1 q3.1 (fun i hi => (p3.2.2.choose_spec.2 i hi).1)
      (fun i hi => (q3.2.2.choose_spec.2 i hi).1)
    have ex : ∀ i k, i ^^^ (k ^^^ (2 ^ A.dim - 1)) ^^^ (2 ^ A.dim - 1) = i ^^^ (k ^^^ 0) := fun i k => by
      rw [Nat.xor_assoc, Nat.xor_assoc, Nat.xor_self]
    refine p3.product hu q3 (fun i k => meetT A.dim i k) hm h0
      (fun i hi k hk => meetT_abs _ _ _) ⟨r, g1, g2, fun k hk => ?_⟩
      ((LawfulWedge.meet hA p3.2.1 q3.2.1).congr fun k _ => ?_) hE h3
    · have := g3 k hk
      simp only [ex] at this
      exact this
    · rw [meetF_eq]
      simp only [ex]
  | neg e ih =>
    obtain ⟨a, a', p1, p2, p3⟩ := ih he
    simp only [eval, p1, p2]
    refine MV.Approx.signed' (p := a.neg) (q := a'.neg) p3 (fun _ => -1) (fun _ => .inr rfl) ((neg_fl p3.1).congr fun i _ => ?_)
      ((neg_denotes p3.2.1).congr fun i _ => ?_)
    · simp [sgnC]
    · simp
  | rev e ih =>
    obtain ⟨a, a', p1, p2, p3⟩ := ih he
    simp only [eval, p1, p2]
    exact MV.Approx.signed' (p := a.rev) (q := a'.rev) p3 _ (fun i => rsg_unit _ _) (rev_fl p3.1) (rev_denotes p3.2.1)
  | flip e ih =>
    obtain ⟨a, a', p1, p2, p3⟩ := ih he
    simp only [eval, p1, p2]
    exact MV.Approx.signed' (p := a.flip) (q := a'.flip) p3 _ (fun i => sg_cases _) (flip_fl p3.1) (flip_denotes p3.2.1)
  | flipSubspace mask e ih =>
    obtain ⟨a, a', p1, p2, p3⟩ := ih he
    simp only [eval, p1, p2]
    exact MV.Approx.signed' (p := a.flipSubspace mask) (q := a'.flipSubspace mask) p3 _ (fun i => sg_cases _) (flipSubspace_fl p3.1 mask) (flipSubspace_denotes p3.2.1 mask)
  | dual e ih =>
    obtain ⟨a, a', p1, p2, p3⟩ := ih he
    simp only [eval, p1, p2]
    exact MV.Approx.signed (p := a.dual) (q := a'.dual) p3 _ (fun i => dualSign_unit) hm (dual_fl hA p3.1) (dual_denotes hA p3.2.1)
  | undual e ih =>
    obtain ⟨a, a', p1, p2, p3⟩ := ih he
    simp only [eval, p1, p2]
    exact MV.Approx.signed (p := a.undual) (q := a'.undual) p3 _ (fun i => dualSign_unit') hm (undual_fl hA p3.1) (undual_denotes hA p3.2.1)

/-- **C70, expressions.** The rounding errors of an expression.  `L` counts the roundings on a path from the variables to the
result and `B` bounds the result: every coefficient is finite and within `((1+u)^L - 1) B` of the exact value, if this stays
in the range. -/
theorem C70_expression (hA : A.WF) (hu : 0 < u F) {ρ : Nat → MV A S} {ρ' : Nat → MV A S'} {x : Nat → Nat → F} {l : Nat → ℝ}
    (hρ : ∀ i, SameValues (ρ i) (ρ' i) (x i)) (hl : ∀ i, normOne A.dim (x i) ≤ l i) (e : GExpr) {E B : ℝ} {L : Nat}
    (hE : E = 4 ^ A.dim * (η F / u F)) (hB : B = e.size E l) (hL : L = e.level (2 ^ A.dim))
    (he : e.Within (fun l b => (1 + u F) ^ l * b ≤ Ω F) (2 ^ A.dim) E l) :
    NearR (e.eval ρ) (e.eval ρ') (fun _ _ => True) (fun _ _ => ((1 + u F) ^ L - 1) * B) := by
  obtain ⟨r, r', h1, h2, v, v', β, h3, h4⟩ := GExpr.approx hA hu hρ hl hE e he
  refine ⟨r, r', r.val, r'.val, h1, h2, v, v', Denotes.coefs ⟨r, rfl, v, fun _ _ => rfl⟩, Denotes.coefs ⟨r', rfl, v', fun _ _ => rfl⟩,
    fun k hk _ => ⟨(h4 k hk).1, (h4 k hk).2.2.trans ?_⟩⟩
  rw [hL, hB]
  have h0 : ∀ k < 2 ^ A.dim, 0 ≤ β k := fun k hk => (abs_nonneg _).trans (h4 k hk).2.1
  have := one_le_pow₀ (one_le_one_add_u (F := F)) (n := e.level (2 ^ A.dim))
  exact mul_le_mul_of_nonneg_left
    ((single_le_sum (f := β) (fun k hk => h0 k (mem_range.mp hk)) (mem_range.mpr hk)).trans h3) (by linarith)

theorem GExpr.Within.imp {P Q : Nat → ℝ → Prop} {N : Nat} {E : ℝ} {l : Nat → ℝ} {e : GExpr}
    (h : ∀ L ≤ e.level N, ∀ b, P L b → Q L b) (he : e.Within P N E l) : e.Within Q N E l := by
  induction e with
  | X i => trivial
  | add e f ihe ihf | sub e f ihe ihf =>
    exact ⟨ihe (fun L hL => h L (hL.trans ((le_max_left _ _).trans (Nat.le_succ _)))) he.1,
      ihf (fun L hL => h L (hL.trans ((le_max_right _ _).trans (Nat.le_succ _)))) he.2.1, h _ le_rfl _ he.2.2⟩
  | mul e f ihe ihf | wedge e f ihe ihf | meet e f ihe ihf =>
    exact ⟨ihe (fun L hL => h L (hL.trans (by show _ ≤ _ + _ + _ + _; omega))) he.1,
      ihf (fun L hL => h L (hL.trans (by show _ ≤ _ + _ + _ + _; omega))) he.2.1, h _ le_rfl _ he.2.2⟩
  | neg e ih | rev e ih | flip e ih | flipSubspace _ e ih | dual e ih | undual e ih => exact ih h he

/-- Few roundings. -/
theorem pow_sub_one_le {w : ℝ} (hw : 0 ≤ w) {L : Nat} (h : L * w ≤ 1 / 2) : (1 + w) ^ L - 1 ≤ 3 / 2 * (L * w) := by
  have := one_add_pow_le hw L (by linarith)
  have h0 : 0 ≤ (L : ℝ) * w := by positivity
  rw [← mul_pow] at this
  nlinarith only [this, h, h0]

end

section
variable {A : ClAlg} {S' : Type} [CoeffStorage S' ℝ] [LawfulStorage S' ℝ] [WedgeProduct A S'] [LawfulWedge A S']

set_option exponentiation.threshold 2000 in
/-- **C70, expressions in `f64`.** If no size exceeds `2^1022`, the errors are at most `L 2^-52` times the size, for up to `2^52`
roundings. -/
theorem C70_expression_f64 (hA : A.WF) {S : Type} [CoeffStorage S F64] [LawfulStorage S F64] [WedgeProduct A S] [FloatWedge A S]
    {ρ : Nat → MV A S} {ρ' : Nat → MV A S'} {x : Nat → Nat → F64} {l : Nat → ℝ}
    (hρ : ∀ i, SameValues (ρ i) (ρ' i) (x i)) (hl : ∀ i, normOne A.dim (x i) ≤ l i) (e : GExpr) {E B : ℝ} {L : Nat}
    (hE : E = 4 ^ A.dim / 2 ^ 1022) (hB : B = e.size E l) (hL : L = e.level (2 ^ A.dim)) (hL' : L ≤ 2 ^ 52)
    (he : e.Within (fun _ b => b ≤ 2 ^ 1022) (2 ^ A.dim) E l) :
    NearR (e.eval ρ) (e.eval ρ') (fun _ _ => True) (fun _ _ => L / 2 ^ 52 * B) := by
  obtain ⟨cu, cη, cM, cΩ, -⟩ := C69_f64
  have small : ∀ n : Nat, n ≤ 2 ^ 52 → (n : ℝ) * u F64 ≤ 1 / 2 := fun n hn => by
    have : (n : ℝ) ≤ 2 ^ 52 := by exact_mod_cast hn
    rw [cu]; linarith
  have hEE : E = 4 ^ A.dim * (η F64 / u F64) := by
    rw [hE, cη, cu, show (1075 : ℕ) = 1022 + 53 from rfl, pow_add]
    field_simp
  have hN0 : ∀ i, 0 ≤ l i := fun i => (normOne_nonneg _ _).trans (hl i)
  obtain ⟨r, r', h1, h2, v, v', β, h3, h4⟩ := GExpr.approx hA (by rw [cu]; positivity) hρ hl hEE e (he.imp fun n hn b hb => by
    have k1 := pow_sub_one_le (u_nonneg (F := F64)) (small n (by omega))
    have k2 := small n (by omega)
    have k3 := one_le_pow₀ (one_le_one_add_u (F := F64)) (n := n)
    have k4 : (1 + u F64) ^ n ≤ 7 / 4 := by linarith
    rw [cΩ]
    refine (mul_le_mul_of_nonneg_left hb (by linarith)).trans ((mul_le_mul_of_nonneg_right k4 (by positivity)).trans ?_)
    norm_num)
  refine ⟨r, r', r.val, r'.val, h1, h2, v, v', Denotes.coefs ⟨r, rfl, v, fun _ _ => rfl⟩, Denotes.coefs ⟨r', rfl, v', fun _ _ => rfl⟩,
    fun k hk _ => ⟨(h4 k hk).1, (h4 k hk).2.2.trans ?_⟩⟩
  have h0 : ∀ k < 2 ^ A.dim, 0 ≤ β k := fun k hk => (abs_nonneg _).trans (h4 k hk).2.1
  have hβ : β k ≤ B := ((single_le_sum (f := β) (fun k hk => h0 k (mem_range.mp hk)) (mem_range.mpr hk)).trans h3).trans_eq hB.symm
  have k1 := pow_sub_one_le (u_nonneg (F := F64)) (small L hL')
  rw [hL] at k1 ⊢
  have hu0 := u_nonneg (F := F64)
  have e2 : (e.level (2 ^ A.dim) : ℝ) / 2 ^ 52 = 2 * (e.level (2 ^ A.dim) * u F64) := by rw [cu]; ring
  rw [e2]
  have hx : 0 ≤ (e.level (2 ^ A.dim) : ℝ) * u F64 := by positivity
  exact mul_le_mul (by linarith) hβ (h0 k hk) (by linarith)

set_option exponentiation.threshold 2000 in
/-- **C70, expressions in `f32`.** If no size exceeds `2^126`, the errors are at most `L 2^-23` times the size, for up to `2^23`
roundings. -/
theorem C70_expression_f32 (hA : A.WF) {S : Type} [CoeffStorage S F32] [LawfulStorage S F32] [WedgeProduct A S] [FloatWedge A S]
    {ρ : Nat → MV A S} {ρ' : Nat → MV A S'} {x : Nat → Nat → F32} {l : Nat → ℝ}
    (hρ : ∀ i, SameValues (ρ i) (ρ' i) (x i)) (hl : ∀ i, normOne A.dim (x i) ≤ l i) (e : GExpr) {E B : ℝ} {L : Nat}
    (hE : E = 4 ^ A.dim / 2 ^ 126) (hB : B = e.size E l) (hL : L = e.level (2 ^ A.dim)) (hL' : L ≤ 2 ^ 23)
    (he : e.Within (fun _ b => b ≤ 2 ^ 126) (2 ^ A.dim) E l) :
    NearR (e.eval ρ) (e.eval ρ') (fun _ _ => True) (fun _ _ => L / 2 ^ 23 * B) := by
  obtain ⟨cu, cη, cM, cΩ, -⟩ := C69_f32
  have small : ∀ n : Nat, n ≤ 2 ^ 23 → (n : ℝ) * u F32 ≤ 1 / 2 := fun n hn => by
    have : (n : ℝ) ≤ 2 ^ 23 := by exact_mod_cast hn
    rw [cu]; linarith
  have hEE : E = 4 ^ A.dim * (η F32 / u F32) := by
    rw [hE, cη, cu, show (150 : ℕ) = 126 + 24 from rfl, pow_add]
    field_simp
  have hN0 : ∀ i, 0 ≤ l i := fun i => (normOne_nonneg _ _).trans (hl i)
  obtain ⟨r, r', h1, h2, v, v', β, h3, h4⟩ := GExpr.approx hA (by rw [cu]; positivity) hρ hl hEE e (he.imp fun n hn b hb => by
    have k1 := pow_sub_one_le (u_nonneg (F := F32)) (small n (by omega))
    have k2 := small n (by omega)
    have k3 := one_le_pow₀ (one_le_one_add_u (F := F32)) (n := n)
    have k4 : (1 + u F32) ^ n ≤ 7 / 4 := by linarith
    rw [cΩ]
    refine (mul_le_mul_of_nonneg_left hb (by linarith)).trans ((mul_le_mul_of_nonneg_right k4 (by positivity)).trans ?_)
    norm_num)
  refine ⟨r, r', r.val, r'.val, h1, h2, v, v', Denotes.coefs ⟨r, rfl, v, fun _ _ => rfl⟩, Denotes.coefs ⟨r', rfl, v', fun _ _ => rfl⟩,
    fun k hk _ => ⟨(h4 k hk).1, (h4 k hk).2.2.trans ?_⟩⟩
  have h0 : ∀ k < 2 ^ A.dim, 0 ≤ β k := fun k hk => (abs_nonneg _).trans (h4 k hk).2.1
  have hβ : β k ≤ B := ((single_le_sum (f := β) (fun k hk => h0 k (mem_range.mp hk)) (mem_range.mpr hk)).trans h3).trans_eq hB.symm
  have k1 := pow_sub_one_le (u_nonneg (F := F32)) (small L hL')
  rw [hL] at k1 ⊢
  have hu0 := u_nonneg (F := F32)
  have e2 : (e.level (2 ^ A.dim) : ℝ) / 2 ^ 23 = 2 * (e.level (2 ^ A.dim) * u F32) := by rw [cu]; ring
  rw [e2]
  have hx : 0 ≤ (e.level (2 ^ A.dim) : ℝ) * u F32 := by positivity
  exact mul_le_mul (by linarith) hβ (h0 k hk) (by linarith)

end

/-- The square-and-multiply scheme of `pow` as an expression. -/
def GExpr.powE (e : GExpr) (n : Nat) : GExpr :=
  if n ≤ 1 then e
  else if n &&& 1 = 0 then .mul (powE e (n >>> 1)) (powE e (n >>> 1))
  else .mul (.mul (powE e (n >>> 1)) (powE e (n >>> 1))) e
  termination_by n
  decreasing_by all_goals rw [Nat.shiftRight_one]; omega

section
variable {T : Type} [Zero T] [One T] [Add T] [Sub T] [Neg T] [Mul T] [DecidableEq T] {A : ClAlg} {S : Type}
  [CoeffStorage S T] [WedgeProduct A S]

theorem GExpr.powE_eval (ρ : Nat → MV A S) (i : Nat) {n : Nat} (hn : 0 < n) : ((X i).powE n).eval ρ = (ρ i).pow n := by
  induction n using Nat.strong_induction_on with
  | _ n ih =>
    unfold powE MV.pow
    rw [if_neg (by omega : ¬ n = 0)]
    by_cases h1 : n = 1
    · rw [if_pos (by omega : n ≤ 1), if_pos h1]; rfl
    · have h2 := ih (n >>> 1) (by rw [Nat.shiftRight_one]; omega) (by rw [Nat.shiftRight_one]; omega)
      rw [if_neg (by omega : ¬ n ≤ 1), if_neg h1]
      by_cases h3 : n &&& 1 = 0
      · simp only [if_pos h3, eval, h2]
        cases (ρ i).pow (n >>> 1) <;> rfl
      · simp only [if_neg h3, eval, h2]
        cases (ρ i).pow (n >>> 1) <;> rfl

end

theorem and_one_mod (n : Nat) : n &&& 1 = n % 2 := Nat.and_one_is_mod n

theorem GExpr.powE_level (N i : Nat) {n : Nat} (hn : 0 < n) : ((X i).powE n).level N = (n - 1) * (N + 1) := by
  induction n using Nat.strong_induction_on with
  | _ n ih =>
    unfold powE
    by_cases h1 : n ≤ 1
    · rw [if_pos h1, show n = 1 by omega]; simp [level]
    · have h2 := ih (n >>> 1) (by rw [Nat.shiftRight_one]; omega) (by rw [Nat.shiftRight_one]; omega)
      rw [if_neg h1]
      rw [Nat.shiftRight_one] at *
      rw [and_one_mod]
      obtain ⟨m, hm⟩ : ∃ m, n / 2 = m + 1 := ⟨n / 2 - 1, by omega⟩
      split
      · simp only [level, h2]
        rw [show n - 1 = 2 * (n / 2 - 1) + 1 by omega, hm]
        simp only [Nat.add_sub_cancel]
        ring
      · simp only [level, h2]
        rw [show n - 1 = 2 * (n / 2 - 1) + 2 by omega, hm]
        simp only [Nat.add_sub_cancel]
        ring

/-- Sizes of powers; `size + E` is at most multiplicative. -/
theorem GExpr.powE_size {E : ℝ} (hE : 0 ≤ E) {l : Nat → ℝ} (i : Nat) (hl : 1 ≤ l i) {n : Nat} (hn : 0 < n) :
    l i ^ n ≤ ((X i).powE n).size E l ∧ ((X i).powE n).size E l + E ≤ (l i + E) ^ n := by
  induction n using Nat.strong_induction_on with
  | _ n ih =>
    unfold powE
    by_cases h1 : n ≤ 1
    · rw [if_pos h1, show n = 1 by omega]; simp [size]
    · obtain ⟨h2, h3⟩ := ih (n >>> 1) (by rw [Nat.shiftRight_one]; omega) (by rw [Nat.shiftRight_one]; omega)
      rw [if_neg h1]
      have h4 : (1 : ℝ) ≤ l i ^ (n >>> 1) := one_le_pow₀ hl
      have h5 : (1 : ℝ) ≤ (l i + E) ^ (n >>> 1) := one_le_pow₀ (by linarith)
      rw [Nat.shiftRight_one] at *
      rw [and_one_mod]
      obtain ⟨t, ht⟩ : ∃ t, t = ((X i).powE (n / 2)).size E l := ⟨_, rfl⟩
      rw [← ht] at h2 h3
      have q1 : l i ^ (n / 2) * l i ^ (n / 2) ≤ t * t := mul_le_mul h2 h2 (by linarith) (by linarith)
      have q2 : (t + E) * (t + E) ≤ (l i + E) ^ (n / 2) * (l i + E) ^ (n / 2) := mul_le_mul h3 h3 (by linarith) (by linarith)
      have q3 : E ≤ t * E := le_mul_of_one_le_left hE (h4.trans h2)
      have q4 : 0 ≤ E * E := mul_nonneg hE hE
      by_cases hp : n % 2 = 0
      · have e1 : ∀ z : ℝ, z ^ n = z ^ (n / 2) * z ^ (n / 2) := fun z => by rw [← pow_add]; congr 1; omega
        rw [if_pos hp, e1, e1]
        simp only [size, ← ht]
        constructor <;> nlinarith only [q1, q2, q3, q4, hE]
      · have e1 : ∀ z : ℝ, z ^ n = z ^ (n / 2) * z ^ (n / 2) * z := fun z => by rw [← pow_add, ← pow_succ]; congr 1; omega
        rw [if_neg hp, e1, e1]
        simp only [size, ← ht]
        have r1 : t * t + E + E ≤ (l i + E) ^ (n / 2) * (l i + E) ^ (n / 2) := by nlinarith only [q2, q3, q4]
        have r2 := mul_le_mul_of_nonneg_right r1 (show 0 ≤ l i + E by linarith)
        have r3 := mul_le_mul_of_nonneg_right q1 (show 0 ≤ l i by linarith)
        have r4 : 1 ≤ t * t := one_le_mul_of_one_le_of_one_le (h4.trans h2) (h4.trans h2)
        have r5 : E ≤ t * t * E := le_mul_of_one_le_left hE r4
        have r6 : E ≤ E * l i := le_mul_of_one_le_right hE hl
        constructor <;> nlinarith only [r2, r3, r5, r6, q4, hE]

theorem GExpr.powE_within {P : ℝ → Prop} (hP : ∀ b b', b ≤ b' → P b' → P b) {N : Nat} {E : ℝ} (hE : 0 ≤ E) {l : Nat → ℝ} (i : Nat)
    (hl : 1 ≤ l i) {n : Nat} (hn : 0 < n) (h : P ((l i + E) ^ n)) : ((X i).powE n).Within (fun _ b => P b) N E l := by
  induction n using Nat.strong_induction_on with
  | _ n ih =>
    have hs := powE_size hE (l := l) i hl hn
    have hs' := powE_size hE (l := l) i hl (n := n >>> 1)
    unfold powE at hs ⊢
    by_cases h1 : n ≤ 1
    · rw [if_pos h1]; trivial
    · have hlt : n >>> 1 < n := by rw [Nat.shiftRight_one]; omega
      have h0 : 0 < n >>> 1 := by rw [Nat.shiftRight_one]; omega
      have h2 := ih (n >>> 1) hlt h0 (hP _ _ (pow_le_pow_right₀ (by linarith) hlt.le) h)
      specialize hs' h0
      rw [if_neg h1] at hs ⊢
      have h4 : (1 : ℝ) ≤ l i ^ (n >>> 1) := one_le_pow₀ hl
      by_cases hp : n &&& 1 = 0
      · rw [if_pos hp] at hs ⊢
        simp only [size] at hs
        exact ⟨h2, h2, hP _ _ (by linarith) h⟩
      · rw [if_neg hp] at hs ⊢
        simp only [size] at hs
        refine ⟨⟨h2, h2, hP _ _ ?_ h⟩, trivial, hP _ _ (by simp only [size]; linarith) h⟩
        have : (0 : ℝ) ≤ ((X i).powE (n >>> 1)).size E l * ((X i).powE (n >>> 1)).size E l + E := by
          have := mul_self_nonneg (((X i).powE (n >>> 1)).size E l); linarith
        have := le_mul_of_one_le_right this hl
        linarith

theorem GExpr.powE_fits {M : ℝ} {l : Nat → ℝ} (i : Nat) (hl : 1 ≤ l i) {n : Nat} (hn : 0 < n) (h : l i ^ n ≤ M) :
    ((X i).powE n).Fits M l ∧ ((X i).powE n).bound l = l i ^ n := by
  induction n using Nat.strong_induction_on with
  | _ n ih =>
    unfold powE
    by_cases h1 : n ≤ 1
    · rw [if_pos h1, show n = 1 by omega]; simp [Fits, bound]
    · have hlt : n >>> 1 < n := by rw [Nat.shiftRight_one]; omega
      have h0 : 0 < n >>> 1 := by rw [Nat.shiftRight_one]; omega
      obtain ⟨h2, h3⟩ := ih (n >>> 1) hlt h0 ((pow_le_pow_right₀ hl hlt.le).trans h)
      rw [if_neg h1]
      rw [Nat.shiftRight_one] at *
      rw [and_one_mod]
      by_cases hp : n % 2 = 0
      · have e1 : l i ^ n = l i ^ (n / 2) * l i ^ (n / 2) := by rw [← pow_add]; congr 1; omega
        rw [if_pos hp]
        simp only [Fits, bound, h3]
        exact ⟨⟨h2, h2, e1 ▸ h⟩, e1.symm⟩
      · have e1 : l i ^ n = l i ^ (n / 2) * l i ^ (n / 2) * l i := by rw [← pow_add, ← pow_succ]; congr 1; omega
        rw [if_neg hp]
        simp only [Fits, bound, h3]
        refine ⟨⟨⟨h2, h2, le_trans ?_ h⟩, trivial, e1 ▸ h⟩, e1.symm⟩
        rw [e1]
        exact le_mul_of_one_le_right (by positivity) hl

section
variable {F : Type} [Zero F] [One F] [Add F] [Sub F] [Neg F] [Mul F] [Div F] [FloatModel F] [DecidableEq F]
variable {A : ClAlg} {S : Type} [CoeffStorage S F] [LawfulStorage S F] {S' : Type} [CoeffStorage S' ℝ] [LawfulStorage S' ℝ]
  [WedgeProduct A S] [FloatWedge A S] [WedgeProduct A S'] [LawfulWedge A S'] {a : MV A S} {a' : MV A S'} {x : Nat → F}

/-- **C71, powers.** Powers of an integer multivector are exact while the power of the sum of the absolute values is at
most `M` (`2^53` for `f64`). -/
theorem C71_pow (hA : A.WF) (ha : SameValues a a' x) (hz : ∀ j < 2 ^ A.dim, ∃ m : ℤ, re (x j) = m) {N : ℝ} (h1 : 1 ≤ N)
    (hN : normOne A.dim x ≤ N) {n : Nat} (hn : 0 < n) (hM : N ^ n ≤ FloatModel.M F) : ExactZ (a.pow n) (a'.pow n) (N ^ n) := by
  obtain ⟨h2, h3⟩ := GExpr.powE_fits (l := fun _ => N) 0 h1 hn hM
  have h := C71_expression hA (ρ := fun _ => a) (ρ' := fun _ => a') (x := fun _ => x) (fun _ => ha) (fun _ => hz)
    (l := fun _ => N) (fun _ => hN) ((GExpr.X 0).powE n) h2
  rw [GExpr.powE_eval _ _ hn, GExpr.powE_eval _ _ hn, h3] at h
  exact h

/-- **C70, powers.** The rounding errors of `pow`. -/
theorem C70_pow (hA : A.WF) (hu : 0 < u F) (ha : SameValues a a' x) {N E : ℝ} (h1 : 1 ≤ N) (hN : normOne A.dim x ≤ N)
    {n L : Nat} (hn : 0 < n) (hE : E = 4 ^ A.dim * (η F / u F)) (hL : L = (n - 1) * (2 ^ A.dim + 1))
    (hΩ : (1 + u F) ^ L * (N + E) ^ n ≤ Ω F) :
    NearR (a.pow n) (a'.pow n) (fun _ _ => True) (fun _ _ => ((1 + u F) ^ L - 1) * (N + E) ^ n) := by
  have hη := η_nonneg (F := F)
  have hE0 : 0 ≤ E := by rw [hE]; positivity
  have lev := GExpr.powE_level (2 ^ A.dim) 0 hn
  have hw := GExpr.powE_within (P := fun b => (1 + u F) ^ L * b ≤ Ω F) (N := 2 ^ A.dim)
    (fun b b' h h' => (mul_le_mul_of_nonneg_left h (zero_le_one.trans (one_le_pow₀ one_le_one_add_u))).trans h') hE0
    (l := fun _ => N) 0 h1 hn hΩ
  have sz := GExpr.powE_size hE0 (l := fun _ => N) 0 h1 hn
  have h := C70_expression hA hu (ρ := fun _ => a) (ρ' := fun _ => a') (x := fun _ => x) (fun _ => ha)
    (l := fun _ => N) (fun _ => hN) ((GExpr.X 0).powE n) hE rfl (hL.trans lev.symm) (hw.imp fun l hl b hb => by
      by_cases h0 : 0 ≤ b
      · exact (mul_le_mul_of_nonneg_right (pow_le_pow_right₀ one_le_one_add_u (by omega)) h0).trans hb
      · have : (1 + u F) ^ l * b ≤ 0 := mul_nonpos_of_nonneg_of_nonpos (zero_le_one.trans (one_le_pow₀ one_le_one_add_u)) (by linarith)
        have : 0 ≤ (1 + u F) ^ L * (N + E) ^ n := mul_nonneg (zero_le_one.trans (one_le_pow₀ one_le_one_add_u)) (by positivity)
        linarith)
  rw [GExpr.powE_eval _ _ hn, GExpr.powE_eval _ _ hn] at h
  obtain ⟨r, r', z, w, p1, p2, p3, p4, p5, p6, p7⟩ := h
  refine ⟨r, r', z, w, p1, p2, p3, p4, p5, p6, fun k hk _ => ⟨(p7 k hk trivial).1, (p7 k hk trivial).2.trans ?_⟩⟩
  have := one_le_pow₀ (one_le_one_add_u (F := F)) (n := L)
  exact mul_le_mul_of_nonneg_left (by linarith [sz.2]) (by linarith)

end

section
variable {A : ClAlg} {S' : Type} [CoeffStorage S' ℝ] [LawfulStorage S' ℝ] [WedgeProduct A S'] [LawfulWedge A S'] {a' : MV A S'}

set_option exponentiation.threshold 2000 in
/-- **C70, powers in `f64`.** -/
theorem C70_pow_f64 (hA : A.WF) (hd : A.dim < 63) {S : Type} [CoeffStorage S F64] [LawfulStorage S F64] [WedgeProduct A S] [FloatWedge A S]
    {a : MV A S} {x : Nat → F64} (ha : SameValues a a' x) {N : ℝ} (h1 : 1 ≤ N) (hN : normOne A.dim x ≤ N) {n L : Nat} (hn : 0 < n)
    (hL : L = (n - 1) * (2 ^ A.dim + 1)) (hL' : L ≤ 2 ^ 52) (hΩ : N ^ n ≤ 2 ^ 1000) :
    NearR (a.pow n) (a'.pow n) (fun _ _ => True) (fun _ _ => L / 2 ^ 52 * N ^ n) := by
  obtain ⟨cu, cη, cM, cΩ, -⟩ := C69_f64
  have hLr : (L : ℝ) ≤ 2 ^ 52 := by exact_mod_cast hL'
  have small : (L : ℝ) * u F64 ≤ 1 / 2 := by rw [cu]; linarith
  have hnr : (n : ℝ) ≤ 2 ^ 53 := by
    have : n - 1 ≤ L := by rw [hL]; exact Nat.le_mul_of_pos_right _ (Nat.succ_pos _)
    exact_mod_cast (show n ≤ 2 ^ 53 by omega)
  obtain ⟨E, hE⟩ : ∃ E : ℝ, E = 4 ^ A.dim * (η F64 / u F64) := ⟨_, rfl⟩
  have hE0 : 0 ≤ E := by rw [hE]; have := η_nonneg (F := F64); have := u_nonneg (F := F64); positivity
  have hE1 : E ≤ 1 / 2 ^ 898 := by
    have e : η F64 / u F64 = 1 / 2 ^ 898 * (1 / 4 ^ 62) := by
      rw [cη, cu, show (1075 : ℕ) = 898 + 124 + 53 from rfl, pow_add, pow_add, show (4 : ℝ) ^ 62 = 2 ^ 124 by norm_num]
      field_simp
    rw [hE, e]
    have h4 : (4 : ℝ) ^ A.dim ≤ 4 ^ 62 := pow_le_pow_right₀ (by norm_num) (by omega)
    have : (4 : ℝ) ^ A.dim * (1 / 4 ^ 62) ≤ 1 := by rw [mul_one_div, div_le_one (by positivity)]; exact h4
    have := mul_le_mul_of_nonneg_left this (show (0 : ℝ) ≤ 1 / 2 ^ 898 by positivity)
    linarith
  have hnE : (n : ℝ) * E ≤ 1 / 6 := by
    refine (mul_le_mul hnr hE1 hE0 (by positivity)).trans ?_
    norm_num
  have hp := one_add_pow_le hE0 n (by linarith)
  have hnE0 : 0 ≤ (n : ℝ) * E := by positivity
  rw [← mul_pow] at hp
  have hp' : (1 + E) ^ n ≤ 4 / 3 := by nlinarith only [hp, hnE, hnE0]
  have hN0 : 0 ≤ N ^ n := by positivity
  have hNE : (N + E) ^ n ≤ 4 / 3 * N ^ n := by
    have h2 : N + E ≤ N * (1 + E) := by nlinarith only [h1, hE0]
    refine (pow_le_pow_left₀ (by linarith) h2 n).trans ?_
    rw [mul_pow]
    nlinarith only [hp', hN0]
  have k1 := pow_sub_one_le (u_nonneg (F := F64)) small
  have k2 := one_le_pow₀ (one_le_one_add_u (F := F64)) (n := L)
  have hNE0 : 0 ≤ (N + E) ^ n := by positivity
  have key := C70_pow hA (by rw [cu]; positivity) ha h1 hN hn hE hL (by
    refine (mul_le_mul (show (1 + u F64) ^ L ≤ 7 / 4 by linarith) (hNE.trans (mul_le_mul_of_nonneg_left hΩ (by norm_num))) hNE0
      (by norm_num)).trans ?_
    rw [cΩ]
    norm_num)
  obtain ⟨r, r', z, w, p1, p2, p3, p4, p5, p6, p7⟩ := key
  refine ⟨r, r', z, w, p1, p2, p3, p4, p5, p6, fun k hk _ => ⟨(p7 k hk trivial).1, (p7 k hk trivial).2.trans ?_⟩⟩
  have e2 : (L : ℝ) / 2 ^ 52 = 2 * (L * u F64) := by rw [cu]; ring
  rw [e2]
  have hx : 0 ≤ (L : ℝ) * u F64 := mul_nonneg (Nat.cast_nonneg _) u_nonneg
  refine (mul_le_mul k1 hNE hNE0 (by linarith)).trans_eq ?_
  ring

end

namespace Ex

theorem xF_norm64 : normOne E.dim xF ≤ 64 := by
  have h : ∑ i ∈ range 8, |(xF i).toRat| ≤ 64 := by decide +kernel
  have h' : ((∑ i ∈ range 8, |(xF i).toRat| : ℚ) : ℝ) ≤ 64 := by exact_mod_cast h
  rw [show ((∑ i ∈ range 8, |(xF i).toRat| : ℚ) : ℝ) = Rat.castHom ℝ _ from rfl, map_sum] at h'
  show ∑ i ∈ range 8, |((xF i).toRat : ℝ)| ≤ 64
  simpa using h'

theorem xF32_norm64 : normOne E.dim xF32 ≤ 64 := by
  have h : ∑ i ∈ range 8, |(xF32 i).toRat| ≤ 64 := by decide +kernel
  have h' : ((∑ i ∈ range 8, |(xF32 i).toRat| : ℚ) : ℝ) ≤ 64 := by exact_mod_cast h
  rw [show ((∑ i ∈ range 8, |(xF32 i).toRat| : ℚ) : ℝ) = Rat.castHom ℝ _ from rfl, map_sum] at h'
  show ∑ i ∈ range 8, |((xF32 i).toRat : ℝ)| ≤ 64
  simpa using h'

/-- `x0 * x1 * ~x0 - (x0 ∧ dual x1) ∨ x2` -/
def exprS : GExpr := .sub (.mul (.mul (.X 0) (.X 1)) (.rev (.X 0))) (.meet (.wedge (.X 0) (.dual (.X 1))) (.X 2))

set_option exponentiation.threshold 2000 in
theorem exprS_within : exprS.Within (fun _ b => b ≤ 2 ^ 1022) (2 ^ E.dim) (4 ^ E.dim / 2 ^ 1022) (fun _ => 64) := by
  have hd : E.dim = 3 := rfl
  have h : (4 : ℝ) ^ 3 / 2 ^ 1022 ≤ 1 := by
    rw [div_le_one (by positivity)]
    exact le_trans (by norm_num : (4 : ℝ) ^ 3 ≤ 2 ^ 6) (pow_le_pow_right₀ (by norm_num) (by norm_num))
  have h0 : (0 : ℝ) ≤ 4 ^ 3 / 2 ^ 1022 := by positivity
  have h1 : (2 : ℝ) ^ 100 ≤ 2 ^ 1022 := pow_le_pow_right₀ (by norm_num) (by norm_num)
  simp only [exprS, GExpr.Within, GExpr.size, hd]
  generalize (4 : ℝ) ^ 3 / 2 ^ 1022 = t at *
  generalize (2 : ℝ) ^ 1022 = w at *
  refine ⟨⟨⟨trivial, trivial, ?_⟩, trivial, ?_⟩, ⟨⟨trivial, trivial, ?_⟩, trivial, ?_⟩, ?_⟩ <;> norm_num at h1 ⊢ <;> linarith

theorem u64_pos : 0 < FloatModel.u F64 := by rw [C69_f64.1]; positivity

example := C70_expression_f64 E_wf (fun _ => sameF) (fun _ => xF_norm64) exprS rfl rfl rfl (by decide) exprS_within

set_option exponentiation.threshold 2000 in
theorem pow19 {n : Nat} (hn : n ≤ 19) {b : ℝ} (hb : b ≤ 2 ^ 1022) : (1 + FloatModel.u F64) ^ n * b ≤ FloatModel.Ω F64 := by
  obtain ⟨cu, -, -, cΩ, -⟩ := C69_f64
  have hn' : (n : ℝ) ≤ 19 := by exact_mod_cast hn
  have k2 : (n : ℝ) * FloatModel.u F64 ≤ 1 / 2 := by rw [cu]; linarith
  have k1 := pow_sub_one_le (FloatModel.u_nonneg (F := F64)) k2
  have k3 := one_le_pow₀ (one_le_one_add_u (F := F64)) (n := n)
  have k4 : (1 + FloatModel.u F64) ^ n ≤ 7 / 4 := by linarith
  rw [cΩ]
  refine (mul_le_mul_of_nonneg_left hb (by linarith)).trans ((mul_le_mul_of_nonneg_right k4 (by positivity)).trans ?_)
  norm_num

set_option exponentiation.threshold 2000 in
theorem E_uflow : (4 : ℝ) ^ E.dim / 2 ^ 1022 = 4 ^ E.dim * (FloatModel.η F64 / FloatModel.u F64) := by
  obtain ⟨cu, cη, -, -, -⟩ := C69_f64
  rw [cη, cu, show (1075 : ℕ) = 1022 + 53 from rfl, pow_add]
  field_simp

example := C70_expression E_wf u64_pos (fun _ => sameF) (fun _ => xF_norm64) exprS E_uflow rfl rfl
  (exprS_within.imp fun _ hn _ hb => pow19 hn hb)

/-- The number of roundings in `exprS`. -/
example : exprS.level (2 ^ E.dim) = 19 := rfl

example := C70_expression_f32 E_wf (fun _ => sameF32) (fun _ => xF32_norm64) (.mul (.X 0) (.rev (.X 0))) rfl rfl rfl (by decide) (by
  have hd : E.dim = 3 := rfl
  simp only [GExpr.Within, GExpr.size, hd]
  norm_num)

example := C71_pow E_wf sameG xG_int (by norm_num) xG_norm (n := 10) (by norm_num) (by
  have hM : (FloatModel.M F64) = 2 ^ 53 := rfl
  rw [hM]; norm_num)

set_option exponentiation.threshold 2000 in
example := C70_pow_f64 E_wf (by decide) sameF (N := 64) (by norm_num) xF_norm64 (n := 100) (by norm_num) rfl (by decide) (by
  rw [show (64 : ℝ) = 2 ^ 6 by norm_num, ← pow_mul]
  exact pow_le_pow_right₀ (by norm_num) (by norm_num))

set_option exponentiation.threshold 2000 in
example := C70_pow E_wf u64_pos sameF (N := 64) (by norm_num) xF_norm64 (n := 3) (by norm_num) E_uflow rfl (pow19 (by decide) (by
  have h : (4 : ℝ) ^ 3 / 2 ^ 1022 ≤ 1 := by
    rw [div_le_one (by positivity)]
    exact le_trans (by norm_num : (4 : ℝ) ^ 3 ≤ 2 ^ 6) (pow_le_pow_right₀ (by norm_num) (by norm_num))
  have h0 : (0 : ℝ) ≤ 4 ^ 3 / 2 ^ 1022 := by positivity
  have h1 : (2 : ℝ) ^ 100 ≤ 2 ^ 1022 := pow_le_pow_right₀ (by norm_num) (by norm_num)
  show (64 + (4 : ℝ) ^ 3 / 2 ^ 1022) ^ 3 ≤ 2 ^ 1022
  refine (pow_le_pow_left₀ (by linarith) (show _ ≤ (65 : ℝ) by linarith) 3).trans (le_trans ?_ h1)
  norm_num))

end Ex

end TClifford
