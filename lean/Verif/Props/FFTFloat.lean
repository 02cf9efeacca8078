import Verif.Proofs.FFTFloat
import Verif.Props.FloatIEEE
/-
Floating point coefficients through the transforms: C78 (integers are exact) and C79 (rounding errors).
-/

set_option linter.unusedSectionVars false

namespace TClifford

open MV Finset FloatModel

/-- Expressions that can be evaluated in the transformed domain. -/
inductive FExpr
  | X (i : Nat)
  | add (e f : FExpr)
  | sub (e f : FExpr)
  | mul (e f : FExpr)
  | neg (e : FExpr)
  | rev (e : FExpr)
  | flip (e : FExpr)

namespace FExpr

/-- The same expression for multivectors. -/
def toG : FExpr → GExpr
  | X i => .X i
  | add e f => .add e.toG f.toG
  | sub e f => .sub e.toG f.toG
  | mul e f => .mul e.toG f.toG
  | neg e => .neg e.toG
  | rev e => .rev e.toG
  | flip e => .flip e.toG

section
variable {A : ClAlg} {K : Type} [Zero K] [One K] [Add K] [Sub K] [Neg K] [Mul K] [Div K] [DecidableEq K] [HasI K]

/-- Evaluation with the operations of `FFTRepr`. -/
def evalFFT (ρ : Nat → Res (FFTRepr A K)) : FExpr → Res (FFTRepr A K)
  | X i => ρ i
  | add e f => do (← e.evalFFT ρ).add (← f.evalFFT ρ)
  | sub e f => do (← e.evalFFT ρ).sub (← f.evalFFT ρ)
  | mul e f => do (← e.evalFFT ρ).mul (← f.evalFFT ρ)
  | neg e => do return (← e.evalFFT ρ).neg
  | rev e => do (← e.evalFFT ρ).rev
  | flip e => do return (← e.evalFFT ρ).flip

/-- Transform the variables, evaluate, and transform back. -/
def viaFFT (K : Type) [Zero K] [One K] [Add K] [Sub K] [Neg K] [Mul K] [Div K] [DecidableEq K] [HasI K]
    {T : Type} [Zero T] [One T] [Add T] [Sub T] [Neg T] [Mul T] [DecidableEq T] [IntoComplex T K] [FromComplex T K]
    (ρ : Nat → MV A (ArrayStorage T)) (e : FExpr) : Res (MV A (ArrayStorage T)) := do
  let r : FFTRepr A K ← e.evalFFT (fun i => (ρ i).fft)
  r.ifft

end

/-- Number of successive roundings, for matrices of side `2^h` and `2^s` layers. -/
def level (h s : Nat) : FExpr → Nat
  | X _ => h
  | add e f | sub e f => max (e.level h s) (f.level h s) + 1
  | mul e f => e.level h s + f.level h s + 2 + 2 ^ h + s
  | neg e | rev e | flip e => e.level h s

/-- Bound for the sum of the absolute values of the coefficients from bounds `l i` for the variables; `E` is added for
every product. -/
def size (E : ℝ) (l : Nat → ℝ) : FExpr → ℝ
  | X i => l i
  | add e f | sub e f => e.size E l + f.size E l
  | mul e f => e.size E l * f.size E l + E
  | neg e | rev e | flip e => e.size E l

/-- All subexpressions satisfy `P` (number of roundings) (size). -/
def Fits (P : Nat → ℝ → Prop) (h s : Nat) (E : ℝ) (l : Nat → ℝ) : FExpr → Prop
  | X i => P h (l i)
  | add e f | sub e f => e.Fits P h s E l ∧ f.Fits P h s E l ∧ P (max (e.level h s) (f.level h s) + 1) (e.size E l + f.size E l)
  | mul e f => e.Fits P h s E l ∧ f.Fits P h s E l ∧ P (e.level h s + f.level h s + 2 + 2 ^ h + s) (e.size E l * f.size E l + E)
  | neg e | rev e | flip e => e.Fits P h s E l

/-- The exact value. -/
def exact {R : Type} [CommRing R] (A : ClAlg) (x : Nat → Nat → R) : FExpr → Nat → R
  | X i => x i
  | add e f => fun k => e.exact A x k + f.exact A x k
  | sub e f => fun k => e.exact A x k - f.exact A x k
  | mul e f => geo A.sigma A.dim (e.exact A x) (f.exact A x)
  | neg e => fun k => -e.exact A x k
  | rev e => fun k => rsg A.dim k • e.exact A x k
  | flip e => flp A.dim (e.exact A x)

section
variable {A : ClAlg} {R : Type} [CommRing R] [DecidableEq R] {S' : Type} [CoeffStorage S' R] [LawfulStorage S' R] [WedgeProduct A S']

theorem toG_denotes (hA : A.WF) {ρ : Nat → MV A S'} {x : Nat → Nat → R} (hv : ∀ i, (ρ i).Valid)
    (hx : ∀ i, ∀ k < 2 ^ A.dim, (ρ i).val k = x i k) (e : FExpr) : Denotes (e.toG.eval ρ) (e.exact A x) := by
  induction e with
  | X i => exact ⟨_, rfl, hv i, hx i⟩
  | add e f ihe ihf =>
    exact ihe.bind fun u hu hu' => ihf.bind fun v hv hv' => (add_denotes hu hv).congr fun i hi => by
      rw [hu' i hi, hv' i hi]; rfl
  | sub e f ihe ihf =>
    exact ihe.bind fun u hu hu' => ihf.bind fun v hv hv' => (sub_denotes hu hv).congr fun i hi => by
      rw [hu' i hi, hv' i hi]; rfl
  | mul e f ihe ihf =>
    exact ihe.bind fun u hu hu' => ihf.bind fun v hv hv' => (mul_denotes hA hu hv).congr fun i hi =>
      geo_congr (fun _ _ => rfl) hu' hv' hi
  | neg e ihe =>
    exact ihe.bind fun u hu hu' => (neg_denotes hu).congr fun i hi => by rw [hu' i hi]; rfl
  | rev e ihe =>
    exact ihe.bind fun u hu hu' => (rev_denotes hu).congr fun i hi => by rw [hu' i hi]; rfl
  | flip e ihe =>
    exact ihe.bind fun u hu hu' => (flip_denotes hu).congr fun i hi => by unfold flp; rw [hu' i hi]; rfl

end

theorem rsg_cases (n k : Nat) : rsg n k = 1 ∨ rsg n k = -1 := by
  rw [rsg_eq]
  split
  · exact .inl rfl
  · exact .inr rfl

/-- Sum of the absolute values of the coefficients of a product. -/
theorem geo_norm (A : ClAlg) (hA : A.WF) (f g : Nat → ℝ) : ∑ k ∈ range (2 ^ A.dim), |geo A.sigma A.dim f g k| ≤
    (∑ k ∈ range (2 ^ A.dim), |f k|) * ∑ k ∈ range (2 ^ A.dim), |g k| := by
  have h1 : ∀ k < 2 ^ A.dim, |geo A.sigma A.dim f g k| ≤ ∑ i ∈ range (2 ^ A.dim), |f i| * |g (i ^^^ k)| := by
    intro k hk
    refine (abs_sum_le_sum_abs _ _).trans (sum_le_sum fun i hi => ?_)
    rw [mem_range] at hi
    rw [zsmul_eq_mul, abs_mul, abs_mul]
    have : |((bsgn A.sigma A.dim i (i ^^^ k) : ℤ) : ℝ)| ≤ 1 := by
      exact_mod_cast bsgn_sigma_abs hA hi (Nat.xor_lt_two_pow hi hk)
    exact mul_le_of_le_one_left (by positivity) this
  refine (sum_le_sum fun k hk => h1 k (mem_range.mp hk)).trans_eq ?_
  rw [sum_comm, sum_mul]
  refine sum_congr rfl fun i hi => ?_
  rw [← mul_sum]
  congr 1
  refine Eq.trans ?_ (sum_xor (mem_range.mp hi) (fun k => |g k|))
  exact sum_congr rfl fun k _ => by rw [Nat.xor_comm]

theorem exact_norm {A : ClAlg} (hA : A.WF) {x : Nat → Nat → ℝ} {l : Nat → ℝ}
    (hl : ∀ i, ∑ k ∈ range (2 ^ A.dim), |x i k| ≤ l i) (e : FExpr) :
    ∑ k ∈ range (2 ^ A.dim), |e.exact A x k| ≤ e.size 0 l := by
  induction e with
  | X i => exact hl i
  | add e f ihe ihf =>
    refine (sum_le_sum fun k _ => abs_add_le _ _).trans ?_
    rw [sum_add_distrib]
    exact add_le_add ihe ihf
  | sub e f ihe ihf =>
    refine (sum_le_sum fun k _ => abs_sub _ _).trans ?_
    rw [sum_add_distrib]
    exact add_le_add ihe ihf
  | mul e f ihe ihf =>
    refine (geo_norm A hA _ _).trans ?_
    show _ ≤ _ + (0 : ℝ)
    rw [_root_.add_zero]
    exact mul_le_mul ihe ihf (sum_nonneg fun _ _ => abs_nonneg _) ((sum_nonneg fun _ _ => abs_nonneg _).trans ihe)
  | neg e ihe =>
    simp only [exact, abs_neg]
    exact ihe
  | rev e ihe =>
    refine le_trans (le_of_eq (sum_congr rfl fun k _ => ?_)) ihe
    show |rsg A.dim k • e.exact A x k| = _
    rcases rsg_cases A.dim k with h | h <;> rw [h] <;> simp
  | flip e ihe =>
    refine le_trans (le_of_eq (sum_congr rfl fun k _ => ?_)) ihe
    show |sg (par A.dim k) • e.exact A x k| = _
    cases par A.dim k <;> simp

theorem exact_int {A : ClAlg} {x : Nat → Nat → ℝ} (hx : ∀ i, ∀ k < 2 ^ A.dim, ∃ m : ℤ, x i k = m) (e : FExpr) :
    ∀ k < 2 ^ A.dim, ∃ m : ℤ, e.exact A x k = m := by
  induction e with
  | X i => exact hx i
  | add e f ihe ihf =>
    intro k hk
    obtain ⟨m, hm⟩ := ihe k hk
    obtain ⟨n, hn⟩ := ihf k hk
    exact ⟨m + n, by simp only [exact]; rw [hm, hn]; push_cast; rfl⟩
  | sub e f ihe ihf =>
    intro k hk
    obtain ⟨m, hm⟩ := ihe k hk
    obtain ⟨n, hn⟩ := ihf k hk
    exact ⟨m - n, by simp only [exact]; rw [hm, hn]; push_cast; rfl⟩
  | mul e f ihe ihf =>
    intro k hk
    have h1 : ∀ k, ∃ m : ℤ, k < 2 ^ A.dim → e.exact A x k = m := fun k => by
      by_cases h : k < 2 ^ A.dim
      · obtain ⟨m, hm⟩ := ihe k h; exact ⟨m, fun _ => hm⟩
      · exact ⟨0, fun h' => absurd h' h⟩
    have h2 : ∀ k, ∃ m : ℤ, k < 2 ^ A.dim → f.exact A x k = m := fun k => by
      by_cases h : k < 2 ^ A.dim
      · obtain ⟨m, hm⟩ := ihf k h; exact ⟨m, fun _ => hm⟩
      · exact ⟨0, fun h' => absurd h' h⟩
    choose m hm using h1
    choose n hn using h2
    refine ⟨∑ i ∈ range (2 ^ A.dim), bsgn A.sigma A.dim i (i ^^^ k) * (m i * n (i ^^^ k)), ?_⟩
    show ∑ i ∈ range (2 ^ A.dim), _ = _
    push_cast
    refine sum_congr rfl fun i hi => ?_
    rw [mem_range] at hi
    rw [hm i hi, hn _ (Nat.xor_lt_two_pow hi hk), zsmul_eq_mul]
  | neg e ihe =>
    intro k hk
    obtain ⟨m, hm⟩ := ihe k hk
    exact ⟨-m, by simp only [exact]; rw [hm]; push_cast; rfl⟩
  | rev e ihe =>
    intro k hk
    obtain ⟨m, hm⟩ := ihe k hk
    exact ⟨rsg A.dim k * m, by simp only [exact]; rw [hm, zsmul_eq_mul]; push_cast; rfl⟩
  | flip e ihe =>
    intro k hk
    obtain ⟨m, hm⟩ := ihe k hk
    exact ⟨sg (par A.dim k) * m, by simp only [exact, flp]; rw [hm, zsmul_eq_mul]; push_cast; rfl⟩

section
variable {A : ClAlg} {K : Type} [Zero K] [One K] [Add K] [Sub K] [Neg K] [Mul K] [Div K] [DecidableEq K] [HasI K] [CoeffLaws K]

/-- Evaluation in the transformed domain. -/
theorem rep {R : Type} [CommRing R] [DecidableEq R] [IntoComplex R ℂ] [LawfulInto R ℂ] {Q : CxRel K} (hA : A.WF) (hd : A.dim < 63)
    (hn : ∀ x : K, - -x = x) {ρ : Nat → Res (FFTRepr A K)} {x : Nat → Nat → R} {l : Nat → ℝ}
    {E : ℝ} (hE : E = 3 ^ A.projDim * (2 ^ A.half * (2 ^ A.half * Q.D)))
    (hρ : ∀ i, Q.ok A.half (l i) → ∃ r, ρ i = .ok r ∧ Q.Rep A A.half r (cx A (x i)) (l i)) (e : FExpr)
    (he : e.Fits Q.ok A.half A.projDim E l) :
    ∃ r, e.evalFFT ρ = .ok r ∧ Q.Rep A (e.level A.half A.projDim) r (cx A (e.exact A x)) (e.size E l) := by
  induction e with
  | X i => exact hρ i he
  | add e f ihe ihf =>
    obtain ⟨h1, h2, h3⟩ := he
    obtain ⟨r, e1, hr⟩ := ihe h1
    obtain ⟨s, e2, hs⟩ := ihf h2
    obtain ⟨t, e3, ht⟩ := CxRel.Rep.add (hr.mono (le_max_left _ _) le_rfl) (hs.mono (le_max_right _ _) le_rfl) h3
    exact ⟨t, by simp only [evalFFT, e1, e2]; exact e3, ht.congr hA fun k hk => congrFun (cx_add A _ _) k⟩
  | sub e f ihe ihf =>
    obtain ⟨h1, h2, h3⟩ := he
    obtain ⟨r, e1, hr⟩ := ihe h1
    obtain ⟨s, e2, hs⟩ := ihf h2
    obtain ⟨t, e3, ht⟩ := CxRel.Rep.sub (hr.mono (le_max_left _ _) le_rfl) (hs.mono (le_max_right _ _) le_rfl) h3
    exact ⟨t, by simp only [evalFFT, e1, e2]; exact e3, ht.congr hA fun k hk => congrFun (cx_sub A _ _) k⟩
  | mul e f ihe ihf =>
    obtain ⟨h1, h2, h3⟩ := he
    obtain ⟨r, e1, hr⟩ := ihe h1
    obtain ⟨s, e2, hs⟩ := ihf h2
    subst hE
    obtain ⟨t, e3, ht⟩ := CxRel.Rep.mul hA hn hr hs h3
    exact ⟨t, by simp only [evalFFT, e1, e2]; exact e3, ht.congr hA fun k hk => cx_geo hA _ _ hk⟩
  | neg e ihe =>
    obtain ⟨r, e1, hr⟩ := ihe he
    exact ⟨r.neg, by simp only [evalFFT, e1]; rfl, hr.neg.congr hA fun k hk => congrFun (cx_neg A _) k⟩
  | rev e ihe =>
    obtain ⟨r, e1, hr⟩ := ihe he
    obtain ⟨t, e2, ht⟩ := hr.rev hA hd
    exact ⟨t, by simp only [evalFFT, e1]; exact e2, ht.congr hA fun k hk => congrFun (cx_smul A _ _) k⟩
  | flip e ihe =>
    obtain ⟨r, e1, hr⟩ := ihe he
    exact ⟨r.flip, by simp only [evalFFT, e1]; rfl, (hr.flip hA).congr hA fun k hk => congrFun (cx_smul A (fun k => sg (par A.dim k)) _) k⟩

variable {T : Type} [Zero T] [One T] [Add T] [Sub T] [Neg T] [Mul T] [DecidableEq T] [CoeffLaws T] [IntoComplex T K]
variable {R : Type} [CommRing R] [DecidableEq R] [IntoComplex R ℂ] [LawfulInto R ℂ]

/-- Transforms of the variables, and evaluation in the transformed domain. -/
theorem repFFT {Q : CxRel K} (hA : A.WF) (hd : A.dim < 63) (hn : ∀ x : K, - -x = x)
    (h0 : ∀ n, iPowNeg n * IntoComplex.into (0 : T) = (0 : K)) {ρ : Nat → MV A (ArrayStorage T)} (hρ : ∀ i, (ρ i).Valid)
    {x : Nat → Nat → R} {b : Nat → Nat → ℝ} {l : Nat → ℝ} (hl : ∀ i, ∑ k ∈ range (2 ^ A.dim), b i k ≤ l i)
    {E : ℝ} (hE : E = 3 ^ A.projDim * (2 ^ A.half * (2 ^ A.half * Q.D)))
    (hR : ∀ i, ∀ k < 2 ^ A.dim, Q.R 0 (IntoComplex.into ((ρ i).val k)) (IntoComplex.into (x i k)) (b i k))
    (e : FExpr) (he : e.Fits Q.ok A.half A.projDim E l) :
    ∃ r, e.evalFFT (fun i => (ρ i).fft) = .ok r ∧
      Q.Rep A (e.level A.half A.projDim) r (cx A (e.exact A x)) (e.size E l) :=
  rep (Q := Q) hA hd hn hE (fun i hi => by
      obtain ⟨r, e1, h1, h2⟩ := fft_ops (K := K) h0 hA hd (hρ i)
      refine ⟨r, e1, ?_⟩
      have h := CxRel.Rep.fft (Q := Q) hA (l := 0) (z := cx A (x i)) (b := b i) h1 h2
        (fun k hk => Q.iPowNeg_mul _ (hR i k hk)) (Q.ok_mono hi (by omega) (hl i))
      exact h.mono (by omega) (hl i)) e he

/-- The route through the transforms, for a relation `Q`. -/
theorem viaRep [FromComplex T K] {Q : CxRel K} (hA : A.WF) (hd : A.dim < 63) (hn : ∀ x : K, - -x = x)
    (h0 : ∀ n, iPowNeg n * IntoComplex.into (0 : T) = (0 : K)) (h0' : ∀ n, (FromComplex.from_ (iPow n * 0 : K) : T) = 0)
    {ρ : Nat → MV A (ArrayStorage T)} (hρ : ∀ i, (ρ i).Valid)
    {x : Nat → Nat → R} {b : Nat → Nat → ℝ} {l : Nat → ℝ} (hl : ∀ i, ∑ k ∈ range (2 ^ A.dim), b i k ≤ l i)
    {E : ℝ} (hE : E = 3 ^ A.projDim * (2 ^ A.half * (2 ^ A.half * Q.D)))
    (hR : ∀ i, ∀ k < 2 ^ A.dim, Q.R 0 (IntoComplex.into ((ρ i).val k)) (IntoComplex.into (x i k)) (b i k))
    (e : FExpr) (he : e.Fits Q.ok A.half A.projDim E l) (hG : ∀ k < 2 ^ A.dim, Q.G (cx A (e.exact A x) k))
    (hok : Q.ok (e.level A.half A.projDim + 3 * A.half) (4 * (e.size E l + A.half * Q.D))) :
    ∃ w : Nat → K, Denotes (e.viaFFT K ρ) (fun k => FromComplex.from_ (w k)) ∧
      ∀ k < 2 ^ A.dim, Q.R (e.level A.half A.projDim + 3 * A.half) (w k) (IntoComplex.into (e.exact A x k))
        (e.size E l + A.half * Q.D) := by
  obtain ⟨r, e1, hr⟩ := repFFT (Q := Q) hA hd hn h0 hρ hl hE hR e he
  refine ⟨fun k => iPow (countOnes (k &&& A.imagMask)) * unflO A.half A.nn r.arr.get k, ?_, fun k hk => ?_⟩
  · unfold viaFFT
    rw [e1]
    exact ifft_ops h0' hA hd hr.1
  · have h := Q.iPow_mul (countOnes (k &&& A.imagMask)) (CxRel.Rep.unfl hA hr hG hok hk)
    have e2 : iPow (countOnes (k &&& A.imagMask)) * cx A (e.exact A x) k = (IntoComplex.into (e.exact A x k) : ℂ) := by
      unfold cx
      rw [← mul_assoc, iPow_mul_iPowNeg, one_mul]
    rw [e2] at h
    exact h

end

section
variable {F : Type} [Zero F] [One F] [Add F] [Sub F] [Neg F] [Mul F] [Div F] [FloatModel F] [FloatSigns F] [DecidableEq F]
variable {T : Type} [Zero T] [One T] [Add T] [Sub T] [Neg T] [Mul T] [Div T] [FloatModel T] [DecidableEq T]
  [IntoComplex T (Cx F)] [FromComplex T (Cx F)] [ConvModel T F]
variable {A : ClAlg} {S' : Type} [CoeffStorage S' ℝ] [LawfulStorage S' ℝ] [WedgeProduct A S']

/-- The route through the transforms, for a relation `Q`. -/
theorem via {Q : CxRel (Cx F)} (hA : A.WF) (hd : A.dim < 63) (hM : 0 ≤ M T) {ρ : Nat → MV A (ArrayStorage T)} {ρ' : Nat → MV A S'}
    {x : Nat → Nat → T} {l : Nat → ℝ} (hρ : ∀ i, SameValues (ρ i) (ρ' i) (x i)) (hl : ∀ i, normOne A.dim (x i) ≤ l i)
    {E : ℝ} (hE : E = 3 ^ A.projDim * (2 ^ A.half * (2 ^ A.half * Q.D)))
    (hR : ∀ i, ∀ k < 2 ^ A.dim, ∀ v : Cx F, v.Fin → v.val = (re (x i k) : ℂ) → Q.R 0 v (re (x i k) : ℂ) |re (x i k)|)
    (e : FExpr) (he : e.Fits Q.ok A.half A.projDim E l)
    (hG : ∀ k < 2 ^ A.dim, Q.G (cx A (e.exact A (fun i k => re (x i k))) k))
    (hok : Q.ok (e.level A.half A.projDim + 3 * A.half) (4 * (e.size E l + A.half * Q.D))) :
    ∃ w : Nat → Cx F, Denotes (e.viaFFT (Cx F) ρ) (fun k => FromComplex.from_ (w k)) ∧
      ∀ k < 2 ^ A.dim, Q.R (e.level A.half A.projDim + 3 * A.half) (w k) ((e.exact A (fun i k => re (x i k)) k : ℝ) : ℂ)
        (e.size E l + A.half * Q.D) :=
  viaRep hA hd Cx.neg_neg' ConvModel.fft_zero (ConvModel.ifft_zero hM) (fun i => (hρ i).valid) hl hE (fun i k hk => by
    rw [(hρ i).val hk]
    obtain ⟨g1, g2⟩ := ConvModel.into_ok (F := F) ((hρ i).finite k hk)
    exact hR i k hk _ g1 g2) e he hG hok

end

end FExpr

section
variable {F : Type} [Zero F] [One F] [Add F] [Sub F] [Neg F] [Mul F] [Div F] [FloatModel F] [FloatSigns F] [DecidableEq F]
variable {T : Type} [Zero T] [One T] [Add T] [Sub T] [Neg T] [Mul T] [Div T] [FloatModel T] [DecidableEq T]
  [IntoComplex T (Cx F)] [FromComplex T (Cx F)] [ConvModel T F]
variable {A : ClAlg} {S' : Type} [CoeffStorage S' ℝ] [LawfulStorage S' ℝ] [WedgeProduct A S']

/-- **C78, expressions.** For integer coefficients, an expression of sums, differences, products, negations, reversals and
grade involutions that is evaluated with the transforms (complex numbers with parts of type `F`) is exact, if the bounds for the sums of the absolute
values, added for sums and multiplied for products, are at most `M F` and four times the last one is, too. -/
theorem C78_expression (hA : A.WF) (hd : A.dim < 63) (h4 : 4 ≤ M F) {ρ : Nat → MV A (ArrayStorage T)} {ρ' : Nat → MV A S'}
    {x : Nat → Nat → T} {l : Nat → ℝ} (hρ : ∀ i, SameValues (ρ i) (ρ' i) (x i))
    (hz : ∀ i, ∀ j < 2 ^ A.dim, ∃ m : ℤ, re (x i j) = m) (hl : ∀ i, normOne A.dim (x i) ≤ l i) (e : FExpr)
    (he : e.Fits (fun _ b => b ≤ M F) A.half A.projDim 0 l) (hF : 4 * e.size 0 l ≤ M F) (hT : e.size 0 l ≤ M T) :
    ExactZ (e.viaFFT (Cx F) ρ) (e.toG.eval ρ') (e.size 0 l) := by
  have hnorm := FExpr.exact_norm hA (x := fun i k => re (x i k)) hl e
  have hint := FExpr.exact_int (A := A) (x := fun i k => re (x i k)) hz e
  have hM : 0 ≤ M T := (sum_nonneg fun _ _ => abs_nonneg _).trans (hnorm.trans hT)
  have gint : ∀ m : ℤ, Cx.GInt ((m : ℝ) : ℂ) := fun m => ⟨⟨m, by simp⟩, 0, by simp⟩
  obtain ⟨w, h1, h2⟩ := FExpr.via (Q := Cx.exactRel h4) hA hd hM hρ hl (E := 0) (by
      show (0 : ℝ) = _ * (_ * (_ * (0 : ℝ))); simp)
    (fun i k hk v hv e => by
      obtain ⟨m, hm⟩ := hz i k hk
      refine ⟨hv, e, by rw [hm]; exact gint m, ?_⟩
      unfold Cx.n1
      simp) e he (fun k hk => by
      obtain ⟨m, hm⟩ := hint k hk
      show Cx.GInt (iPowNeg _ * ((e.exact A (fun i k => re (x i k)) k : ℝ) : ℂ))
      rw [hm, Cx.iPowNeg_eq]
      exact (Cx.GInt.iPow _).mul (gint m)) (by
      show 4 * (e.size 0 l + A.half * (0 : ℝ)) ≤ M F
      rw [MulZeroClass.mul_zero, _root_.add_zero]; exact hF)
  have hk : ∀ k < 2 ^ A.dim, fin (FromComplex.from_ (w k) : T) ∧ (∃ m : ℤ, re (FromComplex.from_ (w k) : T) = m) ∧
      re (FromComplex.from_ (w k) : T) = e.exact A (fun i k => re (x i k)) k := by
    intro k hk
    obtain ⟨g1, g2, -, -⟩ := h2 k hk
    obtain ⟨m, hm⟩ := hint k hk
    have hre : re (w k).re = m := by
      have := congrArg Complex.re g2
      rw [hm] at this
      exact this
    obtain ⟨k1, k2⟩ := ConvModel.from_int (T := T) g1 hre (by
      rw [← hm]
      exact (single_le_sum (f := fun k => |e.exact A (fun i k => re (x i k)) k|) (fun _ _ => abs_nonneg _)
        (mem_range.mpr hk)).trans (hnorm.trans hT))
    exact ⟨k1, ⟨m, k2⟩, k2.trans hm.symm⟩
  obtain ⟨r, e1, hr, hr'⟩ := h1
  obtain ⟨s, e2, hs, hs'⟩ := FExpr.toG_denotes hA (fun i => (hρ i).valid') (x := fun i k => re (x i k))
    (fun i k hk => (hρ i).val' hk) e
  refine ⟨r, s, fun k => FromComplex.from_ (w k), e1, e2, ⟨hr, hs, Denotes.coefs ⟨r, rfl, hr, hr'⟩,
    (Denotes.coefs ⟨s, rfl, hs, hs'⟩).congr fun k h => (hk k h).2.2.symm, fun k h => (hk k h).1⟩,
    fun k h => (hk k h).2.1, ?_⟩
  refine le_trans (le_of_eq ?_) hnorm
  exact sum_congr rfl fun k h => by rw [(hk k (mem_range.mp h)).2.2]

variable {a b : MV A (ArrayStorage T)} {a' b' : MV A S'} {x y : Nat → T}

/-- **C78, round trip.** -/
theorem C78_round_trip (hA : A.WF) (hd : A.dim < 63) (h4 : 4 ≤ M F) (ha : SameValues a a' x)
    (zx : ∀ i < 2 ^ A.dim, ∃ m : ℤ, re (x i) = m) (hF : 4 * normOne A.dim x ≤ M F) (hT : normOne A.dim x ≤ M T) :
    ExactZ (do let r : FFTRepr A (Cx F) ← a.fft; r.ifft : Res (MV A (ArrayStorage T))) (.ok a') (normOne A.dim x) := by
  have h0 := normOne_nonneg A.dim x
  exact C78_expression (F := F) hA hd h4 (ρ := fun _ => a) (ρ' := fun _ => a') (x := fun _ => x) (l := fun _ => normOne A.dim x)
    (fun _ => ha) (fun _ => zx) (fun _ => le_rfl) (.X 0) (by show normOne A.dim x ≤ M F; linarith) hF hT

/-- The product through the transforms. -/
def MV.mulFFT (F : Type) [Zero F] [One F] [Add F] [Sub F] [Neg F] [Mul F] [Div F] [DecidableEq F] {T : Type} [Zero T] [One T]
    [Add T] [Sub T] [Neg T] [Mul T] [DecidableEq T] [IntoComplex T (Cx F)] [FromComplex T (Cx F)] (a b : MV A (ArrayStorage T)) :
    Res (MV A (ArrayStorage T)) := do
  let r : FFTRepr A (Cx F) ← a.fft
  let s ← b.fft
  let t ← r.mul s
  t.ifft

/-- **C78, products.** -/
theorem C78_mul (hA : A.WF) (hd : A.dim < 63) (h4 : 4 ≤ M F) (ha : SameValues a a' x) (hb : SameValues b b' y)
    (zx : ∀ i < 2 ^ A.dim, ∃ m : ℤ, re (x i) = m) (zy : ∀ i < 2 ^ A.dim, ∃ m : ℤ, re (y i) = m)
    (hx : normOne A.dim x ≤ M F) (hy : normOne A.dim y ≤ M F)
    (hF : 4 * (normOne A.dim x * normOne A.dim y) ≤ M F) (hT : normOne A.dim x * normOne A.dim y ≤ M T) :
    ExactZ (a.mulFFT F b) (a'.naiveMulImpl b')
      (normOne A.dim x * normOne A.dim y) := by
  have h0 := mul_nonneg (normOne_nonneg A.dim x) (normOne_nonneg A.dim y)
  have h := C78_expression (F := F) hA hd h4 (ρ := fun i => if i = 0 then a else b) (ρ' := fun i => if i = 0 then a' else b')
    (x := fun i => if i = 0 then x else y) (l := fun i => normOne A.dim (if i = 0 then x else y))
    (fun i => by by_cases h : i = 0 <;> simp only [h, if_true, if_false] <;> assumption)
    (fun i => by by_cases h : i = 0 <;> simp only [h, if_true, if_false] <;> assumption)
    (fun _ => le_rfl) (.mul (.X 0) (.X 1)) ⟨hx, hy, by
      show normOne A.dim x * normOne A.dim y + 0 ≤ M F
      linarith⟩ (by
      show 4 * (normOne A.dim x * normOne A.dim y + 0) ≤ M F
      linarith) (by
      show normOne A.dim x * normOne A.dim y + 0 ≤ M T
      linarith)
  have e : (FExpr.mul (.X 0) (.X 1)).size 0 (fun i => normOne A.dim (if i = 0 then x else y)) = normOne A.dim x * normOne A.dim y :=
    _root_.add_zero _
  rw [e] at h
  refine Eq.mp ?_ h
  congr 1
  unfold FExpr.viaFFT MV.mulFFT
  simp only [FExpr.evalFFT, bind_assoc]
  rfl

theorem MV.ExactZ.agree {p p' : Res (MV A (ArrayStorage T))} {q : Res (MV A S')} {L L' : ℝ} (h : ExactZ p q L) (h' : ExactZ p' q L') :
    p ≈ᵣ p' := by
  obtain ⟨u, v, z, p1, p2, p3, -, -⟩ := h
  obtain ⟨u', v', z', q1, q2, q3, -, -⟩ := h'
  rw [p2] at q2
  injection q2 with q2
  subst q2
  refine ⟨u, u', p1, q1, p3.valid, q3.valid, (beq_iff p3.valid q3.valid).mpr fun i hi => ?_⟩
  rw [p3.val hi, q3.val hi]
  apply re_inj (p3.finite i hi) (q3.finite i hi)
  rw [← p3.val' hi, ← q3.val' hi]

/-- **C78, agreement.** For integer coefficients of these sizes the product through the transforms and the direct product are
equal, coefficient by coefficient. -/
theorem C78_agree [LawfulWedge A S'] (hA : A.WF) (hd : A.dim < 63) (h4 : 4 ≤ M F) (ha : SameValues a a' x) (hb : SameValues b b' y)
    (zx : ∀ i < 2 ^ A.dim, ∃ m : ℤ, re (x i) = m) (zy : ∀ i < 2 ^ A.dim, ∃ m : ℤ, re (y i) = m)
    (hx : normOne A.dim x ≤ M F) (hy : normOne A.dim y ≤ M F)
    (hF : 4 * (normOne A.dim x * normOne A.dim y) ≤ M F) (hT : normOne A.dim x * normOne A.dim y ≤ M T) :
    a.mulFFT F b ≈ᵣ a.naiveMulImpl b :=
  (C78_mul hA hd h4 ha hb zx zy hx hy hF hT).agree (C71_mul ha hb zx zy hA hT)

/-- **C79, expressions.** The rounding errors of an expression that is evaluated with the transforms.  With `h` half of the
number of non-null dimensions (rounded up), `L` counts the roundings on a path from the input to the output and `B` bounds the
exact result: every coefficient is finite and within `((1+u)^L - 1) B` of the exact value, apart from the conversion to `T`. -/
theorem C79_expression (hA : A.WF) (hd : A.dim < 63) (h4 : 4 ≤ M F) (hu : 0 < u F) (hM : 0 ≤ M T)
    {ρ : Nat → MV A (ArrayStorage T)} {ρ' : Nat → MV A S'} {x : Nat → Nat → T} {l : Nat → ℝ}
    (hρ : ∀ i, SameValues (ρ i) (ρ' i) (x i)) (hl : ∀ i, normOne A.dim (x i) ≤ l i) (e : FExpr) {E B : ℝ} {L : Nat}
    (hE : E = 3 ^ A.projDim * (2 ^ A.half * (2 ^ A.half * Cx.uflow F)))
    (hB : B = e.size E l + A.half * Cx.uflow F) (hL : L = e.level A.half A.projDim + 3 * A.half)
    (he : e.Fits (fun l b => (1 + u F) ^ l * b ≤ Ω F) A.half A.projDim E l)
    (hF : (1 + u F) ^ L * (4 * B) ≤ Ω F) (hT : (1 + u F) ^ L * B ≤ Ω T) :
    NearR (e.viaFFT (Cx F) ρ) (e.toG.eval ρ') (fun _ _ => True)
      (fun _ _ => ((1 + u F) ^ L - 1) * B + (ConvModel.cu T F * ((1 + u F) ^ L * B) + ConvModel.cη T F)) := by
  obtain ⟨w, h1, h2⟩ := FExpr.via (Q := Cx.nearRel h4 hu) hA hd hM hρ hl hE
    (fun i k hk v hv e => by
      refine ⟨hv, ?_, ?_⟩
      · unfold Cx.n1; simp
      · rw [e, sub_self, Cx.n1_zero]; simp) e he (fun k hk => trivial) (by
      rw [← hL]
      exact le_of_eq_of_le (by rw [hB]; rfl) hF)
  have hk : ∀ k < 2 ^ A.dim, fin (FromComplex.from_ (w k) : T) ∧ |re (FromComplex.from_ (w k) : T) - e.exact A (fun i k => re (x i k)) k| ≤
      ((1 + u F) ^ L - 1) * B + (ConvModel.cu T F * ((1 + u F) ^ L * B) + ConvModel.cη T F) := by
    intro k hk
    have h := h2 k hk
    rw [← hL] at h
    have h' : Cx.Near L (w k) ((e.exact A (fun i k => re (x i k)) k : ℝ) : ℂ) B := by rw [hB]; exact h
    have hs := (Cx.abs_re_le _).trans h'.size
    have hr : |re (w k).re - e.exact A (fun i k => re (x i k)) k| ≤ ((1 + u F) ^ L - 1) * B := by
      have := (Cx.abs_re_le _).trans h'.2.2
      exact this
    obtain ⟨g1, g2⟩ := ConvModel.from_ok (T := T) h'.1 (hs.trans hT)
    refine ⟨g1, ?_⟩
    have t := abs_sub_le (re (FromComplex.from_ (w k) : T)) (re (w k).re) (e.exact A (fun i k => re (x i k)) k)
    have m : ConvModel.cu T F * |re (w k).re| ≤ ConvModel.cu T F * ((1 + u F) ^ L * B) :=
      mul_le_mul_of_nonneg_left hs ConvModel.cu_nonneg
    linarith
  obtain ⟨r, e1, hr, hr'⟩ := h1
  obtain ⟨s, e2, hs, hs'⟩ := FExpr.toG_denotes hA (fun i => (hρ i).valid') (x := fun i k => re (x i k))
    (fun i k hk => (hρ i).val' hk) e
  exact ⟨r, s, fun k => FromComplex.from_ (w k), e.exact A fun i k => re (x i k), e1, e2, hr, hs,
    Denotes.coefs ⟨r, rfl, hr, hr'⟩, Denotes.coefs ⟨s, rfl, hs, hs'⟩, fun k h _ => hk k h⟩

/-- **C79, products.** With `h = ⌈(p+q)/2⌉` and `s` the number of null directions, `L = 2^h + 5h + s + 2` roundings. -/
theorem C79_mul (hA : A.WF) (hd : A.dim < 63) (h4 : 4 ≤ M F) (hu : 0 < u F) (hM : 0 ≤ M T)
    (ha : SameValues a a' x) (hb : SameValues b b' y) {h L : Nat} {B : ℝ} (hh : h = (A.realDim + A.imagDim + 1) / 2)
    (hL : L = 2 ^ h + 5 * h + A.projDim + 2)
    (hB : normOne A.dim x * normOne A.dim y + (3 ^ A.projDim * 4 ^ h + h) * (4 * η F / u F) ≤ B)
    (hx : (1 + u F) ^ L * normOne A.dim x ≤ Ω F) (hy : (1 + u F) ^ L * normOne A.dim y ≤ Ω F)
    (hF : (1 + u F) ^ L * (4 * B) ≤ Ω F) (hT : (1 + u F) ^ L * B ≤ Ω T) :
    NearR (a.mulFFT F b) (a'.naiveMulImpl b') (fun _ _ => True)
      (fun _ _ => ((1 + u F) ^ L - 1) * B + (ConvModel.cu T F * ((1 + u F) ^ L * B) + ConvModel.cη T F)) := by
  have hh' : h = A.half := hh
  subst hh'
  have n1 := normOne_nonneg A.dim x
  have n2 := normOne_nonneg A.dim y
  have hD := Cx.uflow_nonneg (F := F)
  have hpw := Cx.one_le_pow' (F := F) L
  set B' := normOne A.dim x * normOne A.dim y + (3 ^ A.projDim * 4 ^ A.half + A.half) * Cx.uflow F with hB'
  have hBB : B' ≤ B := hB
  have hB0 : 0 ≤ B' := by positivity
  have e4 : (3 : ℝ) ^ A.projDim * (2 ^ A.half * (2 ^ A.half * Cx.uflow F)) = 3 ^ A.projDim * 4 ^ A.half * Cx.uflow F := by
    rw [show (4 : ℝ) = 2 * 2 by norm_num, mul_pow]; ring
  have hle : ∀ {l : Nat} {c c' : ℝ}, l ≤ L → 0 ≤ c → c ≤ c' → (1 + u F) ^ l * c ≤ (1 + u F) ^ L * c' := fun hl hc hcc =>
    mul_le_mul (Cx.pow_le' hl) hcc hc (by linarith)
  have hp1 : 1 ≤ 2 ^ A.half := Nat.one_le_two_pow
  have key := C79_expression (F := F) hA hd h4 hu hM (ρ := fun i => if i = 0 then a else b) (ρ' := fun i => if i = 0 then a' else b')
    (x := fun i => if i = 0 then x else y) (l := fun i => normOne A.dim (if i = 0 then x else y))
    (fun i => by by_cases h : i = 0 <;> simp only [h, if_true, if_false] <;> assumption)
    (fun _ => le_rfl) (.mul (.X 0) (.X 1)) (E := 3 ^ A.projDim * 4 ^ A.half * Cx.uflow F) (B := B') (L := L) e4.symm (by
      show B' = normOne A.dim x * normOne A.dim y + 3 ^ A.projDim * 4 ^ A.half * Cx.uflow F + A.half * Cx.uflow F
      rw [hB']; ring) (by
      show L = A.half + A.half + 2 + 2 ^ A.half + A.projDim + 3 * A.half
      omega)
    ⟨(hle (by omega) n1 le_rfl).trans hx, (hle (by omega) n2 le_rfl).trans hy, (hle (l := A.half + A.half + 2 + 2 ^ A.half + A.projDim) (c' := 4 * B) (by omega) (by
      show 0 ≤ normOne A.dim x * normOne A.dim y + 3 ^ A.projDim * 4 ^ A.half * Cx.uflow F
      positivity) (by
      show normOne A.dim x * normOne A.dim y + 3 ^ A.projDim * 4 ^ A.half * Cx.uflow F ≤ 4 * B
      have : 0 ≤ (A.half : ℝ) * Cx.uflow F := by positivity
      have : B' = normOne A.dim x * normOne A.dim y + 3 ^ A.projDim * 4 ^ A.half * Cx.uflow F + A.half * Cx.uflow F := by
        rw [hB']; ring
      linarith)).trans hF⟩ ((hle le_rfl (by linarith) (by linarith)).trans hF) ((hle le_rfl hB0 hBB).trans hT)
  have e1 : (FExpr.mul (.X 0) (.X 1)).viaFFT (Cx F) (fun i => if i = 0 then a else b) = a.mulFFT F b := by
    unfold FExpr.viaFFT MV.mulFFT
    simp only [FExpr.evalFFT, bind_assoc]
    rfl
  have e2 : (FExpr.mul (.X 0) (.X 1)).toG.eval (fun i => if i = 0 then a' else b') = a'.naiveMulImpl b' := rfl
  rw [e1, e2] at key
  obtain ⟨r, r', z, w, p1, p2, p3, p4, p5, p6, p7⟩ := key
  refine ⟨r, r', z, w, p1, p2, p3, p4, p5, p6, fun k hk _ => ⟨(p7 k hk trivial).1, (p7 k hk trivial).2.trans ?_⟩⟩
  have g1 : ((1 + u F) ^ L - 1) * B' ≤ ((1 + u F) ^ L - 1) * B := mul_le_mul_of_nonneg_left hBB (by linarith)
  have g2 : ConvModel.cu T F * ((1 + u F) ^ L * B') ≤ ConvModel.cu T F * ((1 + u F) ^ L * B) :=
    mul_le_mul_of_nonneg_left (hle le_rfl hB0 hBB) ConvModel.cu_nonneg
  linarith

end

section
variable {A : ClAlg} {S' : Type} [CoeffStorage S' ℝ] [LawfulStorage S' ℝ] [WedgeProduct A S'] {a' b' : MV A S'}

set_option exponentiation.threshold 2000 in
/-- The constants of C79 for `f64`. -/
theorem consts_f64 {h s L : Nat} (hh : h ≤ 31) (hs : s ≤ 62) (hL : L = 2 ^ h + 5 * h + s + 2) :
    (1 + u F64) ^ L - 1 ≤ L / 2 ^ 52 ∧ (1 + u F64) ^ L ≤ 1 + 1 / 2 ^ 20 ∧ (3 ^ s * 4 ^ h + h) * (4 * η F64 / u F64) ≤ 1 / 2 ^ 800 := by
  obtain ⟨cu, cη, -, -, -⟩ := C69_f64
  have hL' : L ≤ 2 ^ 32 := by
    have : 2 ^ h ≤ 2 ^ 31 := Nat.pow_le_pow_right (by norm_num) hh
    omega
  have hLr : (L : ℝ) ≤ 2 ^ 32 := by exact_mod_cast hL'
  have hL0 : (0 : ℝ) ≤ L := Nat.cast_nonneg L
  have hLu : (L : ℝ) * u F64 ≤ 1 / 2 ^ 21 := by
    rw [cu]
    rw [mul_one_div, div_le_div_iff₀ (by norm_num) (by norm_num)]
    linarith
  have h0 : 0 ≤ (L : ℝ) * u F64 := mul_nonneg hL0 u_nonneg
  have key := one_add_pow_le (u_nonneg (F := F64)) L (by linarith [show (1 : ℝ) / 2 ^ 21 ≤ 1 by norm_num])
  rw [← mul_pow] at key
  have hsq : (L * u F64) ^ 2 ≤ L * u F64 := by
    have : (1 : ℝ) / 2 ^ 21 ≤ 1 := by norm_num
    nlinarith
  have e : (L : ℝ) / 2 ^ 52 = 2 * (L * u F64) := by rw [cu]; ring
  refine ⟨by rw [e]; linarith, ?_, ?_⟩
  · have : (1 : ℝ) / 2 ^ 20 = 2 * (1 / 2 ^ 21) := by norm_num
    linarith
  · have h3 : (3 : ℝ) ^ s ≤ 4 ^ 62 := (pow_le_pow_left₀ (by norm_num) (by norm_num) s).trans (pow_le_pow_right₀ (by norm_num) hs)
    have h4 : (4 : ℝ) ^ h ≤ 4 ^ 31 := pow_le_pow_right₀ (by norm_num) hh
    have h5 : (h : ℝ) ≤ 31 := by exact_mod_cast hh
    have h6 : (3 : ℝ) ^ s * 4 ^ h + h ≤ 4 ^ 62 * 4 ^ 31 + 31 :=
      add_le_add (mul_le_mul h3 h4 (by positivity) (by positivity)) h5
    have h7 : (4 * η F64 / u F64 : ℝ) = 1 / 2 ^ 1020 := by
      rw [cu, cη, show (1075 : ℕ) = 1020 + 55 from rfl, pow_add]
      field_simp
      norm_num
    rw [h7]
    refine (mul_le_mul_of_nonneg_right h6 (by positivity)).trans ?_
    rw [show (1020 : ℕ) = 800 + 220 from rfl, pow_add, mul_one_div, div_le_div_iff₀ (by positivity) (by positivity)]
    have : (0 : ℝ) < 2 ^ 800 := by positivity
    nlinarith [show ((4 : ℝ) ^ 62 * 4 ^ 31 + 31) ≤ 2 ^ 220 by norm_num]

set_option exponentiation.threshold 2000 in
/-- **C79, `f64`.** In every algebra of dimension at most 62, if the absolute values of the coefficients add up to at most
`2^500` for each factor, the product through the transforms has finite coefficients, off by at most
`L 2^-52 (‖a‖₁‖b‖₁ + 2^-800)`, where `L = 2^h + 5h + s + 2`, `h = ⌈(p+q)/2⌉` and `s` is the number of null directions. -/
theorem C79_mul_f64 (hA : A.WF) (hd : A.dim < 63) {a b : MV A (ArrayStorage F64)} {x y : Nat → F64} (ha : SameValues a a' x)
    (hb : SameValues b b' y) (hx : normOne A.dim x ≤ 2 ^ 500) (hy : normOne A.dim y ≤ 2 ^ 500) {h L : Nat}
    (hh : h = (A.realDim + A.imagDim + 1) / 2) (hL : L = 2 ^ h + 5 * h + A.projDim + 2) :
    NearR (a.mulFFT F64 b) (a'.naiveMulImpl b') (fun _ _ => True)
      (fun _ _ => L / 2 ^ 52 * (normOne A.dim x * normOne A.dim y + 1 / 2 ^ 800)) := by
  obtain ⟨cu, cη, cM, cΩ, -⟩ := C69_f64
  have hdim : A.realDim + A.imagDim + A.projDim = A.dim := hA.dims
  obtain ⟨k1, k2, k3⟩ := consts_f64 (h := h) (s := A.projDim) (L := L) (by omega) (by omega) hL
  have n1 := normOne_nonneg A.dim x
  have n2 := normOne_nonneg A.dim y
  have hxy : normOne A.dim x * normOne A.dim y ≤ 2 ^ 1000 := by
    refine (mul_le_mul hx hy n2 (by positivity)).trans_eq ?_
    rw [← pow_add]
  have hB0 : 0 ≤ normOne A.dim x * normOne A.dim y + 1 / 2 ^ 800 := by positivity
  have hB : normOne A.dim x * normOne A.dim y + 1 / 2 ^ 800 ≤ 2 ^ 1001 := by
    have : (1 : ℝ) / 2 ^ 800 ≤ 2 ^ 1000 := by
      rw [div_le_iff₀ (by positivity), ← pow_add]
      exact one_le_pow₀ (by norm_num)
    rw [pow_succ]
    linarith
  have hpw : (1 + u F64) ^ L ≤ 2 := k2.trans (by norm_num)
  have hp0 := Cx.one_le_pow' (F := F64) L
  have key := C79_mul (F := F64) hA hd (by rw [cM]; norm_num) (by rw [cu]; positivity) (by rw [cM]; positivity) ha hb hh hL
    (B := normOne A.dim x * normOne A.dim y + 1 / 2 ^ 800) (by linarith)
    ((mul_le_mul hpw hx n1 (by norm_num)).trans (by rw [cΩ]; norm_num))
    ((mul_le_mul hpw hy n2 (by norm_num)).trans (by rw [cΩ]; norm_num))
    ((mul_le_mul hpw (mul_le_mul_of_nonneg_left hB (by norm_num)) (by positivity) (by norm_num)).trans (by rw [cΩ]; norm_num))
    ((mul_le_mul hpw hB hB0 (by norm_num)).trans (by rw [cΩ]; norm_num))
  obtain ⟨r, r', z, w, p1, p2, p3, p4, p5, p6, p7⟩ := key
  refine ⟨r, r', z, w, p1, p2, p3, p4, p5, p6, fun k hk _ => ⟨(p7 k hk trivial).1, (p7 k hk trivial).2.trans ?_⟩⟩
  have c1 : ConvModel.cu F64 F64 = 0 := rfl
  have c2 : ConvModel.cη F64 F64 = 0 := rfl
  rw [c1, c2]
  have := mul_le_mul_of_nonneg_right k1 hB0
  linarith

set_option exponentiation.threshold 2000 in
/-- **C79, `f32`.** The transforms are computed in `f64`; the error is that of the final conversion, plus a much smaller one. -/
theorem C79_mul_f32 (hA : A.WF) (hd : A.dim < 63) {a b : MV A (ArrayStorage F32)} {x y : Nat → F32} (ha : SameValues a a' x)
    (hb : SameValues b b' y) (hx : normOne A.dim x ≤ 2 ^ 60) (hy : normOne A.dim y ≤ 2 ^ 60) {h L : Nat}
    (hh : h = (A.realDim + A.imagDim + 1) / 2) (hL : L = 2 ^ h + 5 * h + A.projDim + 2) :
    NearR (a.mulFFT F64 b) (a'.naiveMulImpl b') (fun _ _ => True)
      (fun _ _ => (1 / 2 ^ 24 * (1 + 1 / 2 ^ 20) + L / 2 ^ 52) * (normOne A.dim x * normOne A.dim y + 1 / 2 ^ 800) + 1 / 2 ^ 150) := by
  obtain ⟨cu, cη, cM, cΩ, -⟩ := C69_f64
  obtain ⟨du, dη, dM, dΩ, -⟩ := C69_f32
  have hdim : A.realDim + A.imagDim + A.projDim = A.dim := hA.dims
  obtain ⟨k1, k2, k3⟩ := consts_f64 (h := h) (s := A.projDim) (L := L) (by omega) (by omega) hL
  have n1 := normOne_nonneg A.dim x
  have n2 := normOne_nonneg A.dim y
  have hxy : normOne A.dim x * normOne A.dim y ≤ 2 ^ 120 := by
    refine (mul_le_mul hx hy n2 (by positivity)).trans_eq ?_
    rw [← pow_add]
  have hB0 : 0 ≤ normOne A.dim x * normOne A.dim y + 1 / 2 ^ 800 := by positivity
  have hB : normOne A.dim x * normOne A.dim y + 1 / 2 ^ 800 ≤ 2 ^ 121 := by
    have : (1 : ℝ) / 2 ^ 800 ≤ 2 ^ 120 := by
      rw [div_le_iff₀ (by positivity), ← pow_add]
      exact one_le_pow₀ (by norm_num)
    rw [pow_succ]
    linarith
  have hpw : (1 + u F64) ^ L ≤ 2 := k2.trans (by norm_num)
  have hp0 := Cx.one_le_pow' (F := F64) L
  have key := C79_mul (F := F64) hA hd (by rw [cM]; norm_num) (by rw [cu]; positivity) (by rw [dM]; positivity) ha hb hh hL
    (B := normOne A.dim x * normOne A.dim y + 1 / 2 ^ 800) (by linarith)
    ((mul_le_mul hpw hx n1 (by norm_num)).trans (by rw [cΩ]; norm_num))
    ((mul_le_mul hpw hy n2 (by norm_num)).trans (by rw [cΩ]; norm_num))
    ((mul_le_mul hpw (mul_le_mul_of_nonneg_left hB (by norm_num)) (by positivity) (by norm_num)).trans (by rw [cΩ]; norm_num))
    ((mul_le_mul hpw hB hB0 (by norm_num)).trans (by rw [dΩ]; norm_num))
  obtain ⟨r, r', z, w, p1, p2, p3, p4, p5, p6, p7⟩ := key
  refine ⟨r, r', z, w, p1, p2, p3, p4, p5, p6, fun k hk _ => ⟨(p7 k hk trivial).1, (p7 k hk trivial).2.trans ?_⟩⟩
  have c1 : ConvModel.cu F32 F64 = 1 / 2 ^ 24 := du
  have c2 : ConvModel.cη F32 F64 = 1 / 2 ^ 150 := dη
  rw [c1, c2]
  have g1 := mul_le_mul_of_nonneg_right k1 hB0
  have g2 := mul_le_mul_of_nonneg_left (mul_le_mul_of_nonneg_right k2 hB0) (show (0 : ℝ) ≤ 1 / 2 ^ 24 by positivity)
  linarith

end

/-! ### Examples -/

namespace Ex

theorem four_le : (4 : ℝ) ≤ FloatModel.M F64 := by
  show (4 : ℝ) ≤ 2 ^ 53
  norm_num

theorem xG_sizes : normOne E.dim xG ≤ FloatModel.M F64 ∧ 4 * normOne E.dim xG ≤ FloatModel.M F64 ∧ 4 * (normOne E.dim xG * normOne E.dim xG) ≤ FloatModel.M F64 ∧
    normOne E.dim xG * normOne E.dim xG ≤ FloatModel.M F64 := by
  have h := xG_norm
  have h0 := normOne_nonneg E.dim xG
  show _ ≤ (2 : ℝ) ^ 53 ∧ _ ≤ (2 : ℝ) ^ 53 ∧ _ ≤ (2 : ℝ) ^ 53 ∧ _ ≤ (2 : ℝ) ^ 53
  refine ⟨?_, ?_, ?_, ?_⟩ <;> nlinarith

example := C78_round_trip (F := F64) E_wf (by decide) four_le sameG xG_int xG_sizes.2.1 xG_sizes.1
example := C78_mul (F := F64) E_wf (by decide) four_le sameG sameG xG_int xG_int xG_sizes.1 xG_sizes.1 xG_sizes.2.2.1 xG_sizes.2.2.2
example := C78_agree (F := F64) E_wf (by decide) four_le sameG sameG xG_int xG_int xG_sizes.1 xG_sizes.1 xG_sizes.2.2.1 xG_sizes.2.2.2

/-- `(x0 + x1) * x2 - x0 * (x1 * x2)` -/
example := C78_expression (F := F64) E_wf (by decide) four_le (l := fun _ => 36) (fun _ => sameG) (fun _ => xG_int) (fun _ => xG_norm)
  (.sub (.mul (.add (.X 0) (.X 1)) (.X 2)) (.mul (.X 0) (.mul (.X 1) (.X 2)))) (by
    have hM : (FloatModel.M F64) = 2 ^ 53 := rfl
    simp only [FExpr.Fits, FExpr.size, hM]; norm_num) (by
    have hM : (FloatModel.M F64) = 2 ^ 53 := rfl
    simp only [FExpr.size, hM]; norm_num) (by
    have hM : (FloatModel.M F64) = 2 ^ 53 := rfl
    simp only [FExpr.size, hM]; norm_num)

theorem xF_sum64 : normOne E.dim xF ≤ 64 := by
  have h : ∑ i ∈ range 8, |(xF i).toRat| ≤ 64 := by decide +kernel
  have h' : ((∑ i ∈ range 8, |(xF i).toRat| : ℚ) : ℝ) ≤ 64 := by exact_mod_cast h
  rw [show ((∑ i ∈ range 8, |(xF i).toRat| : ℚ) : ℝ) = Rat.castHom ℝ _ from rfl, map_sum] at h'
  show ∑ i ∈ range 8, |((xF i).toRat : ℝ)| ≤ 64
  simpa using h'

theorem xF_norm : normOne E.dim xF ≤ 2 ^ 500 := by
  refine xF_sum64.trans ?_
  exact le_trans (show (64 : ℝ) ≤ 2 ^ 6 by norm_num) (pow_le_pow_right₀ (by norm_num) (by norm_num))

theorem xF32_norm : normOne E.dim xF32 ≤ 2 ^ 60 := by
  have h : ∑ i ∈ range 8, |(xF32 i).toRat| ≤ 64 := by decide +kernel
  have h' : ((∑ i ∈ range 8, |(xF32 i).toRat| : ℚ) : ℝ) ≤ 64 := by exact_mod_cast h
  rw [show ((∑ i ∈ range 8, |(xF32 i).toRat| : ℚ) : ℝ) = Rat.castHom ℝ _ from rfl, map_sum] at h'
  have : normOne E.dim xF32 ≤ 64 := by
    show ∑ i ∈ range 8, |((xF32 i).toRat : ℝ)| ≤ 64
    simpa using h'
  refine this.trans ?_
  norm_num

theorem ok64 {l : Nat} {b : ℝ} (hl : l ≤ 2 ^ 31) (hb : b ≤ 2 ^ 1000) : (1 + u F64) ^ l * b ≤ Ω F64 := by
  obtain ⟨-, -, -, cΩ, -⟩ := C69_f64
  have h := (consts_f64 (h := 31) (s := 0) (L := _) le_rfl (by norm_num) rfl).2.1
  have h1 := (pow_le_pow_right₀ (le_add_of_nonneg_right (u_nonneg (F := F64))) (show l ≤ 2 ^ 31 + 5 * 31 + 0 + 2 by omega)).trans h
  have h2 : (1 + u F64) ^ l ≤ 2 := h1.trans (by norm_num)
  refine (mul_le_mul_of_nonneg_left hb (zero_le_one.trans (Cx.one_le_pow' (F := F64) l))).trans
    ((mul_le_mul_of_nonneg_right h2 (by positivity)).trans ?_)
  rw [cΩ, show (2 : ℝ) ^ 1000 = 2 ^ 29 * 2 ^ 971 by rw [← pow_add], ← mul_assoc]
  exact mul_le_mul_of_nonneg_right (by norm_num) (by positivity)

theorem tiny64 : (3 : ℝ) ^ E.projDim * (2 ^ E.half * (2 ^ E.half * Cx.uflow F64)) + E.half * Cx.uflow F64 ≤ 1 ∧
    0 ≤ Cx.uflow F64 := by
  have h := (consts_f64 (h := E.half) (s := E.projDim) (L := _) (by decide) (by decide) rfl).2.2
  refine ⟨le_trans (le_of_eq ?_) (h.trans ?_), Cx.uflow_nonneg⟩
  · rw [show (4 : ℝ) ^ E.half = 2 ^ E.half * 2 ^ E.half by rw [← mul_pow]; norm_num]
    unfold Cx.uflow
    ring
  · rw [div_le_one (by positivity)]
    exact one_le_pow₀ (by norm_num)

/-- `x0 * x1 * ~x0 - flip x2` -/
def exprF : FExpr := .sub (.mul (.mul (.X 0) (.X 1)) (.rev (.X 0))) (.flip (.X 2))

theorem exprF_size {E : ℝ} (h1 : E ≤ 1) : exprF.size E (fun _ => 64) ≤ 2 ^ 20 := by
  simp only [exprF, FExpr.size]
  norm_num
  linarith

theorem exprF_fits {E' : ℝ} (h1 : E' ≤ 1) :
    exprF.Fits (fun l b => (1 + u F64) ^ l * b ≤ Ω F64) E.half E.projDim E' (fun _ => 64) := by
  have h2 : (2 : ℝ) ^ 20 ≤ 2 ^ 1000 := pow_le_pow_right₀ (by norm_num) (by norm_num)
  have h3 := exprF_size h1
  simp only [exprF, FExpr.size] at h3
  simp only [exprF, FExpr.Fits, FExpr.size, FExpr.level]
  have hv : ∀ b : ℝ, b ≤ 2 ^ 20 → b ≤ 2 ^ 1000 := fun b h => h.trans h2
  refine ⟨⟨⟨ok64 (by decide) (hv _ (by norm_num)), ok64 (by decide) (hv _ (by norm_num)), ok64 (by decide) (hv _ ?_)⟩,
    ok64 (by decide) (hv _ (by norm_num)), ok64 (by decide) (hv _ ?_)⟩, ok64 (by decide) (hv _ (by norm_num)), ok64 (by decide) (hv _ h3)⟩ <;>
    norm_num <;> linarith

theorem exprF_total {c : ℝ} (hc : 0 ≤ c) (hc8 : c ≤ 8) :
    c * (exprF.size (3 ^ E.projDim * (2 ^ E.half * (2 ^ E.half * Cx.uflow F64))) (fun _ => 64) + E.half * Cx.uflow F64) ≤ 2 ^ 1000 := by
  obtain ⟨h, h0⟩ := tiny64
  have h1 : (0 : ℝ) ≤ E.half * Cx.uflow F64 := by positivity
  have h2 : (0 : ℝ) ≤ 3 ^ E.projDim * (2 ^ E.half * (2 ^ E.half * Cx.uflow F64)) := by positivity
  have h3 := exprF_size (E := 3 ^ E.projDim * (2 ^ E.half * (2 ^ E.half * Cx.uflow F64))) (by linarith)
  have h4 : (2 : ℝ) ^ 24 ≤ 2 ^ 1000 := pow_le_pow_right₀ (by norm_num) (by norm_num)
  refine le_trans (mul_le_mul_of_nonneg_left (add_le_add h3 (by linarith : E.half * Cx.uflow F64 ≤ 1)) hc) (le_trans ?_ h4)
  norm_num at *
  linarith

example := C79_expression (F := F64) E_wf (by decide) four_le (by rw [C69_f64.1]; positivity) (by rw [C69_f64.2.2.1]; positivity)
  (l := fun _ => 64) (fun _ => sameF) (fun _ => xF_sum64) exprF rfl rfl rfl
  (exprF_fits (by
    have h : (0 : ℝ) ≤ E.half * Cx.uflow F64 := mul_nonneg (Nat.cast_nonneg _) tiny64.2
    linarith [tiny64.1]))
  (ok64 (by decide) (exprF_total (by norm_num) (by norm_num)))
  (ok64 (by decide) (by simpa using exprF_total (c := 1) (by norm_num) (by norm_num)))

example := C79_mul_f64 E_wf (by decide) sameF sameF xF_norm xF_norm rfl rfl
example := C79_mul_f32 E_wf (by decide) sameF32 sameF32 xF32_norm xF32_norm rfl rfl

/-- The product through the transforms is really rounded: the two routes differ in a last bit. -/
example : (match (dense64 xF).mulFFT F64 (dense64 xF), (dense64 xF).naiveMulImpl (dense64 xF) with
    | .ok u, .ok v => decide ((v.coeffs.array.get 4).toRat - (u.coeffs.array.get 4).toRat = 1 / 2 ^ 53)
    | _, _ => false) = true := by
  decide +kernel

end Ex

end TClifford
