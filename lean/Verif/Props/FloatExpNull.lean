import Verif.Props.FloatExp
import Verif.Props.NonFinite
import Verif.Proofs.FFTFloat
import Verif.Props.FloatPga
/-
C88: the exponential of multivectors whose blades share null generators is exact.
-/

namespace TClifford

open Finset FloatModel MV

section
variable {A : ClAlg} {S : Type} [CoeffStorage S F64] [LawfulStorage S F64] {a : MV A S}

/-- If every two blades of `a` and `b` share a generator that squares to zero, the computed product is zero. -/
theorem mul_null (hA : A.WF) {a b : MV A S} (ha : a.Fine) (hb : b.Fine)
    (h : ∀ i < 2 ^ A.dim, ∀ j < 2 ^ A.dim, a.val i ≠ 0 → b.val j ≠ 0 → i &&& j &&& A.projMask ≠ 0) :
    ∃ r, a.naiveMulImpl b = .ok r ∧ r.Valid ∧ ∀ k < 2 ^ A.dim, r.val k = 0 := by
  obtain ⟨r, h1, h2, h3⟩ := mul_inv sumInv_acc hA ha.1 hb.1 ha.2 hb.2
  refine ⟨r, h1, h2, fun k hk => ((h3 k hk).2.2.1 ?_).1⟩
  rw [Prod.snd_sum, Prod.snd_sum]
  refine sum_eq_zero fun i hi => ?_
  have hi' := mem_range.mp hi
  unfold tau
  refine if_pos ?_
  by_cases g1 : a.val i = 0
  · exact .inr (.inl g1)
  by_cases g2 : b.val (i ^^^ k) = 0
  · exact .inr (.inr g2)
  left
  by_contra hne
  exact h i hi' _ (Nat.xor_lt_two_pow hi' hk) g1 g2 ((bsgn_ne_zero_iff hA).mp hne)

theorem mag2_null (hA : A.WF) (ha : a.Fine)
    (h : ∀ i < 2 ^ A.dim, ∀ j < 2 ^ A.dim, a.val i ≠ 0 → a.val j ≠ 0 → i &&& j &&& A.projMask ≠ 0) : a.mag2 = .ok (0 : F64) := by
  obtain ⟨r, h1, h2⟩ := signSum_inv sumInv_acc hA ha.1 ha.1 revC (fun i => by unfold revC; split <;> [rfl; exact fneg_zero])
    (fun i hi => by rw [revC_fl hi]; exact fin_sgnC _ (ha.2 i hi)) ha.2
  have e : r = 0 := (h2.2.2.1 (by
    rw [Prod.snd_sum, Prod.snd_sum]
    refine sum_eq_zero fun i hi => ?_
    have hi' := mem_range.mp hi
    unfold tau
    refine if_pos ?_
    by_cases g1 : a.val i = 0
    · exact .inr (.inr g1)
    left
    by_contra hne
    exact h i hi' i hi' g1 g1 ((bsgn_ne_zero_iff hA).mp hne))).1
  subst e
  exact h1

/-- The loop adds nothing when the power is zero. -/
theorem taylorF_null (hA : A.WF) {x : MV A S} (hx : x.Fine) (d : Nat) : ∀ {k : Nat}, k + d = 18 → ∀ {res p : MV A S}, res.Valid → p.Valid →
    (∀ i < 2 ^ A.dim, p.val i = 0) → ∀ fuel ≥ d, ∃ r, taylorF x fuel (expCoefF k) (k + 1) res p = some (.ok r) ∧ r.Valid ∧
      ∀ i < 2 ^ A.dim, r.val i = res.val i := by
  induction d with
  | zero =>
    intro k hk res p hr _ _ fuel _
    obtain rfl : k = 18 := by omega
    exact ⟨res, taylorF_18 x fuel _ res p, hr, fun _ _ => rfl⟩
  | succ d ih =>
    intro k hk res p hr hp h0 fuel hf
    obtain ⟨fuel, rfl⟩ : ∃ f, fuel = f + 1 := ⟨fuel - 1, by omega⟩
    have hc : fin (expCoefF (k + 1)) := (expCoefF_acc (k + 1) (by omega)).1
    obtain ⟨t, t1, t2, t3⟩ := smul_fl hp hc
    obtain ⟨s, s1, s2, s3⟩ := add_denotes hr t2
    obtain ⟨q, q1, q2, q3⟩ := mul_null hA (b := x) ⟨hp, fun i hi => by rw [h0 i hi]; exact fin_zero⟩ hx
      (fun i hi j hj g => absurd (h0 i hi) g)
    obtain ⟨r, r1, r2, r3⟩ := ih (k := k + 1) (by omega) s2 q2 q3 fuel (by omega)
    refine ⟨r, ?_, r2, fun i hi => ?_⟩
    · rw [taylorF_succ x (by omega)]
      simp only [t1, s1, q1, bind, Except.bind, pure, Except.pure]
      exact r1
    · rw [r3 i hi, s3 i hi]
      beta_reduce
      rw [t3 i hi]
      beta_reduce
      rw [h0 i hi, FloatModel.zero_mul hc, CoeffLaws.add_zero]

/-- **C88, exactness.** If the coefficients of `a` are at most one in absolute value and every two blades of `a` share a
generator that squares to zero, `a.exp()` is exactly `1 + a`: no rounding errors, no truncation.  (In particular for `a = 0` and for
the logarithms of small translations.) -/
theorem C88_null_exact (hA : A.WF) (ha : a.Valid) {x : Nat → F64} (hx : Coefs (.ok a) x) (hf : ∀ i < 2 ^ A.dim, fin (x i))
    (h1 : ∀ i < 2 ^ A.dim, |re (x i)| ≤ 1)
    (hn : ∀ i < 2 ^ A.dim, ∀ j < 2 ^ A.dim, x i ≠ 0 → x j ≠ 0 → i &&& j &&& A.projMask ≠ 0) {fuel : ℕ} (hfu : 18 ≤ fuel) :
    ∃ r, a.expF fuel = some (.ok r) ∧ (do let o ← one (T := F64); o.add a) ≈ᵣ .ok r := by
  have hval : ∀ i < 2 ^ A.dim, a.val i = x i := fun i hi => by
    obtain ⟨v, e, hv⟩ := hx
    injection e with e
    subst e
    have := hv i hi
    rw [ha.get hi] at this
    injection this
  have hfine : a.Fine := ⟨ha, fun i hi => by rw [hval i hi]; exact hf i hi⟩
  have hn' : ∀ i < 2 ^ A.dim, ∀ j < 2 ^ A.dim, a.val i ≠ 0 → a.val j ≠ 0 → i &&& j &&& A.projMask ≠ 0 := fun i hi j hj => by
    rw [hval i hi, hval j hj]; exact hn i hi j hj
  have hq := mag2_null hA hfine hn'
  obtain ⟨M, m, e1, e2, e3, e4⟩ := expMaxF_ok hfine hq fin_zero
  have hm1 : m ≤ 1 := (e4 1).mpr ⟨le_rfl, fun i hi => by rw [hval i hi]; exact_mod_cast h1 i hi, by
    have : (0 : F64).abs.sqrt.toRat ≤ 1 := by decide +kernel
    show (((0 : F64).abs.sqrt.toRat : ℚ) : ℝ) ≤ _
    exact_mod_cast this⟩
  obtain rfl : m = 1 := le_antisymm hm1 ((e4 m).mp le_rfl).1
  have hM : M = 1 := re_inj e2 fin_one (by
    rw [re_one]
    show ((M.toRat : ℚ) : ℝ) = 1
    rw [e3]; norm_num)
  subst hM
  have h11 : (1 : F64) / 1 = 1 := by decide +kernel
  obtain ⟨o, o1, o2, o3⟩ := one_denotes (T := F64) (A := A) ha.supp
  obtain ⟨n, n1, n2, n3⟩ := smul_fl ha (fin_one (F := F64))
  have n3' : ∀ i < 2 ^ A.dim, n.val i = a.val i := fun i hi => by
    rw [n3 i hi]; beta_reduce; exact FloatSigns.mul_one (hfine.2 i hi)
  have nf : n.Fine := ⟨n2, fun i hi => by rw [n3' i hi]; exact hfine.2 i hi⟩
  -- the first iteration
  obtain ⟨t, t1, t2, t3⟩ := smul_fl n2 (fin_one (F := F64))
  obtain ⟨s, s1, s2, s3⟩ := add_denotes o2 t2
  obtain ⟨q, q1, q2, q3⟩ := mul_null hA nf nf (fun i hi j hj => by rw [n3' i hi, n3' j hj]; exact hn' i hi j hj)
  obtain ⟨fuel, rfl⟩ : ∃ f, fuel = f + 1 := ⟨fuel - 1, by omega⟩
  obtain ⟨r, r1, r2, r3⟩ := taylorF_null hA nf 17 (k := 1) rfl s2 q2 q3 fuel (by omega)
  have hc1 : expCoefF 1 = 1 := by decide +kernel
  have hT : taylorF n (fuel + 1) 1 1 o n = some (.ok r) := by
    have := taylorF_succ n (k := 0) (by norm_num) fuel o n
    rw [show expCoefF 0 = 1 from rfl] at this
    rw [show (0 : ℕ) + 1 = 1 from rfl] at this
    rw [this]
    simp only [hc1, t1, s1, q1, bind, Except.bind, pure, Except.pure]
    rw [← hc1]
    exact r1
  have hu : (1 : F64).toUsize = .ok 1 := by decide +kernel
  refine ⟨r, ?_, ?_⟩
  · unfold MV.expF
    simp only [o1, e1, hu, h11, n1, bind, Except.bind, pure, Except.pure]
    rw [hT]
    simp only [Option.map]
    rw [MV.pow, if_neg (by norm_num), if_pos rfl]
  · obtain ⟨w, w1, w2, w3⟩ := add_denotes o2 ha
    refine Agree.of_denotes (f := fun i => o.val i + a.val i) (g := r.val) ⟨w, ?_, w2, w3⟩ ⟨r, rfl, r2, fun _ _ => rfl⟩ fun i hi => ?_
    · rw [o1]; exact w1
    · rw [r3 i hi, s3 i hi]
      beta_reduce
      rw [t3 i hi]
      beta_reduce
      rw [FloatSigns.mul_one (nf.2 i hi), n3' i hi]

end

namespace Ex

/-- `0.1 e2`, `0.2 e0 e2`, `0.3 e1 e2`, `0.4 e0 e1 e2`, rounded -/
def xN (i : Nat) : F64 := if i < 4 then 0 else Flt.ofRat ((i - 3 : ℚ) / 10)

def mNul : MV M (ArrayStorage F64) := ⟨⟨3, ⟨8, xN⟩⟩⟩

theorem mNul_valid : mNul.Valid := ⟨by decide, rfl, rfl⟩

theorem mNul_coefs : Coefs (.ok mNul) xN :=
  Denotes.coefs ⟨mNul, rfl, mNul_valid, fun i hi => by rw [arr_val' mNul_valid hi]; rfl⟩

theorem xN_fin : ∀ i < 8, xN i ≠ .nonFinite := by decide +kernel

theorem xN_le : ∀ i < 8, |re (xN i)| ≤ 1 := fun i hi => by
  have h : ∀ i < 8, |(xN i).toRat| ≤ 1 := by decide +kernel
  show |(((xN i).toRat : ℚ) : ℝ)| ≤ 1
  exact_mod_cast h i hi

theorem xN_null : ∀ i < 8, ∀ j < 8, xN i ≠ 0 → xN j ≠ 0 → i &&& j &&& M.projMask ≠ 0 := by decide +kernel

example : ∃ r, mNul.expF 18 = some (.ok r) ∧ (do let o ← one (T := F64); o.add mNul) ≈ᵣ .ok r :=
  C88_null_exact M_wf mNul_valid mNul_coefs xN_fin xN_le xN_null le_rfl

/-- The dual numbers -/
def D1 : ClAlg := (declareAlgebra [.null] []).get rfl

theorem D1_wf : D1.WF := declareAlgebra_wf (names := []) (sig := [.null]) rfl

def d49 : MV D1 (ArrayStorage F64) := ⟨⟨1, ⟨2, fun i => if i = 0 then 0 else n64 49⟩⟩⟩

theorem pow49 (r : MV D1 (ArrayStorage F64)) : r.pow 49 = (do
    let x ← (do let y ← r.naiveMulImpl r; y.naiveMulImpl r)
    let x ← x.naiveMulImpl x
    let x ← x.naiveMulImpl x
    let x ← x.naiveMulImpl x
    let y ← x.naiveMulImpl x
    y.naiveMulImpl r) := by
  have h1 : r.pow 1 = .ok r := by rw [MV.pow]; rfl
  have h3 : r.pow 3 = (do let y ← r.naiveMulImpl r; y.naiveMulImpl r) := by
    rw [MV.pow, if_neg (by norm_num), if_neg (by norm_num), show 3 >>> 1 = 1 from rfl, h1]; rfl
  have h6 : r.pow 6 = (do let x ← r.pow 3; x.naiveMulImpl x) := by
    rw [MV.pow, if_neg (by norm_num), if_neg (by norm_num), show 6 >>> 1 = 3 from rfl]; rfl
  have h12 : r.pow 12 = (do let x ← r.pow 6; x.naiveMulImpl x) := by
    rw [MV.pow, if_neg (by norm_num), if_neg (by norm_num), show 12 >>> 1 = 6 from rfl]; rfl
  have h24 : r.pow 24 = (do let x ← r.pow 12; x.naiveMulImpl x) := by
    rw [MV.pow, if_neg (by norm_num), if_neg (by norm_num), show 24 >>> 1 = 12 from rfl]; rfl
  have h49 : r.pow 49 = (do let x ← r.pow 24; let y ← x.naiveMulImpl x; y.naiveMulImpl r) := by
    rw [MV.pow, if_neg (by norm_num), if_neg (by norm_num), show 49 >>> 1 = 24 from rfl]; rfl
  rw [h49, h24, h12, h6, h3]
  simp only [bind_assoc]

def d49Test : Option (Res (MV D1 (ArrayStorage F64))) → Bool
  | some (.ok r) => decide (r.coeffs.array.get 1 ≠ n64 49 ∧ r.coeffs.array.len = 2 ∧ r.coeffs.dim = 1)
  | _ => false

/-- `expF` of this multivector with another function for the power -/
def d49Exp (p : MV D1 (ArrayStorage F64) → Res (MV D1 (ArrayStorage F64))) : Option (Res (MV D1 (ArrayStorage F64))) :=
  match (do
      let res ← one (A := D1) (S := ArrayStorage F64) (T := F64)
      let n ← d49.smul (1 / n64 49)
      return (res, n) : Res (MV D1 (ArrayStorage F64) × MV D1 (ArrayStorage F64))) with
  | .error e => some (.error e)
  | .ok (res, n) => (taylorF n 18 1 1 res n).map (fun r => r.bind p)

theorem d49_exp : d49.expF 18 = d49Exp fun r => r.pow 49 := by
  have hM : Ex.d49.expMaxF = .ok (n64 49) := by decide +kernel
  have hu : (n64 49).toUsize = .ok 49 := by decide +kernel
  unfold MV.expF d49Exp
  simp only [hM, hu, bind, Except.bind, pure, Except.pure]
  cases one (A := D1) (S := ArrayStorage F64) (T := F64) with
  | error e => rfl
  | ok o =>
    dsimp only
    cases d49.smul (1 / n64 49) <;> rfl

theorem d49_test : d49Test (d49.expF 18) = true := by
  rw [d49_exp, funext pow49]
  decide +kernel

end Ex

/-- Coefficients of more than one have to be scaled, which is not exact: the exponential of `49 e0` with `e0 * e0 == 0` is not exactly
`1 + 49 e0`. -/
theorem C88_null_large_false : ∃ (A : ClAlg) (a r : MV A (ArrayStorage F64)) (x y : Nat → F64), A.WF ∧ a.Valid ∧ Coefs (.ok a) x ∧
    (∀ i < 2 ^ A.dim, ∀ j < 2 ^ A.dim, x i ≠ 0 → x j ≠ 0 → i &&& j &&& A.projMask ≠ 0) ∧ a.expF 18 = some (.ok r) ∧ Coefs (.ok r) y ∧
    x 1 = Ex.n64 49 ∧ y 1 ≠ x 1 := by
  have hv : Ex.d49.Valid := ⟨by decide, rfl, rfl⟩
  have ht := Ex.d49_test
  cases h : Ex.d49.expF 18 with
  | none => rw [h] at ht; exact absurd ht (by decide)
  | some w =>
    cases w with
    | error e => rw [h] at ht; exact Bool.noConfusion (show false = true from ht)
    | ok r =>
      rw [h] at ht
      obtain ⟨h1, h2, h3⟩ := of_decide_eq_true ht
      have hr : r.Valid := ⟨by decide, h3, by rw [h2]; rfl⟩
      refine ⟨Ex.D1, Ex.d49, r, fun i => if i = 0 then 0 else Ex.n64 49, r.val, Ex.D1_wf, hv, ?_, by decide +kernel, h,
        Denotes.coefs ⟨r, rfl, hr, fun _ _ => rfl⟩, rfl, ?_⟩
      · exact Denotes.coefs ⟨Ex.d49, rfl, hv, fun i hi => by rw [arr_val' hv hi]; rfl⟩
      · rw [arr_val' hr (by decide)]
        exact h1

end TClifford
