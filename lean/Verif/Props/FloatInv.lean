import Verif.Proofs.FloatInv
import Verif.Props.Pin
/-
`FFTRepr::inv` with `f64`: C92.
-/

namespace TClifford

/-- `f64` with all its values. -/
abbrev D := Ieee Fmt.f64

section
open Fmt

theorem maxFin_f64 : (2 : ℚ) ^ (1001 : ℤ) ≤ Fmt.f64.maxFin := by
  have h : (2 : ℚ) ^ (1001 : ℤ) = 2 ^ (30 : ℤ) * 2 ^ (971 : ℤ) := by rw [← zpow_add₀ (by norm_num)]; norm_num
  show (2 : ℚ) ^ (1001 : ℤ) ≤ ((2 : ℚ) ^ (53 : ℕ) - 1) * 2 ^ (971 : ℤ)
  rw [h]
  exact mul_le_mul_of_nonneg_right (by norm_num) (by positivity)

theorem rel_f64 {x : ℚ} (h : (2 : ℚ) ^ (-1000 : ℤ) ≤ |x|) : |Fmt.f64.rnd x - x| ≤ 1 / 2 ^ 53 * |x| := by
  have h0 : 0 < |x| := lt_of_lt_of_le (by positivity) h
  refine Fmt.rnd_rel _ (abs_pos.mp h0) ?_
  have h1 : (-1000 : ℤ) ≤ Int.log 2 |x| := by
    rw [← Int.zpow_le_iff_le_log (b := 2) (by norm_num) h0]
    exact_mod_cast h
  show max (Int.log 2 |x| - 53 + 1) (-1074) ≠ -1074
  omega

/-- The computed reciprocal, for any rounding with small relative errors. -/
theorem recip_gen {rnd : ℚ → ℚ} {u H mx : ℚ} (hu0 : 0 < u) (hu1 : u ≤ 1 / 1000000) (hH : 2 ≤ H) (hmax : H * H * 2 ≤ mx)
    (rel : ∀ x, (H * H)⁻¹ ≤ |x| → |rnd x - x| ≤ u * |x|) {c : ℚ} (h1 : H⁻¹ ≤ |c|) (h2 : |c| ≤ H) :
    c ≠ 0 ∧ |c * c| ≤ mx ∧ rnd (c * c) ≠ 0 ∧ |c / rnd (c * c)| ≤ mx ∧ |rnd (c / rnd (c * c)) * c| ≤ mx ∧
    |rnd (c / rnd (c * c)) * c - 1| ≤ 3 * u ∧
    (H⁻¹ ≤ |rnd (rnd (c / rnd (c * c)) * c)| ∧ |rnd (rnd (c / rnd (c * c)) * c)| ≤ H) := by
  have hHpos : 0 < H := by linarith
  have hcpos : 0 < |c| := lt_of_lt_of_le (inv_pos.mpr hHpos) h1
  have hc0 : c ≠ 0 := abs_pos.mp hcpos
  have hHH : 0 < H * H := by positivity
  have hsq1 : (H * H)⁻¹ ≤ |c * c| := by
    rw [abs_mul, mul_inv]; exact mul_le_mul h1 h1 (inv_pos.mpr hHpos).le hcpos.le
  have hsq2 : |c * c| ≤ H * H := by
    rw [abs_mul]; exact mul_le_mul h2 h2 hcpos.le hHpos.le
  have hsqm : |c * c| ≤ mx := by linarith
  have hcc : |c * c| = c * c := abs_mul_self c
  have hcc0 : 0 < c * c := mul_self_pos.mpr hc0
  -- the square
  have hq := rel _ hsq1
  rw [hcc] at hq
  set q := rnd (c * c) with hqd
  rw [abs_le] at hq
  have hq1 : (1 - u) * (c * c) ≤ q := by linarith [hq.1]
  have hq2 : q ≤ (1 + u) * (c * c) := by linarith [hq.2]
  have h1u : 0 < 1 - u := by linarith
  have hq0 : 0 < q := lt_of_lt_of_le (by positivity) hq1
  -- the quotient times `c`
  set t := c * c / q with ht
  have ht1 : t * (1 - u) ≤ 1 := by
    rw [ht, div_mul_eq_mul_div, div_le_one hq0]; linarith
  have ht2 : 1 ≤ t * (1 + u) := by
    rw [ht, div_mul_eq_mul_div, le_div_iff₀ hq0]; linarith
  have ht0 : 0 < t := by rw [ht]; positivity
  have huu : u * u ≤ u * (1 / 1000000) := mul_le_mul_of_nonneg_left hu1 hu0.le
  have htlo : 1 - u ≤ t := by
    by_contra hcon
    rw [not_le] at hcon
    have := mul_lt_mul_of_pos_right hcon (show 0 < 1 + u by linarith)
    nlinarith only [this, ht2, huu, hu0]
  have hthi : t ≤ 1 + 3 / 2 * u := by
    by_contra hcon
    rw [not_le] at hcon
    have := mul_lt_mul_of_pos_right hcon h1u
    nlinarith only [this, ht1, huu, hu0]
  have hut : u * t ≤ u * (1 + 3 / 2 * u) := mul_le_mul_of_nonneg_left hthi hu0.le
  have hdiv : c / q = t / c := by rw [ht]; field_simp
  have hinv1 : H⁻¹ ≤ |c|⁻¹ := inv_anti₀ hcpos h2
  have hinv2 : |c|⁻¹ ≤ H := by
    have := inv_anti₀ (inv_pos.mpr hHpos) h1
    rwa [inv_inv] at this
  have habs : |c / q| = t * |c|⁻¹ := by rw [hdiv, abs_div, abs_of_pos ht0, div_eq_mul_inv]
  have hcipos : 0 < |c|⁻¹ := inv_pos.mpr hcpos
  have hquot : |c / q| ≤ 2 * H := by
    rw [habs]
    exact mul_le_mul (by linarith) hinv2 hcipos.le (by norm_num)
  have hH2 : 2 * H ≤ H * H := mul_le_mul_of_nonneg_right hH hHpos.le
  have hquotm : |c / q| ≤ mx := by linarith
  have hlow : (H * H)⁻¹ ≤ |c / q| := by
    rw [habs, mul_inv]
    refine mul_le_mul ?_ hinv1 (inv_pos.mpr hHpos).le ht0.le
    have : H⁻¹ ≤ 2⁻¹ := inv_anti₀ (by norm_num) hH
    have h2' : (2 : ℚ)⁻¹ = 1 / 2 := by norm_num
    linarith
  have hr := rel _ hlow
  set ρ := rnd (c / q) with hρ
  have hρc : |ρ * c - t| ≤ u * t := by
    have h5 : ρ * c - t = (ρ - c / q) * c := by rw [sub_mul, hdiv, div_mul_cancel₀ _ hc0]
    rw [h5, abs_mul]
    calc |ρ - c / q| * |c| ≤ u * |c / q| * |c| := mul_le_mul_of_nonneg_right hr hcpos.le
      _ = u * t := by rw [habs]; field_simp
  rw [abs_le] at hρc
  have hp1 : ρ * c - 1 ≤ 3 * u := by linarith [hρc.2]
  have hp2 : -(3 * u) ≤ ρ * c - 1 := by linarith [hρc.1]
  have hprod : |ρ * c| ≤ 2 := by rw [abs_le]; constructor <;> linarith
  have hHi : H⁻¹ ≤ 1 / 2 := by
    have : H⁻¹ ≤ 2⁻¹ := inv_anti₀ (by norm_num) hH
    have h2' : (2 : ℚ)⁻¹ = 1 / 2 := by norm_num
    linarith
  have hd := rel (ρ * c) (by
    have h8 : ρ * c ≤ |ρ * c| := le_abs_self _
    have h9 : (H * H)⁻¹ ≤ 1 / 2 := by
      have : (H * H)⁻¹ ≤ H⁻¹ := inv_anti₀ hHpos (by linarith)
      linarith
    linarith)
  set d := rnd (ρ * c) with hdd
  rw [abs_le] at hd
  have h9 : u * |ρ * c| ≤ u * 2 := mul_le_mul_of_nonneg_left hprod hu0.le
  have hd1 : d ≤ 2 := by linarith [hd.2]
  have hd2 : 1 / 2 ≤ d := by linarith [hd.1]
  have hdpos : 0 < d := by linarith
  refine ⟨hc0, hsqm, hq0.ne', hquotm, by linarith, abs_le.mpr ⟨hp2, hp1⟩, ?_, ?_⟩
  · rw [abs_of_pos hdpos]; linarith
  · rw [abs_of_pos hdpos]; linarith

/-- Sizes for which nothing over- or underflows. -/
def Mid (c : ℚ) : Prop := ((2 : ℚ) ^ 500)⁻¹ ≤ |c| ∧ |c| ≤ 2 ^ 500

theorem recip_f64 {c : ℚ} (h : Mid c) : Safe Fmt.f64 c ∧ |recip Fmt.f64 c * c - 1| ≤ 3 / 2 ^ 53 ∧
    Mid (Fmt.f64.rnd (recip Fmt.f64 c * c)) := by
  obtain ⟨H, hH⟩ : ∃ H : ℚ, H = 2 ^ 500 := ⟨_, rfl⟩
  have hHH : H * H = 2 ^ 1000 := by rw [hH, ← pow_add]
  have e3 : (2 : ℚ) ^ (1001 : ℤ) = H * H * 2 := by
    rw [hHH, ← pow_succ]
    exact zpow_natCast _ _
  have e4 : (H * H)⁻¹ = (2 : ℚ) ^ (-1000 : ℤ) := by rw [hHH, zpow_neg]; exact congrArg _ (zpow_natCast _ _).symm
  have hmax := maxFin_f64
  rw [e3] at hmax
  have h2 : 2 ≤ H := by rw [hH]; exact le_self_pow₀ (by norm_num) (by norm_num)
  unfold Mid at h ⊢
  rw [← hH] at h ⊢
  obtain ⟨a1, a2, a3, a4, a5, a6, a7⟩ := recip_gen (rnd := Fmt.f64.rnd) (u := 1 / 2 ^ 53) (by positivity) (by norm_num) h2 hmax
    (fun x hx => rel_f64 (by rw [e4] at hx; exact hx)) h.1 h.2
  exact ⟨⟨a1, a2, a3, a4, a5⟩, by rw [show (3 / 2 ^ 53 : ℚ) = 3 * (1 / 2 ^ 53) by ring]; exact a6, a7⟩

end

section
variable {A : ClAlg}

/-- **C92.** `inv` of a representation that is a diagonal matrix of real numbers between `2^-500` and `2^500` in absolute value (as
the representations of scalars are): it is found, is diagonal, and each entry times the original one differs from 1 by at most
`3 / 2^53`. -/
theorem C92_diagonal {norm : Cx D → D} (hN : IsHypot norm) {r : FFTRepr A (Cx D)} {n : Nat} (hr : r.intoArray3.dims = (1, n, n))
    {c : Nat → ℚ} (hc : ∀ i < n, (2 ^ 500)⁻¹ ≤ |c i| ∧ |c i| ≤ 2 ^ 500)
    (hm : ∀ i < n, ∀ j < n, IsR (r.intoArray3.get 0 i j) (if i = j then c i else 0)) :
    ∃ s, r.invG (ieeeTests Fmt.f64) norm = some s ∧ s.intoArray3.dims = (1, n, n) ∧
      ∀ i < n, ∀ j < n, ∃ v, IsR (s.intoArray3.get 0 i j) v ∧ if i = j then |v * c i - 1| ≤ 3 / 2 ^ 53 else v = 0 := by
  obtain ⟨⟨d0, d1, d, get⟩⟩ := r
  simp only [FFTRepr.intoArray3, Arr3.dims, Prod.mk.injEq] at hr
  obtain ⟨rfl, rfl, rfl⟩ := hr
  obtain ⟨m, h1, h2, h3, h4⟩ := matrixInvG_diag (f := Fmt.f64) hN (mat := (⟨d, d, get 0⟩ : Arr2 (Cx D))) rfl
    (fun i hi => (recip_f64 (hc i hi)).1) (fun i hi => (recip_f64 (recip_f64 (hc i hi)).2.2).1) hm
  refine ⟨⟨Arr3.ofArr2 m⟩, ?_, ?_, ?_⟩
  · unfold FFTRepr.invG
    show (matrixInvG _ _ (⟨d, d, get 0⟩ : Arr2 (Cx D))).bind _ = _
    rw [h1]; rfl
  · show (1, m.rows, m.cols) = _
    rw [h2, h3]
  · intro i hi j hj
    refine ⟨_, h4 i hi j hj, ?_⟩
    by_cases h : i = j
    · rw [if_pos h, if_pos h]; exact (recip_f64 (hc i hi)).2.1
    · rw [if_neg h, if_neg h]

end

/-! ### Where `f64` differs from exact arithmetic -/

theorem is_of_eq_zero {f : Fmt} {x : Ieee f} (h : x.eq 0 = true) : x.Is 0 := by
  unfold Ieee.eq at h
  rw [show (0 : Ieee f).val? = some 0 from Ieee.is_zero] at h
  cases hx : x.val? with
  | none => rw [hx] at h; simp at h
  | some a => rw [hx] at h; simp at h; rw [← h]; exact hx

/-- Real matrices: the norms are absolute values as long as all entries looked at are real. -/
theorem invG_real {A : ClAlg} {norm : Cx D → D} (hN : IsHypot norm) {r : FFTRepr A (Cx D)}
    (h : invNormsOk (fun z => z.im.eq 0) (ieeeTests Fmt.f64) (fun z => z.re.abs) r.arr.d1 (List.range r.arr.d1)
      (invInit (r.arr.layer 0)) = true) : r.invG (ieeeTests Fmt.f64) norm = r.invG (ieeeTests Fmt.f64) (fun z => z.re.abs) := by
  unfold FFTRepr.invG
  rw [matrixInvG_norm (P := fun z => z.im.eq 0) (norm := fun z : Cx D => z.re.abs) (norm' := norm) (fun z hz => hN z.re z.im (is_of_eq_zero hz)) h]

namespace Ex

/-- One generator with square 1. -/
def G1 : ClAlg := (declareAlgebra [.plus] []).get rfl
/-- Generators with squares 1 and -1. -/
def G11 : ClAlg := (declareAlgebra [.plus, .minus] []).get rfl
theorem G1_wf : G1.WF := declareAlgebra_wf (sig := [.plus]) (names := []) rfl
theorem G11_wf : G11.WF := declareAlgebra_wf (sig := [.plus, .minus]) (names := []) rfl

/-- A multivector with the given coefficients, rounded. -/
def mvD (A : ClAlg) (l : List ℚ) : MV A (ArrayStorage D) := ⟨⟨A.dim, ⟨2 ^ A.dim, fun i => .round false (l.getD i 0)⟩⟩⟩

/-- The real and imaginary parts of the entries of a representation, row by row; `none` for infinities and NaN. -/
def vals {A : ClAlg} (r : FFTRepr A (Cx D)) : List (Option ℚ × Option ℚ) :=
  (List.range r.arr.d0).flatMap fun l => (List.range r.arr.d1).flatMap fun i => (List.range r.arr.d2).map fun j =>
    ((r.arr.get l i j).re.val?, (r.arr.get l i j).im.val?)

/-- A matrix with real entries. -/
def rl (l : List ℚ) : List (Option ℚ × Option ℚ) := l.map fun x => (some x, some 0)

end Ex

open Ex MV
set_option synthInstance.maxSize 1000

/-- Evaluation of `fft` and `inv` when all numbers looked at are real. -/
theorem fft_inv_real {A : ClAlg} {norm : Cx D → D} (hN : IsHypot norm) {a : MV A (ArrayStorage D)} {u : List (Option ℚ × Option ℚ)}
    {v : Option (List (Option ℚ × Option ℚ))}
    (h : ((a.fft : Res (FFTRepr A (Cx D))).toOption.map fun r => (vals r, invNormsOk (fun z => z.im.eq 0) (ieeeTests Fmt.f64)
      (fun z => z.re.abs) r.arr.d1 (List.range r.arr.d1) (invInit (r.arr.layer 0)),
      (r.invG (ieeeTests Fmt.f64) (fun z => z.re.abs)).map vals)) = some (u, true, v)) :
    ∃ r : FFTRepr A (Cx D), a.fft = .ok r ∧ vals r = u ∧ (r.invG (ieeeTests Fmt.f64) norm).map vals = v := by
  cases hr : (a.fft : Res (FFTRepr A (Cx D))) with
  | error e => rw [hr] at h; simp [Except.toOption] at h
  | ok r =>
    rw [hr] at h
    simp only [Except.toOption, Option.map_some, Option.some.injEq, Prod.mk.injEq] at h
    exact ⟨r, rfl, h.1, by rw [invG_real hN h.2.1]; exact h.2.2⟩

/-- **C92.** With `f64` a zero divisor can have an "inverse": `49 + 49 e0` in the algebra with one generator of square 1, which times
`1 - e0` is zero.  Its representation has all four entries 49, and `inv` gives a matrix with entries of size `2^47`.  (In exact
arithmetic the result is `None`, C36_singular.) -/
theorem C92_singular_false {norm : Cx D → D} (hN : IsHypot norm) :
    ((⟨⟨1, ⟨2, fun _ => 49⟩⟩⟩ : MV G1 (ArrayStorage ℤ)).naiveMulImpl ⟨⟨1, ⟨2, fun i => if i = 0 then 1 else -1⟩⟩⟩ ≈ᵣ MV.default) ∧
    ∃ r : FFTRepr G1 (Cx D), (mvD G1 [49, 49]).fft = .ok r ∧ vals r = rl [49, 49, 49, 49] ∧
      (r.invG (ieeeTests Fmt.f64) norm).map vals = some (rl [9007199254740991 / 64, -9007199254740991 / 64,
        -9007199254740991 / 64, 140737488355328]) :=
  ⟨agree_of_b (is_mul G1_wf ⟨by decide, rfl, rfl⟩ ⟨by decide, rfl, rfl⟩) (Is.zero (show (1 : Nat) ≤ 63 by omega)) (by decide +kernel),
    fft_inv_real hN (by decide +kernel)⟩

/-- **C92.** And an invertible multivector can be rejected: `a = 2^27 + 2^27 e0 + e1` with `e0² = 1`, `e1² = -1`, which times
`2^27 - 2^27 e0 - e1` is 1.  The coefficients of both and of their representations are integers below `2^28`. -/
theorem C92_invertible_false {norm : Cx D → D} (hN : IsHypot norm) :
    ((⟨⟨2, ⟨4, fun i => [2 ^ 27, 2 ^ 27, 1, 0].getD i 0⟩⟩⟩ : MV G11 (ArrayStorage ℤ)).naiveMulImpl
      ⟨⟨2, ⟨4, fun i => [2 ^ 27, -2 ^ 27, -1, 0].getD i 0⟩⟩⟩ ≈ᵣ MV.one) ∧
    ∃ r : FFTRepr G11 (Cx D), (mvD G11 [2 ^ 27, 2 ^ 27, 1, 0]).fft = .ok r ∧
      vals r = rl [134217728, 134217729, 134217727, 134217728] ∧ r.invG (ieeeTests Fmt.f64) norm = none := by
  obtain ⟨r, h1, h2, h3⟩ := fft_inv_real hN (a := mvD G11 [2 ^ 27, 2 ^ 27, 1, 0])
    (u := rl [134217728, 134217729, 134217727, 134217728]) (v := none) (by decide +kernel)
  exact ⟨agree_of_b (is_mul G11_wf ⟨by decide, rfl, rfl⟩ ⟨by decide, rfl, rfl⟩) (Is.one (show (2 : Nat) ≤ 63 by omega)) (by decide +kernel),
    r, h1, h2, Option.map_eq_none_iff.mp h3⟩

/-- **C92.** The scalar `2^600` has the reciprocal `2^-600`, which is an `f64`; but its square is not, and the "inverse" has entries
that are NaN. -/
theorem C92_large_scalar_false {norm : Cx D → D} (hN : IsHypot norm) :
    (Ieee.round false ((2 : ℚ) ^ 600)⁻¹ : D).val? = some ((2 ^ 600)⁻¹) ∧
    ∃ r : FFTRepr G1 (Cx D), (mvD G1 [2 ^ 600, 0]).fft = .ok r ∧ vals r = rl [2 ^ 600, 0, 0, 2 ^ 600] ∧
      (r.invG (ieeeTests Fmt.f64) norm).map vals = some [(none, none), (none, none), (some 0, some 0), (some 0, some 0)] :=
  ⟨by decide +kernel, fft_inv_real hN (by decide +kernel)⟩

/-- **C92.** The scalar `2^-540` has the reciprocal `2^540`, which is an `f64`; but its square is rounded to zero, and no inverse is found. -/
theorem C92_small_scalar_false {norm : Cx D → D} (hN : IsHypot norm) :
    (Ieee.round false ((2 : ℚ) ^ 540) : D).val? = some (2 ^ 540) ∧
    ∃ r : FFTRepr G1 (Cx D), (mvD G1 [(2 ^ 540)⁻¹, 0]).fft = .ok r ∧ vals r = rl [(2 ^ 540)⁻¹, 0, 0, (2 ^ 540)⁻¹] ∧
      r.invG (ieeeTests Fmt.f64) norm = none := by
  refine ⟨by decide +kernel, ?_⟩
  obtain ⟨r, h1, h2, h3⟩ := fft_inv_real hN (a := mvD G1 [(2 ^ 540)⁻¹, 0])
    (u := rl [(2 ^ 540)⁻¹, 0, 0, (2 ^ 540)⁻¹]) (v := none) (by decide +kernel)
  exact ⟨r, h1, h2, Option.map_eq_none_iff.mp h3⟩

/-! ### src/fftrepr/matrix.rs:97-141, minv_test -/

/-- The tests of `matrix_inv` for entries that are `f64` (`norm` is `abs`, src/lib.rs:620-632). -/
def realTests : InvTests D D where
  isZero x := x.eq 0
  isNaN x := !x.eq x
  isZeroNorm x := x.eq 0
  gt := Ieee.gt

/-- The largest entry of `minv * m - 1` for the computed inverse, the product in exact arithmetic; and the largest sum of absolute
values of the terms of an entry of the product.  `none` if there is no inverse or an entry is not finite. -/
def minvErr (l : List ℚ) : Option (ℚ × ℚ) := do
  let m : Arr2 D := ⟨3, 3, fun i j => .round false (l.getD (3 * i + j) 0)⟩
  let w ← matrixInvG realTests Ieee.abs m
  let v ← (List.range 9).mapM fun k => (w.get (k / 3) (k % 3)).val?
  let u ← (List.range 9).mapM fun k => (m.get (k / 3) (k % 3)).val?
  let t := fun i j k => v.getD (3 * i + k) 0 * u.getD (3 * k + j) 0
  let errs := (List.range 9).map fun k =>
    |t (k / 3) (k % 3) 0 + t (k / 3) (k % 3) 1 + t (k / 3) (k % 3) 2 - if k / 3 = k % 3 then 1 else 0|
  let sums := (List.range 9).map fun k => |t (k / 3) (k % 3) 0| + |t (k / 3) (k % 3) 1| + |t (k / 3) (k % 3) 2|
  return (errs.foldl max 0, sums.foldl max 0)

def minvCases : List (List ℚ) := [[1 / 10 ^ 14, 2, 3, 3, 0, 5, 5, 7, 0], [1 / 10 ^ 14, 2, 3, 1 / 10 ^ 15, 1, 5, 5, 7, 0],
    [1, 0, 1000, 0, 1, 0, 1000, 0, 1 / 10 ^ 19], [1, 0, 0, 0, 1, 0, 0, 0, 1 / 10 ^ 19],
    [1 / 10 ^ 16, 0, 0, 0, 1 / 10 ^ 16, 0, 0, 0, 1 / 10 ^ 16],
    [1 / 10 ^ 16, 1 / 10 ^ 16, 1 / 10 ^ 16, 1 / 10 ^ 15, 1 / 10 ^ 13, 1 / 10 ^ 16, 1 / 10 ^ 14, 1 / 10 ^ 16, 1 / 10 ^ 16]]

/-- **C92.** `minv_test` with `f64`: all six inverses are found, and their products with the matrices (in exact arithmetic) differ
from the identity by at most `2^-52`.  The terms of the products are at most 7 in sum, so with any order of summation the rounding
of the products adds less than `10^-14`; the test allows `10^-12`. -/
theorem C92_minv : (minvCases.all fun l => (minvErr l).any fun x => decide (x.1 ≤ 1 / 2 ^ 52 ∧ x.2 ≤ 7)) = true := by
  decide +kernel

/-! ### Examples -/

/-- `|re|` extended by anything is a possible norm. -/
def exNorm (z : Cx D) : D := if z.im.eq 0 then z.re.abs else z.re.abs + z.im.abs
theorem exNorm_hypot : IsHypot exNorm := fun x y hy => by
  have : y.eq 0 = true := by
    unfold Ieee.eq
    rw [show (0 : D).val? = some 0 from Ieee.is_zero, show y.val? = some 0 from hy]
    simp
  simp [exNorm, this]

/-- The diagonal matrix with entries 3 and -1/1024. -/
def exDiag : FFTRepr G1 (Cx D) := ⟨⟨1, 2, 2, fun _ i j => ⟨.round false (if i = j then if i = 0 then 3 else -1 / 1024 else 0), 0⟩⟩⟩

example : ∃ s, exDiag.invG (ieeeTests Fmt.f64) exNorm = some s ∧ s.intoArray3.dims = (1, 2, 2) ∧
    ∀ i < 2, ∀ j < 2, ∃ v, IsR (s.intoArray3.get 0 i j) v ∧
      if i = j then |v * (if i = 0 then 3 else -1 / 1024) - 1| ≤ 3 / 2 ^ 53 else v = 0 :=
  C92_diagonal (c := fun i => if i = 0 then 3 else -1 / 1024) exNorm_hypot rfl
    (by intro i hi; interval_cases i <;> decide +kernel)
    (by intro i hi j hj; unfold IsR Ieee.Is; interval_cases i <;> interval_cases j <;> decide +kernel)

example := C92_singular_false exNorm_hypot
example := C92_invertible_false exNorm_hypot
example := C92_large_scalar_false exNorm_hypot
example := C92_small_scalar_false exNorm_hypot

end TClifford
