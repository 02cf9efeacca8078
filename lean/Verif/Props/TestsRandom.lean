import Verif.Props.TestsDual
import Verif.Props.VdotRound
import Verif.Props.FFTExpF
import Verif.Props.Involutions
import Verif.Props.Exterior
import Verif.Props.FloatComplex
/-
C87, assertions of the tests about random multivectors. The crate draws coefficients with `rand::random()`, that is from
`[0, 1)`; here they are any finite doubles of absolute value at most 1, and all operations round.
-/

set_option linter.unusedSectionVars false

namespace TClifford

open MV Finset FloatModel

section
variable {A : ClAlg} {S : Type} [CoeffStorage S F64] [LawfulStorage S F64] {S' : Type} [CoeffStorage S' ℝ] [LawfulStorage S' ℝ]

/-- Finite coefficients of absolute value at most 1. -/
def MV.UnitR (a : MV A S) : Prop := ∀ i < 2 ^ A.dim, ∃ c, a.getByIdx i = .ok c ∧ fin c ∧ |re c| ≤ 1

theorem flt_lt {x y : F64} (hx : fin x) (hy : fin y) (h : re x < re y) : x < y := by
  cases x with
  | nonFinite => exact absurd rfl hx
  | num x =>
    cases y with
    | nonFinite => exact absurd rfl hy
    | num y =>
      show decide (x.1 < y.1) = true
      have h' : ((x.1 : ℚ) : ℝ) < ((y.1 : ℚ) : ℝ) := h
      exact decide_eq_true (by exact_mod_cast h')

theorem fin_abs {x : F64} (hx : fin x) : fin x.abs ∧ re x.abs = |re x| := by
  obtain ⟨h1, h2⟩ := Flt.abs_ok hx
  refine ⟨h1, ?_⟩
  show ((x.abs.toRat : ℚ) : ℝ) = |((x.toRat : ℚ) : ℝ)|
  rw [h2, Rat.cast_abs]

theorem big_f64 : (2 : ℝ) ^ 500 ≤ Ω F64 := by
  have := Ex.ok64 (l := 0) (b := 2 ^ 500) (by norm_num) (pow_le_pow_right₀ (by norm_num) (by norm_num))
  rwa [pow_zero, one_mul] at this

/-- The difference of two doubles that are close. -/
theorem sub_close {x y : F64} (hx : fin x) (hy : fin y) {d : ℝ} (h : |re x - re y| ≤ d) (hd : d ≤ 1) :
    fin (x - y) ∧ |re (x - y)| ≤ (1 + 1 / 2 ^ 53) * d := by
  have hb : |re x - re y| ≤ Ω F64 := (h.trans hd).trans (le_trans (one_le_pow₀ (by norm_num)) big_f64)
  obtain ⟨h1, h2⟩ := FloatModel.sub_ok hx hy hb
  refine ⟨h1, ?_⟩
  have hu : u F64 = 1 / 2 ^ 53 := C69_f64.1
  rw [hu] at h2
  have h3 := abs_sub_abs_le_abs_sub (re (x - y)) (re x - re y)
  nlinarith

/-- `approx_eq` for `f64`. -/
theorem approxEq_f64 {a b : MV A S} (ha : a.Valid) (hb : b.Valid) {d : ℝ} (hd : d ≤ 1) {eps : F64} (hε : fin eps)
    (hde : (1 + 1 / 2 ^ 53) * d < re eps)
    (h : ∀ k < 2 ^ A.dim, fin (a.val k) ∧ fin (b.val k) ∧ |re (a.val k) - re (b.val k)| ≤ d) :
    a.approxEq Flt.abs b eps = .ok true := by
  obtain ⟨r, e, hr, hv⟩ := sub_denotes ha hb
  unfold approxEq
  rw [e]
  show Except.ok _ = Except.ok true
  congr 1
  rw [List.all_eq_true]
  intro p hp
  obtain ⟨h1, h2⟩ := LawfulStorage.enum_mem hr hp
  obtain ⟨g1, g2, g3⟩ := h p.1 h1
  rw [decide_eq_true_eq, h2]
  have h3 : LawfulStorage.val r.coeffs p.1 = a.val p.1 - b.val p.1 := hv p.1 h1
  rw [h3]
  obtain ⟨k1, k2⟩ := sub_close g1 g2 g3 hd
  obtain ⟨j1, j2⟩ := fin_abs k1
  exact flt_lt j1 hε (by rw [j2]; linarith)

/-- Two computations close to the same exact result are accepted by `approx_eq`. -/
theorem NearR.approx {p p' : Res (MV A S)} {q q' : Res (MV A S')} {ε ε' : ℝ} (h : NearR p q (fun _ _ => True) (fun _ _ => ε))
    (h' : NearR p' q' (fun _ _ => True) (fun _ _ => ε')) (hq : q ≈ᵣ q') {eps : F64} (hε : fin eps) (h1 : ε + ε' ≤ 1)
    (hde : (1 + 1 / 2 ^ 53) * (ε + ε') < re eps) :
    (do (← p).approxEq Flt.abs (← p') eps) = .ok true := by
  obtain ⟨r, s, z, w, rfl, rfl, vr, vs, cz, cw, g⟩ := h
  obtain ⟨r', s', z', w', rfl, rfl, vr', vs', cz', cw', g'⟩ := h'
  obtain ⟨t, t', e1, e2, -, -, hb⟩ := hq
  injection e1 with e1
  injection e2 with e2
  subst e1 e2
  refine approxEq_f64 vr vr' h1 hε hde fun k hk => ?_
  have e3 := (beq_iff vs vs').mp hb k hk
  rw [cw.val vs hk, cw'.val vs' hk] at e3
  rw [cz.val vr hk, cz'.val vr' hk]
  obtain ⟨f1, f2⟩ := g k hk trivial
  obtain ⟨f3, f4⟩ := g' k hk trivial
  refine ⟨f1, f3, ?_⟩
  beta_reduce at f2 f4
  rw [← e3] at f4
  have := abs_sub_le (re (z k)) (w k) (re (z' k))
  rw [abs_sub_comm (w k)] at this
  linarith

theorem NearR.refl_exact {p : Res (MV A S)} {q : Res (MV A S')} {P ε} (h : NearR p q P ε) : q ≈ᵣ q := by
  obtain ⟨r, s, z, w, -, e, -, vs, -⟩ := h
  exact ⟨s, s, e, e, vs, vs, (beq_iff vs vs).mpr fun _ _ => rfl⟩

/-- A multivector with coefficients of absolute value at most 1, and the same real numbers. -/
theorem unit_same {a : MV A S} (ha : a.Valid) (hd : A.dim ≤ 63)
    (h : a.UnitR) :
    ∃ a' : MV A (ArrayStorage ℝ), SameValues a a' a.val ∧ normOne A.dim a.val ≤ 2 ^ A.dim := by
  have h' : ∀ i < 2 ^ A.dim, fin (a.val i) ∧ |re (a.val i)| ≤ 1 := by
    intro i hi
    obtain ⟨c, e, hc⟩ := h i hi
    rw [ha.get hi] at e
    injection e with e
    rw [e]; exact hc
  have hv : (⟨⟨A.dim, ⟨2 ^ A.dim, fun i => re (a.val i)⟩⟩⟩ : MV A (ArrayStorage ℝ)).Valid := ⟨hd, rfl, rfl⟩
  refine ⟨⟨⟨A.dim, ⟨2 ^ A.dim, fun i => re (a.val i)⟩⟩⟩, ⟨ha, hv, Denotes.coefs ⟨a, rfl, ha, fun _ _ => rfl⟩,
    Denotes.coefs ⟨_, rfl, hv, fun i hi => if_pos hi⟩, fun i hi => (h' i hi).1⟩, ?_⟩
  unfold normOne
  refine (sum_le_sum fun i hi => (h' i (mem_range.mp hi)).2).trans ?_
  simp

end

section
variable {A : ClAlg} {S : Type} [CoeffStorage S (Cx F64)] [LawfulStorage S (Cx F64)] {S' : Type} [CoeffStorage S' ℂ] [LawfulStorage S' ℂ]

/-- Coefficients with finite parts of absolute value at most 1. -/
def MV.UnitC (a : MV A S) : Prop := ∀ i < 2 ^ A.dim, ∃ c, a.getByIdx i = .ok c ∧ (fin c.re ∧ |re c.re| ≤ 1) ∧ (fin c.im ∧ |re c.im| ≤ 1)

/-- `approx_eq` for `Complex64`, `hyp` being `hypot`. -/
theorem approxEq_c64 {hyp : F64 → F64 → F64} (hh : HypotOk hyp) {a b : MV A S} (ha : a.Valid) (hb : b.Valid) {d : ℝ} (hd : d ≤ 1) {eps : F64}
    (hε : fin eps) (hde : (1 + 1 / 2 ^ 49) * d + 1 / 2 ^ 50 < re eps)
    (h : ∀ k < 2 ^ A.dim, (fin (a.val k).re ∧ fin (a.val k).im) ∧ (fin (b.val k).re ∧ fin (b.val k).im) ∧
      |re (a.val k).re - re (b.val k).re| + |re (a.val k).im - re (b.val k).im| ≤ d) :
    a.approxEq (fun z : Cx F64 => hyp z.re z.im) b eps = .ok true := by
  obtain ⟨r, e, hr, hv⟩ := sub_denotes ha hb
  unfold approxEq
  rw [e]
  show Except.ok _ = Except.ok true
  congr 1
  rw [List.all_eq_true]
  intro p hp
  obtain ⟨h1, h2⟩ := LawfulStorage.enum_mem hr hp
  obtain ⟨⟨f1, f2⟩, ⟨f3, f4⟩, g3⟩ := h p.1 h1
  rw [decide_eq_true_eq, h2]
  have h3 : LawfulStorage.val r.coeffs p.1 = a.val p.1 - b.val p.1 := hv p.1 h1
  rw [h3]
  have n1 := abs_nonneg (re (a.val p.1).re - re (b.val p.1).re)
  have n2 := abs_nonneg (re (a.val p.1).im - re (b.val p.1).im)
  obtain ⟨k1, k2⟩ := sub_close f1 f3 le_rfl (by linarith)
  obtain ⟨j1, j2⟩ := sub_close f2 f4 le_rfl (by linarith)
  have hs : |re (a.val p.1 - b.val p.1).re| + |re (a.val p.1 - b.val p.1).im| ≤ (1 + 1 / 2 ^ 53) * d := by
    refine (add_le_add k2 j2).trans ?_
    rw [← mul_add]
    exact mul_le_mul_of_nonneg_left g3 (by norm_num)
  have hd0 : 0 ≤ d := by linarith
  have hbig : (1 + 1 / 2 ^ 53) * d ≤ (2 : ℝ) ^ 500 :=
    le_trans (by linarith) (pow_le_pow_right₀ (by norm_num) (show 1 ≤ 500 by norm_num) |>.trans' (by norm_num : (2 : ℝ) ≤ 2 ^ 1))
  obtain ⟨l1, -, l3⟩ := HypotOk.le hh (v := a.val p.1 - b.val p.1) ⟨k1, j1⟩ hs hbig
  refine flt_lt l1 hε (lt_of_le_of_lt l3 (lt_of_le_of_lt ?_ hde))
  have : (1 + 1 / 2 ^ 50 : ℝ) * ((1 + 1 / 2 ^ 53) * d) ≤ (1 + 1 / 2 ^ 49) * d := by
    rw [← mul_assoc]
    exact mul_le_mul_of_nonneg_right (by norm_num) hd0
  linarith

/-- Two computations close to the same exact result are accepted by `approx_eq`. -/
theorem NearC.approx {hyp : F64 → F64 → F64} (hh : HypotOk hyp) {p p' : Res (MV A S)} {q q' : Res (MV A S')} {ε ε' : ℝ} (h : NearC p q ε)
    (h' : NearC p' q' ε') (hq : q ≈ᵣ q') {eps : F64} (hε : fin eps) (h1 : ε + ε' ≤ 1)
    (hde : (1 + 1 / 2 ^ 49) * (ε + ε') + 1 / 2 ^ 50 < re eps) :
    (do (← p).approxEq (fun z : Cx F64 => hyp z.re z.im) (← p') eps) = .ok true := by
  obtain ⟨r, s, z, w, rfl, rfl, vr, vs, cz, cw, g⟩ := h
  obtain ⟨r', s', z', w', rfl, rfl, vr', vs', cz', cw', g'⟩ := h'
  obtain ⟨t, t', e1, e2, -, -, hb⟩ := hq
  injection e1 with e1
  injection e2 with e2
  subst e1 e2
  refine approxEq_c64 hh vr vr' h1 hε hde fun k hk => ?_
  have e3 := (beq_iff vs vs').mp hb k hk
  rw [cw.val vs hk, cw'.val vs' hk] at e3
  rw [cz.val vr hk, cz'.val vr' hk]
  obtain ⟨f1, f2, f3⟩ := g k hk
  obtain ⟨f4, f5, f6⟩ := g' k hk
  refine ⟨⟨f1, f2⟩, ⟨f4, f5⟩, ?_⟩
  rw [← e3] at f6
  have k1 := abs_sub_le (re (z k).re) (w k).re (re (z' k).re)
  have k2 := abs_sub_le (re (z k).im) (w k).im (re (z' k).im)
  rw [abs_sub_comm (w k).re] at k1
  rw [abs_sub_comm (w k).im] at k2
  linarith

theorem NearC.refl_exact {p : Res (MV A S)} {q : Res (MV A S')} {ε} (h : NearC p q ε) : q ≈ᵣ q := by
  obtain ⟨r, s, z, w, -, e, -, vs, -⟩ := h
  exact ⟨s, s, e, e, vs, vs, (beq_iff vs vs).mpr fun _ _ => rfl⟩

/-- A multivector with parts of coefficients of absolute value at most 1, and the same complex numbers. -/
theorem unit_sameC {a : MV A S} (ha : a.Valid) (hd : A.dim ≤ 63)
    (h : a.UnitC) :
    ∃ a' : MV A (ArrayStorage ℂ), SameValuesC a a' a.val ∧ normC A.dim a.val ≤ 2 * 2 ^ A.dim := by
  have h' : ∀ i < 2 ^ A.dim, (fin (a.val i).re ∧ |re (a.val i).re| ≤ 1) ∧ (fin (a.val i).im ∧ |re (a.val i).im| ≤ 1) := by
    intro i hi
    obtain ⟨c, e, hc⟩ := h i hi
    rw [ha.get hi] at e
    injection e with e
    rw [e]; exact hc
  have hv : (⟨⟨A.dim, ⟨2 ^ A.dim, fun i => (⟨re (a.val i).re, re (a.val i).im⟩ : ℂ)⟩⟩⟩ : MV A (ArrayStorage ℂ)).Valid := ⟨hd, rfl, rfl⟩
  refine ⟨⟨⟨A.dim, ⟨2 ^ A.dim, fun i => (⟨re (a.val i).re, re (a.val i).im⟩ : ℂ)⟩⟩⟩, ⟨ha, hv, Denotes.coefs ⟨a, rfl, ha, fun _ _ => rfl⟩,
    Denotes.coefs ⟨_, rfl, hv, fun i hi => if_pos hi⟩, fun i hi => ⟨(h' i hi).1.1, (h' i hi).2.1⟩⟩, ?_⟩
  unfold normC
  refine (sum_le_sum (g := fun _ => (2 : ℝ)) fun i hi => ?_).trans ?_
  · have := h' i (mem_range.mp hi)
    linarith [this.1.2, this.2.2]
  · simp [mul_comm]

end

theorem uflow64 : Cx.uflow F64 = 1 / 2 ^ 1020 := by
  obtain ⟨cu, cη, -⟩ := C69_f64
  unfold Cx.uflow
  rw [cu, cη, show (1075 : ℕ) = 1020 + 55 from rfl, pow_add]
  field_simp
  norm_num

theorem tiny_pow {c : ℝ} (h : c ≤ 2 ^ 100) : c * (1 / 2 ^ 1020 : ℝ) ≤ 1 / 2 ^ 100 := by
  rw [show (1020 : ℕ) = 100 + 920 from rfl, pow_add, mul_one_div, div_le_div_iff₀ (by positivity) (by positivity)]
  have h1 : (2 : ℝ) ^ 100 ≤ 2 ^ 920 := pow_le_pow_right₀ (by norm_num) (by norm_num)
  have h0 : (0 : ℝ) < 2 ^ 100 := by positivity
  generalize (2 : ℝ) ^ 920 = w at *
  nlinarith

theorem pow_u {L n : Nat} (h : L ≤ n) : (1 + u F64) ^ L ≤ (1 + 1 / 2 ^ 53 : ℝ) ^ n := by
  rw [C69_f64.1]
  exact pow_le_pow_right₀ (by norm_num) h

theorem le_big {b : ℝ} (h : b ≤ 2 ^ 100) : b ≤ 2 ^ 1000 := h.trans (pow_le_pow_right₀ (by norm_num) (by norm_num))

theorem eps12 : fin (Flt.ofRat (1 / 10 ^ 12) : F64) ∧ (999 / 1000 : ℝ) / 10 ^ 12 < re (Flt.ofRat (1 / 10 ^ 12) : F64) := by
  refine ⟨show _ ≠ _ by decide +kernel, ?_⟩
  have h : (999 / 1000 : ℚ) / 10 ^ 12 < (Flt.ofRat (1 / 10 ^ 12) : F64).toRat := by decide +kernel
  show (999 / 1000 : ℝ) / 10 ^ 12 < ((Flt.ofRat (1 / 10 ^ 12) : F64).toRat : ℝ)
  exact lt_of_eq_of_lt (by norm_num) (Rat.cast_lt.mpr h)

theorem eps10 : fin (Flt.ofRat (1 / 10 ^ 10) : F64) ∧ (999 / 1000 : ℝ) / 10 ^ 10 < re (Flt.ofRat (1 / 10 ^ 10) : F64) := by
  refine ⟨show _ ≠ _ by decide +kernel, ?_⟩
  have h : (999 / 1000 : ℚ) / 10 ^ 10 < (Flt.ofRat (1 / 10 ^ 10) : F64).toRat := by decide +kernel
  show (999 / 1000 : ℝ) / 10 ^ 10 < ((Flt.ofRat (1 / 10 ^ 10) : F64).toRat : ℝ)
  exact lt_of_eq_of_lt (by norm_num) (Rat.cast_lt.mpr h)

section
variable {A : ClAlg}

/-- **C87, `fast_wedge_test`**, src/mv_dense.rs:222-256, on random inputs: in every algebra of dimension at most 6, not only
`[+, +, +, +, +, +]`, `a.naive_mul_impl(&(&b + &c))` and `(a.fft() * (&b.fft() + &c.fft())).ifft()` agree within `1e-10`. -/
theorem C87_random_fast_wedge (hA : A.WF) (hd : A.dim ≤ 6) {a b c : MV A (ArrayStorage F64)} (ha : a.Valid) (hb : b.Valid) (hc : c.Valid)
    (ua : a.UnitR) (ub : b.UnitR) (uc : c.UnitR) :
    (do
      let s ← b.add c
      let m ← a.naiveMulImpl s
      let x ← (a.fft : Res (FFTRepr A (Cx F64)))
      let y ← (b.fft : Res (FFTRepr A (Cx F64)))
      let z ← (c.fft : Res (FFTRepr A (Cx F64)))
      let t ← y.add z
      let p ← x.mul t
      let mf ← (p.ifft : Res (MV A (ArrayStorage F64)))
      m.approxEq Flt.abs mf (Flt.ofRat (1 / 10 ^ 10))) = .ok true := by
  obtain ⟨a', sa, na⟩ := unit_same ha (by omega) ua
  obtain ⟨b', sb, nb⟩ := unit_same hb (by omega) ub
  obtain ⟨c', sc, nc⟩ := unit_same hc (by omega) uc
  obtain ⟨cu, cη, -⟩ := C69_f64
  have h64 : (2 : ℝ) ^ A.dim ≤ 64 := (pow_le_pow_right₀ (by norm_num) hd).trans (by norm_num)
  have h64' : 2 ^ A.dim ≤ 64 := (Nat.pow_le_pow_right (by norm_num) hd).trans (by norm_num)
  let ρ : Nat → MV A (ArrayStorage F64) := fun i => if i = 0 then a else if i = 1 then b else c
  let ρ' : Nat → MV A (ArrayStorage ℝ) := fun i => if i = 0 then a' else if i = 1 then b' else c'
  let x : Nat → Nat → F64 := fun i => if i = 0 then a.val else if i = 1 then b.val else c.val
  have hρ : ∀ i, SameValues (ρ i) (ρ' i) (x i) := by
    intro i
    simp only [ρ, ρ', x]
    split
    · exact sa
    split
    · exact sb
    exact sc
  have hl : ∀ i, normOne A.dim (x i) ≤ (fun _ : Nat => (64 : ℝ)) i := by
    intro i
    simp only [x]
    split
    · exact na.trans h64
    split
    · exact nb.trans h64
    exact nc.trans h64
  have hηu : (η F64 / u F64 : ℝ) = 1 / 4 * (1 / 2 ^ 1020) := by
    rw [← uflow64]; unfold Cx.uflow; ring
  have hh : A.half ≤ 3 ∧ 5 * A.half + 3 + 2 ^ A.half + A.projDim ≤ 27 ∧ A.projDim ≤ 6 := by
    have h1 : A.nn + A.projDim = A.dim := hA.dims
    have h2 : A.half = (A.nn + 1) / 2 := rfl
    have h3 : A.half ≤ 3 := by omega
    refine ⟨h3, ?_, by omega⟩
    generalize A.half = h at *
    interval_cases h <;> norm_num <;> omega
  have t1 : (4 : ℝ) ^ A.dim * (η F64 / u F64) ≤ 1 / 2 ^ 100 := by
    rw [hηu, ← mul_assoc]
    refine tiny_pow ((mul_le_mul_of_nonneg_right (pow_le_pow_right₀ (by norm_num) hd) (by norm_num)).trans (by norm_num))
  have t2 : (3 : ℝ) ^ A.projDim * (2 ^ A.half * (2 ^ A.half * Cx.uflow F64)) ≤ 1 / 2 ^ 100 := by
    rw [uflow64, ← mul_assoc ((2 : ℝ) ^ A.half), ← mul_assoc]
    refine tiny_pow ?_
    have k1 : (3 : ℝ) ^ A.projDim ≤ 3 ^ 6 := pow_le_pow_right₀ (by norm_num) hh.2.2
    have k2 : (2 : ℝ) ^ A.half ≤ 2 ^ 3 := pow_le_pow_right₀ (by norm_num) hh.1
    exact (mul_le_mul k1 (mul_le_mul k2 k2 (by positivity) (by positivity)) (by positivity) (by positivity)).trans (by norm_num)
  have t3 : (A.half : ℝ) * Cx.uflow F64 ≤ 1 / 2 ^ 100 := by
    rw [uflow64]
    refine tiny_pow (le_trans (show (A.half : ℝ) ≤ 3 by exact_mod_cast hh.1) (by norm_num))
  have p0 : (0 : ℝ) ≤ 4 ^ A.dim * (η F64 / u F64) := by rw [hηu]; positivity
  have p1 : (0 : ℝ) ≤ 3 ^ A.projDim * (2 ^ A.half * (2 ^ A.half * Cx.uflow F64)) := by
    have := Cx.uflow_nonneg (F := F64); positivity
  have p2 : (0 : ℝ) ≤ A.half * Cx.uflow F64 := mul_nonneg (Nat.cast_nonneg _) Cx.uflow_nonneg
  have key1 := C70_expression (F := F64) hA (by rw [cu]; positivity) hρ hl (.mul (.X 0) (.add (.X 1) (.X 2))) rfl rfl rfl (by
    simp only [GExpr.Within, GExpr.size, GExpr.level]
    refine ⟨trivial, ⟨trivial, trivial, ?_⟩, ?_⟩
    · exact Ex.ok64 (by norm_num) (le_big (by norm_num))
    · exact Ex.ok64 (by omega) (le_big (by norm_num at t1 ⊢; linarith)))
  have key2 := C79_expression (F := F64) hA (by omega) Ex.four_le (by rw [cu]; positivity) (by have := Ex.four_le; linarith) hρ hl
    (.mul (.X 0) (.add (.X 1) (.X 2))) rfl rfl rfl (by
    simp only [FExpr.Fits, FExpr.size, FExpr.level]
    have : 2 ^ A.half ≤ 8 := (Nat.pow_le_pow_right (by norm_num) hh.1).trans (by norm_num)
    refine ⟨?_, ⟨?_, ?_, ?_⟩, ?_⟩
    · exact Ex.ok64 (by omega) (le_big (by norm_num))
    · exact Ex.ok64 (by omega) (le_big (by norm_num))
    · exact Ex.ok64 (by omega) (le_big (by norm_num))
    · exact Ex.ok64 (by omega) (le_big (by norm_num))
    · exact Ex.ok64 (by omega) (le_big (by norm_num at t2 ⊢; linarith)))
    (by
      simp only [FExpr.size, FExpr.level]
      exact Ex.ok64 (by omega) (le_big (by norm_num at t2 t3 ⊢; linarith)))
    (by
      simp only [FExpr.size, FExpr.level]
      exact Ex.ok64 (by omega) (le_big (by norm_num at t2 t3 ⊢; linarith)))
  have c1 : ConvModel.cu F64 F64 = 0 := rfl
  have c2 : ConvModel.cη F64 F64 = 0 := rfl
  simp only [GExpr.size, GExpr.level, FExpr.size, FExpr.level, c1, c2, max_self] at key1 key2
  generalize (4 : ℝ) ^ A.dim * (η F64 / u F64) = E1 at *
  generalize (3 : ℝ) ^ A.projDim * (2 ^ A.half * (2 ^ A.half * Cx.uflow F64)) = E2 at *
  generalize (A.half : ℝ) * Cx.uflow F64 = E3 at *
  have b1 := pow_u (L := 0 + (0 + 1) + 2 ^ A.dim + 1) (n := 66) (by omega)
  have b2 := pow_u (L := A.half + (A.half + 1) + 2 + 2 ^ A.half + A.projDim + 3 * A.half) (n := 27) (by omega)
  have n1 := one_le_pow₀ (one_le_one_add_u (F := F64)) (n := 0 + (0 + 1) + 2 ^ A.dim + 1)
  have n2 := one_le_pow₀ (one_le_one_add_u (F := F64)) (n := A.half + (A.half + 1) + 2 + 2 ^ A.half + A.projDim + 3 * A.half)
  generalize (1 + u F64) ^ (0 + (0 + 1) + 2 ^ A.dim + 1) = w1 at *
  generalize (1 + u F64) ^ (A.half + (A.half + 1) + 2 + 2 ^ A.half + A.projDim + 3 * A.half) = w2 at *
  have q1 : (w1 - 1) * (64 * (64 + 64) + E1) ≤ 61 / 10 ^ 12 := by
    have : (w1 - 1) * (64 * (64 + 64) + E1) ≤ ((1 + 1 / 2 ^ 53 : ℝ) ^ 66 - 1) * (64 * (64 + 64) + 1 / 2 ^ 100) :=
      mul_le_mul (by linarith) (by linarith) (by linarith) (by norm_num)
    exact this.trans (by norm_num)
  have q2 : (w2 - 1) * (64 * (64 + 64) + E2 + E3) + (0 * (w2 * (64 * (64 + 64) + E2 + E3)) + 0) ≤ 25 / 10 ^ 12 := by
    have : (w2 - 1) * (64 * (64 + 64) + E2 + E3) ≤ ((1 + 1 / 2 ^ 53 : ℝ) ^ 27 - 1) * (64 * (64 + 64) + 1 / 2 ^ 100 + 1 / 2 ^ 100) :=
      mul_le_mul (by linarith) (by linarith) (by linarith) (by norm_num)
    refine le_trans ?_ (this.trans (by norm_num))
    linarith
  obtain ⟨e1, e2⟩ := eps10
  have := NearR.approx key1 key2 ?_ e1 (by norm_num at q1 q2 ⊢; linarith) (by norm_num at q1 q2 e2 ⊢; linarith)
  · simp only [GExpr.eval, FExpr.viaFFT, FExpr.evalFFT, bind_assoc] at this
    exact this
  · exact NearR.refl_exact key1

/-- **C87, `vee_test`**, tests/unit.rs:386-401, on random inputs: in every algebra of dimension at most 3, not only `[+, +, +]`, `meet`
and `naive_meet_impl` agree with the wedge of the duals, undualised, within `1e-12`, and so do the duals. -/
theorem C87_random_vee {hyp : F64 → F64 → F64} (hh : HypotOk hyp) (hA : A.WF) (hd : A.dim ≤ 3) {a b : MV A (ArrayStorage (Cx F64))}
    (ha : a.Valid) (hb : b.Valid) (ua : a.UnitC) (ub : b.UnitC) :
    (do
      let m ← a.naiveMeetImpl b
      let x ← a.dual
      let y ← b.dual
      let w ← x.wedge y
      let v ← w.undual
      m.approxEq (fun z : Cx F64 => hyp z.re z.im) v (Flt.ofRat (1 / 10 ^ 12))) = .ok true ∧
    (do
      let m ← a.meet b
      let x ← a.dual
      let y ← b.dual
      let w ← x.wedge y
      let v ← w.undual
      m.approxEq (fun z : Cx F64 => hyp z.re z.im) v (Flt.ofRat (1 / 10 ^ 12))) = .ok true ∧
    (do
      let m ← a.meet b
      let d ← m.dual
      let x ← a.dual
      let y ← b.dual
      let w ← x.wedge y
      d.approxEq (fun z : Cx F64 => hyp z.re z.im) w (Flt.ofRat (1 / 10 ^ 12))) = .ok true := by
  obtain ⟨a', sa, na⟩ := unit_sameC ha (by omega) ua
  obtain ⟨b', sb, nb⟩ := unit_sameC hb (by omega) ub
  obtain ⟨cu, cη, -⟩ := C69_f64
  have h8 : (2 : ℝ) * 2 ^ A.dim ≤ 16 := (mul_le_mul_of_nonneg_left (pow_le_pow_right₀ (by norm_num) hd) (by norm_num)).trans (by norm_num)
  have h8' : 2 ^ A.dim ≤ 8 := (Nat.pow_le_pow_right (by norm_num) hd).trans (by norm_num)
  let ρ : Nat → MV A (ArrayStorage (Cx F64)) := fun i => if i = 0 then a else b
  let ρ' : Nat → MV A (ArrayStorage ℂ) := fun i => if i = 0 then a' else b'
  let x : Nat → Nat → Cx F64 := fun i => if i = 0 then a.val else b.val
  have hρ : ∀ i, SameValuesC (ρ i) (ρ' i) (x i) := by
    intro i
    simp only [ρ, ρ', x]
    split
    · exact sa
    exact sb
  have hl : ∀ i, normC A.dim (x i) ≤ (fun _ : Nat => (16 : ℝ)) i := by
    intro i
    simp only [x]
    split
    · exact na.trans h8
    exact nb.trans h8
  have hηu : (4 * η F64 / u F64 : ℝ) = 1 / 2 ^ 1020 := uflow64
  have t1 : (4 : ℝ) ^ A.dim * (4 * η F64 / u F64) ≤ 1 / 2 ^ 100 := by
    rw [hηu]
    exact tiny_pow ((pow_le_pow_right₀ (by norm_num) hd).trans (by norm_num))
  have p0 : (0 : ℝ) ≤ 4 ^ A.dim * (4 * η F64 / u F64) := by rw [hηu]; positivity
  have hu0 : 0 < u F64 := by rw [cu]; positivity
  have key1 := C99_expression (F := F64) hA Ex.four_le hu0 hρ hl (.meet (.X 0) (.X 1)) rfl rfl rfl (by
    simp only [GExpr.Within, GExpr.size, GExpr.level]
    exact ⟨trivial, trivial, Ex.ok64 (by omega) (le_big (by norm_num at t1 ⊢; linarith))⟩)
  have key2 := C99_expression (F := F64) hA Ex.four_le hu0 hρ hl (.undual (.wedge (.dual (.X 0)) (.dual (.X 1)))) rfl rfl rfl (by
    simp only [GExpr.Within, GExpr.size, GExpr.level]
    exact ⟨trivial, trivial, Ex.ok64 (by omega) (le_big (by norm_num at t1 ⊢; linarith))⟩)
  have key3 := C99_expression (F := F64) hA Ex.four_le hu0 hρ hl (.dual (.meet (.X 0) (.X 1))) rfl rfl rfl (by
    simp only [GExpr.Within, GExpr.size, GExpr.level]
    exact ⟨trivial, trivial, Ex.ok64 (by omega) (le_big (by norm_num at t1 ⊢; linarith))⟩)
  have key4 := C99_expression (F := F64) hA Ex.four_le hu0 hρ hl (.wedge (.dual (.X 0)) (.dual (.X 1))) rfl rfl rfl (by
    simp only [GExpr.Within, GExpr.size, GExpr.level]
    exact ⟨trivial, trivial, Ex.ok64 (by omega) (le_big (by norm_num at t1 ⊢; linarith))⟩)
  simp only [GExpr.size, GExpr.level] at key1 key2 key3 key4
  generalize (4 : ℝ) ^ A.dim * (4 * η F64 / u F64) = E1 at *
  have b1 := pow_u (L := 0 + 0 + (2 ^ A.dim + 1) + 1) (n := 10) (by omega)
  have n1 := one_le_pow₀ (one_le_one_add_u (F := F64)) (n := 0 + 0 + (2 ^ A.dim + 1) + 1)
  generalize (1 + u F64) ^ (0 + 0 + (2 ^ A.dim + 1) + 1) = w1 at *
  have q1 : (w1 - 1) * (16 * 16 + E1) ≤ 3 / 10 ^ 13 := by
    have : (w1 - 1) * (16 * 16 + E1) ≤ ((1 + 1 / 2 ^ 53 : ℝ) ^ 10 - 1) * (16 * 16 + 1 / 2 ^ 100) :=
      mul_le_mul (by linarith) (by linarith) (by linarith) (by norm_num)
    exact this.trans (by norm_num)
  obtain ⟨e1, e2⟩ := eps12
  have r1 := NearC.approx hh key1 key2 (by
    have h := C10_meet hA sa.valid' sb.valid'
    simp only [GExpr.eval, bind_assoc]
    exact h) e1 (by norm_num at q1 ⊢; linarith) (by norm_num at q1 e2 ⊢; linarith)
  have r2 := NearC.approx hh key3 key4 (by
    have h := C10_meet_dual hA sa.valid' sb.valid'
    simp only [GExpr.eval, bind_assoc]
    exact h) e1 (by norm_num at q1 ⊢; linarith) (by norm_num at q1 e2 ⊢; linarith)
  simp only [GExpr.eval, bind_assoc] at r1 r2
  refine ⟨?_, r1, r2⟩
  have hm : a.meet b = a.naiveMeetImpl b := if_pos (by omega)
  rw [← hm]
  exact r1

/-- **C87, `fft_repr_test`**, tests/unit.rs:173-190, on random inputs: in every algebra of dimension at most 8, reversion and grade
involution of the transform, once and twice, transform back to the result for multivectors within `1e-12`. -/
theorem C87_random_automorphisms {hyp : F64 → F64 → F64} (hh : HypotOk hyp) (hA : A.WF) (hd : A.dim ≤ 8) {a : MV A (ArrayStorage (Cx F64))}
    (ha : a.Valid) (ua : a.UnitC) :
    (do
      let x ← (a.fft : Res (FFTRepr A (Cx F64)))
      let y ← x.rev
      let m ← (y.ifft : Res (MV A (ArrayStorage (Cx F64))))
      let r ← a.rev
      m.approxEq (fun z : Cx F64 => hyp z.re z.im) r (Flt.ofRat (1 / 10 ^ 12))) = .ok true ∧
    (do
      let x ← (a.fft : Res (FFTRepr A (Cx F64)))
      let y ← x.rev
      let z ← y.rev
      let m ← (z.ifft : Res (MV A (ArrayStorage (Cx F64))))
      m.approxEq (fun z : Cx F64 => hyp z.re z.im) a (Flt.ofRat (1 / 10 ^ 12))) = .ok true ∧
    (do
      let x ← (a.fft : Res (FFTRepr A (Cx F64)))
      let m ← (x.flip.ifft : Res (MV A (ArrayStorage (Cx F64))))
      let r ← a.flip
      m.approxEq (fun z : Cx F64 => hyp z.re z.im) r (Flt.ofRat (1 / 10 ^ 12))) = .ok true ∧
    (do
      let x ← (a.fft : Res (FFTRepr A (Cx F64)))
      let m ← (x.flip.flip.ifft : Res (MV A (ArrayStorage (Cx F64))))
      m.approxEq (fun z : Cx F64 => hyp z.re z.im) a (Flt.ofRat (1 / 10 ^ 12))) = .ok true := by
  obtain ⟨a', sa, na⟩ := unit_sameC ha (by omega) ua
  obtain ⟨cu, cη, -⟩ := C69_f64
  have hl : normC A.dim a.val ≤ 512 :=
    na.trans ((mul_le_mul_of_nonneg_left (pow_le_pow_right₀ (by norm_num) hd) (by norm_num)).trans (by norm_num))
  have h4 : A.half ≤ 4 := by
    have h1 : A.nn + A.projDim = A.dim := hA.dims
    have h2 : A.half = (A.nn + 1) / 2 := rfl
    omega
  have hu0 : 0 < u F64 := by rw [cu]; positivity
  have t3 : (A.half : ℝ) * Cx.uflow F64 ≤ 1 / 2 ^ 100 := by
    rw [uflow64]
    refine tiny_pow (le_trans (show (A.half : ℝ) ≤ 4 by exact_mod_cast h4) (by norm_num))
  have p2 : (0 : ℝ) ≤ A.half * Cx.uflow F64 := mul_nonneg (Nat.cast_nonneg _) Cx.uflow_nonneg
  have c1 : ConvModel.cu F64 F64 = 0 := rfl
  have c2 : ConvModel.cη F64 F64 = 0 := rfl
  have b1 := pow_u (L := A.half + 3 * A.half) (n := 16) (by omega)
  have n1 := one_le_pow₀ (one_le_one_add_u (F := F64)) (n := A.half + 3 * A.half)
  have key : ∀ e : FExpr, e.level A.half A.projDim = A.half → (∀ E, e.size E (fun _ => 512) = 512) →
      (∀ P E, P A.half 512 → e.Fits P A.half A.projDim E (fun _ => 512)) →
      NearC (e.viaFFT (Cx F64) fun _ => a) (e.toG.eval fun _ => a') (94 / 10 ^ 14) := by
    intro e he hs hf
    have k := C99_fft_expression (F := F64) (G := F64) hA (by omega) Ex.four_le hu0 (by have := Ex.four_le; linarith) (fun _ => sa)
      (l := fun _ => 512) (fun _ => hl) e rfl rfl rfl (hf _ _ (Ex.ok64 (by omega) (le_big (by norm_num))))
      (by rw [hs, he]; exact Ex.ok64 (by omega) (le_big (by norm_num at t3 ⊢; linarith)))
      (by rw [hs, he]; exact Ex.ok64 (by omega) (le_big (by norm_num at t3 ⊢; linarith)))
    rw [hs, he, c1, c2] at k
    obtain ⟨r, s, z, w, i1, i2, i3, i4, i5, i6, i7⟩ := k
    refine ⟨r, s, z, w, i1, i2, i3, i4, i5, i6, fun k hk => ⟨(i7 k hk).1, (i7 k hk).2.1, (i7 k hk).2.2.trans ?_⟩⟩
    generalize (1 + u F64) ^ (A.half + 3 * A.half) = w1 at *
    generalize (A.half : ℝ) * Cx.uflow F64 = E3 at *
    have : (w1 - 1) * (512 + E3) ≤ ((1 + 1 / 2 ^ 53 : ℝ) ^ 16 - 1) * (512 + 1 / 2 ^ 100) :=
      mul_le_mul (by linarith) (by linarith) (by linarith) (by norm_num)
    refine le_trans ?_ (this.trans (by norm_num))
    linarith
  have ex : ∀ e : GExpr, (∀ E, e.size E (fun _ => 512) = 512) → e.level (2 ^ A.dim + 1) = 0 →
      (∀ P E, e.Within P (2 ^ A.dim + 1) E (fun _ => 512)) → NearC (e.eval fun _ => a) (e.eval fun _ => a') 0 := by
    intro e hs he hw
    have k := C99_expression (F := F64) hA Ex.four_le hu0 (fun _ => sa) (l := fun _ => 512) (fun _ => hl) e rfl rfl rfl (hw _ _)
    rw [he, hs, pow_zero, sub_self, MulZeroClass.zero_mul] at k
    exact k
  obtain ⟨e1, e2⟩ := eps12
  have fin' : ∀ {p p' : Res (MV A (ArrayStorage (Cx F64)))} {q q' : Res (MV A (ArrayStorage ℂ))}, NearC p q (94 / 10 ^ 14) → NearC p' q' 0 →
      q ≈ᵣ q' → (do (← p).approxEq (fun z : Cx F64 => hyp z.re z.im) (← p') (Flt.ofRat (1 / 10 ^ 12))) = .ok true := fun k1 k2 k3 =>
    NearC.approx hh k1 k2 k3 e1 (by norm_num) (by norm_num at e2 ⊢; linarith)
  have k1 := key (.rev (.X 0)) rfl (fun _ => rfl) (fun _ _ h => h)
  have k2 := key (.rev (.rev (.X 0))) rfl (fun _ => rfl) (fun _ _ h => h)
  have k3 := key (.flip (.X 0)) rfl (fun _ => rfl) (fun _ _ h => h)
  have k4 := key (.flip (.flip (.X 0))) rfl (fun _ => rfl) (fun _ _ h => h)
  have r0 := ex (.X 0) (fun _ => rfl) rfl (fun _ _ => trivial)
  have s1 := fin' k1 (ex (.rev (.X 0)) (fun _ => rfl) rfl (fun _ _ => trivial)) (NearC.refl_exact k1)
  have s2 := fin' k2 r0 (C13_rev_rev sa.valid')
  have s3 := fin' k3 (ex (.flip (.X 0)) (fun _ => rfl) rfl (fun _ _ => trivial)) (NearC.refl_exact k3)
  have s4 := fin' k4 r0 (C14_flip hA sa.valid' sa.valid').1
  simp only [GExpr.eval, FExpr.viaFFT, FExpr.evalFFT, bind_assoc, pure_bind] at s1 s2 s3 s4
  exact ⟨s1, s2, s3, s4⟩

/-- **C87, `vdot_test`**, tests/unit.rs:554, on random inputs, in every algebra of dimension at most 30. -/
theorem C87_random_vdot (hA : A.WF) (hd : A.dim ≤ 30) {a b : MV A (ArrayStorage F64)} (ha : a.Valid) (hb : b.Valid) (ua : a.UnitR) (ub : b.UnitR) :
    (do
      let v ← a.vdot b
      let p ← a.naiveMulImpl b
      let s ← p.scalarPart
      return decide ((v - s).abs < (Flt.ofRat (1 / 10 ^ 12) : F64))) = (.ok true : Res Bool) := by
  obtain ⟨a', sa, na⟩ := unit_same ha (by omega) ua
  obtain ⟨b', sb, nb⟩ := unit_same hb (by omega) ub
  obtain ⟨cu, cη, -⟩ := C69_f64
  have h30 : (2 : ℝ) ^ A.dim ≤ 2 ^ 30 := pow_le_pow_right₀ (by norm_num) hd
  have h30' : 2 ^ A.dim ≤ 2 ^ 30 := Nat.pow_le_pow_right (by norm_num) hd
  have hηu : (η F64 / u F64 : ℝ) = 1 / 4 * (1 / 2 ^ 1020) := by
    rw [← uflow64]; unfold Cx.uflow; ring
  have t1 : (4 : ℝ) ^ A.dim * (η F64 / u F64) ≤ 1 / 2 ^ 100 := by
    rw [hηu, ← mul_assoc]
    refine tiny_pow ((mul_le_mul_of_nonneg_right (pow_le_pow_right₀ (by norm_num) hd) (by norm_num)).trans (by norm_num))
  obtain ⟨r, r', z, w, i1, i2, i3, i4, i5, i6, i7⟩ := C70_expression (F := F64) (ρ := fun i => if i = 0 then a else b)
    (ρ' := fun i => if i = 0 then a' else b') (x := fun i => if i = 0 then a.val else b.val) (l := fun _ => 2 ^ 30) hA (by rw [cu]; positivity)
    (fun i => by
      split
      · exact sa
      exact sb)
    (fun i => by
      split
      · exact na.trans h30
      exact nb.trans h30) (.mul (.X 0) (.X 1)) rfl rfl rfl (by
    simp only [GExpr.Within, GExpr.size, GExpr.level]
    exact ⟨trivial, trivial, Ex.ok64 (by omega) (le_big (by norm_num at t1 ⊢; linarith))⟩)
  have e1 : a.naiveMulImpl b = .ok r := i1
  obtain ⟨p, c, g1, g2, g3⟩ := C15_rounded hA ha hb fun i hi => by
    have hf := sa.finite i hi
    generalize a.val i = v at hf
    exact FloatModel.mul_zero hf
  rw [e1] at g1
  injection g1 with g1
  subst g1
  have hz : c = z 0 := by
    have h0 : (0 : Nat) < 2 ^ A.dim := Nat.two_pow_pos _
    have := i3.get h0
    rw [scalarPart, this] at g2
    injection g2 with g2
    rw [← g2, ← i5.val i3 h0]
  have hc : fin c := by rw [hz]; exact (i7 0 (Nat.two_pow_pos _) trivial).1
  obtain ⟨k1, k2⟩ := sub_close hc hc (d := 0) (by simp) (by norm_num)
  obtain ⟨j1, j2⟩ := fin_abs k1
  rw [g3, e1]
  simp only [bind, Except.bind, g2, pure, Except.pure]
  congr 1
  rw [decide_eq_true_eq]
  exact flt_lt j1 eps12.1 (by rw [j2]; have := eps12.2; norm_num at k2 this ⊢; rw [k2]; norm_num; linarith)

/-- Vectors with coordinates of absolute value at most 1. -/
theorem vec_norm {l : List F64} (hd : A.dim ≤ 7) (ul : ∀ c ∈ l, fin c ∧ |re c| ≤ 1) :
    (∀ i, fin (vecF l i) ∧ |re (vecF l i)| ≤ 1) ∧ normOne A.dim (vecF l) ≤ 7 := by
  have h1 : ∀ i, fin (vecF l i) ∧ |re (vecF l i)| ≤ if countOnes i = 1 then 1 else 0 := by
    intro i
    have z : fin (0 : F64) ∧ |re (0 : F64)| = 0 := ⟨fin_zero, by rw [re_zero, abs_zero]⟩
    unfold vecF
    split
    · by_cases h : Nat.log2 i < l.length
      · rw [List.getD_eq_getElem _ _ h]
        exact ul _ (List.getElem_mem h)
      · rw [List.getD_eq_default _ _ (by omega)]
        exact ⟨z.1, by rw [z.2]; norm_num⟩
    · exact ⟨z.1, z.2.le⟩
  refine ⟨fun i => ⟨(h1 i).1, (h1 i).2.trans (by split <;> norm_num)⟩, ?_⟩
  unfold normOne
  calc ∑ i ∈ range (2 ^ A.dim), |re (vecF l i)|
      ≤ ∑ i ∈ range (2 ^ A.dim), (if countOnes i = 1 then (1 : ℝ) else 0) := sum_le_sum fun i _ => (h1 i).2
    _ ≤ ∑ i ∈ range (2 ^ 7), (if countOnes i = 1 then (1 : ℝ) else 0) :=
        sum_le_sum_of_subset_of_nonneg (range_mono (Nat.pow_le_pow_right (by norm_num) hd)) (fun i _ _ => by split <;> norm_num)
    _ = (#{i ∈ range (2 ^ 7) | countOnes i = 1} : ℕ) := by rw [← sum_filter, sum_const, nsmul_eq_mul, mul_one]
    _ ≤ 7 := by
        have : #{i ∈ range (2 ^ 7) | countOnes i = 1} ≤ 7 := by decide +kernel
        exact_mod_cast this

/-- **C87, `dual_test`**, tests/unit.rs:495, on random vectors: in every algebra of odd dimension at most 7, the coefficient of the
pseudoscalar in `a.wedge(&b.dual())` is `a.vsdot(&b)` within `1e-12`. -/
theorem C87_random_hodge (hA : A.WF) (hn : A.dim % 2 = 1) (hd : A.dim ≤ 7) {l l' : List F64} (hl : l.length = A.dim) (hl' : l'.length = A.dim)
    (ul : ∀ c ∈ l, fin c ∧ |re c| ≤ 1) (ul' : ∀ c ∈ l', fin c ∧ |re c| ≤ 1) :
    (do
      let a ← fromVector (A := A) (S := ArrayStorage F64) l
      let b ← fromVector (A := A) (S := ArrayStorage F64) l'
      let d ← b.dual
      let w ← a.wedge d
      let x ← w.getByIdx (2 ^ A.dim - 1)
      let v ← a.vsdot b
      return decide ((x - v).abs < (Flt.ofRat (1 / 10 ^ 12) : F64))) = (.ok true : Res Bool) := by
  have hS : LawfulStorage.Supp (S := ArrayStorage F64) (T := F64) A.dim := show A.dim ≤ 63 by omega
  obtain ⟨a, ea, ha, va⟩ := fromVector_denotes hS hl
  obtain ⟨b, eb, hb, vb⟩ := fromVector_denotes hS hl'
  obtain ⟨v1, v2⟩ := vec_norm hd ul
  obtain ⟨w1, w2⟩ := vec_norm hd ul'
  have ua : a.UnitR := fun i hi => ⟨vecF l i, by rw [ha.get hi, va i hi], v1 i⟩
  have ub : b.UnitR := fun i hi => ⟨vecF l' i, by rw [hb.get hi, vb i hi], w1 i⟩
  have na : normOne A.dim a.val ≤ 7 := le_of_eq_of_le (sum_congr rfl fun i hi => by rw [va i (mem_range.mp hi)]) v2
  have nb : normOne A.dim b.val ≤ 7 := le_of_eq_of_le (sum_congr rfl fun i hi => by rw [vb i (mem_range.mp hi)]) w2
  obtain ⟨a', sa, -⟩ := unit_same ha (by omega) ua
  obtain ⟨b', sb, -⟩ := unit_same hb (by omega) ub
  obtain ⟨cu, cη, -⟩ := C69_f64
  have h7 : 2 ^ A.dim ≤ 128 := (Nat.pow_le_pow_right (by norm_num) hd).trans (by norm_num)
  have hηu : (η F64 / u F64 : ℝ) = 1 / 4 * (1 / 2 ^ 1020) := by
    rw [← uflow64]; unfold Cx.uflow; ring
  have t1 : (4 : ℝ) ^ A.dim * (η F64 / u F64) ≤ 1 / 2 ^ 100 := by
    rw [hηu, ← mul_assoc]
    refine tiny_pow ((mul_le_mul_of_nonneg_right (pow_le_pow_right₀ (by norm_num) hd) (by norm_num)).trans (by norm_num))
  have p0 : (0 : ℝ) ≤ 4 ^ A.dim * (η F64 / u F64) := by rw [hηu]; positivity
  obtain ⟨r, r', z, w, i1, i2, i3, i4, i5, i6, i7⟩ := C70_expression (F := F64) (ρ := fun i => if i = 0 then a else b)
    (ρ' := fun i => if i = 0 then a' else b') (x := fun i => if i = 0 then a.val else b.val) (l := fun _ => 7) hA (by rw [cu]; positivity)
    (fun i => by
      split
      · exact sa
      exact sb)
    (fun i => by
      split
      · exact na
      exact nb) (.wedge (.X 0) (.dual (.X 1))) rfl rfl rfl (by
    simp only [GExpr.Within, GExpr.size, GExpr.level]
    exact ⟨trivial, trivial, Ex.ok64 (by omega) (le_big (by norm_num at t1 ⊢; linarith))⟩)
  have hm : (2 ^ A.dim - 1 : Nat) < 2 ^ A.dim := by have := Nat.two_pow_pos A.dim; omega
  obtain ⟨f1, f2⟩ := i7 _ hm trivial
  simp only [GExpr.size, GExpr.level] at f2
  have e1 : (do let d ← b.dual; a.wedge d) = .ok r := i1
  have e2 : (do let d ← b'.dual; a'.wedge d) = .ok r' := i2
  have e3 := (C87_hodge_odd hA hn sa.valid' sb.valid').2
  obtain ⟨y, e, e4, e5, g⟩ := C70_vsdot sa sb
  have e6 : w (2 ^ A.dim - 1) = e := by
    rw [e5, ← bind_assoc, e2] at e3
    change r'.getByIdx _ = _ at e3
    rw [i4.get hm] at e3
    injection e3 with e3
    rw [← e3, ← i6.val i4 hm]
  have hM : absSum (range (2 ^ A.dim)) a.val b.val ≤ 7 := by
    unfold absSum
    refine (sum_le_sum fun i hi => ?_).trans na
    have := (w1 i).2
    rw [vb i (mem_range.mp hi)]
    exact mul_le_of_le_one_right (abs_nonneg _) this
  have hM0 := absSum_nonneg (range (2 ^ A.dim)) a.val b.val
  have hN : nTerms (range (2 ^ A.dim)) a.val b.val ≤ 128 := by
    unfold nTerms
    exact (card_filter_le _ _).trans (by rw [card_range]; exact h7)
  have hE : errB F64 (absSum (range (2 ^ A.dim)) a.val b.val) (nTerms (range (2 ^ A.dim)) a.val b.val) ≤ 2 / 10 ^ 13 := by
    generalize absSum (range (2 ^ A.dim)) a.val b.val = M at *
    generalize nTerms (range (2 ^ A.dim)) a.val b.val = N at *
    unfold errB
    have q1 := pow_u (L := N + 1) (n := 129) (by omega)
    have q2 := pow_u (L := N) (n := 128) (by omega)
    have q3 := one_le_pow₀ (one_le_one_add_u (F := F64)) (n := N + 1)
    have q4 := one_le_pow₀ (one_le_one_add_u (F := F64)) (n := N)
    have q5 : (N : ℝ) ≤ 128 := by exact_mod_cast hN
    have q6 : η F64 ≤ 1 / 2 ^ 100 := by
      rw [cη]
      exact one_div_le_one_div_of_le (by positivity) (pow_le_pow_right₀ (by norm_num) (by norm_num))
    have q7 := η_nonneg (F := F64)
    have s1 : M * ((1 + u F64) ^ (N + 1) - 1) ≤ 7 * ((1 + 1 / 2 ^ 53 : ℝ) ^ 129 - 1) :=
      mul_le_mul hM (by linarith) (by linarith) (by norm_num)
    have s2 : η F64 * N * (1 + u F64) ^ N ≤ 1 / 2 ^ 100 * 128 * (1 + 1 / 2 ^ 53 : ℝ) ^ 128 :=
      mul_le_mul (mul_le_mul q6 q5 (by positivity) (by norm_num)) q2 (by linarith) (by norm_num)
    refine (add_le_add s1 s2).trans ?_
    norm_num
  obtain ⟨f3, f4⟩ := g (by
    refine le_trans ?_ big_f64
    refine le_trans (add_le_add hM hE) (le_trans (by norm_num : (7 : ℝ) + 2 / 10 ^ 13 ≤ 2 ^ 3) (pow_le_pow_right₀ (by norm_num) (by norm_num))))
  generalize (4 : ℝ) ^ A.dim * (η F64 / u F64) = E1 at *
  have b1 := pow_u (L := 0 + 0 + 2 ^ A.dim + 1) (n := 129) (by omega)
  have n1 := one_le_pow₀ (one_le_one_add_u (F := F64)) (n := 0 + 0 + 2 ^ A.dim + 1)
  generalize (1 + u F64) ^ (0 + 0 + 2 ^ A.dim + 1) = w1 at *
  have q1 : (w1 - 1) * (7 * 7 + E1) ≤ 71 / 10 ^ 14 := by
    have : (w1 - 1) * (7 * 7 + E1) ≤ ((1 + 1 / 2 ^ 53 : ℝ) ^ 129 - 1) * (7 * 7 + 1 / 2 ^ 100) :=
      mul_le_mul (by linarith) (by linarith) (by linarith) (by norm_num)
    exact this.trans (by norm_num)
  have hdiff : |re (z (2 ^ A.dim - 1)) - re y| ≤ 91 / 10 ^ 14 := by
    have := abs_sub_le (re (z (2 ^ A.dim - 1))) e (re y)
    rw [abs_sub_comm e] at this
    rw [e6] at f2
    norm_num at q1 hE ⊢
    linarith
  obtain ⟨k1, k2⟩ := sub_close f1 f3 hdiff (by norm_num)
  obtain ⟨j1, j2⟩ := fin_abs k1
  rw [ea, eb]
  show (do
    let d ← b.dual
    let w ← a.wedge d
    let x ← w.getByIdx (2 ^ A.dim - 1)
    let v ← a.vsdot b
    return decide ((x - v).abs < (Flt.ofRat (1 / 10 ^ 12) : F64))) = (.ok true : Res Bool)
  rw [← bind_assoc, e1]
  show (do
    let x ← r.getByIdx (2 ^ A.dim - 1)
    let v ← a.vsdot b
    return decide ((x - v).abs < (Flt.ofRat (1 / 10 ^ 12) : F64))) = (.ok true : Res Bool)
  rw [i3.get hm, e4, i5.val i3 hm]
  show Except.ok _ = Except.ok true
  congr 1
  rw [decide_eq_true_eq]
  exact flt_lt j1 eps12.1 (by rw [j2]; have := eps12.2; norm_num at k2 this ⊢; linarith)

end

/-! ### Examples -/

namespace Ex

/-- Random doubles. -/
def xU (s i : Nat) : F64 := Flt.ofRat (((7 * i + 3 * s + 1) % 11 : ℕ) / 11)

theorem xU_unit (s i : Nat) : fin (xU s i) ∧ |re (xU s i)| ≤ 1 := by
  have h : ∀ k < 11, (Flt.ofRat ((k : ℕ) / 11) : F64) ≠ .nonFinite ∧ |(Flt.ofRat ((k : ℕ) / 11) : F64).toRat| ≤ 1 := by decide +kernel
  obtain ⟨h1, h2⟩ := h ((7 * i + 3 * s + 1) % 11) (Nat.mod_lt _ (by norm_num))
  refine ⟨h1, ?_⟩
  have h3 : |((xU s i).toRat : ℚ)| ≤ 1 := h2
  show |((xU s i).toRat : ℝ)| ≤ 1
  exact_mod_cast h3

/-- A random multivector. -/
def mU (A : ClAlg) (s : Nat) : MV A (ArrayStorage F64) := ⟨⟨A.dim, ⟨2 ^ A.dim, xU s⟩⟩⟩

/-- A random multivector with complex coefficients. -/
def mUC (A : ClAlg) (s : Nat) : MV A (ArrayStorage (TClifford.Cx F64)) := ⟨⟨A.dim, ⟨2 ^ A.dim, fun i => ⟨xU s i, xU (s + 5) i⟩⟩⟩⟩

theorem mU_unit {A : ClAlg} (hd : A.dim ≤ 63) (s : Nat) : (mU A s).Valid ∧ (mU A s).UnitR := by
  have hv : (mU A s).Valid := ⟨hd, rfl, rfl⟩
  exact ⟨hv, fun i hi => ⟨xU s i, by rw [hv.get hi]; exact congrArg _ (if_pos hi), xU_unit s i⟩⟩

theorem mUC_unit {A : ClAlg} (hd : A.dim ≤ 63) (s : Nat) : (mUC A s).Valid ∧ (mUC A s).UnitC := by
  have hv : (mUC A s).Valid := ⟨hd, rfl, rfl⟩
  exact ⟨hv, fun i hi => ⟨⟨xU s i, xU (s + 5) i⟩, by rw [hv.get hi]; exact congrArg _ (if_pos hi), xU_unit s i, xU_unit (s + 5) i⟩⟩

example := C87_random_fast_wedge E_wf (by decide) (mU_unit (A := E) (by decide) 0).1 (mU_unit (A := E) (by decide) 1).1 (mU_unit (A := E) (by decide) 2).1
  (mU_unit (by decide) 0).2 (mU_unit (by decide) 1).2 (mU_unit (by decide) 2).2
example := C87_random_vee hypotOk E_wf (by decide) (mUC_unit (A := E) (by decide) 0).1 (mUC_unit (A := E) (by decide) 1).1
  (mUC_unit (by decide) 0).2 (mUC_unit (by decide) 1).2
example := C87_random_automorphisms hypotOk E_wf (by decide) (mUC_unit (A := E) (by decide) 0).1 (mUC_unit (by decide) 0).2
example := C87_random_vdot E_wf (by decide) (mU_unit (A := E) (by decide) 0).1 (mU_unit (A := E) (by decide) 1).1
  (mU_unit (by decide) 0).2 (mU_unit (by decide) 1).2
example := C87_random_hodge E_wf (by decide) (by decide) (l := [xU 0 0, xU 0 1, xU 0 2]) (l' := [xU 1 0, xU 1 1, xU 1 2]) rfl rfl
  (by simp [xU_unit]) (by simp [xU_unit])

end Ex

end TClifford
