import Verif.Props.ExpFFTRev
import Verif.Props.ComplexExpNull
/-
C88: in the transformed domain, too, the exponential of elements whose blades share null generators is exact.
-/

set_option linter.unusedSectionVars false

namespace TClifford

open Finset FloatModel MV

variable {A : ClAlg}

/-- The matrix `M` of side `2^m` is zero. -/
def Zer (m : Nat) (M : Nat → Nat → Cx F64) : Prop := ∀ i < 2 ^ m, ∀ j < 2 ^ m, M i j = 0

/-- All entries of the matrix `M` of side `2^m` are finite. -/
def FinM (m : Nat) (M : Nat → Nat → Cx F64) : Prop := ∀ i < 2 ^ m, ∀ j < 2 ^ m, (M i j).Fin

theorem Zer.fin {m : Nat} {M : Nat → Nat → Cx F64} (h : Zer m M) : FinM m M := fun i hi j hj => by
  rw [h i hi j hj]; exact ⟨fin_zero, fin_zero⟩

theorem foldl_zero {X : Type} (l : List X) {f : X → Cx F64} (h : ∀ x ∈ l, f x = 0) : l.foldl (fun s x => s + f x) 0 = 0 := by
  induction l with
  | nil => rfl
  | cons x l ih =>
    rw [List.foldl_cons, h x (List.mem_cons_self ..), CoeffLaws.add_zero]
    exact ih fun y hy => h y (List.mem_cons_of_mem _ hy)

theorem mmO_null {m : Nat} {X Y : Nat → Nat → Cx F64} (fX : FinM m X) (fY : FinM m Y) (h : Zer m X ∨ Zer m Y) : Zer m (mmO m X Y) := by
  intro i hi j hj
  unfold mmO
  rw [List.foldl_map]
  refine foldl_zero _ fun k hk => ?_
  have hk := List.mem_range.mp hk
  exact Cx.mul_eq_zero_of (fX i hi k hk) (fY k hk j hj) (h.imp (fun h => h i hi k hk) (fun h => h k hk j hj))

theorem alWO_zer {m w : Nat} {X : Nat → Nat → Nat → Cx F64} (h : Zer m (X w)) : Zer m (alWO X w) := fun i hi j hj => by
  unfold alWO
  rw [h i hi j hj]
  split
  · exact SumLaws.neg_zero
  · rfl

theorem alWO_fin {m w : Nat} {X : Nat → Nat → Nat → Cx F64} (h : FinM m (X w)) : FinM m (alWO X w) := fun i hi j hj => by
  unfold alWO
  split
  · exact Cx.sumInv_zero.good_neg (h i hi j hj)
  · exact h i hi j hj

/-- The product of two families of matrices of which no two with disjoint indices are both different from zero. -/
theorem WO_null {m : Nat} (s : Nat) {X Y : Nat → Nat → Nat → Cx F64} (fX : ∀ w < 2 ^ s, FinM m (X w)) (fY : ∀ w < 2 ^ s, FinM m (Y w))
    (h : ∀ w < 2 ^ s, ∀ v < 2 ^ s, w &&& v = 0 → Zer m (X w) ∨ Zer m (Y v)) : ∀ w < 2 ^ s, Zer m (WO m s X Y w) := by
  induction s generalizing X Y with
  | zero => exact fun w _ => mmO_null (fX 0 (by norm_num)) (fY 0 (by norm_num)) (h 0 (by norm_num) 0 (by norm_num) rfl)
  | succ s ih =>
    have hp : 2 ^ (s + 1) = 2 ^ s + 2 ^ s := by rw [pow_succ]; omega
    have hand : ∀ {w v : Nat}, w < 2 ^ s → v < 2 ^ s → (w + 2 ^ s) &&& v = w &&& v := fun {w v} hw hv => by
      have h1 : (w + 2 ^ s) &&& v < 2 ^ s := lt_of_le_of_lt Nat.and_le_right hv
      rw [← Nat.mod_eq_of_lt h1, Nat.and_mod_two_pow, Nat.add_mod_right, Nat.mod_eq_of_lt hw, Nat.mod_eq_of_lt hv]
    intro w hw
    show Zer m (if w < 2 ^ s then WO m s X Y w else fun i j => WO m s (hiW s X) Y (w - 2 ^ s) i j + WO m s (alWO X) (hiW s Y) (w - 2 ^ s) i j)
    split
    · rename_i hw'
      exact ih (fun w hw => fX w (by omega)) (fun w hw => fY w (by omega)) (fun w hw v hv => h w (by omega) v (by omega)) w hw'
    · intro i hi j hj
      have h1 := ih (X := hiW s X) (Y := Y) (fun w hw => fX _ (by omega)) (fun w hw => fY w (by omega))
        (fun w hw v hv e => h (w + 2 ^ s) (by omega) v (by omega) (by rw [hand hw hv]; exact e)) (w - 2 ^ s) (by omega) i hi j hj
      have h2 := ih (X := alWO X) (Y := hiW s Y) (fun w hw => alWO_fin (fX w (by omega))) (fun w hw => fY _ (by omega))
        (fun w hw v hv e => (h w (by omega) (v + 2 ^ s) (by omega) (by rw [Nat.and_comm, hand hv hw, Nat.and_comm]; exact e)).imp
          alWO_zer id) (w - 2 ^ s) (by omega) i hi j hj
      beta_reduce
      rw [h1, h2, CoeffLaws.add_zero]

theorem mul_nullF {r s : FFTRepr A (Cx F64)} {p m : Nat} (hr : r.arr.Is p m) (hs : s.arr.Is p m) (fr : ∀ w < 2 ^ p, FinM m (r.arr.get w))
    (fs : ∀ w < 2 ^ p, FinM m (s.arr.get w)) (h : ∀ w < 2 ^ p, ∀ v < 2 ^ p, w &&& v = 0 → Zer m (r.arr.get w) ∨ Zer m (s.arr.get v)) :
    ∃ t, r.mul s = .ok t ∧ t.arr.Is p m ∧ ∀ w < 2 ^ p, Zer m (t.arr.get w) := by
  obtain ⟨t, h1, h2, h3⟩ := mul_ops Cx.neg_neg' hr hs
  exact ⟨t, h1, h2, fun w hw i hi j hj => by rw [h3 w hw i hi j hj]; exact WO_null p fr fs h w hw i hi j hj⟩

theorem add_opsF {r s : FFTRepr A (Cx F64)} {p m : Nat} (hr : r.arr.Is p m) (hs : s.arr.Is p m) :
    ∃ t, r.add s = .ok t ∧ t.arr.Is p m ∧ WEq p m t.arr.get (fun w i j => r.arr.get w i j + s.arr.get w i j) := by
  obtain ⟨r0, r1, r2⟩ := hr
  obtain ⟨s0, s1, s2⟩ := hs
  refine ⟨⟨⟨r.arr.d0, r.arr.d1, r.arr.d2, fun w i j => r.arr.get w i j + s.arr.get w i j⟩⟩, ?_, ⟨r0, r1, r2⟩, fun _ _ _ _ _ _ => rfl⟩
  unfold FFTRepr.add Arr3.zip
  simp [Arr3.dims, r0, r1, r2, s0, s1, s2, bind, Except.bind, pure, Except.pure]

theorem f64_div_one {x : F64} (hx : fin x) : x / 1 = x := by
  obtain ⟨x, rfl⟩ := Flt.cases_fin hx
  obtain ⟨o, e1, e2⟩ := Flt.one_eq (f := .f64)
  rw [e1, Flt.div_num, e2, if_neg one_ne_zero, div_one, Flt.ofRat_repr]

/-- The loop adds nothing when the power is zero. -/
theorem taylorF_nullF {x : FFTRepr A (Cx F64)} {p m : Nat} (hx : x.arr.Is p m) (fx : ∀ w < 2 ^ p, FinM m (x.arr.get w)) (d : Nat) :
    ∀ {k : Nat}, k + d = 18 → ∀ {res q : FFTRepr A (Cx F64)}, res.arr.Is p m → q.arr.Is p m →
    (∀ w < 2 ^ p, Zer m (q.arr.get w)) → ∀ fuel ≥ d, ∃ r, FFTRepr.taylorF x fuel (expCoefF k) (k + 1) res q = some (.ok r) ∧ r.arr.Is p m ∧
      WEq p m r.arr.get res.arr.get := by
  induction d with
  | zero =>
    intro k hk res q hr _ _ fuel _
    obtain rfl : k = 18 := by omega
    exact ⟨res, FFTRepr.taylorF_18 x fuel _ res q, hr, fun _ _ _ _ _ _ => rfl⟩
  | succ d ih =>
    intro k hk res q hr hq h0 fuel hf
    obtain ⟨fuel, rfl⟩ : ∃ f, fuel = f + 1 := ⟨fuel - 1, by omega⟩
    have hc : fin (expCoefF (k + 1)) := (expCoefF_acc (k + 1) (by omega)).1
    obtain ⟨s, s1, s2, s3⟩ := add_opsF (s := q.mulReal (expCoefF (k + 1))) hr hq
    obtain ⟨t, t1, t2, t3⟩ := mul_nullF hq hx (fun w hw => (h0 w hw).fin) fx (fun w hw v hv _ => .inl (h0 w hw))
    obtain ⟨r, r1, r2, r3⟩ := ih (k := k + 1) (by omega) s2 t2 t3 fuel (by omega)
    refine ⟨r, ?_, r2, fun w hw i hi j hj => ?_⟩
    · rw [FFTRepr.taylorF_succ x (by omega)]
      simp only [s1, t1, bind, Except.bind, pure, Except.pure]
      exact r1
    · rw [r3 w hw i hi j hj, s3 w hw i hi j hj]
      show res.arr.get w i j + (q.arr.get w i j).mulReal (expCoefF (k + 1)) = _
      rw [h0 w hw i hi j hj]
      have : (0 : Cx F64).mulReal (expCoefF (k + 1)) = 0 := Cx.ext' (FloatModel.zero_mul hc) (FloatModel.zero_mul hc)
      rw [this, CoeffLaws.add_zero]

/-- **C88, exactness in the transformed domain.** Let all entries of `r` be finite, of computed norm at most one, and let no two
of the matrices with disjoint indices both be different from zero.  Then `r.exp()` is exactly `one() + r`. -/
theorem C88_fft_null_exact {hyp : F64 → F64 → F64} (h00 : hyp 0 0 = 0) (hA : A.WF) (hd : A.dim < 63) {r : FFTRepr A (Cx F64)} {s m : ℕ}
    (hs : s = A.projDim) (hm : m = (A.realDim + A.imagDim + 1) / 2) (hd0 : r.arr.d0 = 2 ^ s) (hd1 : r.arr.d1 = 2 ^ m) (hd2 : r.arr.d2 = 2 ^ m)
    (hf : ∀ w < 2 ^ s, ∀ i < 2 ^ m, ∀ j < 2 ^ m, fin (r.arr.get w i j).re ∧ fin (r.arr.get w i j).im)
    (h1 : ∀ w < 2 ^ s, ∀ i < 2 ^ m, ∀ j < 2 ^ m, fin (hyp (r.arr.get w i j).re (r.arr.get w i j).im) ∧
      re (hyp (r.arr.get w i j).re (r.arr.get w i j).im) ≤ 1)
    (hn : ∀ w < 2 ^ s, ∀ v < 2 ^ s, w &&& v = 0 → (∀ i < 2 ^ m, ∀ j < 2 ^ m, r.arr.get w i j = 0) ∨
      ∀ i < 2 ^ m, ∀ j < 2 ^ m, r.arr.get v i j = 0) {fuel : ℕ} (hfu : 18 ≤ fuel) :
    ∃ e, r.expF hyp fuel = some (.ok e) ∧
      Same3 (.ok e.intoArray3) (do let t ← (FFTRepr.one : FFTRepr A (Cx F64)).add r; return t.intoArray3) := by
  have hm' : m = A.half := hm
  subst hs hm'
  have hI : r.arr.Is A.projDim A.half := ⟨hd0, hd1, hd2⟩
  have fr : ∀ w < 2 ^ A.projDim, FinM A.half (r.arr.get w) := hf
  -- mag2
  obtain ⟨t, t1, t2, t3⟩ := rev_ops hA hd hI
  have ft : ∀ w < 2 ^ A.projDim, FinM A.half (t.arr.get w) := fun w hw i hi j hj => by
    rw [t3 w hw i hi j hj]
    exact revO_pred (P := fun z : Cx F64 => z.Fin) (fun x hx => Cx.sumInv_zero.good_neg hx) _ _ _ (fr w hw) i hi j hj
  have zt : ∀ w < 2 ^ A.projDim, Zer A.half (r.arr.get w) → Zer A.half (t.arr.get w) := fun w hw h i hi j hj => by
    rw [t3 w hw i hi j hj]
    exact revO_pred (P := fun z : Cx F64 => z = 0) (fun x hx => by rw [hx]; exact SumLaws.neg_zero) _ _ _ h i hi j hj
  obtain ⟨q, q1, q2, q3⟩ := mul_nullF t2 hI ft fr (fun w hw v hv e => (hn w hw v hv e).imp (zt w hw) id)
  have hq : r.mag2F (Flt.ofNat .f64) = .ok 0 := by
    unfold FFTRepr.mag2F
    rw [t1]
    show (do let p ← t.mul r; return p.ntraceF (Flt.ofNat .f64)) = _
    rw [q1]
    refine congrArg Except.ok ?_
    have ht : q.trace = 0 := foldl_zero _ fun i hi => by
      have hi := List.mem_range.mp hi
      rw [q2.2.1] at hi
      exact q3 0 (Nat.two_pow_pos _) i hi i hi
    unfold FFTRepr.ntraceF
    rw [ht, q2.2.1]
    have hh : A.half ≤ 53 := by
      have : A.realDim + A.imagDim + A.projDim = A.dim := hA.dims
      omega
    obtain ⟨c1, c2⟩ := castOk_flt .f64 (2 ^ A.half) (by
      rw [C69_f64.2.2.1]
      push_cast
      exact pow_le_pow_right₀ (by norm_num) hh)
    have c3 : (Flt.ofNat .f64 (2 ^ A.half) : F64) ≠ 0 := fun h => by
      rw [h, re_zero] at c2
      push_cast at c2
      exact absurd c2 (by positivity)
    exact Cx.ext' (FloatModel.zero_div c1 c3) (FloatModel.zero_div c1 c3)
  have e1 : (1 : F64).toRat = 1 := by decide +kernel
  have hfold : ∀ l : List (Cx F64), (∀ z ∈ l, fin (hyp z.re z.im) ∧ re (hyp z.re z.im) ≤ 1) →
      l.foldl (fun m z => Flt.fmax (hyp z.re z.im) m) (1 : F64) = 1 := by
    intro l hl
    obtain ⟨f1, f2⟩ := foldl_fmax' (fun z : Cx F64 => hyp z.re z.im) l (fun z hz => (hl z hz).1) 1 fin_one
    refine re_inj f1 fin_one ?_
    have h3 := (f2 1).mpr ⟨e1.le, fun z hz => by
      have := (hl z hz).2
      change (((hyp z.re z.im).toRat : ℚ) : ℝ) ≤ 1 at this
      exact_mod_cast this⟩
    have h4 := ((f2 _).mp le_rfl).1
    rw [e1] at h4
    show ((Flt.toRat _ : ℚ) : ℝ) = ((Flt.toRat _ : ℚ) : ℝ)
    rw [le_antisymm h3 h4, e1]
  have hM : r.expMaxF hyp = .ok 1 := by
    unfold FFTRepr.expMaxF
    rw [hq, hfold r.arr.entries fun z hz => by
      simp only [Arr3.entries, List.mem_flatMap, List.mem_map, List.mem_range] at hz
      obtain ⟨k, hk, i, hi, j, hj, rfl⟩ := hz
      exact h1 k (hd0 ▸ hk) i (hd1 ▸ hi) j (hd2 ▸ hj)]
    show Except.ok (Flt.ceil (Flt.fmax 1 (hyp 0 0).sqrt)) = _
    rw [h00]
    exact congrArg Except.ok (by decide +kernel)
  -- the first iteration
  have hn1 : (r.divReal 1).arr.Is A.projDim A.half := hI
  have n3 : ∀ w < 2 ^ A.projDim, ∀ i < 2 ^ A.half, ∀ j < 2 ^ A.half, (r.divReal 1).arr.get w i j = r.arr.get w i j := fun w hw i hi j hj =>
    Cx.ext' (f64_div_one (fr w hw i hi j hj).1) (f64_div_one (fr w hw i hi j hj).2)
  have nf : ∀ w < 2 ^ A.projDim, FinM A.half ((r.divReal 1).arr.get w) := fun w hw i hi j hj => by
    rw [n3 w hw i hi j hj]; exact fr w hw i hi j hj
  have nz : ∀ w < 2 ^ A.projDim, Zer A.half (r.arr.get w) → Zer A.half ((r.divReal 1).arr.get w) := fun w hw h i hi j hj => by
    rw [n3 w hw i hi j hj]; exact h i hi j hj
  have oI : (FFTRepr.one : FFTRepr A (Cx F64)).arr.Is A.projDim A.half := ⟨wcount_eq hA hd, matrixSide_eq hA hd, matrixSide_eq hA hd⟩
  obtain ⟨b, b1, b2, b3⟩ := add_opsF (s := (r.divReal 1).mulReal 1) oI hI
  obtain ⟨c, c1, c2, c3⟩ := mul_nullF hn1 hn1 nf nf (fun w hw v hv e => (hn w hw v hv e).imp (nz w hw) (nz v hv))
  obtain ⟨fuel, rfl⟩ : ∃ f, fuel = f + 1 := ⟨fuel - 1, by omega⟩
  obtain ⟨e, r1, r2, r3⟩ := taylorF_nullF hn1 nf 17 (k := 1) rfl b2 c2 c3 fuel (by omega)
  have hc1 : expCoefF 1 = 1 := by decide +kernel
  have hT : FFTRepr.taylorF (r.divReal 1) (fuel + 1) 1 1 FFTRepr.one (r.divReal 1) = some (.ok e) := by
    have := FFTRepr.taylorF_succ (r.divReal 1) (k := 0) (by norm_num) fuel FFTRepr.one (r.divReal 1)
    rw [show expCoefF 0 = 1 from rfl] at this
    rw [show (0 : ℕ) + 1 = 1 from rfl] at this
    rw [this]
    simp only [hc1, b1, c1, bind, Except.bind, pure, Except.pure]
    rw [hc1] at r1
    exact r1
  have hu : (1 : F64).toUsize = .ok 1 := by decide +kernel
  obtain ⟨y, y1, y2, y3⟩ := add_opsF oI hI
  refine ⟨e, ?_, e.arr, y.arr, rfl, by rw [y1]; rfl, ?_, fun w hw i hi j hj => ?_⟩
  · unfold FFTRepr.expF
    simp only [hM, hu, bind, Except.bind, pure, Except.pure]
    rw [hT]
    simp only [Option.map]
    rw [FFTRepr.pow, if_neg (by norm_num), if_pos rfl]
  · unfold Arr3.dims
    rw [r2.1, r2.2.1, r2.2.2, y2.1, y2.2.1, y2.2.2]
  · rw [r2.1] at hw
    rw [r2.2.1] at hi
    rw [r2.2.2] at hj
    rw [r3 w hw i hi j hj, b3 w hw i hi j hj, y3 w hw i hi j hj]
    refine congrArg (FFTRepr.one.arr.get w i j + ·) ?_
    show ((r.divReal 1).arr.get w i j).mulReal 1 = _
    rw [n3 w hw i hi j hj]
    exact Cx.ext' (FloatSigns.mul_one (fr w hw i hi j hj).1) (FloatSigns.mul_one (fr w hw i hi j hj).2)

/-! ### Transforms -/

theorem cnnO_zero (m : Nat) {x : Nat → Cx F64} (h : ∀ k, x k = 0) : ∀ i j, cnnO m x i j = 0 := by
  induction m generalizing x with
  | zero => exact fun _ _ => h 0
  | succ m ih =>
    intro i j
    have hal : ∀ i j, alpha (0 : Cx F64) i j = 0 := fun i j => by
      unfold alpha
      split
      · exact SumLaws.neg_zero
      · rfl
    have h1 := ih h
    have h2 := ih (x := hi (2 * m) (hi (2 * m + 1) x)) (fun k => h _)
    have h3 := ih (x := hi (2 * m) x) (fun k => h _)
    have h4 := ih (x := hi (2 * m + 1) x) (fun k => h _)
    rw [cnnO_succ]
    simp only [h1, h2, h3, h4, CoeffLaws.add_zero, CoeffLaws.sub_zero, hal]
    unfold blk
    split <;> split <;> rfl

theorem Cx.iPow_Fin (n : Nat) : (iPow n : Cx F64).Fin := by
  have h1 : (1 : Cx F64).Fin := ⟨fin_one, fin_zero⟩
  have h := (Cx.mul_iPow_ok h1 n).1
  have hI : (HasI.I : Cx F64).Fin := ⟨fin_zero, fin_one⟩
  rcases Cx.iPow_cases (F := F64) n with ⟨-, e⟩ | ⟨-, e⟩ | ⟨-, e⟩ | ⟨-, e⟩ <;> rw [e]
  · exact h1
  · exact hI
  · exact Cx.sumInv_zero.good_neg h1
  · exact Cx.sumInv_zero.good_neg hI

theorem FLO_zer {m p w : Nat} {f : Nat → Cx F64} (h : ∀ k < 2 ^ p, f (k + w * 2 ^ p) = 0) : Zer m (FLO m p f w) := fun i _ j _ => by
  refine cnnO_zero m (fun k => ?_) i j
  unfold pscO
  split
  · rename_i hk
    rw [show lay p f w k = f (k + w * 2 ^ p) from rfl, h k hk]
    exact Cx.zero_mul' (Cx.iPow_Fin _)
  · rfl

section
variable {T : Type} [Zero T] [One T] [Add T] [Sub T] [Neg T] [Mul T] [DecidableEq T] [CoeffLaws T] [IntoComplex T (Cx F64)]

/-- The matrices of the transform of `a` if every two blades of `a` share a null generator. -/
theorem fft_null (h0 : ∀ n, iPowNeg n * IntoComplex.into (0 : T) = (0 : Cx F64)) (hA : A.WF) (hd : A.dim < 63) {a : MV A (ArrayStorage T)}
    (ha : a.Valid) (hn : ∀ i < 2 ^ A.dim, ∀ j < 2 ^ A.dim, a.val i ≠ 0 → a.val j ≠ 0 → i &&& j &&& A.projMask ≠ 0) :
    ∃ r, (a.fft : Res (FFTRepr A (Cx F64))) = .ok r ∧ r.arr.Is A.projDim A.half ∧
      ∀ w < 2 ^ A.projDim, ∀ v < 2 ^ A.projDim, w &&& v = 0 → Zer A.half (r.arr.get w) ∨ Zer A.half (r.arr.get v) := by
  obtain ⟨r, h1, h2, h3⟩ := fft_ops (K := Cx F64) h0 hA hd ha
  refine ⟨r, h1, h2, fun w hw v hv e => ?_⟩
  have hdim : A.nn + A.projDim = A.dim := hA.dims
  have key : ∀ w < 2 ^ A.projDim, ¬ Zer A.half (r.arr.get w) → ∃ k < 2 ^ A.nn, a.val (k + w * 2 ^ A.nn) ≠ 0 := by
    intro w hw h
    by_contra hcon
    push Not at hcon
    refine h fun i hi j hj => ?_
    rw [h3 w hw i hi j hj]
    exact FLO_zer (fun k hk => by unfold cx; rw [hcon k hk]; exact h0 _) i hi j hj
  by_contra hcon
  push Not at hcon
  obtain ⟨k, hk, k1⟩ := key w hw hcon.1
  obtain ⟨l, hl, l1⟩ := key v hv hcon.2
  refine hn _ (hdim ▸ add_mul_lt hk hw) _ (hdim ▸ add_mul_lt hl hv) k1 l1 ?_
  apply Nat.eq_of_testBit_eq
  intro i
  rw [Nat.testBit_and, hA.testBit_proj, Nat.zero_testBit, Nat.testBit_and]
  by_cases hi : A.nn ≤ i
  · have e2 : ((w &&& v).testBit (i - A.nn)) = false := by rw [e, Nat.zero_testBit]
    rw [Nat.testBit_and] at e2
    have g : ∀ {k w : Nat}, k < 2 ^ A.nn → (k + w * 2 ^ A.nn).testBit i = w.testBit (i - A.nn) := fun {k w} hk => by
      rw [add_comm, mul_comm, Nat.testBit_two_pow_mul_add _ hk, if_neg (by omega)]
    rw [g hk, g hl, e2]
    rfl
  · simp [hi]

end

/-- **C88, exactness in the transformed domain.** If every two blades of `a` share a generator that squares to zero, and the entries
of `a.fft()` are finite and of computed norm at most one, `a.fft().exp()` is exactly `one() + a.fft()`. -/
theorem C88_fft_null_f64 {hyp : F64 → F64 → F64} (h00 : hyp 0 0 = 0) (hA : A.WF) (hd : A.dim < 63) {a : MV A (ArrayStorage F64)} (ha : a.Valid)
    {x : Nat → F64} (hx : Coefs (.ok a) x)
    (hn : ∀ i < 2 ^ A.dim, ∀ j < 2 ^ A.dim, x i ≠ 0 → x j ≠ 0 → i &&& j &&& A.projMask ≠ 0) {fuel : ℕ} (hfu : 18 ≤ fuel) :
    ∃ r : FFTRepr A (Cx F64), a.fft = .ok r ∧ ((∀ z ∈ r.arr.entries, fin z.re ∧ fin z.im ∧ fin (hyp z.re z.im) ∧ re (hyp z.re z.im) ≤ 1) →
      ∃ e, r.expF hyp fuel = some (.ok e) ∧
        Same3 (.ok e.intoArray3) (do let t ← (FFTRepr.one : FFTRepr A (Cx F64)).add r; return t.intoArray3)) := by
  have hval : ∀ i < 2 ^ A.dim, a.val i = x i := fun i hi => by
    obtain ⟨v, e, hv⟩ := hx
    injection e with e
    subst e
    have := hv i hi
    rw [ha.get hi] at this
    injection this
  obtain ⟨r, h1, h2, h3⟩ := fft_null ConvModel.fft_zero hA hd ha (fun i hi j hj => by rw [hval i hi, hval j hj]; exact hn i hi j hj)
  refine ⟨r, h1, fun h => ?_⟩
  have hm : ∀ w < 2 ^ A.projDim, ∀ i < 2 ^ A.half, ∀ j < 2 ^ A.half, r.arr.get w i j ∈ r.arr.entries := fun w hw i hi j hj => by
    simp only [Arr3.entries, List.mem_flatMap, List.mem_map, List.mem_range]
    exact ⟨w, h2.1 ▸ hw, i, h2.2.1 ▸ hi, j, h2.2.2 ▸ hj, rfl⟩
  exact C88_fft_null_exact h00 hA hd rfl rfl h2.1 h2.2.1 h2.2.2
    (fun w hw i hi j hj => ⟨(h _ (hm w hw i hi j hj)).1, (h _ (hm w hw i hi j hj)).2.1⟩)
    (fun w hw i hi j hj => (h _ (hm w hw i hi j hj)).2.2) h3 hfu

namespace Ex

/-- A transform of the algebra `M` whose matrix of no null generator is zero. -/
def rNul : FFTRepr M (TClifford.Cx F64) := ⟨⟨2, 2, 2, fun w i j => if w = 1 then ⟨xN (4 + i), xN (5 + j)⟩ else 0⟩⟩

theorem rNul_fin : ∀ w < 2, ∀ i < 2, ∀ j < 2, (rNul.arr.get w i j).re ≠ .nonFinite ∧ (rNul.arr.get w i j).im ≠ .nonFinite := by decide +kernel

theorem rNul_norm : ∀ w < 2, ∀ i < 2, ∀ j < 2, Flt.hypot (rNul.arr.get w i j).re (rNul.arr.get w i j).im ≠ .nonFinite ∧
    (Flt.hypot (rNul.arr.get w i j).re (rNul.arr.get w i j).im).toRat ≤ 1 := by decide +kernel

example : ∃ e, rNul.expF Flt.hypot 18 = some (.ok e) ∧
    Same3 (.ok e.intoArray3) (do let t ← (FFTRepr.one : FFTRepr M (TClifford.Cx F64)).add rNul; return t.intoArray3) :=
  C88_fft_null_exact (by decide +kernel) M_wf (by decide) (s := 1) (m := 1) rfl rfl rfl rfl rfl rNul_fin
    (fun w hw i hi j hj => ⟨(rNul_norm w hw i hi j hj).1, by
      show ((Flt.toRat _ : ℚ) : ℝ) ≤ 1
      exact_mod_cast (rNul_norm w hw i hi j hj).2⟩)
    (fun w hw v hv h => by
      by_cases h1 : w = 1
      · refine .inr fun i _ j _ => if_neg fun h2 => ?_
        subst h1 h2
        exact absurd h (by decide)
      · exact .inl fun i _ j _ => if_neg h1) le_rfl

/-- The entries of the transform of `mNul` are finite and of norm at most one. -/
theorem mNul_entries : (match (mNul.fft : Res (FFTRepr M (TClifford.Cx F64))) with
    | .ok r => r.arr.entries.all fun z => decide (z.re ≠ .nonFinite ∧ z.im ≠ .nonFinite ∧ Flt.hypot z.re z.im ≠ .nonFinite ∧ (Flt.hypot z.re z.im).toRat ≤ 1)
    | .error _ => false) = true := by decide +kernel

example : ∃ r e : FFTRepr M (TClifford.Cx F64), mNul.fft = .ok r ∧ r.expF Flt.hypot 18 = some (.ok e) ∧
    Same3 (.ok e.intoArray3) (do let t ← (FFTRepr.one : FFTRepr M (TClifford.Cx F64)).add r; return t.intoArray3) := by
  obtain ⟨r, h1, h2⟩ := C88_fft_null_f64 (hyp := Flt.hypot) (by decide +kernel) M_wf (by decide) mNul_valid mNul_coefs xN_null (le_refl 18)
  have h := mNul_entries
  rw [h1] at h
  obtain ⟨e, h3, h4⟩ := h2 fun z hz => by
    obtain ⟨z1, z2, z3, z4⟩ := of_decide_eq_true (List.all_eq_true.mp h z hz)
    exact ⟨z1, z2, z3, by show ((Flt.toRat _ : ℚ) : ℝ) ≤ 1; exact_mod_cast z4⟩
  exact ⟨r, e, h1, h3, h4⟩

end Ex

end TClifford
