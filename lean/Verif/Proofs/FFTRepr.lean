import Verif.Proofs.FFT
/-
What the methods of `FFTRepr` compute, in terms of the coefficient function that is represented.
-/

set_option linter.unusedSectionVars false

namespace TClifford

open Finset

section
variable {A : ClAlg} {K : Type} [Field K] [DecidableEq K] [ImagUnit K]

/-- The representation consists of the transforms of the coefficients `f`. -/
def Represents (r : FFTRepr A K) (f : Nat → K) : Prop :=
  r.arr.Is A.projDim A.half ∧ WEq A.projDim A.half r.arr.get (FL A.half A.nn f)

/-- The computation succeeds and its result represents `f`. -/
def RDenotes (x : Res (FFTRepr A K)) (f : Nat → K) : Prop := ∃ r, x = .ok r ∧ Represents r f

theorem RDenotes.congr {x : Res (FFTRepr A K)} {f g : Nat → K} (hA : A.WF) (h : RDenotes x f) (hfg : ∀ k < 2 ^ A.dim, f k = g k) :
    RDenotes x g := by
  obtain ⟨r, h1, h2, h3⟩ := h
  refine ⟨r, h1, h2, fun w hw => ?_⟩
  rw [← FL_congr (f := f) (s := A.projDim) (fun k hk => hfg k (by rw [← hA.dims]; exact hk)) hw]
  exact h3 w hw

theorem RDenotes.bind {x : Res (FFTRepr A K)} {f g : Nat → K} {k : FFTRepr A K → Res (FFTRepr A K)} (h : RDenotes x f)
    (hk : ∀ r, Represents r f → RDenotes (k r) g) : RDenotes (do let r ← x; k r) g := by
  obtain ⟨r, rfl, h⟩ := h
  exact hk r h

theorem RDenotes.of {r : FFTRepr A K} {f : Nat → K} (h : Represents r f) : RDenotes (.ok r) f := ⟨r, rfl, h⟩

/-- Computations of representations of the same function return equal arrays. -/
theorem RDenotes.same {x y : Res (FFTRepr A K)} {f g : Nat → K} (hA : A.WF) (hx : RDenotes x f) (hy : RDenotes y g)
    (h : ∀ k < 2 ^ A.dim, f k = g k) : Same3 (do let r ← x; return r.intoArray3) (do let r ← y; return r.intoArray3) := by
  obtain ⟨r, rfl, h1, h2⟩ := hx.congr hA h
  obtain ⟨s, rfl, h3, h4⟩ := hy
  refine ⟨r.arr, s.arr, rfl, rfl, ?_, ?_⟩
  · unfold Arr3.dims; rw [h1.1, h1.2.1, h1.2.2, h3.1, h3.2.1, h3.2.2]
  · rw [h1.1, h1.2.1, h1.2.2]
    exact h2.trans h4.symm

theorem zero_represents (hA : A.WF) (hd : A.dim < 63) : Represents (FFTRepr.zero : FFTRepr A K) (fun _ => 0) := by
  refine ⟨⟨wcount_eq hA hd, matrixSide_eq hA hd, matrixSide_eq hA hd⟩, fun w _ i _ j _ => ?_⟩
  show 0 = ctr A.half A.nn (lay A.nn (fun _ => 0) w) i j
  have : lay A.nn (fun _ => (0 : K)) w = 0 := rfl
  rw [this, ctr_zero]; rfl

theorem one_represents (hA : A.WF) (hd : A.dim < 63) : Represents (FFTRepr.one : FFTRepr A K) (single 0 1) := by
  refine ⟨⟨wcount_eq hA hd, matrixSide_eq hA hd, matrixSide_eq hA hd⟩, fun w _ i hi j hj => ?_⟩
  show (if w = 0 ∧ i = j then 1 else 0) = ctr A.half A.nn (lay A.nn (single 0 1) w) i j
  by_cases h : w = 0
  · subst h
    rw [lay_zero, ctr_one A.half A.nn i hi j hj]
    simp [idm]
  · rw [if_neg (fun hc => h hc.1)]
    have : lay A.nn (single 0 (1 : K)) w = 0 := by
      funext r
      have hp := Nat.two_pow_pos A.nn
      have : r + w * 2 ^ A.nn ≠ 0 := by
        have := Nat.mul_pos (Nat.pos_of_ne_zero h) hp
        omega
      exact if_neg this
    rw [this, ctr_zero]; rfl

theorem zip_represents {r s : FFTRepr A K} {f g h : Nat → K} (op : K → K → K) (hr : Represents r f) (hs : Represents s g)
    (hop : ∀ w i j, FL A.half A.nn h w i j = op (FL A.half A.nn f w i j) (FL A.half A.nn g w i j)) :
    RDenotes (do return ⟨← Arr3.zip op r.arr s.arr⟩ : Res (FFTRepr A K)) h := by
  unfold Arr3.zip
  obtain ⟨⟨a1, a2, a3⟩, h1⟩ := hr
  obtain ⟨⟨b1, b2, b3⟩, h2⟩ := hs
  rw [if_pos (by unfold Arr3.dims; rw [a1, a2, a3, b1, b2, b3])]
  refine ⟨_, rfl, ⟨a1, a2, a3⟩, fun w hw i hi j hj => ?_⟩
  rw [hop, ← h1 w hw i hi j hj, ← h2 w hw i hi j hj]

theorem add_represents {r s : FFTRepr A K} {f g : Nat → K} (hr : Represents r f) (hs : Represents s g) :
    RDenotes (r.add s) (fun k => f k + g k) :=
  zip_represents _ hr hs (fun w i j => by rw [FL_add]; rfl)

theorem sub_represents {r s : FFTRepr A K} {f g : Nat → K} (hr : Represents r f) (hs : Represents s g) :
    RDenotes (r.sub s) (fun k => f k - g k) :=
  zip_represents _ hr hs (fun w i j => by rw [FL_sub]; rfl)

theorem neg_represents {r : FFTRepr A K} {f : Nat → K} (hr : Represents r f) : Represents r.neg (fun k => -f k) := by
  obtain ⟨h0, h1⟩ := hr
  refine ⟨h0, fun w hw i hi j hj => ?_⟩
  rw [FL_neg]
  show -r.arr.get w i j = -_
  rw [h1 w hw i hi j hj]

theorem smul_represents {r : FFTRepr A K} {f : Nat → K} (c : K) (hr : Represents r f) : Represents (r.smul c) (fun k => f k * c) := by
  obtain ⟨h0, h1⟩ := hr
  refine ⟨h0, fun w hw i hi j hj => ?_⟩
  rw [FL_smul]
  show r.arr.get w i j * c = _ * c
  rw [h1 w hw i hi j hj]

theorem sdiv_represents {r : FFTRepr A K} {f : Nat → K} {c : K} (hc : c ≠ 0) (hr : Represents r f) :
    RDenotes (r.sdiv c) (fun k => f k / c) := by
  unfold FFTRepr.sdiv
  rw [if_neg hc]
  refine ⟨_, rfl, ?_⟩
  have := smul_represents c⁻¹ hr
  simp only [div_eq_mul_inv]
  exact this

theorem mul_represents (hA : A.WF) {r s : FFTRepr A K} {f g : Nat → K} (hr : Represents r f) (hs : Represents s g) :
    RDenotes (r.mul s) (geo A.complexification.sigma A.dim f g) := by
  obtain ⟨t, h1, h2, h3⟩ := wmul_spec hr.1 hs.1
  refine ⟨⟨t⟩, by unfold FFTRepr.mul; rw [h1]; rfl, h2, h3.trans ((W_congr hr.2 hs.2).trans ?_)⟩
  have hd : A.nn + A.projDim = A.dim := hA.dims
  rw [← hd]
  refine W_FL (half_le hA) (half_ge A) _ _ ?_ ?_ _ _
  · intro i hi
    rw [hA.sigma_complexification (by omega), if_pos hi]
  · intro i h1 h2
    rw [hA.sigma_complexification (by omega), if_neg (by omega)]

theorem pow_represents (hA : A.WF) (hd : A.dim < 63) {r : FFTRepr A K} {f : Nat → K} (hr : Represents r f) (n : Nat) :
    RDenotes (r.pow n) (MV.npow A.complexification.sigma A.dim f n) := by
  induction n using Nat.strong_induction_on with
  | _ n ih =>
    rw [FFTRepr.pow]
    split
    · rename_i h; subst h; exact RDenotes.of (one_represents hA hd)
    · split
      · rename_i h; subst h
        exact (RDenotes.of hr).congr hA (fun i _ => (geo_one_left _ _ _ _).symm)
      · rename_i h0 h1
        have hlt : n >>> 1 < n := by rw [Nat.shiftRight_one]; omega
        refine (ih _ hlt).bind ?_
        intro x hx
        have hxx : RDenotes (x.mul x) (MV.npow A.complexification.sigma A.dim f (n >>> 1 + n >>> 1)) :=
          (mul_represents hA hx hx).congr hA (fun i hi => (MV.npow_add _ _ _ _ _ hi).symm)
        split
        · rename_i h2
          rw [Nat.and_one_is_mod] at h2
          have : n >>> 1 + n >>> 1 = n := by rw [Nat.shiftRight_one]; omega
          rw [this] at hxx; exact hxx
        · rename_i h2
          rw [Nat.and_one_is_mod] at h2
          refine hxx.bind ?_
          intro y hy
          have : n = (n >>> 1 + n >>> 1) + 1 := by rw [Nat.shiftRight_one]; omega
          refine (mul_represents hA hy hr).congr hA (fun i hi => ?_)
          conv_rhs => rw [this]
          rfl

theorem flip_represents (hA : A.WF) {r : FFTRepr A K} {f : Nat → K} (hr : Represents r f) :
    Represents r.flip (flp A.dim f) := by
  refine ⟨hr.1, (wAlphaInplace_get _).trans ((alW_congr hr.2).trans ?_)⟩
  have hd : A.nn + A.projDim = A.dim := hA.dims
  rw [← hd]
  exact (FL_flp (half_ge A) A.projDim f).symm

/-! ### Reversal -/

theorem rsg_split {p s r w : Nat} (hr : r < 2 ^ p) :
    rsg (p + s) (r + w * 2 ^ p) = rsg s w * (sg (par s w && par p r) * rsg p r) := by
  rw [rsg_eq, rsg_eq, rsg_eq, par_eq, par_eq, cnt_split hr]
  generalize cnt p r = x
  generalize cnt s w = y
  have hx : x % 4 < 4 := Nat.mod_lt _ (by norm_num)
  have hy : y % 4 < 4 := Nat.mod_lt _ (by norm_num)
  have e1 : x % 2 = x % 4 % 2 := by omega
  have e2 : y % 2 = y % 4 % 2 := by omega
  rw [e1, e2, Nat.add_mod]
  revert hx hy
  generalize x % 4 = x
  generalize y % 4 = y
  intro hx hy
  interval_cases x <;> interval_cases y <;> simp

theorem FL_rev {m p : Nat} (hp : p ≤ 2 * m) (s : Nat) (f : Nat → K) (w : Nat) :
    MEq (2 ^ m) (2 ^ m) (FL m p (fun k => rsg (p + s) k • f k) w)
      (fun i j => rsg s w • (if par s w = true then al m (ifl m (fun i j => FL m p f w j i)) i j
        else ifl m (fun i j => FL m p f w j i) i j)) := by
  have hz : ∀ (c : ℤ) (hc : c = 1 ∨ c = -1) (x : Nat → K), ctr m p (fun r => c • x r) = fun i j => c • ctr m p x i j := by
    rintro c (rfl | rfl) x
    · simp
    · have : (fun r => (-1 : ℤ) • x r) = -x := by funext r; simp
      rw [this, ctr_neg]; funext i j; simp
  have hrs : rsg s w = 1 ∨ rsg s w = -1 := by
    rw [rsg_eq]; split
    · exact .inl rfl
    · exact .inr rfl
  have e : FL m p (fun k => rsg (p + s) k • f k) w =
      fun i j => rsg s w • ctr m p (fun r => sg (par s w && par p r) • (rsg p r • lay p f w r)) i j := by
    rw [← hz _ hrs]
    refine ctr_congr fun r hr => ?_
    show rsg (p + s) (r + w * 2 ^ p) • f _ = rsg s w • (sg _ • (rsg p r • f _))
    rw [rsg_split hr, smul_smul, smul_smul, mul_assoc]
  rw [e]
  intro i hi j hj
  beta_reduce
  congr 1
  by_cases h : par s w = true
  · rw [if_pos h, h]
    simp only [Bool.true_and]
    refine (ctr_flp hp (fun r => rsg p r • lay p f w r) i hi j hj).trans ?_
    exact al_congr (ctr_rev hp (lay p f w)) i hi j hj
  · rw [if_neg h]
    simp only [Bool.not_eq_true] at h
    rw [h]
    simp only [Bool.false_and, sg_false, one_smul]
    exact ctr_rev hp (lay p f w) i hi j hj

theorem revLayer_spec {s m w : Nat} (hm : m < 64) (hw : w < 2 ^ s) (M : Arr2 K) (hr : M.rows = 2 ^ m) (hc : M.cols = 2 ^ m) :
    IsM (FFTRepr.revLayer w M) m (fun i j => rsg s w • (if par s w = true then al m (ifl m (fun i j => M.get j i)) i j
        else ifl m (fun i j => M.get j i) i j)) := by
  obtain ⟨v, h1, h2, h3, h4⟩ := reversal_spec hm M hr hc
  unfold FFTRepr.revLayer
  rw [h1]
  have hc4 : countOnes w % 4 < 4 := Nat.mod_lt _ (by norm_num)
  have hcw := countOnes_eq_cnt hw
  have hp : par s w = decide (countOnes w % 4 % 2 = 1) := by rw [par_eq, ← hcw, Nat.mod_mod_of_dvd _ (by norm_num)]
  have hq : rsg s w = if countOnes w % 4 = 0 ∨ countOnes w % 4 = 1 then 1 else -1 := by rw [rsg_eq, hcw]
  have hal : ∀ i < 2 ^ m, ∀ j < 2 ^ m, al m (ifl m (fun i j => M.get j i)) i j =
      sg (decide (countOnes (i ^^^ j) % 2 = 1)) • v.get i j := by
    intro i hi j hj
    rw [h4 i hi j hj]
    show sg (par m i ^^ par m j) • _ = _
    rw [← par_xor, par_eq, countOnes_eq_cnt (Nat.xor_lt_two_pow hi hj)]
  simp only [unwrap, bind, Except.bind]
  rw [hp, hq]
  revert hc4
  generalize countOnes w % 4 = c
  intro hc4
  interval_cases c
  · refine ⟨_, rfl, h2, h3, fun i hi j hj => ?_⟩
    rw [h4 i hi j hj]; simp
  · refine ⟨_, rfl, h2, h3, fun i hi j hj => ?_⟩
    beta_reduce
    rw [hal i hi j hj]
    by_cases h : countOnes (i ^^^ j) % 2 = 1 <;> simp [h]
  · refine ⟨_, rfl, h2, h3, fun i hi j hj => ?_⟩
    show -v.get i j = _
    rw [h4 i hi j hj]; simp
  · refine ⟨_, rfl, h2, h3, fun i hi j hj => ?_⟩
    beta_reduce
    rw [hal i hi j hj]
    rcases Nat.mod_two_eq_zero_or_one (countOnes (i ^^^ j)) with h | h <;> simp [h]

theorem rev_represents (hA : A.WF) (hd : A.dim < 63) {r : FFTRepr A K} {f : Nat → K} (hr : Represents r f) :
    RDenotes r.rev (fun k => rsg A.dim k • f k) := by
  have hdim : A.nn + A.projDim = A.dim := hA.dims
  obtain ⟨hI, hg⟩ := hr
  obtain ⟨y, h1, h2, h3⟩ := range_foldlM
    (P := fun n (arr : Arr3 K) => arr.Is A.projDim A.half ∧
      ∀ w < n, MEq (2 ^ A.half) (2 ^ A.half) (arr.get w) (FL A.half A.nn (fun k => rsg A.dim k • f k) w))
    (f := fun (arr : Arr3 K) i => do
      let v ← FFTRepr.revLayer i (r.arr.layer i)
      if i < arr.d0 ∧ v.rows = arr.d1 ∧ v.cols = arr.d2 then return arr.setLayer i v else .error .panic)
    r.arr.d0 (FFTRepr.zero : FFTRepr A K).arr ⟨(zero_represents (K := K) hA hd).1, fun w hw => absurd hw (by omega)⟩ (by
      intro i hi x hx
      rw [hI.1] at hi
      obtain ⟨v, e1, e2, e3, e4⟩ := revLayer_spec (s := A.projDim) (m := A.half) (by have := half_le hA; omega) hi (r.arr.layer i) hI.2.1 hI.2.2
      obtain ⟨⟨x0, x1, x2⟩, hx'⟩ := hx
      rw [e1]
      refine ⟨x.setLayer i v, if_pos ⟨by rw [x0]; exact hi, e2.trans x1.symm, e3.trans x2.symm⟩, ⟨x0, x1, x2⟩, ?_⟩
      intro w hw
      show MEq _ _ (if w = i then v.get else x.get w) _
      by_cases h : w = i
      · subst h
        rw [if_pos rfl, ← hdim]
        refine e4.trans (MEq.trans ?_ (FL_rev (half_ge A) A.projDim f w).symm)
        have ht : MEq (2 ^ A.half) (2 ^ A.half) (fun i j => (r.arr.layer w).get j i) (fun i j => FL A.half A.nn f w j i) :=
          fun i hi' j hj => hg w hi j hj i hi'
        intro i hi' j hj
        beta_reduce
        rw [ifl_congr ht i hi' j hj, al_congr (ifl_congr ht) i hi' j hj]
      · rw [if_neg h]; exact hx' w (by omega))
  refine ⟨⟨y⟩, ?_, h2, ?_⟩
  · unfold FFTRepr.rev
    simp only []
    rw [h1]; rfl
  · rw [hI.1] at h3; exact h3

/-! ### Traces -/

theorem trace_represents {r : FFTRepr A K} {f : Nat → K} (hr : Represents r f) : r.trace = (2 ^ A.half : Nat) • f 0 := by
  obtain ⟨hI, hg⟩ := hr
  unfold FFTRepr.trace
  rw [hI.2.1]
  have : (List.range (2 ^ A.half)).foldl (fun s i => s + r.arr.get 0 i i) 0 = ∑ i ∈ range (2 ^ A.half), r.arr.get 0 i i := by
    rw [← List.toFinset_range, List.sum_toFinset _ List.nodup_range, List.sum_eq_foldl, List.foldl_map]
  rw [this, ← lay_zero A.nn f, ← ctr_trace A.half A.nn]
  refine Finset.sum_congr rfl fun i hi => ?_
  exact hg 0 (Nat.two_pow_pos _) i (Finset.mem_range.mp hi) i (Finset.mem_range.mp hi)

theorem ntrace_represents (h2 : (2 : K) ≠ 0) {r : FFTRepr A K} {f : Nat → K} (hr : Represents r f) : r.ntrace = f 0 := by
  unfold FFTRepr.ntrace
  rw [trace_represents hr, hr.1.2.1, nsmul_eq_mul]
  have : ((2 ^ A.half : Nat) : K) ≠ 0 := by push_cast; exact pow_ne_zero _ h2
  exact mul_div_cancel_left₀ _ this

theorem mag2_represents (hA : A.WF) (hd : A.dim < 63) (h2 : (2 : K) ≠ 0) {r : FFTRepr A K} {f : Nat → K} (hr : Represents r f) :
    r.mag2 = .ok (geo A.complexification.sigma A.dim (fun k => rsg A.dim k • f k) f 0) := by
  unfold FFTRepr.mag2
  obtain ⟨s, e1, h1⟩ := rev_represents hA hd hr
  obtain ⟨t, e2, h3⟩ := mul_represents hA h1 hr
  rw [e1]
  show (do let p ← s.mul r; return p.ntrace : Res K) = _
  rw [e2]
  show Except.ok t.ntrace = _
  rw [ntrace_represents h2 h3]

/-! ### `fft` and `ifft` -/

variable {T : Type} [Ring T] [DecidableEq T] [IntoComplex T K]

theorem FLO_eq (m p s : Nat) (f : Nat → K) : WEq s m (FLO m p f) (FL m p f) := fun _ _ => ctrO_eq m p _

theorem fft_represents [LawfulInto T K] (hA : A.WF) (hd : A.dim < 63) {a : MV A (ArrayStorage T)} (ha : a.Valid) :
    RDenotes (a.fft : Res (FFTRepr A K)) (cx A a.val) := by
  obtain ⟨r, h1, h2, h3⟩ := fft_ops (K := K) (fun n => by rw [into_zero, mul_zero]) hA hd ha
  exact ⟨r, h1, h2, h3.trans (FLO_eq _ _ _ _)⟩

/-- The coefficients (in the all-plus algebra) that a family of matrices represents. -/
def unfl (m p : Nat) (X : Nat → Nat → Nat → K) : Nat → K := fun k => ictr m (X (k / 2 ^ p)) (k % 2 ^ p)

theorem unfl_FL (h2 : (2 : K) ≠ 0) {m p s : Nat} (hp : p ≤ 2 * m) {X : Nat → Nat → Nat → K} {f : Nat → K}
    (h : WEq s m X (FL m p f)) {k : Nat} (hk : k < 2 ^ (p + s)) : unfl m p X k = f k := by
  unfold unfl
  have hw : k / 2 ^ p < 2 ^ s := by
    rw [Nat.div_lt_iff_lt_mul (Nat.two_pow_pos p), ← pow_add, add_comm]; exact hk
  have hr : k % 2 ^ p < 2 ^ p := Nat.mod_lt _ (Nat.two_pow_pos p)
  rw [ictr_congr (h _ hw)]
  unfold FL
  rw [ictr_ctr h2 _ (lt_of_lt_of_le hr (Nat.pow_le_pow_right (by norm_num) hp))]
  unfold pad lay
  rw [if_pos hr, Nat.mod_add_div']

theorem FL_unfl (h2 : (2 : K) ≠ 0) (m s : Nat) (X : Nat → Nat → Nat → K) : WEq s m (FL m (2 * m) (unfl m (2 * m) X)) X := by
  intro w _
  unfold FL
  rw [ctr_congr (y := ictr m (X w))]
  · exact ctr_ictr h2 m (X w)
  · intro r hr
    show ictr m (X ((r + w * 2 ^ (2 * m)) / 2 ^ (2 * m))) ((r + w * 2 ^ (2 * m)) % 2 ^ (2 * m)) = _
    rw [Nat.add_mul_div_right _ _ (Nat.two_pow_pos _), Nat.div_eq_of_lt hr, zero_add, Nat.add_mul_mod_self_right, Nat.mod_eq_of_lt hr]

theorem ifft_denotes [FromComplex T K] [LawfulComplex T K] (hA : A.WF) (hd : A.dim < 63) {r : FFTRepr A K}
    (hr : r.arr.Is A.projDim A.half) : MV.Denotes (r.ifft : Res (MV A (ArrayStorage T))) (dcx A (unfl A.half A.nn r.arr.get)) := by
  refine (ifft_ops (fun n => by rw [mul_zero, from_zero]) hA hd hr).congr (fun k _ => dcx_congr (ictrO_eq _ _ ?_))
  exact lt_of_lt_of_le (Nat.mod_lt _ (Nat.two_pow_pos _)) (Nat.pow_le_pow_right (by norm_num) (half_ge A))

theorem ifft_represents [FromComplex T K] [LawfulComplex T K] (hA : A.WF) (hd : A.dim < 63) (h2 : (2 : K) ≠ 0)
    {x : Res (FFTRepr A K)} {f : Nat → K} (hx : RDenotes x f) :
    MV.Denotes (do let r ← x; r.ifft : Res (MV A (ArrayStorage T))) (dcx A f) := by
  obtain ⟨r, rfl, hr⟩ := hx
  refine (ifft_denotes hA hd hr.1).congr (fun k hk => dcx_congr ?_)
  exact unfl_FL h2 (half_ge A) hr.2 (by rw [show A.nn + A.projDim = A.dim from hA.dims]; exact hk)

/-- Every family of matrices represents some coefficients when the number of non-null generators is even. -/
theorem represents_unfl (h2 : (2 : K) ≠ 0) (he : A.nn % 2 = 0) {r : FFTRepr A K} (hr : r.arr.Is A.projDim A.half) :
    Represents r (unfl A.half A.nn r.arr.get) := by
  refine ⟨hr, ?_⟩
  have := FL_unfl h2 A.half A.projDim r.arr.get
  rw [show 2 * A.half = A.nn by unfold ClAlg.half; omega] at this
  exact this.symm

end

end TClifford
