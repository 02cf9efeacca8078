import Verif.Proofs.FFTOps
/-
What `fft`, `ifft` and the operations of `FFTRepr` compute.

An algebra with `p` non-null generators (the first ones) and `s` null generators is represented by `2^s` square matrices
of side `2^m`, `m = ⌈p/2⌉`: the matrix number `w` is the transform of the `2^p` coefficients of the blades that contain
exactly the null generators of `w`.
-/

set_option linter.unusedSectionVars false

namespace TClifford

open Finset

/-! ### Families of matrices -/

section layers
variable {K : Type} [Field K] [ImagUnit K]

/-- The matrices that represent the coefficients `f`. -/
def FL (m p : Nat) (f : Nat → K) (w : Nat) : Nat → Nat → K := ctr m p (lay p f w)

/-- Grade involution of a family of matrices. -/
def alW (s m : Nat) (X : Nat → Nat → Nat → K) : Nat → Nat → Nat → K := fun w i j => sg (par s w) • al m (X w) i j

/-- The product of families of matrices. -/
def W (m : Nat) : Nat → (Nat → Nat → Nat → K) → (Nat → Nat → Nat → K) → Nat → Nat → Nat → K
  | 0, X, Y => fun _ => mm m (X 0) (Y 0)
  | s + 1, X, Y => fun w =>
    if w < 2 ^ s then W m s X Y w
    else W m s (hiW s X) Y (w - 2 ^ s) + W m s (alW s m X) (hiW s Y) (w - 2 ^ s)

theorem alW_congr {s m : Nat} {X Y : Nat → Nat → Nat → K} (h : WEq s m X Y) : WEq s m (alW s m X) (alW s m Y) :=
  fun w hw i hi j hj => by unfold alW; rw [al_congr (h w hw) i hi j hj]

theorem alW_alW (s m : Nat) (X : Nat → Nat → Nat → K) : alW s m (alW s m X) = X := by
  funext w i j
  show sg (par s w) • al m (fun i j => sg (par s w) • al m (X w) i j) i j = _
  have : al m (fun i j => sg (par s w) • al m (X w) i j) i j = sg (par s w) • al m (al m (X w)) i j := by
    simp only [al]; rw [smul_comm]
  rw [this, al_al, smul_smul, sg_mul_self, one_smul]

theorem W_congr {m s : Nat} {X X' Y Y' : Nat → Nat → Nat → K} (hX : WEq s m X X') (hY : WEq s m Y Y') :
    WEq s m (W m s X Y) (W m s X' Y') := by
  induction s generalizing X X' Y Y' with
  | zero => intro w _; exact mm_congr (hX 0 (by norm_num)) (hY 0 (by norm_num))
  | succ s ih =>
    have hlo : ∀ {Z Z' : Nat → Nat → Nat → K}, WEq (s + 1) m Z Z' → WEq s m Z Z' := fun h w hw => h w (by rw [pow_succ]; omega)
    have hhi : ∀ {Z Z' : Nat → Nat → Nat → K}, WEq (s + 1) m Z Z' → WEq s m (hiW s Z) (hiW s Z') := fun h w hw =>
      h (w + 2 ^ s) (by rw [pow_succ]; omega)
    intro w hw
    show MEq _ _ (if w < 2 ^ s then _ else _) (if w < 2 ^ s then _ else _)
    by_cases h : w < 2 ^ s
    · rw [if_pos h, if_pos h]; exact ih (hlo hX) (hlo hY) w h
    · obtain ⟨v, hv, rfl⟩ := two_pow_succ_half hw h
      rw [if_neg h, if_neg h, Nat.add_sub_cancel]
      intro i hi j hj
      simp only [Pi.add_apply]
      rw [ih (hhi hX) (hlo hY) v hv i hi j hj, ih (alW_congr (hlo hX)) (hhi hY) v hv i hi j hj]

theorem FL_hi (m p s : Nat) (f : Nat → K) : hiW s (FL m p f) = FL m p (hi (p + s) f) := by
  funext w
  show ctr m p _ = ctr m p _
  congr 1
  funext r
  show f _ = f _
  congr 1
  rw [add_mul, ← pow_add, add_comm s p, add_assoc]

theorem cnt_split {p s r w : Nat} (hr : r < 2 ^ p) : cnt (p + s) (r + w * 2 ^ p) = cnt p r + cnt s w := by
  induction s with
  | zero =>
    rw [Nat.add_zero, cnt_zero_left, Nat.add_zero]
    refine cnt_congr fun i hi => ?_
    rw [testBit_mod_add _ _ _ _ hr, if_pos hi]
  | succ s ih =>
    rw [← Nat.add_assoc, cnt_succ, cnt_succ, ih, testBit_mod_add _ _ _ _ hr, if_neg (by omega), Nat.add_sub_cancel_left]
    omega

theorem par_split {p s r w : Nat} (hr : r < 2 ^ p) : par (p + s) (r + w * 2 ^ p) = (par p r ^^ par s w) := by
  rw [par_eq, par_eq, par_eq, cnt_split hr]
  rcases Nat.mod_two_eq_zero_or_one (cnt p r) with h | h <;> rcases Nat.mod_two_eq_zero_or_one (cnt s w) with h' | h' <;>
    simp [Nat.add_mod, h, h']

theorem ctr_sg (m p : Nat) (b : Bool) (x : Nat → K) : ctr m p (fun r => sg b • x r) = fun i j => sg b • ctr m p x i j := by
  cases b
  · simp
  · have : (fun r => sg true • x r) = -x := by funext r; simp
    rw [this, ctr_neg]; funext i j; simp

theorem FL_flp {m p : Nat} (hp : p ≤ 2 * m) (s : Nat) (f : Nat → K) : WEq s m (FL m p (flp (p + s) f)) (alW s m (FL m p f)) := by
  intro w hw i hi j hj
  unfold FL alW
  have : ctr m p (lay p (flp (p + s) f) w) = ctr m p (fun r => sg (par s w) • flp p (lay p f w) r) := by
    refine ctr_congr fun r hr => ?_
    show sg (par (p + s) (r + w * 2 ^ p)) • f (r + w * 2 ^ p) = sg (par s w) • (sg (par p r) • f (r + w * 2 ^ p))
    rw [par_split hr, sg_xor, mul_comm, mul_smul]
  rw [this, ctr_sg]
  beta_reduce
  rw [ctr_flp hp _ i hi j hj]

theorem FL_congr {m p s : Nat} {f g : Nat → K} (h : ∀ k < 2 ^ (p + s), f k = g k) {w : Nat} (hw : w < 2 ^ s) :
    FL m p f w = FL m p g w :=
  ctr_congr fun _ hr => h _ (add_mul_lt hr hw)

theorem FL_add (m p : Nat) (f g : Nat → K) (w : Nat) : FL m p (fun k => f k + g k) w = FL m p f w + FL m p g w := ctr_add m p _ _
theorem FL_sub (m p : Nat) (f g : Nat → K) (w : Nat) : FL m p (fun k => f k - g k) w = FL m p f w - FL m p g w := ctr_sub m p _ _
theorem FL_neg (m p : Nat) (f : Nat → K) (w : Nat) : FL m p (fun k => -f k) w = -FL m p f w := ctr_neg m p _
theorem FL_smul (m p : Nat) (f : Nat → K) (c : K) (w : Nat) : FL m p (fun k => f k * c) w = fun i j => FL m p f w i j * c :=
  ctr_smul m p _ c

/-- The product of the representing families represents the geometric product. -/
theorem W_FL {m p : Nat} (hm : 2 * m ≤ 64) (hp : p ≤ 2 * m) (s : Nat) (σ : Nat → ℤ) (h1 : ∀ i < p, σ i = 1)
    (h0 : ∀ i, p ≤ i → i < p + s → σ i = 0) (f g : Nat → K) :
    WEq s m (W m s (FL m p f) (FL m p g)) (FL m p (geo σ (p + s) f g)) := by
  induction s generalizing f g with
  | zero =>
    intro w hw
    have : w = 0 := by simpa using hw
    subst this
    unfold W FL
    rw [lay_zero, lay_zero, lay_zero]
    refine (ctr_geo hm hp f g).symm.trans ?_
    rw [ctr_congr (y := geo σ (p + 0) f g)]
    · exact MEq.rfl' _
    · intro i hi
      exact geo_congr (fun i hi => (h1 i hi).symm) (fun _ _ => rfl) (fun _ _ => rfl) hi
  | succ s ih =>
    have ih := ih (fun i h h' => h0 i h (by omega))
    have hz : σ (p + s) = 0 := h0 _ (by omega) (by omega)
    intro w hw
    show MEq _ _ (if w < 2 ^ s then _ else _) _
    by_cases h : w < 2 ^ s
    · rw [if_pos h]
      refine (ih f g w h).trans ?_
      rw [FL_congr (g := geo σ (p + (s + 1)) f g) (fun k hk => by
        rw [← Nat.add_assoc, geo_lo _ _ _ _ hk, hz, zero_smul, add_zero]) h]
      exact MEq.rfl' _
    · obtain ⟨v, hv, rfl⟩ := two_pow_succ_half hw h
      rw [if_neg h, Nat.add_sub_cancel]
      have e : FL m p (geo σ (p + (s + 1)) f g) (v + 2 ^ s) =
          FL m p (geo σ (p + s) (hi (p + s) f) g) v + FL m p (geo σ (p + s) (flp (p + s) f) (hi (p + s) g)) v := by
        have := congrFun (FL_hi m p s (geo σ (p + (s + 1)) f g)) v
        rw [show FL m p (geo σ (p + (s + 1)) f g) (v + 2 ^ s) = hiW s (FL m p (geo σ (p + (s + 1)) f g)) v from rfl, this, ← FL_add]
        refine FL_congr (fun k hk => ?_) hv
        show geo σ (p + (s + 1)) f g (k + 2 ^ (p + s)) = _
        rw [← Nat.add_assoc, geo_hi _ _ _ _ hk]
      rw [e]
      intro i hi' j hj
      simp only [Pi.add_apply]
      rw [FL_hi, FL_hi, ih _ _ v hv i hi' j hj]
      congr 1
      refine (W_congr (FL_flp hp s f).symm (WEq.rfl' _) v hv i hi' j hj).trans ?_
      exact ih _ _ v hv i hi' j hj

end layers

/-! ### `wmul` -/

section wmul
variable {K : Type} [Field K] [ImagUnit K]

theorem alWO_eq {s m : Nat} (X : Nat → Nat → Nat → K) : WEq s m (alWO X) (alW s m X) := by
  intro w hw i hi j hj
  have hx : i ^^^ j < 2 ^ m := Nat.xor_lt_two_pow hi hj
  show (if (countOnes w + countOnes (i ^^^ j)) &&& 1 = 1 then -X w i j else X w i j) = sg (par s w) • (sg (par m i ^^ par m j) • X w i j)
  rw [smul_smul, ← sg_xor, ← par_xor, Nat.and_one_is_mod, countOnes_eq_cnt hw, countOnes_eq_cnt hx, par_eq, par_eq]
  rcases Nat.mod_two_eq_zero_or_one (cnt s w) with h | h <;> rcases Nat.mod_two_eq_zero_or_one (cnt m (i ^^^ j)) with h' | h' <;>
    simp [Nat.add_mod, h, h']

theorem wAlphaInplace_get {s m : Nat} (a : Arr3 K) : WEq s m (wAlphaInplace a).get (alW s m a.get) := alWO_eq a.get

theorem WO_eq (s m : Nat) (X Y : Nat → Nat → Nat → K) : WEq s m (WO m s X Y) (W m s X Y) := by
  induction s generalizing X Y with
  | zero => intro w _; unfold WO W; rw [mmO_eq]; exact MEq.rfl' _
  | succ s ih =>
    intro w hw
    show MEq _ _ (if w < 2 ^ s then _ else _) (if w < 2 ^ s then _ else _)
    by_cases h : w < 2 ^ s
    · rw [if_pos h, if_pos h]; exact ih X Y w h
    · obtain ⟨v, hv, rfl⟩ := two_pow_succ_half hw h
      rw [if_neg h, if_neg h, Nat.add_sub_cancel]
      intro i hi j hj
      simp only [Pi.add_apply]
      rw [ih _ _ v hv i hi j hj, ih _ _ v hv i hi j hj]
      congr 1
      exact W_congr (alWO_eq X) (WEq.rfl' _) v hv i hi j hj

theorem wmul_spec {s m : Nat} {a b : Arr3 K} (ha : a.Is s m) (hb : b.Is s m) :
    ∃ r, wmul a b = .ok r ∧ r.Is s m ∧ WEq s m r.get (W m s a.get b.get) := by
  obtain ⟨r, h1, h2, h3⟩ := wmul_ops neg_neg ha hb
  exact ⟨r, h1, h2, h3.trans (WO_eq s m _ _)⟩

end wmul

end TClifford
