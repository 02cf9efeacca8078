import Verif.Props.SignExact
import Verif.Proofs.FFTFlip
import Verif.Model.FFTExpF
/-
C14, C33 in floating point, continued: `exp` of multivectors and the operations of `FFTRepr`.
-/

set_option linter.unusedSectionVars false

namespace TClifford

open MV

theorem Flt.abs_neg {f : Fmt} (x : Flt f) : (-x).abs = x.abs := by
  match x with
  | .nonFinite => rfl
  | .num x =>
    obtain ⟨y, h1, h2⟩ := Flt.neg_num_ex x
    rw [h1]
    show Flt.ofRat |y.1| = Flt.ofRat |x.1|
    rw [h2, _root_.abs_neg]

theorem Flt.abs_ng {f : Fmt} (b : Bool) (x : Flt f) : (ng b x).abs = x.abs := by
  cases b
  · rfl
  · exact Flt.abs_neg x

section
variable {T : Type} [Zero T] [One T] [Add T] [Sub T] [Neg T] [Mul T] [Div T] [DecidableEq T] [CoeffLaws T] [SumLaws T] [SignLaws T] [SignMul T]
variable {A : ClAlg}

theorem ngT_zero (b : Bool) : ng b (0 : T) = 0 := by
  cases b
  · rfl
  · exact SumLaws.neg_zero

/-- A multivector with coefficients only in places without a sign change. -/
theorem Flp.refl_of {s : Nat → Bool} {a : MV A (ArrayStorage T)} (ha : a.Valid) (h : ∀ i < 2 ^ A.dim, s i = true → a.val i = 0) : Flp s a a :=
  ⟨ha, ha, fun i hi => by
    cases e : s i
    · rfl
    · rw [h i hi e, ngT_zero]⟩

theorem foldl_pair {X Y Z : Type} (R : Y → Z → Prop) (l : List X) (g : X → X) (f : Y → X → Y) (f' : Z → X → Z)
    (h : ∀ u u', R u u' → ∀ x ∈ l, R (f u x) (f' u' (g x))) {u : Y} {u' : Z} (hu : R u u') : R (l.foldl f u) ((l.map g).foldl f' u') := by
  induction l generalizing u u' with
  | nil => exact hu
  | cons x xs ih => exact ih (fun u u' hu x hx => h u u' hu x (by simp [hx])) (h u u' hu x (by simp))

theorem Flp.smul {s : Nat → Bool} {a a' : MV A (ArrayStorage T)} (ha : Flp s a a') (t : T) :
    ∃ v v', a.smul t = .ok v ∧ a'.smul t = .ok v' ∧ Flp s v v' := by
  obtain ⟨z, e, hz, hz0⟩ := default_denotes (A := A) (S := ArrayStorage T) (T := T) ha.1.supp
  unfold MV.smul
  rw [e, ha.enum]
  refine ⟨_, _, rfl, rfl, foldl_pair (Flp s) _ _ _ _ (fun u u' hu p hp => ?_) (Flp.refl_of hz fun i hi _ => hz0 i hi)⟩
  obtain ⟨h1, h2, h3⟩ := hu
  have hi := (LawfulStorage.enum_mem ha.1 hp).1
  refine ⟨h1.set _ _, h2.set _ _, fun k hk => ?_⟩
  rw [h1.set_val hi, h2.set_val hi]
  by_cases hki : k = p.1
  · rw [if_pos hki, if_pos hki, hki]
    have := ng_mul_ng (s p.1) false p.2 t
    rwa [Bool.xor_false] at this
  · rw [if_neg hki, if_neg hki, h3 k hk]

theorem Flp.one {s : Nat → Bool} (h0 : s 0 = false) {a : MV A (ArrayStorage T)} (ha : a.Valid) :
    ∃ v, MV.one (A := A) (S := ArrayStorage T) (T := T) = .ok v ∧ Flp s v v := by
  obtain ⟨z, e, hz, hz0⟩ := one_denotes (A := A) (S := ArrayStorage T) (T := T) ha.supp
  refine ⟨z, e, Flp.refl_of hz fun i hi hs => ?_⟩
  rw [hz0 i hi]
  unfold single
  rw [if_neg]
  rintro rfl
  rw [h0] at hs
  exact Bool.false_ne_true hs

end

section
variable {A : ClAlg}

/-- The results of two computations that may run out of fuel or fail: both do not, or they are related by `R`. -/
def OptRel {Y : Type} (R : Y → Y → Prop) (x y : Option (Res Y)) : Prop :=
  (x = none ∧ y = none) ∨ (∃ e, x = some (.error e) ∧ y = some (.error e)) ∨ ∃ v v', x = some (.ok v) ∧ y = some (.ok v') ∧ R v v'

theorem Flp.expMaxF (hA : A.WF) {s : Nat → Bool} {a a' : MV A (ArrayStorage F64)} (ha : Flp s a a') : a'.expMaxF = a.expMaxF := by
  obtain ⟨m, e1, e2⟩ := Flp.mag2 hA ha
  unfold MV.expMaxF
  rw [e1, e2, ha.enum]
  have e : (a.coeffEnumerate.map fun p => (p.1, ng (s p.1) p.2)).foldl (fun m p => Flt.fmax p.2.abs m) (1 : F64) =
      a.coeffEnumerate.foldl (fun m p => Flt.fmax p.2.abs m) (1 : F64) := by
    refine (foldl_pair (fun x y => y = x) _ _ _ _ (fun u u' hu p _ => ?_) rfl)
    subst hu
    rw [Flt.abs_ng]
  rw [e]

theorem Flp.taylorF (hA : A.WF) {s : Nat → Bool} (hs : ∀ i j, s (i ^^^ j) = (s i ^^ s j)) {x x' : MV A (ArrayStorage F64)} (hx : Flp s x x')
    (fuel : Nat) (coeff : F64) (i : Nat) {r r' p p' : MV A (ArrayStorage F64)} (hr : Flp s r r') (hp : Flp s p p') :
    OptRel (Flp s) (MV.taylorF x fuel coeff i r p) (MV.taylorF x' fuel coeff i r' p') := by
  induction fuel generalizing coeff i r r' p p' with
  | zero =>
    unfold MV.taylorF
    split
    · exact .inl ⟨rfl, rfl⟩
    · exact .inr (.inr ⟨_, _, rfl, rfl, hr⟩)
  | succ fuel ih =>
    unfold MV.taylorF
    split
    · obtain ⟨t, t', e1, e2, ht⟩ := hp.smul (coeff / Flt.ofRat (i : ℚ))
      obtain ⟨q, q', e3, e4, hq⟩ := hr.add ht
      obtain ⟨w, w', e5, e6, hw⟩ := Flp.mul hA hs hp hx
      simp only [e1, e2, e3, e4, e5, e6, bind, Except.bind, pure, Except.pure]
      exact ih _ _ hq hw
    · exact .inr (.inr ⟨_, _, rfl, rfl, hr⟩)

theorem Flp.expF (hA : A.WF) {s : Nat → Bool} (hs : ∀ i j, s (i ^^^ j) = (s i ^^ s j)) {a a' : MV A (ArrayStorage F64)} (ha : Flp s a a')
    (fuel : Nat) : OptRel (Flp s) (a.expF fuel) (a'.expF fuel) := by
  have h0 : s 0 = false := by have := hs 0 0; rwa [Nat.xor_self, Bool.xor_self] at this
  obtain ⟨o, eo, ho⟩ := Flp.one (A := A) h0 ha.1
  obtain ⟨m, em⟩ : ∃ m, a.expMaxF = .ok m := by
    obtain ⟨m, e1, e2⟩ := Flp.mag2 hA ha
    unfold MV.expMaxF
    rw [e1]
    exact ⟨_, rfl⟩
  unfold MV.expF
  rw [ha.expMaxF hA, eo, em]
  simp only [bind, Except.bind]
  cases eu : m.toUsize with
  | error e => exact .inr (.inl ⟨e, rfl, rfl⟩)
  | ok k =>
    obtain ⟨n, n', e1, e2, hn⟩ := ha.smul (1 / m)
    simp only [e1, e2, pure, Except.pure]
    rcases Flp.taylorF hA hs hn fuel 1 1 ho hn with ⟨h1, h2⟩ | ⟨e, h1, h2⟩ | ⟨v, v', h1, h2, h3⟩
    · rw [h1, h2]; exact .inl ⟨rfl, rfl⟩
    · rw [h1, h2]; exact .inr (.inl ⟨e, rfl, rfl⟩)
    · rw [h1, h2]
      obtain ⟨w, w', e3, e4, hw⟩ := Flp.pow hA hs h3 k
      refine .inr (.inr ⟨w, w', ?_, ?_, hw⟩)
      · show some (v.pow k) = _; rw [e3]
      · show some (v'.pow k) = _; rw [e4]

/-- **C14, C88.** The rounded exponential commutes exactly with the negation of some of the generators: `exp` stops after the same number of steps or fails
in the same way, and the results differ in nothing but the signs of the blades with an odd number of these generators. -/
theorem C14_rounded_exp (hA : A.WF) {a : MV A (ArrayStorage F64)} (ha : a.Valid) (mask fuel : Nat) :
    ∃ a', a.flipSubspace mask = .ok a' ∧
      OptRel (fun v v' => v.flipSubspace mask ≈ᵣ .ok v') (a.expF fuel) (a'.expF fuel) := by
  obtain ⟨a', ea, fa⟩ := flp_of_flipSubspace ha mask
  refine ⟨a', ea, ?_⟩
  rcases Flp.expF hA (par_and_xor _ _) fa fuel with h | h | ⟨v, v', h1, h2, h3⟩
  · exact .inl h
  · exact .inr (.inl h)
  · obtain ⟨w, e3, h'⟩ := flp_of_flipSubspace h3.1 mask
    exact .inr (.inr ⟨v, v', h1, h2, by show v.flipSubspace mask ≈ᵣ _; rw [e3]; exact h'.agree h3⟩)

end

section
variable {K : Type} [Zero K] [One K] [Add K] [Sub K] [Neg K] [Mul K] [Div K] [DecidableEq K] [HasI K] [CoeffLaws K] [SumLaws K] [SignLaws K] [SignMul K]
variable {A : ClAlg}

/-- `r'` is the grade involution of `r`. -/
def FlpR (r r' : FFTRepr A K) : Prop :=
  r.arr.Is A.projDim A.half ∧ r'.arr.Is A.projDim A.half ∧ WEq A.projDim A.half r'.arr.get (flW A.projDim A.half r.arr.get)

theorem flpR_flip {r : FFTRepr A K} (hr : r.arr.Is A.projDim A.half) : FlpR r r.flip := by
  obtain ⟨h1, h2⟩ := flip_ops hr
  refine ⟨hr, h1, fun w hw i hi j hj => (h2 w hw i hi j hj).trans ?_⟩
  unfold flW alM
  beta_reduce
  rw [ng_ng]

theorem FlpR.same {r r' r'' : FFTRepr A K} (h : FlpR r r') (h' : FlpR r r'') :
    Same3 (.ok r'.intoArray3) (.ok r''.intoArray3) :=
  ⟨_, _, rfl, rfl, same3_of h.2.1 h'.2.1 h.2.2 h'.2.2⟩

theorem FlpR.mul {r r' s s' : FFTRepr A K} (hr : FlpR r r') (hs : FlpR s s') : ∃ p p', r.mul s = .ok p ∧ r'.mul s' = .ok p' ∧ FlpR p p' := by
  obtain ⟨p, e1, p1, p2⟩ := mul_ops SignLaws.neg_neg hr.1 hs.1
  obtain ⟨q, e2, q1, q2⟩ := mul_ops SignLaws.neg_neg hr.2.1 hs.2.1
  refine ⟨p, q, e1, e2, p1, q1, q2.trans ((WO_congr hr.2.2 hs.2.2).trans ((WO_flW _ _ _ _).trans ?_))⟩
  intro w hw i hi j hj
  unfold flW
  rw [p2 w hw i hi j hj]

theorem FlpR.zip {r r' s s' : FFTRepr A K} (hr : FlpR r r') (hs : FlpR s s') (op : K → K → K) (hop : ∀ b x y, ng b (op x y) = op (ng b x) (ng b y)) :
    ∃ p p', Arr3.zip op r.arr s.arr = .ok p ∧ Arr3.zip op r'.arr s'.arr = .ok p' ∧ FlpR (A := A) ⟨p⟩ ⟨p'⟩ := by
  obtain ⟨⟨a0, a1, a2⟩, ⟨b0, b1, b2⟩, hr⟩ := hr
  obtain ⟨⟨c0, c1, c2⟩, ⟨d0, d1, d2⟩, hs⟩ := hs
  unfold Arr3.zip
  rw [if_pos (by unfold Arr3.dims; rw [a0, a1, a2, c0, c1, c2]), if_pos (by unfold Arr3.dims; rw [b0, b1, b2, d0, d1, d2])]
  refine ⟨_, _, rfl, rfl, ⟨a0, a1, a2⟩, ⟨b0, b1, b2⟩, fun w hw i hi j hj => ?_⟩
  show op (r'.arr.get w i j) (s'.arr.get w i j) = ng _ (op (r.arr.get w i j) (s.arr.get w i j))
  rw [hr w hw i hi j hj, hs w hw i hi j hj, hop]
  rfl

theorem FlpR.add {r r' s s' : FFTRepr A K} (hr : FlpR r r') (hs : FlpR s s') : ∃ p p', r.add s = .ok p ∧ r'.add s' = .ok p' ∧ FlpR p p' := by
  obtain ⟨p, p', e1, e2, h⟩ := hr.zip hs (· + ·) ng_add
  exact ⟨⟨p⟩, ⟨p'⟩, by unfold FFTRepr.add; rw [e1]; rfl, by unfold FFTRepr.add; rw [e2]; rfl, h⟩

theorem FlpR.sub {r r' s s' : FFTRepr A K} (hr : FlpR r r') (hs : FlpR s s') : ∃ p p', r.sub s = .ok p ∧ r'.sub s' = .ok p' ∧ FlpR p p' := by
  obtain ⟨p, p', e1, e2, h⟩ := hr.zip hs (· - ·) ng_sub
  exact ⟨⟨p⟩, ⟨p'⟩, by unfold FFTRepr.sub; rw [e1]; rfl, by unfold FFTRepr.sub; rw [e2]; rfl, h⟩

theorem FlpR.one (hA : A.WF) (hd : A.dim < 63) : FlpR (FFTRepr.one : FFTRepr A K) FFTRepr.one := by
  have hI : (FFTRepr.one : FFTRepr A K).arr.Is A.projDim A.half := ⟨wcount_eq hA hd, matrixSide_eq hA hd, matrixSide_eq hA hd⟩
  refine ⟨hI, hI, fun w hw i hi j hj => ?_⟩
  show (if w = 0 ∧ i = j then (1 : K) else 0) = ng (par A.projDim w ^^ (par A.half i ^^ par A.half j)) (if w = 0 ∧ i = j then 1 else 0)
  split
  · rename_i h
    rw [h.1, h.2, par_zero, Bool.xor_self]
    rfl
  · rw [ng_zero_eq]

theorem FlpR.pow (hA : A.WF) (hd : A.dim < 63) {r r' : FFTRepr A K} (hr : FlpR r r') (n : Nat) :
    ∃ p p', r.pow n = .ok p ∧ r'.pow n = .ok p' ∧ FlpR p p' := by
  induction n using Nat.strong_induction_on with
  | _ n ih =>
    unfold FFTRepr.pow
    by_cases h1 : n = 0
    · rw [if_pos h1, if_pos h1]
      exact ⟨_, _, rfl, rfl, FlpR.one hA hd⟩
    · by_cases h2 : n = 1
      · rw [if_neg h1, if_pos h2, if_neg h1, if_pos h2]
        exact ⟨r, r', rfl, rfl, hr⟩
      · rw [if_neg h1, if_neg h2, if_neg h1, if_neg h2]
        obtain ⟨x, x', e1, e2, hx⟩ := ih (n >>> 1) (by rw [Nat.shiftRight_one]; omega)
        obtain ⟨y, y', e3, e4, hy⟩ := hx.mul hx
        rw [e1, e2]
        simp only [bind, Except.bind]
        split
        · exact ⟨y, y', e3, e4, hy⟩
        · rw [e3, e4]
          exact hy.mul hr

theorem FlpR.rev (hA : A.WF) (hd : A.dim < 63) {r r' : FFTRepr A K} (hr : FlpR r r') : ∃ p p', r.rev = .ok p ∧ r'.rev = .ok p' ∧ FlpR p p' := by
  obtain ⟨p, e1, p1, p2⟩ := rev_ops hA hd hr.1
  obtain ⟨q, e2, q1, q2⟩ := rev_ops hA hd hr.2.1
  refine ⟨p, q, e1, e2, p1, q1, fun w hw => (q2 w hw).trans ?_⟩
  have e : MEq (2 ^ A.half) (2 ^ A.half) (r'.arr.get w) (fun i j => ng (par A.projDim w) (alM A.half (r.arr.get w) i j)) := by
    intro i hi j hj
    refine (hr.2.2 w hw i hi j hj).trans ?_
    unfold flW alM
    beta_reduce
    rw [ng_ng]
  refine (revO_congr _ _ e).trans ((revO_flp _ _ _ _ _).trans ?_)
  intro i hi j hj
  unfold flW alM
  beta_reduce
  rw [ng_ng, p2 w hw i hi j hj]

theorem FlpR.trace {r r' : FFTRepr A K} (hr : FlpR r r') : r'.trace = r.trace := by
  obtain ⟨⟨-, a1, -⟩, ⟨-, b1, -⟩, h⟩ := hr
  unfold FFTRepr.trace
  rw [a1, b1]
  have e : ∀ (l : List Nat), (∀ i ∈ l, i < 2 ^ A.half) → ∀ z : K,
      l.foldl (fun s i => s + r'.arr.get 0 i i) z = l.foldl (fun s i => s + r.arr.get 0 i i) z := by
    intro l
    induction l with
    | nil => intro _ _; rfl
    | cons x xs ih =>
      intro hl z
      simp only [List.foldl_cons]
      have hx := hl x (by simp)
      rw [h 0 (Nat.two_pow_pos _) x hx x hx]
      unfold flW
      rw [par_zero, Bool.xor_self]
      exact ih (fun i hi => hl i (by simp [hi])) _
  exact e _ (fun i hi => List.mem_range.mp hi) _

theorem is_of_dims {r : FFTRepr A K} (hr : r.arr.dims = (2 ^ A.projDim, 2 ^ ((A.realDim + A.imagDim + 1) / 2), 2 ^ ((A.realDim + A.imagDim + 1) / 2))) :
    r.arr.Is A.projDim A.half := by
  unfold Arr3.dims at hr
  simp only [Prod.mk.injEq] at hr
  exact hr

/-- **C33.** The grade involution of the representation commutes exactly with products, sums, differences and powers, for every two arrays of the
right shape, of any size, though the entries are rounded. -/
theorem C33_rounded_flip_ops (hA : A.WF) (hd : A.dim < 63) {r s : FFTRepr A K}
    (hr : r.arr.dims = (2 ^ A.projDim, 2 ^ ((A.realDim + A.imagDim + 1) / 2), 2 ^ ((A.realDim + A.imagDim + 1) / 2)))
    (hs : s.arr.dims = (2 ^ A.projDim, 2 ^ ((A.realDim + A.imagDim + 1) / 2), 2 ^ ((A.realDim + A.imagDim + 1) / 2))) (n : Nat) :
    Same3 (do let p ← r.mul s; return p.flip.intoArray3) (do let p ← r.flip.mul s.flip; return p.intoArray3) ∧
    Same3 (do let p ← r.add s; return p.flip.intoArray3) (do let p ← r.flip.add s.flip; return p.intoArray3) ∧
    Same3 (do let p ← r.sub s; return p.flip.intoArray3) (do let p ← r.flip.sub s.flip; return p.intoArray3) ∧
    Same3 (do let p ← r.pow n; return p.flip.intoArray3) (do let p ← r.flip.pow n; return p.intoArray3) := by
  have fr := flpR_flip (is_of_dims hr)
  have fs := flpR_flip (is_of_dims hs)
  refine ⟨?_, ?_, ?_, ?_⟩
  · obtain ⟨p, q, e1, e2, h⟩ := fr.mul fs
    rw [e1, e2]
    exact (flpR_flip h.1).same h
  · obtain ⟨p, q, e1, e2, h⟩ := fr.add fs
    rw [e1, e2]
    exact (flpR_flip h.1).same h
  · obtain ⟨p, q, e1, e2, h⟩ := fr.sub fs
    rw [e1, e2]
    exact (flpR_flip h.1).same h
  · obtain ⟨p, q, e1, e2, h⟩ := fr.pow hA hd n
    rw [e1, e2]
    exact (flpR_flip h.1).same h

/-- **C33.** Reverse and grade involution of the representation undo themselves and commute, and the trace does not see the grade involution: exactly, for
every array of the right shape. -/
theorem C33_rounded_involutions (hA : A.WF) (hd : A.dim < 63) {r : FFTRepr A K}
    (hr : r.arr.dims = (2 ^ A.projDim, 2 ^ ((A.realDim + A.imagDim + 1) / 2), 2 ^ ((A.realDim + A.imagDim + 1) / 2))) :
    Same3 (do let t ← r.rev; let t ← t.rev; return t.intoArray3) (.ok r.intoArray3) ∧
    Same3 (.ok r.flip.flip.intoArray3) (.ok r.intoArray3) ∧
    Same3 (do let t ← r.rev; return t.flip.intoArray3) (do let t ← r.flip.rev; return t.intoArray3) ∧
    r.flip.trace = r.trace := by
  have hI := is_of_dims hr
  have fr := flpR_flip hI
  refine ⟨?_, ?_, ?_, fr.trace⟩
  · obtain ⟨p, e1, p1, p2⟩ := rev_ops hA hd hI
    obtain ⟨q, e2, q1, q2⟩ := rev_ops hA hd p1
    simp only [bind, Except.bind, e1, e2]
    exact ⟨_, _, rfl, rfl, same3_of q1 hI (fun w hw => (q2 w hw).trans ((revO_congr _ _ (p2 w hw)).trans (revO_revO _ _ _ _))) (WEq.rfl' _)⟩
  · have f2 := flpR_flip fr.2.1
    refine ⟨_, _, rfl, rfl, same3_of f2.2.1 hI (fun w hw i hi j hj => (f2.2.2 w hw i hi j hj).trans ?_) (WEq.rfl' _)⟩
    unfold flW
    rw [fr.2.2 w hw i hi j hj]
    unfold flW
    rw [ng_self]
    rfl
  · obtain ⟨p, q, e1, e2, h⟩ := fr.rev hA hd
    rw [e1, e2]
    exact (flpR_flip h.1).same h

end

/-! ### `exp` of the representation -/

section
variable {A : ClAlg}

theorem FlpR.mag2F (hA : A.WF) (hd : A.dim < 63) {r r' : FFTRepr A (Cx F64)} (hr : FlpR r r') (ofNat : Nat → F64) :
    ∃ v, r.mag2F ofNat = .ok v ∧ r'.mag2F ofNat = .ok v := by
  obtain ⟨s, s', e1, e2, hs⟩ := hr.rev hA hd
  obtain ⟨p, p', e3, e4, hp⟩ := hs.mul hr
  unfold FFTRepr.mag2F
  rw [e1, e2]
  simp only [bind, Except.bind, e3, e4]
  refine ⟨_, rfl, ?_⟩
  show Except.ok (p'.ntraceF ofNat) = Except.ok (p.ntraceF ofNat)
  unfold FFTRepr.ntraceF
  rw [hp.trace, hp.1.2.1, hp.2.1.2.1]

theorem FlpR.expMaxF (hA : A.WF) (hd : A.dim < 63) {hyp : F64 → F64 → F64} (hh : ∀ x y, hyp (-x) (-y) = hyp x y)
    {r r' : FFTRepr A (Cx F64)} (hr : FlpR r r') : ∃ m, r.expMaxF hyp = .ok m ∧ r'.expMaxF hyp = .ok m := by
  obtain ⟨v, e1, e2⟩ := hr.mag2F hA hd (Flt.ofNat .f64)
  unfold FFTRepr.expMaxF
  rw [e1, e2]
  refine ⟨_, rfl, ?_⟩
  obtain ⟨⟨a0, a1, a2⟩, ⟨b0, b1, b2⟩, h⟩ := hr
  have hn : ∀ (b : Bool) (z : Cx F64), hyp (ng b z).re (ng b z).im = hyp z.re z.im := by
    intro b z
    cases b
    · rfl
    · exact hh z.re z.im
  have e : r'.arr.entries.map (fun z => hyp z.re z.im) = r.arr.entries.map (fun z => hyp z.re z.im) := by
    unfold Arr3.entries
    rw [a0, a1, a2, b0, b1, b2]
    simp only [List.map_flatMap, List.map_map]
    refine List.flatMap_congr fun w hw => List.flatMap_congr fun i hi => List.map_congr_left fun j hj => ?_
    show hyp (r'.arr.get w i j).re (r'.arr.get w i j).im = hyp (r.arr.get w i j).re (r.arr.get w i j).im
    rw [h w (List.mem_range.mp hw) i (List.mem_range.mp hi) j (List.mem_range.mp hj)]
    exact hn _ _
  have f : ∀ l : List (Cx F64), l.foldl (fun m z => Flt.fmax (hyp z.re z.im) m) (1 : F64) = (l.map fun z => hyp z.re z.im).foldl (fun m x => Flt.fmax x m) 1 := by
    intro l; rw [List.foldl_map]
  rw [f, f, e]
  rfl

theorem FlpR.map {r r' : FFTRepr A (Cx F64)} (hr : FlpR r r') (f : Cx F64 → Cx F64) (hf : ∀ z, f (-z) = -f z) :
    FlpR (A := A) ⟨r.arr.map f⟩ ⟨r'.arr.map f⟩ := by
  refine ⟨hr.1, hr.2.1, fun w hw i hi j hj => ?_⟩
  show f (r'.arr.get w i j) = ng _ (f (r.arr.get w i j))
  rw [hr.2.2 w hw i hi j hj]
  show f (ng (par A.projDim w ^^ (par A.half i ^^ par A.half j)) (r.arr.get w i j)) = _
  cases par A.projDim w ^^ (par A.half i ^^ par A.half j)
  · rfl
  · exact hf _

theorem FlpR.taylorF {x x' : FFTRepr A (Cx F64)} (hx : FlpR x x') (fuel : Nat) (coeff : F64) (i : Nat)
    {r r' p p' : FFTRepr A (Cx F64)} (hr : FlpR r r') (hp : FlpR p p') :
    OptRel FlpR (FFTRepr.taylorF x fuel coeff i r p) (FFTRepr.taylorF x' fuel coeff i r' p') := by
  induction fuel generalizing coeff i r r' p p' with
  | zero =>
    unfold FFTRepr.taylorF
    split
    · exact .inl ⟨rfl, rfl⟩
    · exact .inr (.inr ⟨_, _, rfl, rfl, hr⟩)
  | succ fuel ih =>
    unfold FFTRepr.taylorF
    split
    · have ht : FlpR (p.mulReal (coeff / Flt.ofRat (i : ℚ))) (p'.mulReal (coeff / Flt.ofRat (i : ℚ))) :=
        hp.map _ fun z => Cx.ext' (SignMul.neg_mul _ _) (SignMul.neg_mul _ _)
      obtain ⟨q, q', e3, e4, hq⟩ := hr.add ht
      obtain ⟨w, w', e5, e6, hw⟩ := hp.mul hx
      simp only [e3, e4, e5, e6, bind, Except.bind, pure, Except.pure]
      exact ih _ _ hq hw
    · exact .inr (.inr ⟨_, _, rfl, rfl, hr⟩)

/-- **C33, C88.** `exp` of the representation commutes exactly with the grade involution. -/
theorem C33_rounded_flip_exp (hA : A.WF) (hd : A.dim < 63) {hyp : F64 → F64 → F64} (hh : ∀ x y, hyp (-x) (-y) = hyp x y)
    {r : FFTRepr A (Cx F64)}
    (hr : r.arr.dims = (2 ^ A.projDim, 2 ^ ((A.realDim + A.imagDim + 1) / 2), 2 ^ ((A.realDim + A.imagDim + 1) / 2))) (fuel : Nat) :
    OptRel (fun v v' => Same3 (.ok v.flip.intoArray3) (.ok v'.intoArray3)) (r.expF hyp fuel) (r.flip.expF hyp fuel) := by
  have fr := flpR_flip (is_of_dims hr)
  obtain ⟨m, e1, e2⟩ := fr.expMaxF hA hd hh
  unfold FFTRepr.expF
  rw [e1, e2]
  simp only [bind, Except.bind]
  cases eu : m.toUsize with
  | error e => exact .inr (.inl ⟨e, rfl, rfl⟩)
  | ok k =>
    have hn : FlpR (r.divReal m) (r.flip.divReal m) := fr.map _ fun z => Cx.ext' (SignMul.neg_div _ _) (SignMul.neg_div _ _)
    simp only [pure, Except.pure]
    rcases hn.taylorF fuel 1 1 (FlpR.one hA hd) hn with ⟨h1, h2⟩ | ⟨e, h1, h2⟩ | ⟨v, v', h1, h2, h3⟩
    · rw [h1, h2]; exact .inl ⟨rfl, rfl⟩
    · rw [h1, h2]; exact .inr (.inl ⟨e, rfl, rfl⟩)
    · rw [h1, h2]
      obtain ⟨w, w', e3, e4, hw⟩ := h3.pow hA hd k
      refine .inr (.inr ⟨w, w', ?_, ?_, (flpR_flip hw.1).same hw⟩)
      · show some (v.pow k) = _; rw [e3]
      · show some (v'.pow k) = _; rw [e4]

end

namespace Ex

example := C14_rounded_exp A7_wf (roundF_valid fun i => n64 ((i : ℚ) / 3)) 5 30

example := C33_rounded_flip_ops A7_wf (by decide) (r := roundR) (s := roundR.flip) (by decide) (by decide) 5
example := C33_rounded_involutions A7_wf (by decide) (r := roundR) (by decide)

/-- The correctly rounded `hypot` does not see signs. -/
theorem hypot_neg (x y : F64) : (-x).hypot (-y) = x.hypot y := by
  match x, y with
  | .nonFinite, y => rfl
  | .num x, .nonFinite =>
    obtain ⟨x', h, -⟩ := Flt.neg_num_ex x
    rw [h]; rfl
  | .num x, .num y =>
    obtain ⟨x', h1, h2⟩ := Flt.neg_num_ex x
    obtain ⟨y', h3, h4⟩ := Flt.neg_num_ex y
    rw [h1, h3]
    show Flt.ofRat (Flt.sqrtRat .f64 (x'.1 ^ 2 + y'.1 ^ 2)) = Flt.ofRat (Flt.sqrtRat .f64 (x.1 ^ 2 + y.1 ^ 2))
    rw [h2, h4, neg_sq, neg_sq]

example := C33_rounded_flip_exp A7_wf (by decide) hypot_neg (r := roundR) (by decide) 30

end Ex

end TClifford
