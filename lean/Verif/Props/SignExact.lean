import Verif.Props.FFTRound
/-
C13, C14 in floating point: sign changes of generators commute exactly with the rounded operations on dense multivectors.
-/

set_option linter.unusedSectionVars false

namespace TClifford

open MV

section
variable {T : Type} [Zero T] [One T] [Add T] [Sub T] [Neg T] [Mul T] [Div T] [DecidableEq T] [CoeffLaws T] [SumLaws T] [SignLaws T] [SignMul T]
variable {A : ClAlg}

theorem ng_ne_zero (b : Bool) {x : T} : ng b x ≠ 0 ↔ x ≠ 0 := by
  cases b
  · rfl
  · refine not_congr ⟨fun h => ?_, fun h => ?_⟩
    · rw [← SignLaws.neg_neg x]; change -x = 0 at h; rw [h, SumLaws.neg_zero]
    · subst h; exact SumLaws.neg_zero

theorem ng_mul_ng (b d : Bool) (x y : T) : ng b x * ng d y = ng (b ^^ d) (x * y) := by
  cases b <;> cases d
  · rfl
  · exact SignMul.mul_neg x y
  · exact SignMul.neg_mul x y
  · show -x * -y = x * y
    rw [SignMul.neg_mul, SignMul.mul_neg, SignLaws.neg_neg]

/-- `a'` is `a` with the signs of some coefficients changed. -/
def Flp (s : Nat → Bool) (a a' : MV A (ArrayStorage T)) : Prop :=
  a.Valid ∧ a'.Valid ∧ ∀ i < 2 ^ A.dim, a'.val i = ng (s i) (a.val i)

theorem get_of_valid {a : MV A (ArrayStorage T)} (ha : a.Valid) {i : Nat} (hi : i < 2 ^ A.dim) : a.val i = a.coeffs.array.get i := by
  show (if i < a.coeffs.array.len then _ else _) = _
  rw [if_pos]
  rw [ha.2.2]; exact hi

theorem Flp.enum {s : Nat → Bool} {a a' : MV A (ArrayStorage T)} (h : Flp s a a') :
    a'.coeffEnumerate = a.coeffEnumerate.map (fun p => (p.1, ng (s p.1) p.2)) := by
  obtain ⟨ha, ha', hv⟩ := h
  have e1 : a.coeffs.array.len = 2 ^ A.dim := ha.2.2
  have e2 : a'.coeffs.array.len = 2 ^ A.dim := ha'.2.2
  show ((List.range a'.coeffs.array.len).map (fun i => (i, a'.coeffs.array.get i))).filter (fun p => p.2 ≠ 0) =
    (((List.range a.coeffs.array.len).map (fun i => (i, a.coeffs.array.get i))).filter (fun p => p.2 ≠ 0)).map _
  rw [e1, e2, List.filter_map, List.filter_map, List.map_map]
  have e3 : ∀ i ∈ List.range (2 ^ A.dim), a'.coeffs.array.get i = ng (s i) (a.coeffs.array.get i) := by
    intro i hi
    have hi' := List.mem_range.mp hi
    rw [← get_of_valid ha hi', ← get_of_valid ha' hi', hv i hi']
  have e4 : (List.range (2 ^ A.dim)).filter ((fun p : Nat × T => decide (p.2 ≠ 0)) ∘ fun i => (i, a'.coeffs.array.get i)) =
      (List.range (2 ^ A.dim)).filter ((fun p : Nat × T => decide (p.2 ≠ 0)) ∘ fun i => (i, a.coeffs.array.get i)) := by
    refine List.filter_congr fun i hi => ?_
    show decide (a'.coeffs.array.get i ≠ 0) = decide (a.coeffs.array.get i ≠ 0)
    rw [e3 i hi]
    exact decide_eq_decide.mpr (ng_ne_zero _)
  rw [e4]
  refine List.map_congr_left fun i hi => ?_
  show (i, a'.coeffs.array.get i) = (i, ng (s i) (a.coeffs.array.get i))
  rw [e3 i (List.mem_filter.mp hi).1]

/-- Two folds in step. -/
theorem foldlM_pair {X Y Z : Type} (R : Y → Z → Prop) (l : List X) (g : X → X) (f : Y → X → Res Y) (f' : Z → X → Res Z)
    (h : ∀ u u', R u u' → ∀ x ∈ l, ∃ v v', f u x = .ok v ∧ f' u' (g x) = .ok v' ∧ R v v') {u : Y} {u' : Z} (hu : R u u') :
    ∃ v v', l.foldlM f u = .ok v ∧ (l.map g).foldlM f' u' = .ok v' ∧ R v v' := by
  induction l generalizing u u' with
  | nil => exact ⟨u, u', rfl, rfl, hu⟩
  | cons x xs ih =>
    obtain ⟨v, v', e1, e2, h1⟩ := h u u' hu x (by simp)
    obtain ⟨w, w', e3, e4, h2⟩ := ih (fun u u' hu x hx => h u u' hu x (by simp [hx])) h1
    refine ⟨w, w', ?_, ?_, h2⟩
    · rw [List.foldlM_cons, e1]; exact e3
    · rw [List.map_cons, List.foldlM_cons, e2]; exact e4

theorem Flp.accumulate {s : Nat → Bool} {u u' : MV A (ArrayStorage T)} (hu : Flp s u u') {idx : Nat} (hi : idx < 2 ^ A.dim)
    {sgn : Res Sign} {c : Sign} (hs : sgn = .ok c) {b d : Bool} (hbd : s idx = (b ^^ d)) (x y : T) :
    ∃ v v', u.accumulate idx sgn x y = .ok v ∧ u'.accumulate idx sgn (ng b x) (ng d y) = .ok v' ∧ Flp s v v' := by
  obtain ⟨h1, h2, h3⟩ := hu
  subst hs
  unfold MV.accumulate
  rw [h1.get hi, h2.get hi]
  have e : ng b x * ng d y = ng (s idx) (x * y) := by rw [ng_mul_ng, hbd]
  cases c with
  | Null => exact ⟨u, u', rfl, rfl, h1, h2, h3⟩
  | Plus =>
    refine ⟨_, _, rfl, rfl, h1.set _ _, h2.set _ _, fun k hk => ?_⟩
    rw [h1.set_val hi, h2.set_val hi]
    by_cases hki : k = idx
    · rw [if_pos hki, if_pos hki, h3 idx hi, e, hki, ng_add]
    · rw [if_neg hki, if_neg hki, h3 k hk]
  | Minus =>
    refine ⟨_, _, rfl, rfl, h1.set _ _, h2.set _ _, fun k hk => ?_⟩
    rw [h1.set_val hi, h2.set_val hi]
    by_cases hki : k = idx
    · rw [if_pos hki, if_pos hki, h3 idx hi, e, hki, ng_sub]
    · rw [if_neg hki, if_neg hki, h3 k hk]

theorem Flp.product {s : Nat → Bool} (hs : ∀ i j, s (i ^^^ j) = (s i ^^ s j)) {a a' b b' : MV A (ArrayStorage T)} (ha : Flp s a a') (hb : Flp s b b')
    (sgn : Nat → Nat → Res Sign) (h : ∀ i < 2 ^ A.dim, ∀ j < 2 ^ A.dim, ∃ c, sgn i j = .ok c) :
    ∃ v v', (do
      let ret ← default (A := A) (S := ArrayStorage T) (T := T)
      a.coeffEnumerate.foldlM (fun (ret : MV A (ArrayStorage T)) (p : Nat × T) =>
        b.coeffEnumerate.foldlM (fun (ret : MV A (ArrayStorage T)) (q : Nat × T) =>
          ret.accumulate (p.1 ^^^ q.1) (sgn p.1 q.1) p.2 q.2) ret) ret) = (.ok v : Res (MV A (ArrayStorage T))) ∧
      (do
      let ret ← default (A := A) (S := ArrayStorage T) (T := T)
      a'.coeffEnumerate.foldlM (fun (ret : MV A (ArrayStorage T)) (p : Nat × T) =>
        b'.coeffEnumerate.foldlM (fun (ret : MV A (ArrayStorage T)) (q : Nat × T) =>
          ret.accumulate (p.1 ^^^ q.1) (sgn p.1 q.1) p.2 q.2) ret) ret) = .ok v' ∧ Flp s v v' := by
  obtain ⟨z, e, hz, hz0⟩ := default_denotes (A := A) (S := ArrayStorage T) (T := T) ha.1.supp
  rw [e, ha.enum, hb.enum]
  refine foldlM_pair (Flp s) _ _ _ _ (fun u u' hu p hp => foldlM_pair (Flp s) _ _ _ _ (fun u u' hu q hq => ?_) hu)
    ⟨hz, hz, fun i hi => by rw [hz0 i hi]; cases s i; exacts [rfl, SumLaws.neg_zero.symm]⟩
  have hi := (LawfulStorage.enum_mem ha.1 hp).1
  have hj := (LawfulStorage.enum_mem hb.1 hq).1
  obtain ⟨c, hc⟩ := h _ hi _ hj
  exact hu.accumulate (Nat.xor_lt_two_pow hi hj) hc (hs _ _) _ _

theorem Flp.mul (hA : A.WF) {s : Nat → Bool} (hs : ∀ i j, s (i ^^^ j) = (s i ^^ s j)) {a a' b b' : MV A (ArrayStorage T)} (ha : Flp s a a') (hb : Flp s b b') :
    ∃ v v', a.naiveMulImpl b = .ok v ∧ a'.naiveMulImpl b' = .ok v' ∧ Flp s v v' :=
  Flp.product hs ha hb _ fun _ hi _ hj => by
    obtain ⟨c, hc, -⟩ := ClAlg.bladeGeoProductSign_eq hA hi hj
    exact ⟨c, hc⟩

theorem Flp.wedge {s : Nat → Bool} (hs : ∀ i j, s (i ^^^ j) = (s i ^^ s j)) {a a' b b' : MV A (ArrayStorage T)} (ha : Flp s a a') (hb : Flp s b b') :
    ∃ v v', a.naiveWedgeImpl b = .ok v ∧ a'.naiveWedgeImpl b' = .ok v' ∧ Flp s v v' :=
  Flp.product hs ha hb _ fun _ hi _ hj => by
    obtain ⟨c, hc, -⟩ := ClAlg.bladeWedgeProductSign_eq (by have := ha.1.dim_le; omega) hi hj
    exact ⟨c, hc⟩

theorem Flp.add {s : Nat → Bool} {a a' b b' : MV A (ArrayStorage T)} (ha : Flp s a a') (hb : Flp s b b') :
    ∃ v v', a.add b = .ok v ∧ a'.add b' = .ok v' ∧ Flp s v v' := by
  obtain ⟨v, e1, h1, h2⟩ := add_denotes ha.1 hb.1
  obtain ⟨v', e3, h3, h4⟩ := add_denotes ha.2.1 hb.2.1
  refine ⟨v, v', e1, e3, h1, h3, fun i hi => ?_⟩
  rw [h4 i hi, h2 i hi]
  beta_reduce
  rw [ha.2.2 i hi, hb.2.2 i hi, ng_add]

theorem Flp.sub {s : Nat → Bool} {a a' b b' : MV A (ArrayStorage T)} (ha : Flp s a a') (hb : Flp s b b') :
    ∃ v v', a.sub b = .ok v ∧ a'.sub b' = .ok v' ∧ Flp s v v' := by
  obtain ⟨v, e1, h1, h2⟩ := sub_denotes ha.1 hb.1
  obtain ⟨v', e3, h3, h4⟩ := sub_denotes ha.2.1 hb.2.1
  refine ⟨v, v', e1, e3, h1, h3, fun i hi => ?_⟩
  rw [h4 i hi, h2 i hi]
  beta_reduce
  rw [ha.2.2 i hi, hb.2.2 i hi, ng_sub]

theorem Flp.pow (hA : A.WF) {s : Nat → Bool} (hs : ∀ i j, s (i ^^^ j) = (s i ^^ s j)) {a a' : MV A (ArrayStorage T)} (ha : Flp s a a') (n : Nat) :
    ∃ v v', a.pow n = .ok v ∧ a'.pow n = .ok v' ∧ Flp s v v' := by
  induction n using Nat.strong_induction_on with
  | _ n ih =>
    have h0 : s 0 = false := by have := hs 0 0; rwa [Nat.xor_self, Bool.xor_self] at this
    unfold MV.pow
    by_cases h1 : n = 0
    · rw [if_pos h1, if_pos h1]
      obtain ⟨z, e, hz, hz0⟩ := one_denotes (A := A) (S := ArrayStorage T) (T := T) ha.1.supp
      refine ⟨z, z, e, e, hz, hz, fun i hi => ?_⟩
      rw [hz0 i hi]
      unfold single
      split
      · rename_i h; subst h; rw [h0]; rfl
      · cases s i; exacts [rfl, SumLaws.neg_zero.symm]
    · by_cases h2 : n = 1
      · rw [if_neg h1, if_pos h2, if_neg h1, if_pos h2]
        exact ⟨a, a', rfl, rfl, ha⟩
      · rw [if_neg h1, if_neg h2, if_neg h1, if_neg h2]
        obtain ⟨x, x', e1, e2, hx⟩ := ih (n >>> 1) (by rw [Nat.shiftRight_one]; omega)
        obtain ⟨y, y', e3, e4, hy⟩ := Flp.mul hA hs hx hx
        rw [e1, e2]
        simp only [bind, Except.bind]
        split
        · exact ⟨y, y', e3, e4, hy⟩
        · rw [e3, e4]
          exact Flp.mul hA hs hy ha

theorem Flp.vdot (hA : A.WF) {s : Nat → Bool} {a a' b b' : MV A (ArrayStorage T)} (ha : Flp s a a') (hb : Flp s b b') :
    ∃ v, a.vdot b = .ok v ∧ a'.vdot b' = .ok v := by
  unfold MV.vdot
  rw [ha.enum]
  obtain ⟨v, v', e1, e2, rfl⟩ := foldlM_pair (Eq : T → T → Prop) a.coeffEnumerate (fun p => (p.1, ng (s p.1) p.2)) (fun ret p => do
    match (← A.bladeGeoProductSign p.1 p.1) with
    | .Null => return ret
    | .Plus => return ret + p.2 * (← b.getByIdx p.1)
    | .Minus => return ret - p.2 * (← b.getByIdx p.1)) (fun ret p => do
    match (← A.bladeGeoProductSign p.1 p.1) with
    | .Null => return ret
    | .Plus => return ret + p.2 * (← b'.getByIdx p.1)
    | .Minus => return ret - p.2 * (← b'.getByIdx p.1)) (fun u u' hu p hp => by
      subst hu
      have hi := (LawfulStorage.enum_mem ha.1 hp).1
      obtain ⟨c, hc, -⟩ := ClAlg.bladeGeoProductSign_eq hA hi hi
      dsimp only
      rw [hc, hb.1.get hi, hb.2.1.get hi, hb.2.2 _ hi]
      have e : ng (s p.1) p.2 * ng (s p.1) (b.val p.1) = p.2 * b.val p.1 := by rw [ng_mul_ng, Bool.xor_self]; rfl
      cases c
      · exact ⟨_, _, rfl, rfl, rfl⟩
      all_goals
        refine ⟨_, _, rfl, rfl, ?_⟩
        show _ = _
        rw [e]) rfl
  exact ⟨v, e1, e2⟩

theorem Flp.mag2 (hA : A.WF) {s : Nat → Bool} {a a' : MV A (ArrayStorage T)} (ha : Flp s a a') :
    ∃ v, a.mag2 = .ok v ∧ a'.mag2 = .ok v := by
  unfold MV.mag2
  rw [ha.enum]
  obtain ⟨v, v', e1, e2, rfl⟩ := foldlM_pair (Eq : T → T → Prop) a.coeffEnumerate (fun p => (p.1, ng (s p.1) p.2)) (fun ret p => do
    match (← A.bladeGeoProductSign p.1 p.1) with
    | .Null => return ret
    | .Plus => return ret + revC p.1 p.2 * (← a.getByIdx p.1)
    | .Minus => return ret - revC p.1 p.2 * (← a.getByIdx p.1)) (fun ret p => do
    match (← A.bladeGeoProductSign p.1 p.1) with
    | .Null => return ret
    | .Plus => return ret + revC p.1 p.2 * (← a'.getByIdx p.1)
    | .Minus => return ret - revC p.1 p.2 * (← a'.getByIdx p.1)) (fun u u' hu p hp => by
      subst hu
      have hi := (LawfulStorage.enum_mem ha.1 hp).1
      obtain ⟨c, hc, -⟩ := ClAlg.bladeGeoProductSign_eq hA hi hi
      dsimp only
      rw [hc, ha.1.get hi, ha.2.1.get hi, ha.2.2 _ hi]
      have e : revC p.1 (ng (s p.1) p.2) * ng (s p.1) (a.val p.1) = revC p.1 p.2 * a.val p.1 := by
        rw [revC_fl hi, revC_fl hi, sgnC_rsg, sgnC_rsg, ng_comm, ng_mul_ng, Bool.xor_self]; rfl
      cases c
      · exact ⟨_, _, rfl, rfl, rfl⟩
      all_goals
        refine ⟨_, _, rfl, rfl, ?_⟩
        show _ = _
        rw [e]) rfl
  exact ⟨v, e1, e2⟩

theorem par_and_xor (n mask i j : Nat) : par n ((i ^^^ j) &&& mask) = (par n (i &&& mask) ^^ par n (j &&& mask)) := by
  rw [Nat.and_xor_distrib_right, par_xor]

theorem flp_of_flipSubspace {a : MV A (ArrayStorage T)} (ha : a.Valid) (mask : Nat) :
    ∃ a', a.flipSubspace mask = .ok a' ∧ Flp (fun i => par A.dim (i &&& mask)) a a' := by
  obtain ⟨a', e, h1, h2⟩ := flipSubspace_fl ha mask
  exact ⟨a', e, ha, h1, fun i hi => (h2 i hi).trans (sgnC_sg _ _)⟩

theorem flp_of_flip {a : MV A (ArrayStorage T)} (ha : a.Valid) : ∃ a', a.flip = .ok a' ∧ Flp (par A.dim) a a' := by
  obtain ⟨a', e, h1, h2⟩ := flip_fl ha
  exact ⟨a', e, ha, h1, fun i hi => (h2 i hi).trans (sgnC_sg _ _)⟩

theorem flp_of_rev {a : MV A (ArrayStorage T)} (ha : a.Valid) : ∃ a', a.rev = .ok a' ∧ Flp (rb A.dim) a a' := by
  obtain ⟨a', e, h1, h2⟩ := rev_fl ha
  exact ⟨a', e, ha, h1, fun i hi => (h2 i hi).trans (sgnC_rsg _ _ _)⟩

theorem Flp.agree {s : Nat → Bool} {a a' a'' : MV A (ArrayStorage T)} (h : Flp s a a') (h' : Flp s a a'') :
    (.ok a' : Res (MV A (ArrayStorage T))) ≈ᵣ .ok a'' :=
  Agree.of_denotes (.of_valid h.2.1) (.of_valid h'.2.1) fun i hi => by rw [h.2.2 i hi, h'.2.2 i hi]

/-- **C14.** With floating point coefficients (`f32`, `f64` or complex numbers of them, of any size) the negation of some of the generators commutes
exactly with the rounded operations on dense multivectors. -/
theorem C14_rounded_subspace (hA : A.WF) {a b : MV A (ArrayStorage T)} (ha : a.Valid) (hb : b.Valid) (mask : Nat) :
    (do let p ← a.naiveMulImpl b; p.flipSubspace mask) ≈ᵣ
      (do let x ← a.flipSubspace mask; let y ← b.flipSubspace mask; x.naiveMulImpl y) ∧
    (do let p ← a.naiveWedgeImpl b; p.flipSubspace mask) ≈ᵣ
      (do let x ← a.flipSubspace mask; let y ← b.flipSubspace mask; x.naiveWedgeImpl y) ∧
    (do let p ← a.add b; p.flipSubspace mask) ≈ᵣ (do let x ← a.flipSubspace mask; let y ← b.flipSubspace mask; x.add y) ∧
    (do let p ← a.sub b; p.flipSubspace mask) ≈ᵣ (do let x ← a.flipSubspace mask; let y ← b.flipSubspace mask; x.sub y) ∧
    (do let x ← a.flipSubspace mask; x.flipSubspace mask) ≈ᵣ .ok a := by
  obtain ⟨a', ea, fa⟩ := flp_of_flipSubspace ha mask
  obtain ⟨b', eb, fb⟩ := flp_of_flipSubspace hb mask
  rw [ea, eb]
  refine ⟨?_, ?_, ?_, ?_, ?_⟩
  · obtain ⟨v, v', e1, e2, h⟩ := Flp.mul hA (par_and_xor _ _) fa fb
    obtain ⟨w, e3, h'⟩ := flp_of_flipSubspace h.1 mask
    simp only [bind, Except.bind, e1, e2, e3]
    exact h'.agree h
  · obtain ⟨v, v', e1, e2, h⟩ := Flp.wedge (par_and_xor _ _) fa fb
    obtain ⟨w, e3, h'⟩ := flp_of_flipSubspace h.1 mask
    simp only [bind, Except.bind, e1, e2, e3]
    exact h'.agree h
  · obtain ⟨v, v', e1, e2, h⟩ := Flp.add fa fb
    obtain ⟨w, e3, h'⟩ := flp_of_flipSubspace h.1 mask
    simp only [bind, Except.bind, e1, e2, e3]
    exact h'.agree h
  · obtain ⟨v, v', e1, e2, h⟩ := Flp.sub fa fb
    obtain ⟨w, e3, h'⟩ := flp_of_flipSubspace h.1 mask
    simp only [bind, Except.bind, e1, e2, e3]
    exact h'.agree h
  · obtain ⟨w, e3, h'⟩ := flp_of_flipSubspace fa.2.1 mask
    simp only [bind, Except.bind, e3]
    exact Agree.of_denotes (.of_valid h'.2.1) (.of_valid ha) fun i hi => by rw [h'.2.2 i hi, fa.2.2 i hi, ng_self]

/-- **C14.** The same for `flip`, which negates all generators, and its powers. -/
theorem C14_rounded_flip (hA : A.WF) {a b : MV A (ArrayStorage T)} (ha : a.Valid) (hb : b.Valid) :
    (do let p ← a.naiveMulImpl b; p.flip) ≈ᵣ (do let x ← a.flip; let y ← b.flip; x.naiveMulImpl y) ∧
    (do let p ← a.naiveWedgeImpl b; p.flip) ≈ᵣ (do let x ← a.flip; let y ← b.flip; x.naiveWedgeImpl y) ∧
    (do let p ← a.add b; p.flip) ≈ᵣ (do let x ← a.flip; let y ← b.flip; x.add y) ∧
    (do let p ← a.sub b; p.flip) ≈ᵣ (do let x ← a.flip; let y ← b.flip; x.sub y) ∧
    (do let x ← a.flip; x.flip) ≈ᵣ .ok a := by
  obtain ⟨a', ea, fa⟩ := flp_of_flip ha
  obtain ⟨b', eb, fb⟩ := flp_of_flip hb
  rw [ea, eb]
  have hx : ∀ i j, par A.dim (i ^^^ j) = (par A.dim i ^^ par A.dim j) := fun i j => par_xor _ _ _
  refine ⟨?_, ?_, ?_, ?_, ?_⟩
  · obtain ⟨v, v', e1, e2, h⟩ := Flp.mul hA hx fa fb
    obtain ⟨w, e3, h'⟩ := flp_of_flip h.1
    simp only [bind, Except.bind, e1, e2, e3]
    exact h'.agree h
  · obtain ⟨v, v', e1, e2, h⟩ := Flp.wedge hx fa fb
    obtain ⟨w, e3, h'⟩ := flp_of_flip h.1
    simp only [bind, Except.bind, e1, e2, e3]
    exact h'.agree h
  · obtain ⟨v, v', e1, e2, h⟩ := Flp.add fa fb
    obtain ⟨w, e3, h'⟩ := flp_of_flip h.1
    simp only [bind, Except.bind, e1, e2, e3]
    exact h'.agree h
  · obtain ⟨v, v', e1, e2, h⟩ := Flp.sub fa fb
    obtain ⟨w, e3, h'⟩ := flp_of_flip h.1
    simp only [bind, Except.bind, e1, e2, e3]
    exact h'.agree h
  · obtain ⟨w, e3, h'⟩ := flp_of_flip fa.2.1
    simp only [bind, Except.bind, e3]
    exact Agree.of_denotes (.of_valid h'.2.1) (.of_valid ha) fun i hi => by rw [h'.2.2 i hi, fa.2.2 i hi, ng_self]

/-- **C14.** Powers, the scalar product and the magnitude, too: these are the same after the sign change, down to the last bit. -/
theorem C14_rounded_pow (hA : A.WF) {a b : MV A (ArrayStorage T)} (ha : a.Valid) (hb : b.Valid) (mask n : Nat) :
    (do let p ← a.pow n; p.flipSubspace mask) ≈ᵣ (do let x ← a.flipSubspace mask; x.pow n) ∧
    (∃ v, a.vdot b = .ok v ∧ (do let x ← a.flipSubspace mask; let y ← b.flipSubspace mask; x.vdot y) = .ok v) ∧
    (∃ v, a.mag2 = .ok v ∧ (do let x ← a.flipSubspace mask; x.mag2) = .ok v) := by
  obtain ⟨a', ea, fa⟩ := flp_of_flipSubspace ha mask
  obtain ⟨b', eb, fb⟩ := flp_of_flipSubspace hb mask
  rw [ea, eb]
  refine ⟨?_, Flp.vdot hA fa fb, Flp.mag2 hA fa⟩
  obtain ⟨v, v', e1, e2, h⟩ := Flp.pow hA (par_and_xor _ _) fa n
  obtain ⟨w, e3, h'⟩ := flp_of_flipSubspace h.1 mask
  simp only [bind, Except.bind, e1, e2, e3]
  exact h'.agree h

/-- **C13.** The reverse commutes exactly with rounded sums and differences, is its own inverse, and changes no
scalar product and no magnitude. -/
theorem C13_rounded_rev (hA : A.WF) {a b : MV A (ArrayStorage T)} (ha : a.Valid) (hb : b.Valid) :
    (do let p ← a.add b; p.rev) ≈ᵣ (do let x ← a.rev; let y ← b.rev; x.add y) ∧
    (do let p ← a.sub b; p.rev) ≈ᵣ (do let x ← a.rev; let y ← b.rev; x.sub y) ∧
    (do let x ← a.rev; x.rev) ≈ᵣ .ok a ∧
    (∃ v, a.vdot b = .ok v ∧ (do let x ← a.rev; let y ← b.rev; x.vdot y) = .ok v) ∧
    (∃ v, a.mag2 = .ok v ∧ (do let x ← a.rev; x.mag2) = .ok v) := by
  obtain ⟨a', ea, fa⟩ := flp_of_rev ha
  obtain ⟨b', eb, fb⟩ := flp_of_rev hb
  rw [ea, eb]
  refine ⟨?_, ?_, ?_, Flp.vdot hA fa fb, Flp.mag2 hA fa⟩
  · obtain ⟨v, v', e1, e2, h⟩ := Flp.add fa fb
    obtain ⟨w, e3, h'⟩ := flp_of_rev h.1
    simp only [bind, Except.bind, e1, e2, e3]
    exact h'.agree h
  · obtain ⟨v, v', e1, e2, h⟩ := Flp.sub fa fb
    obtain ⟨w, e3, h'⟩ := flp_of_rev h.1
    simp only [bind, Except.bind, e1, e2, e3]
    exact h'.agree h
  · obtain ⟨w, e3, h'⟩ := flp_of_rev fa.2.1
    simp only [bind, Except.bind, e3]
    exact Agree.of_denotes (.of_valid h'.2.1) (.of_valid ha) fun i hi => by rw [h'.2.2 i hi, fa.2.2 i hi, ng_self]

end

namespace Ex

/-- Dense `f64` multivectors whose product has a coefficient with terms `2^53`, `1` and `-2^53`. -/
def ordA : MV E (ArrayStorage F64) := ⟨⟨3, ⟨8, fun i => if i = 0 ∨ i = 2 ∨ i = 3 then 1 else 0⟩⟩⟩
def ordB : MV E (ArrayStorage F64) := ⟨⟨3, ⟨8, fun i => if i = 1 ∨ i = 2 then n64 (2 ^ 53) else if i = 3 then 1 else 0⟩⟩⟩

end Ex

/-- **C13.** The law `(a * b).rev() == b.rev() * a.rev()` does not survive rounding, not even for dense multivectors: the terms of a coefficient are
added in another order. -/
theorem C13_rounded_mul_false :
    (do (← (← Ex.ordA.naiveMulImpl Ex.ordB).rev).getByIdx 1 : Res F64) = .ok 0 ∧
    (do (← (← Ex.ordB.rev).naiveMulImpl (← Ex.ordA.rev)).getByIdx 1 : Res F64) = .ok 1 ∧ (0 : F64) ≠ 1 := by
  decide +kernel

namespace Ex

theorem roundF_valid (x : Nat → F64) : (⟨⟨7, ⟨128, x⟩⟩⟩ : MV A7 (ArrayStorage F64)).Valid := ⟨by decide, rfl, rfl⟩

example := C14_rounded_subspace A7_wf (roundF_valid fun i => n64 ((i : ℚ) / 3)) (roundF_valid fun i => n64 (10 ^ i)) 5
example := C14_rounded_flip A7_wf (roundF_valid fun i => n64 ((i : ℚ) / 3)) (roundF_valid fun i => n64 (10 ^ i))
example := C14_rounded_pow A7_wf (roundF_valid fun i => n64 ((i : ℚ) / 3)) (roundF_valid fun i => n64 (10 ^ i)) 5 10
example := C13_rounded_rev A7_wf (roundF_valid fun i => n64 ((i : ℚ) / 3)) (roundF_valid fun i => n64 (10 ^ i))

end Ex

end TClifford
