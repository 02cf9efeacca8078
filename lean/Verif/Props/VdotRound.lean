import Verif.Props.SignExact
/-
C15, C74 in floating point: `vdot` and `mag2` are exactly the scalar parts of the rounded products.
-/

set_option linter.unusedSectionVars false

namespace TClifford

open MV

section
variable {T : Type} [Zero T] [One T] [Add T] [Sub T] [Neg T] [Mul T] [DecidableEq T] [CoeffLaws T]
variable {A : ClAlg} {S : Type} [CoeffStorage S T] [LawfulStorage S T]

/-- One signed product more. -/
def updS (s : Sign) (v x y : T) : T :=
  match s with
  | .Null => v
  | .Plus => v + x * y
  | .Minus => v - x * y

theorem updS_zero (s : Sign) (v : T) {x y : T} (h : x * y = 0) : updS s v x y = v := by
  cases s
  · rfl
  · show v + x * y = v; rw [h, CoeffLaws.add_zero]
  · show v - x * y = v; rw [h, CoeffLaws.sub_zero]

theorem accumulate_val {u : MV A S} (hu : u.Valid) {idx : Nat} (hi : idx < 2 ^ A.dim) (s : Sign) (x y : T) :
    ∃ u', u.accumulate idx (.ok s) x y = .ok u' ∧ u'.Valid ∧ ∀ k, u'.val k = if k = idx then updS s (u.val idx) x y else u.val k := by
  unfold accumulate
  rw [hu.get hi]
  cases s with
  | Null =>
    refine ⟨u, rfl, hu, fun k => ?_⟩
    split
    · rename_i h; subst h; rfl
    · rfl
  | Plus => exact ⟨_, rfl, hu.set _ _, fun k => hu.set_val hi _ k⟩
  | Minus => exact ⟨_, rfl, hu.set _ _, fun k => hu.set_val hi _ k⟩

/-- What the inner loop does to the scalar part. -/
theorem inner_scalar (hA : A.WF) {i : Nat} (hi : i < 2 ^ A.dim) {s : Sign} (hs : A.bladeGeoProductSign i i = .ok s) (x : T) (l : List (Nat × T))
    (hl : (l.map Prod.fst).Nodup) (hm : ∀ q ∈ l, q.1 < 2 ^ A.dim) {u : MV A S} (hu : u.Valid) :
    ∃ u', l.foldlM (fun (ret : MV A S) q => ret.accumulate (i ^^^ q.1) (A.bladeGeoProductSign i q.1) x q.2) u = .ok u' ∧ u'.Valid ∧
      (∀ y, (i, y) ∈ l → u'.val 0 = updS s (u.val 0) x y) ∧ ((∀ y, (i, y) ∉ l) → u'.val 0 = u.val 0) := by
  induction l generalizing u with
  | nil => exact ⟨u, rfl, hu, fun y h => absurd h (by simp), fun _ => rfl⟩
  | cons q l ih =>
    have hq := hm q (by simp)
    obtain ⟨c, hc, -⟩ := ClAlg.bladeGeoProductSign_eq hA hi hq
    obtain ⟨u1, e1, v1, w1⟩ := accumulate_val hu (Nat.xor_lt_two_pow hi hq) c x q.2
    rw [List.map_cons, List.nodup_cons] at hl
    obtain ⟨u2, e2, v2, w2, w3⟩ := ih hl.2 (fun r hr => hm r (by simp [hr])) v1
    refine ⟨u2, ?_, v2, ?_, ?_⟩
    · rw [List.foldlM_cons, hc, e1]; exact e2
    · intro y hy
      rcases List.mem_cons.mp hy with h | h
      · subst h
        have : ∀ z, (i, z) ∉ l := fun z hz => hl.1 (List.mem_map.mpr ⟨(i, z), hz, rfl⟩)
        rw [w3 this, w1 0, Nat.xor_self, if_pos rfl]
        rw [hs] at hc
        cases hc
        rfl
      · have hne : q.1 ≠ i := fun h' => hl.1 (h' ▸ List.mem_map.mpr ⟨(i, y), h, rfl⟩)
        rw [w2 y h, w1 0, if_neg]
        intro h0
        exact hne (Nat.xor_eq_zero_iff.mp h0.symm).symm
    · intro hn
      rw [w3 fun y hy => hn y (by simp [hy]), w1 0, if_neg]
      intro h0
      have hqi : i = q.1 := Nat.xor_eq_zero_iff.mp h0.symm
      exact hn q.2 (by rw [hqi]; simp)

/-- **C15.** `a.vdot(b)` is exactly the scalar part of the computed product `a * b`, also with rounding: the same products are added in
the same order.  All that is needed is that the coefficients of `a` times zero are zero, so that they are finite. -/
theorem C15_rounded (hA : A.WF) {a b : MV A S} (ha : a.Valid) (hb : b.Valid) (h0 : ∀ i < 2 ^ A.dim, a.val i * 0 = 0) :
    ∃ p c, a.naiveMulImpl b = .ok p ∧ p.scalarPart = .ok c ∧ a.vdot b = .ok c := by
  obtain ⟨u, hu0, hu, hz⟩ := default_denotes (A := A) (S := S) (T := T) ha.supp
  have key : ∀ (l : List (Nat × T)), (∀ p ∈ l, p.1 < 2 ^ A.dim ∧ p.2 = a.val p.1) → ∀ (u : MV A S) (v : T), u.Valid → u.val 0 = v →
      ∃ p, l.foldlM (fun (ret : MV A S) p => b.coeffEnumerate.foldlM (fun (ret : MV A S) q =>
          ret.accumulate (p.1 ^^^ q.1) (A.bladeGeoProductSign p.1 q.1) p.2 q.2) ret) u = .ok p ∧ p.Valid ∧
        l.foldlM (fun ret p => do
          match (← A.bladeGeoProductSign p.1 p.1) with
          | .Null => return ret
          | .Plus => return ret + p.2 * (← b.getByIdx p.1)
          | .Minus => return ret - p.2 * (← b.getByIdx p.1)) v = .ok (p.val 0) := by
    intro l
    induction l with
    | nil => rintro - u v hu rfl; exact ⟨u, rfl, hu, rfl⟩
    | cons p l ih =>
      rintro hl u v hu rfl
      obtain ⟨hp, hpv⟩ := hl p (by simp)
      obtain ⟨s, hs, -⟩ := ClAlg.bladeGeoProductSign_eq hA hp hp
      obtain ⟨u1, e1, v1, w1, w2⟩ := inner_scalar hA hp hs p.2 b.coeffEnumerate hb.enum.nodup (fun q hq => (hb.enum.mem q hq).1) hu
      have hv : u1.val 0 = updS s (u.val 0) p.2 (b.val p.1) := by
        by_cases h : ∃ y, (p.1, y) ∈ b.coeffEnumerate
        · obtain ⟨y, hy⟩ := h
          rw [w1 y hy]
          have := (hb.enum.mem _ hy).2
          dsimp only at this
          rw [this]
        · have h' : ∀ y, (p.1, y) ∉ b.coeffEnumerate := fun y hy => h ⟨y, hy⟩
          rw [w2 h', updS_zero]
          have : b.val p.1 = 0 := by
            by_contra hn
            exact h' _ (hb.enum.complete _ hp hn)
          rw [this, hpv]
          exact h0 _ hp
      obtain ⟨r, f1, f2, f3⟩ := ih (fun q hq => hl q (by simp [hq])) u1 _ v1 rfl
      refine ⟨r, ?_, f2, ?_⟩
      · rw [List.foldlM_cons, e1]; exact f1
      · rw [List.foldlM_cons, hs, hb.get hp]
        rw [hv] at f3
        cases s <;> exact f3
  obtain ⟨p, h1, h2, h3⟩ := key a.coeffEnumerate ha.enum.mem u 0 hu (hz 0 (Nat.two_pow_pos _))
  refine ⟨p, p.val 0, ?_, h2.get (Nat.two_pow_pos _), h3⟩
  unfold naiveMulImpl
  rw [hu0]
  exact h1

end

section
variable {T : Type} [Zero T] [One T] [Add T] [Sub T] [Neg T] [Mul T] [Div T] [DecidableEq T] [CoeffLaws T] [SumLaws T] [SignLaws T] [SignMul T]
variable {A : ClAlg}

/-- **C15.** For dense multivectors `a.mag2()` is exactly the scalar part of the computed `a.rev() * a`, and equal to
`a.rev().vdot(a)`, also with rounding. -/
theorem C15_rounded_mag2 (hA : A.WF) {a : MV A (ArrayStorage T)} (ha : a.Valid) (h0 : ∀ i < 2 ^ A.dim, a.val i * 0 = 0) :
    ∃ r p c, a.rev = .ok r ∧ r.naiveMulImpl a = .ok p ∧ p.scalarPart = .ok c ∧ r.vdot a = .ok c ∧ a.mag2 = .ok c := by
  obtain ⟨r, er, fr⟩ := flp_of_rev ha
  obtain ⟨p, c, h1, h2, h3⟩ := C15_rounded hA fr.2.1 ha (fun i hi => by
    rw [fr.2.2 i hi]
    cases rb A.dim i
    · exact h0 i hi
    · show -a.val i * 0 = 0
      rw [SignMul.neg_mul, h0 i hi, SumLaws.neg_zero])
  refine ⟨r, p, c, er, h1, h2, h3, ?_⟩
  rw [← h3]
  unfold MV.mag2 MV.vdot
  rw [fr.enum]
  obtain ⟨v, v', e1, e2, rfl⟩ := foldlM_pair (Eq : T → T → Prop) a.coeffEnumerate (fun p => (p.1, ng (rb A.dim p.1) p.2)) (fun ret p => do
    match (← A.bladeGeoProductSign p.1 p.1) with
    | .Null => return ret
    | .Plus => return ret + revC p.1 p.2 * (← a.getByIdx p.1)
    | .Minus => return ret - revC p.1 p.2 * (← a.getByIdx p.1)) (fun ret p => do
    match (← A.bladeGeoProductSign p.1 p.1) with
    | .Null => return ret
    | .Plus => return ret + p.2 * (← a.getByIdx p.1)
    | .Minus => return ret - p.2 * (← a.getByIdx p.1)) (fun u u' hu p hp => by
      subst hu
      have hi := (LawfulStorage.enum_mem ha hp).1
      obtain ⟨c, hc, -⟩ := ClAlg.bladeGeoProductSign_eq hA hi hi
      dsimp only
      rw [hc, ha.get hi, revC_fl hi, sgnC_rsg]
      cases c <;> exact ⟨_, _, rfl, rfl, rfl⟩) (u := 0) rfl
  exact e1.trans e2.symm

/-- **C74.** For dense multivectors with finite coefficients `vdot` is exactly symmetric, also with rounding. -/
theorem C74_rounded (hA : A.WF) {a b : MV A (ArrayStorage T)} (ha : a.Valid) (hb : b.Valid) (hc : ∀ x y : T, x * y = y * x)
    (h0 : ∀ i < 2 ^ A.dim, a.val i * 0 = 0 ∧ b.val i * 0 = 0) : ∃ c, a.vdot b = .ok c ∧ b.vdot a = .ok c := by
  have la : a.coeffs.array.len = 2 ^ A.dim := ha.2.2
  have lb : b.coeffs.array.len = 2 ^ A.dim := hb.2.2
  have key : ∀ (l : List Nat), (∀ i ∈ l, i < 2 ^ A.dim) → ∀ v : T,
      ∃ c, ((l.map (fun i => (i, a.coeffs.array.get i))).filter (fun p => p.2 ≠ 0)).foldlM (fun ret p => do
          match (← A.bladeGeoProductSign p.1 p.1) with
          | .Null => return ret
          | .Plus => return ret + p.2 * (← b.getByIdx p.1)
          | .Minus => return ret - p.2 * (← b.getByIdx p.1)) v = .ok c ∧
        ((l.map (fun i => (i, b.coeffs.array.get i))).filter (fun p => p.2 ≠ 0)).foldlM (fun ret p => do
          match (← A.bladeGeoProductSign p.1 p.1) with
          | .Null => return ret
          | .Plus => return ret + p.2 * (← a.getByIdx p.1)
          | .Minus => return ret - p.2 * (← a.getByIdx p.1)) v = .ok c := by
    intro l
    induction l with
    | nil => intro _ v; exact ⟨v, rfl, rfl⟩
    | cons i l ih =>
      intro hl v
      have hi := hl i (by simp)
      obtain ⟨s, hs, -⟩ := ClAlg.bladeGeoProductSign_eq hA hi hi
      obtain ⟨c, h1, h2⟩ := ih (fun j hj => hl j (by simp [hj])) (updS s v (a.val i) (b.val i))
      refine ⟨c, ?_, ?_⟩
      · rw [List.map_cons, List.filter_cons, ← get_of_valid ha hi]
        split
        · rw [List.foldlM_cons, hs, hb.get hi]
          cases s <;> exact h1
        · rename_i hn
          have hz : a.val i = 0 := by simpa using hn
          rwa [updS_zero s v (by rw [hz, hc, (h0 i hi).2])] at h1
      · rw [List.map_cons, List.filter_cons, ← get_of_valid hb hi]
        split
        · rw [List.foldlM_cons, hs, ha.get hi]
          rw [show updS s v (a.val i) (b.val i) = updS s v (b.val i) (a.val i) by unfold updS; rw [hc]] at h2
          cases s <;> exact h2
        · rename_i hn
          have hz : b.val i = 0 := by simpa using hn
          rwa [updS_zero s v (by rw [hz, (h0 i hi).1])] at h2
  obtain ⟨c, h1, h2⟩ := key (List.range (2 ^ A.dim)) (fun i hi => List.mem_range.mp hi) 0
  rw [← la] at h1
  rw [← lb] at h2
  exact ⟨c, h1, h2⟩

end

/-- **C15.** With an infinity or a NaN the two can differ: `vdot` multiplies it with an absent coefficient. -/
theorem C15_rounded_nonfinite_false : ∃ a b : MV Ex.E (ArrayStorage F64), a.Valid ∧ b.Valid ∧ a.vdot b = .ok .nonFinite ∧
    (do (← a.naiveMulImpl b).scalarPart) = .ok 0 :=
  ⟨⟨⟨3, ⟨8, fun i => if i = 1 then .nonFinite else 0⟩⟩⟩, ⟨⟨3, ⟨8, fun _ => 0⟩⟩⟩, ⟨by decide, rfl, rfl⟩, ⟨by decide, rfl, rfl⟩,
    by decide +kernel, by decide +kernel⟩

theorem Flt.mul_comm' {f : Fmt} (x y : Flt f) : x * y = y * x := by
  cases x <;> cases y <;> try rfl
  rw [Flt.mul_num, Flt.mul_num, _root_.mul_comm]

theorem Cx.mul_comm' {f : Fmt} (x y : Cx (Flt f)) : x * y = y * x := by
  apply Cx.ext'
  · show x.re * y.re - x.im * y.im = y.re * x.re - y.im * x.im
    rw [Flt.mul_comm' x.re, Flt.mul_comm' x.im]
  · show x.re * y.im + x.im * y.re = y.re * x.im + y.im * x.re
    rw [Flt.mul_comm' x.re, Flt.mul_comm' x.im, SignLaws.add_comm]

namespace Ex

theorem vrF_valid (x : Nat → F64) : (⟨⟨3, ⟨8, x⟩⟩⟩ : MV E (ArrayStorage F64)).Valid := ⟨by decide, rfl, rfl⟩

theorem vrF_zero {m : Nat} : ∀ i < 2 ^ E.dim, (⟨⟨3, ⟨8, fun k => if (k + m) % 3 = 0 then 0 else xF k⟩⟩⟩ : MV E (ArrayStorage F64)).val i * 0 = 0 := by
  intro i hi
  rw [show (⟨⟨3, ⟨8, fun k => if (k + m) % 3 = 0 then 0 else xF k⟩⟩⟩ : MV E (ArrayStorage F64)).val i = if (i + m) % 3 = 0 then 0 else xF i from if_pos hi]
  have h : ∀ i < 8, xF i * 0 = 0 := by decide +kernel
  split
  · decide +kernel
  · exact h i hi

example := C15_rounded E_wf (vrF_valid fun k => if (k + 0) % 3 = 0 then 0 else xF k) (vrF_valid fun k => if (k + 1) % 3 = 0 then 0 else xF k) vrF_zero
example := C15_rounded_mag2 E_wf (vrF_valid fun k => if (k + 0) % 3 = 0 then 0 else xF k) vrF_zero
example := C74_rounded E_wf (vrF_valid fun k => if (k + 0) % 3 = 0 then 0 else xF k) (vrF_valid fun k => if (k + 1) % 3 = 0 then 0 else xF k)
  Flt.mul_comm' fun i hi => ⟨vrF_zero i hi, vrF_zero i hi⟩

end Ex

end TClifford
