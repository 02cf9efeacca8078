import Verif.Model.ComplexExpF
import Verif.Proofs.FloatExpLoop
import Verif.Proofs.Param
/-
The loop of `exp` for `Complex64` coefficients: the number of iterations, and relations that it respects.
-/

set_option linter.unusedSectionVars false
set_option maxRecDepth 100000

namespace TClifford

open Finset FloatModel MV

section
variable {S : Type} [CoeffStorage S (Cx F64)] {A : ClAlg}

theorem taylorFC_18 (x : MV A S) (fuel i : Nat) (res p : MV A S) : taylorFC x fuel (expCoefF 18) i res p = some (.ok res) := by
  cases fuel <;> rw [taylorFC, if_neg (by rw [expCoefF_18]; decide)]

theorem taylorFC_succ (x : MV A S) {k : Nat} (hk : k < 18) (fuel : Nat) (res p : MV A S) :
    taylorFC x (fuel + 1) (expCoefF k) (k + 1) res p =
      match (do
        let t ← p.smul (Cx.ofReal (expCoefF (k + 1)))
        let res ← res.add t
        let p ← p.naiveMulImpl x
        return (res, p) : Res (MV A S × MV A S)) with
      | .error e => some (.error e)
      | .ok (res, p) => taylorFC x fuel (expCoefF (k + 1)) (k + 1 + 1) res p := by
  have e : expCoefF (k + 1) = expCoefF k / Flt.ofRat ((k + 1 : ℕ) : ℚ) := rfl
  rw [taylorFC, if_pos (expCoefF_gt k hk), e]
  generalize expCoefF k / Flt.ofRat ((k + 1 : ℕ) : ℚ) = c
  dsimp only
  cases (do
    let t ← p.smul (Cx.ofReal c)
    let res ← res.add t
    let p ← p.naiveMulImpl x
    return (res, p) : Res (MV A S × MV A S)) <;> rfl

theorem taylorFC_zero (x : MV A S) {k : Nat} (hk : k < 18) (i : Nat) (res p : MV A S) :
    taylorFC x 0 (expCoefF k) i res p = none := by
  rw [taylorFC, if_pos (expCoefF_gt k hk)]

/-- The loop stops after 18 iterations at the latest, earlier only with an error. -/
theorem taylorFC_fuel (x : MV A S) (d : Nat) : ∀ {k : Nat}, k + d = 18 → ∀ (res p : MV A S),
    (∀ fuel < d, taylorFC x fuel (expCoefF k) (k + 1) res p = none ∨
      ∃ e, taylorFC x fuel (expCoefF k) (k + 1) res p = some (.error e)) ∧
    ∃ r, ∀ fuel ≥ d, taylorFC x fuel (expCoefF k) (k + 1) res p = some r := by
  induction d with
  | zero =>
    intro k hk res p
    have hk : k = 18 := by omega
    subst hk
    exact ⟨fun _ h => absurd h (by omega), _, fun fuel _ => taylorFC_18 x fuel _ res p⟩
  | succ d ih =>
    intro k hk res p
    constructor
    · intro fuel hf
      cases fuel with
      | zero => exact .inl (taylorFC_zero x (by omega) _ _ _)
      | succ fuel =>
        rw [taylorFC_succ x (by omega)]
        split
        · exact .inr ⟨_, rfl⟩
        · rename_i res' p' _
          exact (ih (k := k + 1) (by omega) res' p').1 fuel (by omega)
    · cases h : (do
        let t ← p.smul (Cx.ofReal (expCoefF (k + 1)))
        let res ← res.add t
        let p ← p.naiveMulImpl x
        return (res, p) : Res (MV A S × MV A S)) with
      | error e =>
        refine ⟨.error e, fun fuel hf => ?_⟩
        obtain ⟨fuel, rfl⟩ := Nat.exists_eq_succ_of_ne_zero (show fuel ≠ 0 by omega)
        rw [Nat.succ_eq_add_one, taylorFC_succ x (by omega), h]
      | ok q =>
        obtain ⟨r, hr⟩ := (ih (k := k + 1) (by omega) q.1 q.2).2
        refine ⟨r, fun fuel hf => ?_⟩
        obtain ⟨fuel, rfl⟩ := Nat.exists_eq_succ_of_ne_zero (show fuel ≠ 0 by omega)
        rw [Nat.succ_eq_add_one, taylorFC_succ x (by omega), h]
        exact hr fuel (by omega)

end

variable {A : ClAlg}

/-- Both loops are still running, or have stopped with results related by `P`. -/
def OptResRel {α β : Type} (P : α → β → Prop) : Option (Res α) → Option (Res β) → Prop
  | some x, some y => ResRel P x y
  | none, none => True
  | _, _ => False

theorem OptResRel.map {α β α' β' : Type} {P : α → β → Prop} {Q : α' → β' → Prop} {x : Option (Res α)} {y : Option (Res β)} (h : OptResRel P x y)
    {f : α → Res α'} {g : β → Res β'} (hf : ∀ u v, P u v → ResRel Q (f u) (g v)) :
    OptResRel Q (x.map fun r => r.bind f) (y.map fun r => r.bind g) := by
  cases x <;> cases y
  · trivial
  · exact h.elim
  · exact h.elim
  · exact ResRel.bind h hf

/-- The loops of `f64` and `Complex64` coefficients. -/
theorem taylorF_rel {R : F64 → Cx F64 → Prop} (h : SumRel R) (hm : MulRel R R R) (hc : ∀ c, R c (Cx.ofReal c)) {x : MV A (ArrayStorage F64)}
    {x' : MV A (ArrayStorage (Cx F64))} (hx : Rel R x x') (fuel : Nat) : ∀ (c : F64) (i : Nat) {res p : MV A (ArrayStorage F64)}
    {res' p' : MV A (ArrayStorage (Cx F64))}, Rel R res res' → Rel R p p' → OptResRel (Rel R) (taylorF x fuel c i res p) (taylorFC x' fuel c i res' p') := by
  induction fuel with
  | zero =>
    intro c i res p res' p' hr hp
    rw [taylorF, taylorFC]
    split
    · trivial
    · exact hr
  | succ fuel ih =>
    intro c i res p res' p' hr hp
    rw [taylorF, taylorFC]
    split
    · dsimp only
      have key : ResRel (fun (u : MV A (ArrayStorage F64) × MV A (ArrayStorage F64))
          (v : MV A (ArrayStorage (Cx F64)) × MV A (ArrayStorage (Cx F64))) => Rel R u.1 v.1 ∧ Rel R u.2 v.2)
          (do
            let t ← p.smul (c / Flt.ofRat (i : ℚ))
            let res ← res.add t
            let p ← p.naiveMulImpl x
            return (res, p))
          (do
            let t ← p'.smul (Cx.ofReal (c / Flt.ofRat (i : ℚ)))
            let res ← res'.add t
            let p ← p'.naiveMulImpl x'
            return (res, p)) :=
        (hp.smul h.toSignRel h.zero hm (hc _)).bind fun t t' ht => (hr.add h ht).bind fun r r' hr' =>
          (hp.mul h.toSignRel h.toSignRel h hm hx).bind fun q q' hq => ⟨hr', hq⟩
      revert key
      generalize (do
            let t ← p.smul (c / Flt.ofRat (i : ℚ))
            let res ← res.add t
            let p ← p.naiveMulImpl x
            return (res, p) : Res (MV A (ArrayStorage F64) × MV A (ArrayStorage F64))) = u
      generalize (do
            let t ← p'.smul (Cx.ofReal (c / Flt.ofRat (i : ℚ)))
            let res ← res'.add t
            let p ← p'.naiveMulImpl x'
            return (res, p) : Res (MV A (ArrayStorage (Cx F64)) × MV A (ArrayStorage (Cx F64)))) = v
      intro key
      rcases u with e | ⟨u1, u2⟩ <;> rcases v with e' | ⟨v1, v2⟩
      · exact key
      · exact key.elim
      · exact key.elim
      · exact ih _ _ key.1 key.2
    · exact hr

/-- Two loops with `Complex64` coefficients. -/
theorem taylorFC_rel {R : Cx F64 → Cx F64 → Prop} (h : SumRel R) (hm : MulRel R R R) (hc : ∀ c, R (Cx.ofReal c) (Cx.ofReal c))
    {x x' : MV A (ArrayStorage (Cx F64))} (hx : Rel R x x') (fuel : Nat) : ∀ (c : F64) (i : Nat) {res p res' p' : MV A (ArrayStorage (Cx F64))},
    Rel R res res' → Rel R p p' → OptResRel (Rel R) (taylorFC x fuel c i res p) (taylorFC x' fuel c i res' p') := by
  induction fuel with
  | zero =>
    intro c i res p res' p' hr hp
    rw [taylorFC, taylorFC]
    split
    · trivial
    · exact hr
  | succ fuel ih =>
    intro c i res p res' p' hr hp
    rw [taylorFC, taylorFC]
    split
    · dsimp only
      have key : ResRel (fun (u v : MV A (ArrayStorage (Cx F64)) × MV A (ArrayStorage (Cx F64))) => Rel R u.1 v.1 ∧ Rel R u.2 v.2)
          (do
            let t ← p.smul (Cx.ofReal (c / Flt.ofRat (i : ℚ)))
            let res ← res.add t
            let p ← p.naiveMulImpl x
            return (res, p))
          (do
            let t ← p'.smul (Cx.ofReal (c / Flt.ofRat (i : ℚ)))
            let res ← res'.add t
            let p ← p'.naiveMulImpl x'
            return (res, p)) :=
        (hp.smul h.toSignRel h.zero hm (hc _)).bind fun t t' ht => (hr.add h ht).bind fun r r' hr' =>
          (hp.mul h.toSignRel h.toSignRel h hm hx).bind fun q q' hq => ⟨hr', hq⟩
      revert key
      generalize (do
            let t ← p.smul (Cx.ofReal (c / Flt.ofRat (i : ℚ)))
            let res ← res.add t
            let p ← p.naiveMulImpl x
            return (res, p) : Res (MV A (ArrayStorage (Cx F64)) × MV A (ArrayStorage (Cx F64)))) = u
      generalize (do
            let t ← p'.smul (Cx.ofReal (c / Flt.ofRat (i : ℚ)))
            let res ← res'.add t
            let p ← p'.naiveMulImpl x'
            return (res, p) : Res (MV A (ArrayStorage (Cx F64)) × MV A (ArrayStorage (Cx F64)))) = v
      intro key
      rcases u with e | ⟨u1, u2⟩ <;> rcases v with e' | ⟨v1, v2⟩
      · exact key
      · exact key.elim
      · exact key.elim
      · exact ih _ _ key.1 key.2
    · exact hr

theorem expF_rel {R : F64 → Cx F64 → Prop} (h : SumRel R) (hm : MulRel R R R) (hc : ∀ c, R c (Cx.ofReal c)) {hyp : F64 → F64 → F64}
    (hn : ∀ c z, R c z → c.abs = hyp z.re z.im) {a : MV A (ArrayStorage F64)} {a' : MV A (ArrayStorage (Cx F64))} (ha : Rel R a a') (fuel : Nat) :
    OptResRel (Rel R) (a.expF fuel) (a'.expFC hyp fuel) := by
  have hmax : ResRel Eq a.expMaxF (a'.expMaxFC hyp) := by
    unfold expMaxF expMaxFC
    refine (ha.mag2 h.toSignRel h hm).bind fun q q' hq => ?_
    have e : a.coeffEnumerate.foldl (fun m p => Flt.fmax p.2.abs m) (1 : F64) =
        a'.coeffEnumerate.foldl (fun m p => Flt.fmax (hyp p.2.re p.2.im) m) (1 : F64) :=
      foldl_rel (P := Eq) (fun s s' p p' hs hp => by rw [hs, hn _ _ hp.2]) (ha.enum h.nz) rfl
    show Flt.ceil _ = Flt.ceil _
    rw [e, hn _ _ hq]
  have key : ResRel (fun (u : MV A (ArrayStorage F64) × Nat × MV A (ArrayStorage F64))
      (v : MV A (ArrayStorage (Cx F64)) × Nat × MV A (ArrayStorage (Cx F64))) => Rel R u.1 v.1 ∧ u.2.1 = v.2.1 ∧ Rel R u.2.2 v.2.2)
      (do
        let res ← one (A := A) (S := ArrayStorage F64) (T := F64)
        let maxC ← a.expMaxF
        let intPow ← maxC.toUsize
        let n ← a.smul (1 / maxC)
        return (res, intPow, n))
      (do
        let res ← one (A := A) (S := ArrayStorage (Cx F64)) (T := Cx F64)
        let maxC ← a'.expMaxFC hyp
        let intPow ← maxC.toUsize
        let n ← a'.smul (Cx.ofReal (1 / maxC))
        return (res, intPow, n)) :=
    (Rel.one h.zero (hc 1)).bind fun r r' hr => hmax.bind fun m m' e => by
      subst e
      exact (ResRel.refl m.toUsize).bind fun k k' e => (ha.smul h.toSignRel h.zero hm (hc _)).bind fun n n' hn => ⟨hr, e, hn⟩
  unfold expF expFC
  revert key
  generalize (do
        let res ← one (A := A) (S := ArrayStorage F64) (T := F64)
        let maxC ← a.expMaxF
        let intPow ← maxC.toUsize
        let n ← a.smul (1 / maxC)
        return (res, intPow, n) : Res (MV A (ArrayStorage F64) × Nat × MV A (ArrayStorage F64))) = u
  generalize (do
        let res ← one (A := A) (S := ArrayStorage (Cx F64)) (T := Cx F64)
        let maxC ← a'.expMaxFC hyp
        let intPow ← maxC.toUsize
        let n ← a'.smul (Cx.ofReal (1 / maxC))
        return (res, intPow, n) : Res (MV A (ArrayStorage (Cx F64)) × Nat × MV A (ArrayStorage (Cx F64)))) = v
  intro key
  rcases u with e | ⟨u1, u2, u3⟩ <;> rcases v with e' | ⟨v1, v2, v3⟩
  · exact key
  · exact key.elim
  · exact key.elim
  · obtain ⟨k1, k2, k3⟩ := key
    dsimp only at k2
    subst k2
    exact (taylorF_rel h hm hc k3 fuel 1 1 k1 k3).map fun s s' hs => hs.pow h (hc 1) hm _

theorem expFC_rel {R : Cx F64 → Cx F64 → Prop} (h : SumRel R) (hm : MulRel R R R) (hc : ∀ c, R (Cx.ofReal c) (Cx.ofReal c)) {hyp : F64 → F64 → F64}
    (hn : ∀ z z', R z z' → hyp z.re z.im = hyp z'.re z'.im) {a a' : MV A (ArrayStorage (Cx F64))} (ha : Rel R a a') (fuel : Nat) :
    OptResRel (Rel R) (a.expFC hyp fuel) (a'.expFC hyp fuel) := by
  have hmax : ResRel Eq (a.expMaxFC hyp) (a'.expMaxFC hyp) := by
    unfold expMaxFC
    refine (ha.mag2 h.toSignRel h hm).bind fun q q' hq => ?_
    have e : a.coeffEnumerate.foldl (fun m p => Flt.fmax (hyp p.2.re p.2.im) m) (1 : F64) =
        a'.coeffEnumerate.foldl (fun m p => Flt.fmax (hyp p.2.re p.2.im) m) (1 : F64) :=
      foldl_rel (P := Eq) (fun s s' p p' hs hp => by rw [hs, hn _ _ hp.2]) (ha.enum h.nz) rfl
    show Flt.ceil _ = Flt.ceil _
    rw [e, hn _ _ hq]
  have key : ResRel (fun (u v : MV A (ArrayStorage (Cx F64)) × Nat × MV A (ArrayStorage (Cx F64))) =>
        Rel R u.1 v.1 ∧ u.2.1 = v.2.1 ∧ Rel R u.2.2 v.2.2)
      (do
        let res ← one (A := A) (S := ArrayStorage (Cx F64)) (T := Cx F64)
        let maxC ← a.expMaxFC hyp
        let intPow ← maxC.toUsize
        let n ← a.smul (Cx.ofReal (1 / maxC))
        return (res, intPow, n))
      (do
        let res ← one (A := A) (S := ArrayStorage (Cx F64)) (T := Cx F64)
        let maxC ← a'.expMaxFC hyp
        let intPow ← maxC.toUsize
        let n ← a'.smul (Cx.ofReal (1 / maxC))
        return (res, intPow, n)) :=
    (Rel.one h.zero (hc 1)).bind fun r r' hr => hmax.bind fun m m' e => by
      subst e
      exact (ResRel.refl m.toUsize).bind fun k k' e => (ha.smul h.toSignRel h.zero hm (hc _)).bind fun n n' hn => ⟨hr, e, hn⟩
  unfold expFC
  revert key
  generalize (do
        let res ← one (A := A) (S := ArrayStorage (Cx F64)) (T := Cx F64)
        let maxC ← a.expMaxFC hyp
        let intPow ← maxC.toUsize
        let n ← a.smul (Cx.ofReal (1 / maxC))
        return (res, intPow, n) : Res (MV A (ArrayStorage (Cx F64)) × Nat × MV A (ArrayStorage (Cx F64)))) = u
  generalize (do
        let res ← one (A := A) (S := ArrayStorage (Cx F64)) (T := Cx F64)
        let maxC ← a'.expMaxFC hyp
        let intPow ← maxC.toUsize
        let n ← a'.smul (Cx.ofReal (1 / maxC))
        return (res, intPow, n) : Res (MV A (ArrayStorage (Cx F64)) × Nat × MV A (ArrayStorage (Cx F64)))) = v
  intro key
  rcases u with e | ⟨u1, u2, u3⟩ <;> rcases v with e' | ⟨v1, v2, v3⟩
  · exact key
  · exact key.elim
  · exact key.elim
  · obtain ⟨k1, k2, k3⟩ := key
    dsimp only at k2
    subst k2
    exact (taylorFC_rel h hm hc k3 fuel 1 1 k1 k3).map fun s s' hs => hs.pow h (hc 1) hm _

end TClifford
