import Verif.Proofs.ComplexDisplay
import Verif.Props.FloatDisplay
import Verif.Props.ComplexExamples
import Verif.Proofs.FFTFloat
/-
C50 with `Complex64` and `Complex32` coefficients: reading the text of a multivector gives the multivector, without any loss.
-/

set_option maxRecDepth 100000

namespace TClifford

open MV Spec Decimal

/-- The texts of complex numbers meet the conditions on coefficients. -/
theorem goodFmt_cx (f : Fmt) {eo : Option Char} {e : Char} (he : e = 'e' ∨ e = 'E') (heo : eo = none ∨ eo = some e) (plus : Bool) :
    GoodFmt (fun z : Cx (Flt f) => z.text eo plus) (readCx f e) where
  read := Cx.readCx_text he heo plus
  chars t c hc := by
    have h := Cx.text_chars he heo plus t c hc
    refine ⟨?_, ?_, ?_⟩ <;> rintro rfl <;> exact absurd h (by unfold Flt.NumChar; decide)
  plus t h := by
    have h1 := Cx.readCx_text he heo plus t
    rw [h] at h1
    have h2 : readCx f e "+" = none := by rcases he with rfl | rfl <;> rfl
    rw [h2] at h1
    exact absurd h1 (by simp)

/-- The parts are numbers. -/
def Cx.Finite {f : Fmt} (z : Cx (Flt f)) : Prop := z.re ≠ .nonFinite ∧ z.im ≠ .nonFinite

/-- The value of a complex floating point number. -/
noncomputable def Cx.toC {f : Fmt} (z : Cx (Flt f)) : ℂ := ⟨z.re.toRat, z.im.toRat⟩

section
variable {A : ClAlg} {f : Fmt}

theorem cx_revC (i : Nat) (z : Cx (Flt f)) : revC i z = ⟨revC i z.re, revC i z.im⟩ := by
  unfold revC
  split <;> rfl

theorem toC_revC (i : Nat) {z : Cx (Flt f)} (hz : z.Finite) : (revC i z).toC = revC i z.toC ∧ (revC i z).Finite := by
  obtain ⟨h1, h2⟩ := toRat_revC i hz.1
  obtain ⟨h3, h4⟩ := toRat_revC i hz.2
  rw [cx_revC]
  refine ⟨?_, h2, h4⟩
  unfold Cx.toC
  dsimp only
  rw [h1, h3]
  unfold revC
  split
  · rfl
  · apply Complex.ext <;> simp

theorem toC_zero : (0 : Cx (Flt f)).toC = 0 := by
  show (⟨((0 : Flt f).toRat : ℝ), ((0 : Flt f).toRat : ℝ)⟩ : ℂ) = 0
  rw [toRat_zero]
  apply Complex.ext <;> simp

/-- **C50.** The text of a multivector with `Complex64` or `Complex32` coefficients (`{}`, `{:e}`, `{:E}`, with the flags `+` and
`#`) denotes it exactly: every coefficient is read as the complex number it was, and the terms add up to the multivector. -/
theorem C50_complex_text_partial {S S' : Type} [CoeffStorage S (Cx (Flt f))] [LawfulStorage S (Cx (Flt f))] [CoeffStorage S' ℂ]
    [LawfulStorage S' ℂ] (hA : A.WF) (hN : GoodTextNames A) {eo : Option Char} {e : Char} (he : e = 'e' ∨ e = 'E')
    (heo : eo = none ∨ eo = some e) (signCheck : Cx (Flt f) → String) (alternate signPlus : Bool) {a : MV A S} (ha : a.Valid)
    (hfin : ∀ i < 2 ^ A.dim, (a.val i).Finite) {a' : MV A S'} (ha' : a'.Valid) (hval : ∀ i < 2 ^ A.dim, a'.val i = (a.val i).toC) :
    ∃ ts, readText (readCx f e) A.axisName A.dim (a.display (fun z => z.text eo signPlus) signCheck alternate signPlus) = some ts ∧
      (∀ t ∈ ts, t.1.Finite) ∧ termsValue (ts.map fun t => (t.1.toC, t.2)) ≈ᵣ .ok a' := by
  refine ⟨_, readText_display hN (goodFmt_cx f he heo signPlus) signCheck alternate signPlus ha, ?_⟩
  unfold displayTerms
  set q : List (Nat × Cx (Flt f)) := a.coeffEnumerate.filter (fun p => decide (p.2 ≠ 0)) with hq
  have hqe : Enumerates A.dim q a.val := by
    refine (ha.enum.filter (fun p => decide (p.2 ≠ 0))).congr fun i _ => ?_
    by_cases h : a.val i = 0 <;> simp [h]
  dsimp only
  by_cases hq0 : q = []
  · rw [if_pos hq0]
    have h0 : (0 : Cx (Flt f)).Finite := by
      have : (0 : Flt f) ≠ .nonFinite := by rw [Flt.zero_eq]; simp
      exact ⟨this, this⟩
    refine ⟨by simpa using h0, ?_⟩
    refine Agree.of_denotes (termsValue_denotes hA ha'.supp _ (by simp)) (.of_valid ha') fun i hi => ?_
    have : a.val i = 0 := by
      by_contra h
      have := hqe.complete i hi h
      rw [hq0] at this
      simp at this
    rw [hval i hi, this, toC_zero]
    simp [evw, single, toC_zero]
  · rw [if_neg hq0]
    have hq2 : ∀ p ∈ q, p.2.Finite := fun p hp => by
      obtain ⟨h1, h2⟩ := hqe.mem p hp
      rw [h2]
      exact hfin _ h1
    refine ⟨?_, ?_⟩
    · intro t ht
      rw [List.mem_map] at ht
      obtain ⟨p, hp, rfl⟩ := ht
      cases alternate
      · exact hq2 p hp
      · exact (toC_revC p.1 (hq2 p hp)).2
    · have henum : Enumerates A.dim (q.map fun p => (p.1, p.2.toC)) a'.val :=
        (hqe.map (fun _ x => x.toC) fun _ => toC_zero).congr fun i hi => (hval i hi).symm
      have h := termsValue_enum hA alternate ha' henum
      rw [List.map_map] at h ⊢
      have heq : q.map ((fun t : Cx (Flt f) × List Nat => (t.1.toC, t.2)) ∘ fun p =>
          (if alternate then revC p.1 p.2 else p.2, labelWord A alternate p.1)) =
        q.map ((fun p : Nat × ℂ => ((if alternate then revC p.1 p.2 else p.2 : ℂ), labelWord A alternate p.1)) ∘
          fun p => (p.1, p.2.toC)) := by
        refine List.map_congr_left fun p hp => ?_
        simp only [Function.comp]
        cases alternate
        · rfl
        · simp only [if_true]
          rw [(toC_revC p.1 (hq2 p hp)).1]
      rw [heq]
      exact h

theorem toRat_inj {x y : Flt f} (hx : x ≠ .nonFinite) (hy : y ≠ .nonFinite) (h : (x.toRat : ℝ) = y.toRat) : x = y := by
  cases x with
  | nonFinite => exact absurd rfl hx
  | num x =>
    cases y with
    | nonFinite => exact absurd rfl hy
    | num y => exact congrArg Flt.num (Subtype.ext (by exact_mod_cast h))

/-- **C50.** Different multivectors with finite `Complex64` or `Complex32` coefficients have different texts, also if they are
stored differently. -/
theorem C50_complex_text_injective_partial {S S' : Type} [CoeffStorage S (Cx (Flt f))] [LawfulStorage S (Cx (Flt f))]
    [CoeffStorage S' (Cx (Flt f))] [LawfulStorage S' (Cx (Flt f))] (hA : A.WF) (hN : GoodTextNames A)
    {eo : Option Char} (heo : eo = none ∨ eo = some 'e' ∨ eo = some 'E') (signCheck : Cx (Flt f) → String) (alternate signPlus : Bool)
    {a : MV A S} {b : MV A S'} (ha : a.Valid) (hb : b.Valid) (hfa : ∀ i < 2 ^ A.dim, (a.val i).Finite)
    (hfb : ∀ i < 2 ^ A.dim, (b.val i).Finite)
    (h : a.display (fun x => x.text eo signPlus) signCheck alternate signPlus =
      b.display (fun x => x.text eo signPlus) signCheck alternate signPlus) :
    ∀ i < 2 ^ A.dim, a.val i = b.val i := by
  obtain ⟨e, he, heo'⟩ : ∃ e : Char, (e = 'e' ∨ e = 'E') ∧ (eo = none ∨ eo = some e) := by
    rcases heo with h | h | h
    · exact ⟨'e', .inl rfl, .inl h⟩
    · exact ⟨'e', .inl rfl, .inr h⟩
    · exact ⟨'E', .inr rfl, .inr h⟩
  have hd : A.dim ≤ 63 := LawfulStorage.supp_le ha.supp
  have hmk : ∀ g : Nat → ℂ, ∃ c : MV A (ArrayStorage ℂ), c.Valid ∧ ∀ i < 2 ^ A.dim, c.val i = g i := fun g => by
    refine ⟨⟨⟨A.dim, ⟨2 ^ A.dim, g⟩⟩⟩, ⟨hd, rfl, rfl⟩, fun i hi => ?_⟩
    exact if_pos hi
  obtain ⟨a', ha', hav⟩ := hmk fun i => (a.val i).toC
  obtain ⟨b', hb', hbv⟩ := hmk fun i => (b.val i).toC
  obtain ⟨ts, hts, -, hta⟩ := C50_complex_text_partial hA hN he heo' signCheck alternate signPlus ha hfa ha' hav
  obtain ⟨us, hus, -, hub⟩ := C50_complex_text_partial hA hN he heo' signCheck alternate signPlus hb hfb hb' hbv
  rw [h, hus] at hts
  cases hts
  have hab := hta.symm.trans hub
  intro i hi
  obtain ⟨u, v, hu, hv, hu', hv', huv⟩ := hab
  cases hu
  cases hv
  have h1 : a'.val i = b'.val i := (beq_iff ha' hb').mp huv i hi
  rw [hav i hi, hbv i hi] at h1
  exact Cx.ext' (toRat_inj (hfa i hi).1 (hfb i hi).1 (congrArg Complex.re h1)) (toRat_inj (hfa i hi).2 (hfb i hi).2 (congrArg Complex.im h1))

end

namespace Ex

/-- `1 + 2i`, `-0.5 x`, `-1e-7i y`, `0.1 - 3i` times `y^x` -/
def cA : MV E (ArrayStorage (TClifford.Cx F64)) :=
  ⟨⟨E.dim, ⟨2 ^ E.dim, fun i => if i = 0 then ⟨.ofRat 1, .ofRat 2⟩ else if i = 1 then ⟨.ofRat (-1 / 2), 0⟩
    else if i = 2 then ⟨0, .ofRat (-1 / 10 ^ 7)⟩ else if i = 3 then ⟨.ofRat (1 / 10), .ofRat (-3)⟩ else 0⟩⟩⟩

theorem cA_valid : cA.Valid := ⟨by decide, rfl, rfl⟩

theorem cA_fin : ∀ i < 2 ^ E.dim, (cA.val i).Finite := by unfold Cx.Finite; decide +kernel

/-- The values of the coefficients of `cA`. -/
noncomputable def cAc : MV E (ArrayStorage ℂ) := ⟨⟨E.dim, ⟨2 ^ E.dim, fun i => (cA.val i).toC⟩⟩⟩

theorem cAc_valid : cAc.Valid := ⟨by decide, rfl, rfl⟩

example (alternate signPlus : Bool) :
    ∃ ts, readText (readCx .f64 'e') E.axisName E.dim (cA.display (·.text none signPlus) (·.text none false) alternate signPlus) = some ts ∧
      (∀ t ∈ ts, t.1.Finite) ∧ termsValue (ts.map fun t => (t.1.toC, t.2)) ≈ᵣ .ok cAc :=
  C50_complex_text_partial E_wf E_names (.inl rfl) (.inl rfl) _ alternate signPlus cA_valid cA_fin cAc_valid fun _ hi => if_pos hi

/-- The texts. -/
example : cA.display (·.text none false) (·.text none false) false false =
    "(1+2i) + (-0.5+0i) x + (0-0.0000001i) y + (0.1-3i) y^x" := by decide +kernel

example : cA.display (·.text (some 'e') true) (·.text (some 'e') false) true true =
    "(+1e0+2e0i) + (-5e-1+0e0i) x + (+0e0-1e-7i) y + (-1e-1+3e0i) x^y" := by decide +kernel

/-- All coefficients are the same. -/
def cC (q : ℚ) : MV E (ArrayStorage (TClifford.Cx F64)) := ⟨⟨E.dim, ⟨2 ^ E.dim, fun _ => ⟨.ofRat 1, .ofRat q⟩⟩⟩⟩

theorem cC_valid (q : ℚ) : (cC q).Valid := ⟨by decide, rfl, rfl⟩

example : (cC (1 / 10)).display (·.text none false) (·.text none false) true false ≠
    (cC (1 / 10 + 1 / 2 ^ 56)).display (·.text none false) (·.text none false) true false :=
  fun h => absurd (C50_complex_text_injective_partial E_wf E_names (.inl rfl) _ true false (cC_valid _) (cC_valid _)
    (by unfold Cx.Finite; decide +kernel) (by unfold Cx.Finite; decide +kernel) h 0 (by decide)) (by decide +kernel)

end Ex

end TClifford
