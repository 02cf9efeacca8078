import Verif.Proofs.FloatDisplay
import Verif.Props.Display
import Verif.Props.Tests
/-
C50 with floating point coefficients: the texts of `f64` and `f32` coefficients are decimals (Verif/Model/FloatDisplay.lean), and
reading the text of a multivector (Verif/Spec/Reader.lean, Verif/Spec/Decimal.lean) gives the multivector, without any loss.
-/

set_option maxRecDepth 100000

namespace TClifford

open MV Spec Decimal

/-- The texts of floating point numbers meet the conditions on coefficients. -/
theorem goodFmt_flt (f : Fmt) {eo : Option Char} {e : Char} (he : e = 'e' ∨ e = 'E') (heo : eo = none ∨ eo = some e) (plus : Bool) :
    GoodFmt (fun x : Flt f => x.text eo plus) (readFlt f e) where
  read := Flt.readFlt_text he heo plus
  chars t c hc := by
    have h := Flt.text_chars he heo plus t c hc
    refine ⟨?_, ?_, ?_⟩ <;> rintro rfl <;> exact absurd h (by unfold Flt.NumChar; decide)
  plus t h := by
    have h1 := Flt.readFlt_text he heo plus t
    rw [h] at h1
    have h2 : readFlt f e "+" = none := by
      rcases he with rfl | rfl <;> · unfold readFlt; rw [if_neg (by decide)]; rfl
    rw [h2] at h1
    exact absurd h1 (by simp)

section
variable {A : ClAlg} {f : Fmt} {S S' : Type} [CoeffStorage S (Flt f)] [LawfulStorage S (Flt f)] [CoeffStorage S' ℚ] [LawfulStorage S' ℚ]

theorem toRat_revC (i : Nat) {x : Flt f} (hx : x ≠ .nonFinite) : (revC i x).toRat = revC i x.toRat ∧ revC i x ≠ .nonFinite := by
  cases x with
  | nonFinite => exact absurd rfl hx
  | num x =>
    unfold revC
    split
    · exact ⟨rfl, hx⟩
    · have h : f.Repr (-x.1) := ⟨by rw [f.rnd_neg, x.2.1], by rw [abs_neg]; exact x.2.2⟩
      have : (-Flt.num x : Flt f) = .num ⟨-x.1, h⟩ := by
        rw [Flt.neg_num]
        exact Flt.ofRat_repr ⟨-x.1, h⟩
      rw [this]
      exact ⟨rfl, by simp⟩

theorem toRat_zero : (0 : Flt f).toRat = 0 := by rw [Flt.zero_eq]; rfl

/-- **C50.** The text of a multivector with `f64` or `f32` coefficients (`{}`, `{:e}`, `{:E}`, with the flags `+` and `#`) denotes
it exactly: every coefficient is read as the number it was, and the terms, each the value of the coefficient times the product of the
named basis vectors in the order written, add up to the multivector. -/
theorem C50_float_text_partial (hA : A.WF) (hN : GoodTextNames A) {eo : Option Char} {e : Char} (he : e = 'e' ∨ e = 'E')
    (heo : eo = none ∨ eo = some e) (signCheck : Flt f → String) (alternate signPlus : Bool) {a : MV A S} (ha : a.Valid)
    (hfin : ∀ i < 2 ^ A.dim, a.val i ≠ .nonFinite) {a' : MV A S'} (ha' : a'.Valid)
    (hval : ∀ i < 2 ^ A.dim, a'.val i = (a.val i).toRat) :
    ∃ ts, readText (readFlt f e) A.axisName A.dim (a.display (fun x => x.text eo signPlus) signCheck alternate signPlus) = some ts ∧
      (∀ t ∈ ts, t.1 ≠ .nonFinite) ∧ termsValue (ts.map fun t => (t.1.toRat, t.2)) ≈ᵣ .ok a' := by
  refine ⟨_, readText_display hN (goodFmt_flt f he heo signPlus) signCheck alternate signPlus ha, ?_⟩
  unfold displayTerms
  set q : List (Nat × Flt f) := a.coeffEnumerate.filter (fun p => decide (p.2 ≠ 0)) with hq
  have hqe : Enumerates A.dim q a.val := by
    refine (ha.enum.filter (fun p => decide (p.2 ≠ 0))).congr fun i _ => ?_
    by_cases h : a.val i = 0 <;> simp [h]
  dsimp only
  by_cases hq0 : q = []
  · rw [if_pos hq0]
    refine ⟨by rw [Flt.zero_eq]; simp, ?_⟩
    refine Agree.of_denotes (termsValue_denotes hA ha'.supp _ (by simp)) (.of_valid ha') fun i hi => ?_
    have : a.val i = 0 := by
      by_contra h
      have := hqe.complete i hi h
      rw [hq0] at this
      simp at this
    rw [hval i hi, this, toRat_zero]
    simp [evw, single, toRat_zero]
  · rw [if_neg hq0]
    have hq2 : ∀ p ∈ q, p.2 ≠ .nonFinite := fun p hp => by
      obtain ⟨h1, h2⟩ := hqe.mem p hp
      rw [h2]
      exact hfin _ h1
    refine ⟨?_, ?_⟩
    · intro t ht
      rw [List.mem_map] at ht
      obtain ⟨p, hp, rfl⟩ := ht
      cases alternate
      · exact hq2 p hp
      · exact (toRat_revC p.1 (hq2 p hp)).2
    · have henum : Enumerates A.dim (q.map fun p => (p.1, p.2.toRat)) a'.val :=
        (hqe.map (fun _ x => x.toRat) fun _ => toRat_zero).congr fun i hi => (hval i hi).symm
      have h := termsValue_enum hA alternate ha' henum
      rw [List.map_map] at h ⊢
      have heq : q.map ((fun t : Flt f × List Nat => (t.1.toRat, t.2)) ∘ fun p =>
          (if alternate then revC p.1 p.2 else p.2, labelWord A alternate p.1)) =
        q.map ((fun p : Nat × ℚ => ((if alternate then revC p.1 p.2 else p.2 : ℚ), labelWord A alternate p.1)) ∘
          fun p => (p.1, p.2.toRat)) := by
        refine List.map_congr_left fun p hp => ?_
        simp only [Function.comp]
        cases alternate
        · rfl
        · simp only [if_true]
          rw [(toRat_revC p.1 (hq2 p hp)).1]
      rw [heq]
      exact h

end

/-- **C50.** Different multivectors with finite `f64` or `f32` coefficients have different texts, also if they are stored
differently. -/
theorem C50_float_text_injective_partial {A : ClAlg} {f : Fmt} {S S' : Type} [CoeffStorage S (Flt f)] [LawfulStorage S (Flt f)]
    [CoeffStorage S' (Flt f)] [LawfulStorage S' (Flt f)] (hA : A.WF) (hN : GoodTextNames A)
    {eo : Option Char} (heo : eo = none ∨ eo = some 'e' ∨ eo = some 'E') (signCheck : Flt f → String) (alternate signPlus : Bool)
    {a : MV A S} {b : MV A S'} (ha : a.Valid) (hb : b.Valid) (hfa : ∀ i < 2 ^ A.dim, a.val i ≠ .nonFinite)
    (hfb : ∀ i < 2 ^ A.dim, b.val i ≠ .nonFinite)
    (h : a.display (fun x => x.text eo signPlus) signCheck alternate signPlus =
      b.display (fun x => x.text eo signPlus) signCheck alternate signPlus) :
    ∀ i < 2 ^ A.dim, a.val i = b.val i := by
  obtain ⟨e, he, heo'⟩ : ∃ e : Char, (e = 'e' ∨ e = 'E') ∧ (eo = none ∨ eo = some e) := by
    rcases heo with h | h | h
    · exact ⟨'e', .inl rfl, .inl h⟩
    · exact ⟨'e', .inl rfl, .inr h⟩
    · exact ⟨'E', .inr rfl, .inr h⟩
  have hd : A.dim ≤ 63 := LawfulStorage.supp_le ha.supp
  have hmk : ∀ g : Nat → ℚ, ∃ c : MV A (ArrayStorage ℚ), c.Valid ∧ ∀ i < 2 ^ A.dim, c.val i = g i := fun g => by
    refine ⟨⟨⟨A.dim, ⟨2 ^ A.dim, g⟩⟩⟩, ⟨hd, rfl, rfl⟩, fun i hi => ?_⟩
    exact if_pos hi
  obtain ⟨a', ha', hav⟩ := hmk fun i => (a.val i).toRat
  obtain ⟨b', hb', hbv⟩ := hmk fun i => (b.val i).toRat
  obtain ⟨ts, hts, -, hta⟩ := C50_float_text_partial hA hN he heo' signCheck alternate signPlus ha hfa ha' hav
  obtain ⟨us, hus, -, hub⟩ := C50_float_text_partial hA hN he heo' signCheck alternate signPlus hb hfb hb' hbv
  rw [h, hus] at hts
  cases hts
  have hab := hta.symm.trans hub
  intro i hi
  obtain ⟨u, v, hu, hv, hu', hv', huv⟩ := hab
  cases hu
  cases hv
  have h1 : a'.val i = b'.val i := (beq_iff ha' hb').mp huv i hi
  rw [hav i hi, hbv i hi] at h1
  have hinj : ∀ {x y : Flt f}, x ≠ .nonFinite → y ≠ .nonFinite → x.toRat = y.toRat → x = y := by
    intro x y hx hy hxy
    cases x with
    | nonFinite => exact absurd rfl hx
    | num x =>
      cases y with
      | nonFinite => exact absurd rfl hy
      | num y => exact congrArg Flt.num (Subtype.ext hxy)
  exact hinj (hfa i hi) (hfb i hi) h1

namespace Tests

@[inherit_doc] local infixl:65 " +ₚ " => padd
@[inherit_doc] local infixl:65 " -ₚ " => psub
@[inherit_doc] local infixl:70 " *ₚ " => pmul
@[inherit_doc] local infixl:70 " *ₛ " => psmul
@[inherit_doc] local infixl:70 " /ₛ " => psdiv

/-- `a = x - y + x * y - x * z * 2. + x * y * z / 2000.` of `fmt_test`, tests/unit.rs:312-317 -/
def fmtA : Res (D Cl3 F64) :=
  e3 0 -ₚ e3 1 +ₚ e3 0 *ₚ e3 1 -ₚ e3 0 *ₚ e3 2 *ₛ f 2 +ₚ e3 0 *ₚ e3 1 *ₚ e3 2 /ₛ f 2000

/-- **C87.** `fmt_test`, tests/unit.rs:311-331. -/
theorem C87_fmt :
    (do return (← fmtA).display (·.text none false) (·.text none false) false false) =
      (.ok "1 x + (-1) y + (-1) y^x + 2 z^x + (-0.0005) z^y^x" : Res String) ∧
    (do return (← fmtA).display (·.text none false) (·.text none false) true false) =
      (.ok "1 x + (-1) y + 1 x^y + (-2) x^z + 0.0005 x^y^z" : Res String) ∧
    (do return (← fmtA).display (·.textPrec 1 true) (·.text none false) true true) =
      (.ok "(+1.0) x + (-1.0) y + (+1.0) x^y + (-2.0) x^z + (+0.0) x^y^z" : Res String) := by decide +kernel

end Tests

namespace Ex

/-- `0.1 + x / 3 - 5e-324 y + 1e22 y^x` -/
def fA : MV E (ArrayStorage F64) :=
  ⟨⟨E.dim, ⟨2 ^ E.dim, fun i => .ofRat (if i = 0 then 1 / 10 else if i = 1 then 1 / 3 else if i = 2 then -5 / 10 ^ 324 else if i = 3 then 10 ^ 22 else 0)⟩⟩⟩

/-- The values of the coefficients of `fA`. -/
def fAq : MV E (ArrayStorage ℚ) := ⟨⟨E.dim, ⟨2 ^ E.dim, fun i => (fA.val i).toRat⟩⟩⟩

theorem fA_valid : fA.Valid := ⟨by decide, rfl, rfl⟩

theorem fA_fin : ∀ i < 2 ^ E.dim, fA.val i ≠ .nonFinite := by decide +kernel

example (alternate signPlus : Bool) :
    ∃ ts, readText (readFlt .f64 'e') E.axisName E.dim (fA.display (·.text none signPlus) (·.text none false) alternate signPlus) = some ts ∧
      (∀ t ∈ ts, t.1 ≠ .nonFinite) ∧ termsValue (ts.map fun t => (t.1.toRat, t.2)) ≈ᵣ .ok fAq :=
  C50_float_text_partial E_wf E_names (.inl rfl) (.inl rfl) _ alternate signPlus fA_valid fA_fin (a' := fAq) ⟨by decide, rfl, rfl⟩
    fun _ hi => if_pos hi

/-- The texts, without and with exponents: the value of the coefficient 0.1 is not a tenth, but the text is. -/
example : fA.display (·.text (some 'e') false) (·.text (some 'e') false) false false =
    "(1e-1) + (3.333333333333333e-1) x + (-5e-324) y + 1e22 y^x" := by decide +kernel

example : (Flt.ofRat (1 / 10) : F64).toRat ≠ 1 / 10 ∧ (Flt.ofRat (1 / 10) : F64).text none false = "0.1" ∧
    (Flt.ofRat (1 / 10) : F32).text none true = "+0.1" ∧ (Flt.ofRat (2 ^ 60) : F64).text none false = "1152921504606847000" := by
  decide +kernel

/-- All coefficients are the same. -/
def fC (q : ℚ) : MV E (ArrayStorage F64) := ⟨⟨E.dim, ⟨2 ^ E.dim, fun _ => .ofRat q⟩⟩⟩

theorem fC_valid (q : ℚ) : (fC q).Valid := ⟨by decide, rfl, rfl⟩

/-- Numbers that differ in the last bit have different texts. -/
example : (fC (1 / 10)).display (·.text none false) (·.text none false) true false ≠
    (fC (1 / 10 + 1 / 2 ^ 56)).display (·.text none false) (·.text none false) true false :=
  fun h => absurd (C50_float_text_injective_partial E_wf E_names (.inl rfl) _ true false (fC_valid _) (fC_valid _)
    (by decide +kernel) (by decide +kernel) h 0 (by decide)) (by decide +kernel)

end Ex

end TClifford
