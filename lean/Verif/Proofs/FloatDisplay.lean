import Verif.Model.FloatDisplay
import Verif.Spec.Decimal
import Verif.Proofs.Float
import Mathlib.Tactic.Linarith
import Mathlib.Tactic.FieldSimp
/-
The decimal texts of floating point numbers are read back as the same numbers.
-/

namespace TClifford

open Decimal

namespace Flt

/-- A list of digits. -/
def Digs (l : List Char) : Prop := l ≠ [] ∧ ∀ c ∈ l, c.isDigit = true

theorem digs_toDigits (n : Nat) : Digs (Nat.toDigits 10 n) :=
  ⟨Nat.toDigits_ne_nil, fun _ hc => Nat.isDigit_of_mem_toDigits (by omega) (by omega) hc⟩

theorem Digs.notMem {l : List Char} (h : Digs l) {c : Char} (hc : c.isDigit = false) : c ∉ l := fun hm => by
  have := h.2 c hm
  rw [hc] at this
  exact absurd this (by decide)

theorem readDigits_digs {l : List Char} (h : Digs l) : readDigits l = some (Nat.ofDigitChars 10 l 0) := by
  unfold readDigits
  rw [if_pos (show l ≠ [] ∧ ∀ c ∈ l, c.isDigit = true from h)]
  rfl

theorem readDigits_toDigits (n : Nat) : readDigits (Nat.toDigits 10 n) = some n := by
  rw [readDigits_digs (digs_toDigits n), Nat.ofDigitChars_toDigits (by omega) (by omega)]

theorem digs_padded (n D : Nat) : Digs (padded n D).toList := by
  unfold padded
  rw [String.toList_ofList]
  refine ⟨by simp, fun c hc => ?_⟩
  rw [List.mem_append] at hc
  rcases hc with hc | hc
  · rw [(List.mem_replicate.mp hc).2]; decide
  · exact (digs_toDigits D).2 c hc

theorem readDigits_padded (n D : Nat) : readDigits (padded n D).toList = some D := by
  rw [readDigits_digs (digs_padded n D)]
  unfold padded
  rw [String.toList_ofList, Nat.ofDigitChars_append, Nat.ofDigitChars_replicate_zero, Nat.mul_zero,
    Nat.ofDigitChars_toDigits (by omega) (by omega)]

theorem length_padded {n D : Nat} (hn : 0 < n) (h : D < 10 ^ n) : (padded n D).toList.length = n := by
  unfold padded
  rw [String.toList_ofList, List.length_append, List.length_replicate]
  have := (Nat.length_toDigits_le_iff (b := 10) (by omega) hn).mpr h
  omega

theorem readMantissa_digs {l : List Char} (h : Digs l) : readMantissa l = some ((Nat.ofDigitChars 10 l 0 : Nat) : ℚ) := by
  unfold readMantissa
  rw [List.splitOn_eq_singleton (h.notMem (by decide))]
  simp [readDigits_digs h]

theorem readMantissa_point {i f : List Char} (hi : Digs i) (hf : Digs f) :
    readMantissa (i ++ '.' :: f) =
      some (((Nat.ofDigitChars 10 i 0 : Nat) : ℚ) + ((Nat.ofDigitChars 10 f 0 : Nat) : ℚ) / 10 ^ f.length) := by
  unfold readMantissa
  rw [List.splitOn_append_cons_self_of_not_mem (hi.notMem (by decide)), List.splitOn_eq_singleton (hf.notMem (by decide))]
  simp [readDigits_digs hi, readDigits_digs hf]

/-- The text without exponent means the number. -/
theorem readMantissa_positional (D : Nat) (s : ℤ) : readMantissa (positional D s).toList = some ((D : ℚ) * 10 ^ s) := by
  unfold positional
  split
  · rename_i h
    rw [Nat.toList_repr, readMantissa_digs (digs_toDigits _), Nat.ofDigitChars_toDigits (by omega) (by omega)]
    obtain ⟨k, rfl⟩ := Int.eq_ofNat_of_zero_le h
    simp
  · rename_i h
    obtain ⟨k, hk⟩ := Int.eq_ofNat_of_zero_le (a := -s) (by omega)
    have hs : s = -(k : ℤ) := by omega
    have hk0 : 0 < k := by omega
    subst hs
    have hk' : (- -(k : ℤ)).toNat = k := by omega
    rw [hk', String.toList_append, String.toList_append, Nat.toList_repr]
    have h1 : (Nat.toDigits 10 (D / 10 ^ k) ++ ".".toList ++ (padded k (D % 10 ^ k)).toList) =
      Nat.toDigits 10 (D / 10 ^ k) ++ '.' :: (padded k (D % 10 ^ k)).toList := by simp
    rw [h1, readMantissa_point (digs_toDigits _) (digs_padded _ _), Nat.ofDigitChars_toDigits (by omega) (by omega)]
    have h2 : Nat.ofDigitChars 10 (padded k (D % 10 ^ k)).toList 0 = D % 10 ^ k := by
      have := readDigits_padded k (D % 10 ^ k)
      rw [readDigits_digs (digs_padded _ _)] at this
      exact Option.some.inj this
    rw [h2, length_padded hk0 (Nat.mod_lt _ (by positivity))]
    congr 1
    have h3 : (D : ℚ) = (10 ^ k : ℚ) * ((D / 10 ^ k : Nat) : ℚ) + ((D % 10 ^ k : Nat) : ℚ) := by
      exact_mod_cast (Nat.div_add_mod D (10 ^ k)).symm
    rw [zpow_neg, zpow_natCast]
    conv_rhs => rw [h3]
    field_simp

theorem readExponent_repr (z : ℤ) : readExponent (Int.repr z).toList = some z := by
  rw [Int.repr_eq_if]
  split
  · rename_i h
    rw [Nat.toList_repr]
    have hd := digs_toDigits z.toNat
    have : readExponent (Nat.toDigits 10 z.toNat) = (readDigits (Nat.toDigits 10 z.toNat)).map fun n : Nat => (n : ℤ) := by
      unfold readExponent
      split
      · rename_i heq
        exact absurd (by rw [heq]; simp) (hd.notMem (c := '-') (by decide))
      · rfl
    rw [this, readDigits_toDigits, Option.map_some]
    congr 1
    omega
  · rename_i h
    rw [String.toList_append, Nat.toList_repr]
    have : "-".toList ++ Nat.toDigits 10 (-z).toNat = '-' :: Nat.toDigits 10 (-z).toNat := by simp
    rw [this, readExponent, readDigits_toDigits, Option.map_some]
    congr 1
    omega

/-- The letters of exponents. -/
def IsE (e : Char) : Prop := e = 'e' ∨ e = 'E'

theorem IsE.not_digit {e : Char} (h : IsE e) : e.isDigit = false := by rcases h with rfl | rfl <;> decide

theorem IsE.ne {e : Char} (h : IsE e) : e ≠ '.' ∧ e ≠ '-' ∧ e ≠ '+' ∧ e ≠ ' ' ∧ e ≠ '(' ∧ e ≠ ')' := by
  rcases h with rfl | rfl <;> decide

theorem mem_int_repr {z : ℤ} {c : Char} (hc : c ∈ (Int.repr z).toList) : c = '-' ∨ c.isDigit = true := by
  rw [Int.repr_eq_if] at hc
  split at hc
  · rw [Nat.toList_repr] at hc
    exact .inr ((digs_toDigits _).2 c hc)
  · rw [String.toList_append, Nat.toList_repr] at hc
    have : "-".toList ++ Nat.toDigits 10 (-z).toNat = '-' :: Nat.toDigits 10 (-z).toNat := by simp
    rw [this, List.mem_cons] at hc
    exact hc.imp id ((digs_toDigits _).2 c)

theorem readUnsigned_e {e : Char} (he : IsE e) {m : List Char} {q : ℚ} (hm : e ∉ m) (h : readMantissa m = some q) (z : ℤ) :
    readUnsigned e (m ++ e :: (Int.repr z).toList) = some (q * 10 ^ z) := by
  unfold readUnsigned
  rw [List.splitOn_append_cons_self_of_not_mem hm, List.splitOn_eq_singleton]
  · simp [h, readExponent_repr]
  · intro hc
    rcases mem_int_repr hc with hc | hc
    · exact he.ne.2.1 hc
    · rw [he.not_digit] at hc
      exact absurd hc (by decide)

/-- The text with exponent means the number. -/
theorem readUnsigned_scientific {e : Char} (he : IsE e) (D : Nat) (s : ℤ) :
    readUnsigned e (scientific e D s).toList = some ((D : ℚ) * 10 ^ s) := by
  have hd := digs_toDigits D
  have hv : Nat.ofDigitChars 10 (Nat.toDigits 10 D) 0 = D := Nat.ofDigitChars_toDigits (by omega) (by omega)
  unfold scientific
  cases hl : Nat.toDigits 10 D with
  | nil => exact absurd hl hd.1
  | cons d ds =>
    rw [hl] at hd hv
    have hd1 : Digs [d] := ⟨by simp, fun c hc => hd.2 c (by simp at hc; simp [hc])⟩
    cases ds with
    | nil =>
      have : (String.ofList [d, e] ++ Int.repr s).toList = [d] ++ e :: (Int.repr s).toList := by
        rw [String.toList_append, String.toList_ofList]; simp
      show readUnsigned e (String.ofList [d, e] ++ Int.repr s).toList = _
      rw [this, readUnsigned_e he (hd1.notMem he.not_digit) (readMantissa_digs hd1), hv]
    | cons d2 ds =>
      have hd2 : Digs (d2 :: ds) := ⟨by simp, fun c hc => hd.2 c (List.mem_cons_of_mem _ hc)⟩
      show readUnsigned e (String.ofList (d :: '.' :: (d2 :: ds) ++ [e]) ++ Int.repr (s + ((d2 :: ds).length : Nat))).toList = _
      have : (String.ofList (d :: '.' :: (d2 :: ds) ++ [e]) ++ Int.repr (s + ((d2 :: ds).length : Nat))).toList =
          ([d] ++ '.' :: (d2 :: ds)) ++ e :: (Int.repr (s + ((d2 :: ds).length : Nat))).toList := by
        rw [String.toList_append, String.toList_ofList]; simp
      rw [this, readUnsigned_e he _ (readMantissa_point hd1 hd2)]
      · congr 1
        have h1 : Nat.ofDigitChars 10 ([d] ++ d2 :: ds) 0 = D := hv
        rw [Nat.ofDigitChars_append, Nat.ofDigitChars_eq_ofDigitChars_zero] at h1
        rw [← h1, zpow_add₀ (by norm_num), zpow_natCast]
        push_cast
        field_simp
      · intro hc
        rcases List.mem_append.mp hc with hc | hc
        · exact hd1.notMem he.not_digit hc
        rcases List.mem_cons.mp hc with hc | hc
        · exact he.ne.1 hc
        · exact hd2.notMem he.not_digit hc

theorem readUnsigned_positional {e : Char} (he : IsE e) (D : Nat) (s : ℤ) :
    readUnsigned e (positional D s).toList = some ((D : ℚ) * 10 ^ s) := by
  unfold readUnsigned
  rw [List.splitOn_eq_singleton]
  · exact readMantissa_positional D s
  · unfold positional
    split
    · rw [Nat.toList_repr]
      exact (digs_toDigits _).notMem he.not_digit
    · rw [String.toList_append, String.toList_append, Nat.toList_repr, List.mem_append, List.mem_append]
      rintro ((hc | hc) | hc)
      · exact (digs_toDigits _).notMem he.not_digit hc
      · simp at hc
        exact he.ne.1 hc
      · exact (digs_padded _ _).notMem he.not_digit hc

theorem strip_spec (k D : Nat) (s : ℤ) : ((strip k D s).1 : ℚ) * 10 ^ (strip k D s).2 = (D : ℚ) * 10 ^ s := by
  induction k generalizing D s with
  | zero => rfl
  | succ k ih =>
    unfold strip
    split
    · rename_i h
      rw [ih, zpow_add₀ (by norm_num), zpow_one]
      have : (D : ℚ) = ((D / 10 : Nat) : ℚ) * 10 := by
        have := Nat.div_add_mod D 10
        rw [h, Nat.add_zero, Nat.mul_comm] at this
        exact_mod_cast this.symm
      conv_rhs => rw [this]
      ring
    · rfl

theorem shortestN_spec {f : Fmt} {x : ℚ} {n : Nat} {p : Nat × ℤ} (h : shortestN f x n = some p) :
    f.rnd ((p.1 : ℚ) * 10 ^ p.2) = x := by
  unfold shortestN at h
  dsimp only at h
  split at h
  · rename_i hb
    cases h
    split
    · exact hb.1
    · exact hb.2
  · split at h
    · rename_i hb
      cases h
      exact hb
    · split at h
      · rename_i hb
        cases h
        exact hb
      · exact absurd h (by simp)

theorem shortestN_isSome {f : Fmt} {x : ℚ} (hx : 0 < x) (hr : f.rnd x = x) {n : Nat} (hn : Int.log 10 x - n + 1 ≤ f.emin) :
    (shortestN f x n).isSome = true := by
  have hbelow : f.rnd ((⌊x / 10 ^ (Int.log 10 x - n + 1)⌋.toNat : ℚ) * 10 ^ (Int.log 10 x - n + 1)) = x := by
    set s : ℤ := Int.log 10 x - n + 1
    obtain ⟨m, hm⟩ := f.mult_of_repr hr
    have hf := f.hmin
    obtain ⟨a, ha⟩ := Int.eq_ofNat_of_zero_le (a := -f.emin) (by omega)
    obtain ⟨b, hb⟩ := Int.eq_ofNat_of_zero_le (a := f.emin - s) (by omega)
    have h1 : x / 10 ^ s = ((m * 5 ^ a * 10 ^ b : ℤ) : ℚ) := by
      have he : f.emin = -(a : ℤ) := by omega
      have hs : s = -(a : ℤ) - b := by omega
      rw [hm, he, hs, zpow_sub₀ (by norm_num), zpow_neg, zpow_neg, zpow_natCast, zpow_natCast, zpow_natCast]
      push_cast
      have : (10 : ℚ) ^ a = 2 ^ a * 5 ^ a := by rw [← mul_pow]; norm_num
      rw [this]
      field_simp
    have h2 : 0 ≤ x / 10 ^ s := by positivity
    have h3 : ((⌊x / 10 ^ s⌋.toNat : Nat) : ℚ) = x / 10 ^ s := by
      have h4 : ((⌊x / 10 ^ s⌋.toNat : Nat) : ℤ) = ⌊x / 10 ^ s⌋ := Int.toNat_of_nonneg (Int.floor_nonneg.mpr h2)
      have h5 : ((⌊x / 10 ^ s⌋.toNat : Nat) : ℚ) = ((⌊x / 10 ^ s⌋ : ℤ) : ℚ) := by exact_mod_cast congrArg (Int.cast (R := ℚ)) h4
      rw [h5, h1, Int.floor_intCast]
    rw [h3, div_mul_cancel₀ _ (by positivity), hr]
  unfold shortestN
  dsimp only
  split
  · rfl
  · rfl

/-- The decimal rounds to the number. -/
theorem shortest_spec {f : Fmt} {x : ℚ} (hx : 0 < x) (hr : f.rnd x = x) :
    f.rnd (((shortest f x).1 : ℚ) * 10 ^ (shortest f x).2) = x := by
  unfold shortest
  cases hfs : (List.range ((Int.log 10 x - f.emin).toNat + 2)).findSome? (fun n => shortestN f x (n + 1)) with
  | none =>
    rw [List.findSome?_eq_none_iff] at hfs
    have h := hfs ((Int.log 10 x - f.emin).toNat + 1) (List.mem_range.mpr (by omega))
    have h2 := shortestN_isSome hx hr (n := (Int.log 10 x - f.emin).toNat + 1 + 1) (by push_cast; omega)
    rw [h] at h2
    exact absurd h2 (by simp)
  | some p =>
    obtain ⟨D, s⟩ := p
    obtain ⟨n, -, hn⟩ := List.exists_of_findSome?_eq_some hfs
    dsimp only
    rw [strip_spec]
    exact shortestN_spec hn

/-- The characters of texts of numbers. -/
def NumChar (c : Char) : Prop := c.isDigit = true ∨ c = '.' ∨ c = '-' ∨ c = '+' ∨ c = 'e' ∨ c = 'E' ∨ c = 'N' ∨ c = 'a'

theorem positional_chars (D : Nat) (s : ℤ) : (positional D s).toList ≠ [] ∧ ∀ c ∈ (positional D s).toList, c.isDigit = true ∨ c = '.' := by
  unfold positional
  split
  · rw [Nat.toList_repr]
    exact ⟨(digs_toDigits _).1, fun c hc => .inl ((digs_toDigits _).2 c hc)⟩
  · rw [String.toList_append, String.toList_append, Nat.toList_repr]
    refine ⟨by simp, fun c hc => ?_⟩
    rw [List.mem_append, List.mem_append] at hc
    rcases hc with (hc | hc) | hc
    · exact .inl ((digs_toDigits _).2 c hc)
    · simp at hc; exact .inr hc
    · exact .inl ((digs_padded _ _).2 c hc)

theorem scientific_chars {e : Char} (he : IsE e) (D : Nat) (s : ℤ) :
    (scientific e D s).toList.head?.any Char.isDigit = true ∧ ∀ c ∈ (scientific e D s).toList, NumChar c := by
  have hd := digs_toDigits D
  have hE : NumChar e := by rcases he with rfl | rfl <;> simp [NumChar]
  have hz : ∀ z : ℤ, ∀ c ∈ (Int.repr z).toList, NumChar c := fun z c hc => by
    rcases mem_int_repr hc with h | h
    · simp [NumChar, h]
    · exact .inl h
  unfold scientific
  cases hl : Nat.toDigits 10 D with
  | nil => exact absurd hl hd.1
  | cons d ds =>
    rw [hl] at hd
    have hd1 := hd.2 d (by simp)
    cases ds with
    | nil =>
      have : (String.ofList [d, e] ++ Int.repr s).toList = d :: e :: (Int.repr s).toList := by
        rw [String.toList_append, String.toList_ofList]; simp
      show (String.ofList [d, e] ++ Int.repr s).toList.head?.any Char.isDigit = true ∧ ∀ c ∈ (String.ofList [d, e] ++ Int.repr s).toList, _
      rw [this]
      refine ⟨by simpa using hd1, fun c hc => ?_⟩
      rw [List.mem_cons, List.mem_cons] at hc
      rcases hc with rfl | rfl | hc
      · exact .inl hd1
      · exact hE
      · exact hz _ c hc
    | cons d2 ds =>
      show (String.ofList (d :: '.' :: (d2 :: ds) ++ [e]) ++ Int.repr (s + ((d2 :: ds).length : Nat))).toList.head?.any Char.isDigit = true ∧
        ∀ c ∈ (String.ofList (d :: '.' :: (d2 :: ds) ++ [e]) ++ Int.repr (s + ((d2 :: ds).length : Nat))).toList, _
      have : (String.ofList (d :: '.' :: (d2 :: ds) ++ [e]) ++ Int.repr (s + ((d2 :: ds).length : Nat))).toList =
          d :: '.' :: ((d2 :: ds) ++ e :: (Int.repr (s + ((d2 :: ds).length : Nat))).toList) := by
        rw [String.toList_append, String.toList_ofList]; simp
      rw [this]
      refine ⟨by simpa using hd1, fun c hc => ?_⟩
      simp only [List.mem_cons, List.mem_append] at hc
      rcases hc with rfl | rfl | (rfl | hc) | rfl | hc
      · exact .inl hd1
      · simp [NumChar]
      · exact .inl (hd.2 _ (by simp))
      · exact .inl (hd.2 c (by simp [hc]))
      · exact hE
      · exact hz _ c hc

theorem magText_spec {f : Fmt} {x : ℚ} (hx : 0 ≤ x) (hr : f.rnd x = x) {eo : Option Char} {e : Char} (he : IsE e)
    (heo : eo = none ∨ eo = some e) :
    (∃ q, readUnsigned e (magText f eo x).toList = some q ∧ f.rnd q = x) ∧
      (magText f eo x).toList.head?.any (fun c => c.isDigit || c = '.') = true ∧ ∀ c ∈ (magText f eo x).toList, NumChar c := by
  rcases heo with rfl | rfl
  · unfold magText
    dsimp only
    split
    · rename_i h0
      subst h0
      refine ⟨⟨0, ?_, hr⟩, by decide, fun c hc => .inl (by
        have h : ("0".toList) = ['0'] := by decide
        rw [h] at hc; simp at hc; subst hc; decide)⟩
      rcases he with rfl | rfl <;> decide +kernel
    · rename_i h0
      have hx' : 0 < x := lt_of_le_of_ne hx (Ne.symm h0)
      obtain ⟨h1, h2⟩ := positional_chars (shortest f x).1 (shortest f x).2
      refine ⟨⟨_, readUnsigned_positional he _ _, shortest_spec hx' hr⟩, ?_, fun c hc => ?_⟩
      · cases hl : (positional (shortest f x).1 (shortest f x).2).toList with
        | nil => exact absurd hl h1
        | cons c l =>
          have := h2 c (by rw [hl]; simp)
          simpa using this
      · rcases h2 c hc with h | h
        · exact .inl h
        · exact .inr (.inl h)
  · unfold magText
    dsimp only
    split
    · rename_i h0
      subst h0
      refine ⟨⟨0, ?_, hr⟩, ?_, ?_⟩
      · rcases he with rfl | rfl <;> decide +kernel
      · rcases he with rfl | rfl <;> decide
      · rw [String.toList_ofList]
        intro c hc
        simp only [List.mem_cons, List.not_mem_nil, or_false] at hc
        rcases hc with rfl | rfl | rfl
        · exact .inl (by decide)
        · rcases he with rfl | rfl <;> simp [NumChar]
        · exact .inl (by decide)
    · rename_i h0
      have hx' : 0 < x := lt_of_le_of_ne hx (Ne.symm h0)
      obtain ⟨h1, h2⟩ := scientific_chars he (shortest f x).1 (shortest f x).2
      refine ⟨⟨_, readUnsigned_scientific he _ _, shortest_spec hx' hr⟩, ?_, h2⟩
      cases hl : (scientific e (shortest f x).1 (shortest f x).2).toList with
      | nil => rw [hl] at h1; exact absurd h1 (by simp)
      | cons c l =>
        rw [hl] at h1
        simp at h1
        simp [h1]

/-- The text of a number is read back as the number. -/
theorem readFlt_text {f : Fmt} {eo : Option Char} {e : Char} (he : IsE e) (heo : eo = none ∨ eo = some e) (plus : Bool) (x : Flt f) :
    readFlt f e (x.text eo plus) = some x := by
  cases x with
  | nonFinite => rfl
  | num x =>
    obtain ⟨x, hx⟩ := x
    have habs : f.rnd |x| = |x| := by rw [← f.abs_rnd, hx.1]
    obtain ⟨⟨q, hq, hqx⟩, hh, -⟩ := magText_spec (abs_nonneg x) habs he heo
    have hof : ∀ q, f.rnd q = x → (ofRat q : Flt f) = num ⟨x, hx⟩ := fun q h => by
      subst h
      unfold ofRat
      rw [dif_pos hx]
    set l := (magText f eo |x|).toList with hl
    have hlist : (text eo plus (num ⟨x, hx⟩ : Flt f)).toList = (signText plus (decide (x < 0))).toList ++ l := by
      unfold text
      rw [String.toList_append]
    have hd0 : ∀ c, l.head? = some c → c ≠ 'N' ∧ c ≠ '-' ∧ c ≠ '+' := by
      intro c hc
      rw [hc] at hh
      simp only [Option.any_some, Bool.or_eq_true, decide_eq_true_eq] at hh
      refine ⟨?_, ?_, ?_⟩ <;> rintro rfl <;> exact absurd hh (by decide)
    have hplain : readRat e l = readUnsigned e l := by
      clear_value l
      cases l with
      | nil => rfl
      | cons c l =>
        have := hd0 c rfl
        unfold readRat
        split
        · rename_i heq; injection heq with h1 _; exact absurd h1 this.2.1
        · rename_i heq; injection heq with h1 _; exact absurd h1 this.2.2
        · rfl
    have hne : text eo plus (num ⟨x, hx⟩ : Flt f) ≠ "NaN" := by
      intro h
      rw [h] at hlist
      unfold signText at hlist
      by_cases hneg : x < 0
      · simp [hneg] at hlist
      · cases plus
        · simp [hneg] at hlist
          exact (hd0 'N' (by rw [← hlist]; rfl)).1 rfl
        · simp [hneg] at hlist
    unfold readFlt
    rw [if_neg hne, hlist]
    by_cases hneg : x < 0
    · have : (signText plus (decide (x < 0))).toList = ['-'] := by simp [signText, hneg]
      rw [this]
      show (readRat e ('-' :: l)).map ofRat = _
      rw [readRat, hq, Option.map_some, Option.map_some, hof]
      rw [f.rnd_neg, hqx, abs_of_neg hneg, neg_neg]
    · have hq' : f.rnd q = x := by rw [hqx, abs_of_nonneg (not_lt.mp hneg)]
      cases plus
      · have : (signText false (decide (x < 0))).toList = [] := by simp [signText, hneg]
        rw [this, List.nil_append, hplain, hq, Option.map_some, hof _ hq']
      · have : (signText true (decide (x < 0))).toList = ['+'] := by simp [signText, hneg]
        rw [this]
        show (readRat e ('+' :: l)).map ofRat = _
        rw [readRat, hq, Option.map_some, hof _ hq']

theorem text_chars {f : Fmt} {eo : Option Char} {e : Char} (he : IsE e) (heo : eo = none ∨ eo = some e) (plus : Bool) (x : Flt f) :
    ∀ c ∈ (x.text eo plus).toList, NumChar c := by
  cases x with
  | nonFinite =>
    intro c hc
    have : ("NaN".toList) = ['N', 'a', 'N'] := by decide
    change c ∈ "NaN".toList at hc
    rw [this] at hc
    simp at hc
    rcases hc with rfl | rfl | rfl <;> simp [NumChar]
  | num x =>
    obtain ⟨x, hx⟩ := x
    have habs : f.rnd |x| = |x| := by rw [← f.abs_rnd, hx.1]
    obtain ⟨-, -, hm⟩ := magText_spec (abs_nonneg x) habs he heo
    intro c hc
    have : (text eo plus (num ⟨x, hx⟩ : Flt f)).toList = (signText plus (decide (x < 0))).toList ++ (magText f eo |x|).toList := by
      unfold text
      rw [String.toList_append]
    rw [this, List.mem_append] at hc
    rcases hc with hc | hc
    · unfold signText at hc
      split at hc
      · simp at hc; simp [NumChar, hc]
      · split at hc
        · simp at hc; simp [NumChar, hc]
        · simp at hc
    · exact hm c hc

end Flt

end TClifford
