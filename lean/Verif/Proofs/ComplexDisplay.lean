import Verif.Proofs.FloatDisplay
import Verif.Model.ComplexDisplay
import Verif.Spec.DecimalComplex
/-
The text of a complex number is read back as the number.
-/

namespace TClifford

open Decimal

namespace Flt

/-- A sign only after the letter of an exponent. -/
def Clean (e : Char) : Char → List Char → Prop
  | _, [] => True
  | p, c :: l => ((c = '+' ∨ c = '-') → p = e) ∧ Clean e c l

theorem cutAt_clean {e sg : Char} (hs : sg = '+' ∨ sg = '-') (l : List Char) :
    ∀ (m : List Char) (p : Char), Clean e p m → m.getLastD p ≠ e → cutAt e p (m ++ sg :: l) = some (m, sg, l)
  | [], p, _, h => by
    show cutAt e p (sg :: l) = _
    rw [cutAt, if_pos ⟨hs, h⟩]
  | c :: m, p, h, hl => by
    show cutAt e p (c :: (m ++ sg :: l)) = _
    rw [cutAt, if_neg (fun hc => hc.2 (h.1 hc.1)), cutAt_clean hs l m c h.2 (by
      rwa [List.getLastD_cons] at hl)]
    rfl

theorem clean_append {e : Char} : ∀ (m l : List Char) (p : Char), Clean e p m → Clean e (m.getLastD p) l → Clean e p (m ++ l)
  | [], _, _, _, h => h
  | c :: m, l, p, h, hl => ⟨h.1, clean_append m l c h.2 (by rwa [List.getLastD_cons] at hl)⟩

theorem clean_plain {e : Char} : ∀ (m : List Char) (p : Char), (∀ c ∈ m, c ≠ '+' ∧ c ≠ '-') → Clean e p m
  | [], _, _ => trivial
  | c :: m, _, h => ⟨fun hc => absurd hc (by have := h c (by simp); tauto), clean_plain m c fun d hd => h d (by simp [hd])⟩

theorem getLastD_mem : ∀ (m : List Char) (p : Char), m.getLastD p = p ∨ m.getLastD p ∈ m
  | [], _ => .inl rfl
  | c :: m, p => by
    rw [List.getLastD_cons]
    rcases getLastD_mem m c with h | h
    · rw [h]; exact .inr (List.mem_cons_self ..)
    · exact .inr (List.mem_cons_of_mem _ h)

theorem last_ne {e p : Char} {m : List Char} (hp : p ≠ e) (h : e ∉ m) : m.getLastD p ≠ e := by
  rcases getLastD_mem m p with h1 | h1
  · rwa [h1]
  · rintro rfl; exact h h1

/-- What follows the letter of an exponent. -/
theorem clean_int {e : Char} (he : IsE e) (z : ℤ) : Clean e e (Int.repr z).toList ∧ ∀ p, (Int.repr z).toList.getLastD p ≠ e := by
  have hdig : ∀ n : Nat, ∀ p, Clean e p (Nat.toDigits 10 n) := fun n p => clean_plain _ _ fun c hc => by
    have := (digs_toDigits n).2 c hc
    constructor <;> rintro rfl <;> exact absurd this (by decide)
  have hne : ∀ n : Nat, e ∉ Nat.toDigits 10 n := fun n => (digs_toDigits n).notMem he.not_digit
  have hlast : ∀ n : Nat, ∀ p, (Nat.toDigits 10 n).getLastD p ≠ e := fun n p => by
    cases hl : Nat.toDigits 10 n with
    | nil => exact absurd hl (digs_toDigits n).1
    | cons c m =>
      have h := hne n
      rw [hl] at h
      rw [List.getLastD_cons]
      exact last_ne (fun hc => h (by rw [hc]; simp)) (fun hc => h (by simp [hc]))
  rw [Int.repr_eq_if]
  split
  · rw [Nat.toList_repr]
    exact ⟨hdig _ _, hlast _⟩
  · rw [String.toList_append, Nat.toList_repr]
    have : "-".toList ++ Nat.toDigits 10 (-z).toNat = '-' :: Nat.toDigits 10 (-z).toNat := by simp
    rw [this]
    exact ⟨⟨fun _ => rfl, hdig _ _⟩, fun p => by rw [List.getLastD_cons]; exact hlast _ _⟩

theorem clean_positional {e : Char} (he : IsE e) (D : Nat) (s : ℤ) :
    Clean e ' ' (positional D s).toList ∧ (positional D s).toList.getLastD ' ' ≠ e := by
  obtain ⟨-, h⟩ := positional_chars D s
  refine ⟨clean_plain _ _ fun c hc => ?_, last_ne he.ne.2.2.2.1.symm fun hc => ?_⟩
  · constructor <;> rintro rfl <;> exact absurd (h _ hc) (by decide)
  · rcases h _ hc with h | h
    · rw [he.not_digit] at h; cases h
    · exact he.ne.1 h

theorem clean_e {e : Char} (he : IsE e) {m : List Char} (hm : ∀ c ∈ m, c.isDigit = true ∨ c = '.') (z : ℤ) :
    Clean e ' ' (m ++ e :: (Int.repr z).toList) ∧ (m ++ e :: (Int.repr z).toList).getLastD ' ' ≠ e := by
  obtain ⟨h1, h2⟩ := clean_int he z
  constructor
  · refine clean_append _ _ _ (clean_plain _ _ fun c hc => ?_) ⟨fun hc => ?_, h1⟩
    · constructor <;> rintro rfl <;> exact absurd (hm _ hc) (by decide)
    · have := he.ne; tauto
  · have : ∀ (m : List Char) (p : Char), (m ++ e :: (Int.repr z).toList).getLastD p = (Int.repr z).toList.getLastD e := by
      intro m
      induction m with
      | nil => intro p; exact List.getLastD_cons ..
      | cons c m ih => intro p; rw [List.cons_append, List.getLastD_cons]; exact ih c
    rw [this]
    exact h2 _

theorem clean_scientific {e : Char} (he : IsE e) (D : Nat) (s : ℤ) :
    Clean e ' ' (scientific e D s).toList ∧ (scientific e D s).toList.getLastD ' ' ≠ e := by
  have hd := digs_toDigits D
  unfold scientific
  cases hl : Nat.toDigits 10 D with
  | nil => exact absurd hl hd.1
  | cons d ds =>
    rw [hl] at hd
    cases ds with
    | nil =>
      have : (String.ofList [d, e] ++ Int.repr s).toList = [d] ++ e :: (Int.repr s).toList := by
        rw [String.toList_append, String.toList_ofList]; simp
      dsimp only
      rw [this]
      exact clean_e he (fun c hc => .inl (hd.2 c hc)) s
    | cons d2 ds =>
      have : (String.ofList (d :: '.' :: (d2 :: ds) ++ [e]) ++ Int.repr (s + ((d2 :: ds).length : Nat))).toList =
          (d :: '.' :: d2 :: ds) ++ e :: (Int.repr (s + ((d2 :: ds).length : Nat))).toList := by
        rw [String.toList_append, String.toList_ofList]; simp
      dsimp only
      rw [this]
      refine clean_e he (fun c hc => ?_) _
      simp only [List.mem_cons] at hc
      rcases hc with rfl | rfl | rfl | hc
      · exact .inl (hd.2 _ (by simp))
      · exact .inr rfl
      · exact .inl (hd.2 _ (by simp))
      · exact .inl (hd.2 _ (by simp [hc]))

theorem clean_absText {f : Fmt} {eo : Option Char} {e : Char} (he : IsE e) (heo : eo = none ∨ eo = some e) (x : Flt f) :
    Clean e ' ' (x.absText eo).toList ∧ (x.absText eo).toList.getLastD ' ' ≠ e := by
  cases x with
  | nonFinite =>
    have : (absText eo (.nonFinite : Flt f)).toList = ['N', 'a', 'N'] := (by decide : "NaN".toList = ['N', 'a', 'N'])
    rw [this]
    refine ⟨clean_plain _ _ (by decide), ?_⟩
    rcases he with rfl | rfl <;> decide
  | num x =>
    show Clean e ' ' (magText f eo |x.1|).toList ∧ (magText f eo |x.1|).toList.getLastD ' ' ≠ e
    rcases heo with rfl | rfl
    · unfold magText
      dsimp only
      split
      · refine ⟨clean_plain _ _ (by decide), ?_⟩
        rcases he with rfl | rfl <;> decide
      · exact clean_positional he _ _
    · unfold magText
      dsimp only
      split
      · rw [String.toList_ofList]
        have : ['0', e, '0'] = ['0'] ++ e :: (Int.repr 0).toList := rfl
        rw [this]
        exact clean_e he (by decide) 0
      · exact clean_scientific he _ _

/-- The text of a number without its sign. -/
theorem absText_spec {f : Fmt} {eo : Option Char} {e : Char} (he : IsE e) (heo : eo = none ∨ eo = some e) (x : Flt f) :
    (∃ y, readPart f e (x.absText eo).toList = some y ∧ (if x.isNeg then -y else y) = x) ∧
      (∀ c ∈ (x.absText eo).toList, NumChar c) ∧ ∀ l, ∀ c, ((x.absText eo).toList ++ l).head? = some c → l.head? ≠ some c → c ≠ '-' ∧ c ≠ '+' := by
  cases x with
  | nonFinite =>
    have hN : (absText eo (.nonFinite : Flt f)).toList = ['N', 'a', 'N'] := (by decide : "NaN".toList = ['N', 'a', 'N'])
    refine ⟨⟨.nonFinite, by rw [hN, readPart, if_pos rfl], rfl⟩, ?_, ?_⟩
    · exact text_chars he heo false (.nonFinite : Flt f)
    · rintro l c hc -
      have : c = 'N' := by
        rw [hN] at hc
        change some 'N' = some c at hc
        injection hc with hc
        exact hc.symm
      subst this
      decide
  | num x =>
    obtain ⟨x, hx⟩ := x
    have habs : f.rnd |x| = |x| := by rw [← f.abs_rnd, hx.1]
    obtain ⟨⟨q, hq, hqx⟩, hh, hc⟩ := magText_spec (abs_nonneg x) habs he heo
    show (∃ y, readPart f e (magText f eo |x|).toList = some y ∧ (if decide (x < 0) then -y else y) = num ⟨x, hx⟩) ∧
      (∀ c ∈ (magText f eo |x|).toList, NumChar c) ∧ ∀ l c, ((magText f eo |x|).toList ++ l).head? = some c → _
    have hhead : ∀ c, (magText f eo |x|).toList.head? = some c → c ≠ 'N' ∧ c ≠ '-' ∧ c ≠ '+' := by
      intro c hc
      rw [hc] at hh
      simp only [Option.any_some, Bool.or_eq_true, decide_eq_true_eq] at hh
      refine ⟨?_, ?_, ?_⟩ <;> rintro rfl <;> exact absurd hh (by decide)
    have hR : f.Repr |x| := ⟨habs, by rw [abs_abs]; exact hx.2⟩
    refine ⟨⟨num ⟨|x|, hR⟩, ?_, ?_⟩, hc, ?_⟩
    · unfold readPart
      rw [if_neg, hq, Option.map_some]
      · congr 1
        unfold ofRat
        simp only [hqx]
        rw [dif_pos hR]
      · intro h
        exact (hhead 'N' (by rw [h]; rfl)).1 rfl
    · by_cases hneg : x < 0
      · rw [decide_eq_true hneg, if_pos rfl, neg_num]
        have : -|x| = x := by rw [abs_of_neg hneg, neg_neg]
        rw [this]
        exact ofRat_repr ⟨x, hx⟩
      · rw [decide_eq_false hneg]
        simp only [Bool.false_eq_true, if_false]
        exact congrArg num (Subtype.ext (abs_of_nonneg (not_lt.mp hneg)))
    · intro l c h1 h2
      cases hl : (magText f eo |x|).toList with
      | nil =>
        rw [hl, List.nil_append] at h1
        exact absurd h1 h2
      | cons d m =>
        rw [hl] at h1
        exact (hhead c (by rw [hl]; exact h1)).2

end Flt

namespace Cx

open Flt

theorem readCxUnsigned_text {f : Fmt} {eo : Option Char} {e : Char} (he : IsE e) (heo : eo = none ∨ eo = some e) (z : Cx (Flt f)) {s : Char}
    (hs : s = if z.re.isNeg then '-' else '+') :
    readCxUnsigned f e s ((z.re.absText eo).toList ++ (if z.im.isNeg then '-' else '+') :: ((z.im.absText eo).toList ++ ['i'])) = some z := by
  obtain ⟨h1, h2⟩ := clean_absText he heo z.re
  obtain ⟨⟨x, x1, x2⟩, -, -⟩ := absText_spec he heo z.re
  obtain ⟨⟨y, y1, y2⟩, -, -⟩ := absText_spec he heo z.im
  unfold readCxUnsigned
  rw [cutAt_clean (by split <;> simp) _ _ _ h1 h2]
  show (do
    let x ← readPart f e (z.re.absText eo).toList
    if ((z.im.absText eo).toList ++ ['i']).getLast? = some 'i' then
      let y ← readPart f e ((z.im.absText eo).toList ++ ['i']).dropLast
      return (⟨withSign s x, withSign (if z.im.isNeg then '-' else '+') y⟩ : Cx (Flt f))
    else none) = _
  rw [x1, List.getLast?_concat, List.dropLast_concat, y1]
  show (if some 'i' = some 'i' then some (⟨withSign s x, withSign (if z.im.isNeg then '-' else '+') y⟩ : Cx (Flt f)) else none) = _
  rw [if_pos rfl]
  congr 1
  refine ext' ?_ ?_
  · show withSign s x = z.re
    refine Eq.trans ?_ x2
    rw [hs]
    unfold withSign
    cases z.re.isNeg <;> simp
  · show withSign _ y = z.im
    refine Eq.trans ?_ y2
    unfold withSign
    cases z.im.isNeg <;> simp

theorem text_toList {f : Fmt} (eo : Option Char) (plus : Bool) (z : Cx (Flt f)) :
    (z.text eo plus).toList = (signText plus z.re.isNeg).toList ++
      ((z.re.absText eo).toList ++ (if z.im.isNeg then '-' else '+') :: ((z.im.absText eo).toList ++ ['i'])) := by
  unfold Cx.text
  rw [String.toList_append, String.toList_append, String.toList_append, String.toList_append]
  have : (if z.im.isNeg = true then "-" else "+").toList = [if z.im.isNeg then '-' else '+'] := by split <;> rfl
  rw [this, show "i".toList = ['i'] from rfl]
  simp

/-- The text of a complex number is read back as the number. -/
theorem readCx_text {f : Fmt} {eo : Option Char} {e : Char} (he : IsE e) (heo : eo = none ∨ eo = some e) (plus : Bool) (z : Cx (Flt f)) :
    readCx f e (z.text eo plus) = some z := by
  have key := fun s => readCxUnsigned_text he heo z (s := s)
  unfold readCx
  rw [text_toList]
  unfold signText
  by_cases hn : z.re.isNeg = true
  · rw [if_pos hn, show "-".toList = ['-'] from rfl]
    exact key _ (by rw [if_pos hn])
  · rw [if_neg hn]
    cases plus
    · rw [if_neg (by simp), show "".toList = [] from rfl, List.nil_append]
      set l := ((z.re.absText eo).toList ++ (if z.im.isNeg then '-' else '+') :: ((z.im.absText eo).toList ++ ['i'])) with hl
      have hh : ∀ c, l.head? = some c → c ≠ '-' ∧ c ≠ '+' := by
        intro c hc
        obtain ⟨⟨x, x1, -⟩, -, h3⟩ := absText_spec he heo z.re
        cases hm : (z.re.absText eo).toList with
        | nil =>
          rw [hm] at x1
          unfold readPart at x1
          rw [if_neg (by simp)] at x1
          have : readUnsigned e [] = none := by rcases he with rfl | rfl <;> decide
          rw [this] at x1
          cases x1
        | cons d m =>
          have := h3 [] c
          rw [List.append_nil, hm] at this
          rw [hl, hm] at hc
          exact this hc (by simp)
      have k := key '+' (by rw [if_neg hn])
      clear_value l
      split
      · exact absurd rfl (hh '-' rfl).1
      · exact absurd rfl (hh '+' rfl).2
      · exact k
    · rw [if_pos rfl, show "+".toList = ['+'] from rfl]
      exact key _ (by rw [if_neg hn])

theorem text_chars {f : Fmt} {eo : Option Char} {e : Char} (he : IsE e) (heo : eo = none ∨ eo = some e) (plus : Bool) (z : Cx (Flt f)) :
    ∀ c ∈ (z.text eo plus).toList, NumChar c ∨ c = 'i' := by
  intro c hc
  rw [text_toList, List.mem_append, List.mem_append, List.mem_cons, List.mem_append] at hc
  have hsign : c = '-' ∨ c = '+' → NumChar c ∨ c = 'i' := by rintro (rfl | rfl) <;> simp [NumChar]
  rcases hc with hc | hc | hc | hc | hc
  · unfold signText at hc
    split at hc
    · exact hsign (.inl (by simpa using hc))
    · split at hc
      · exact hsign (.inr (by simpa using hc))
      · simp at hc
  · exact .inl ((absText_spec he heo z.re).2.1 c hc)
  · refine hsign ?_
    split at hc
    · exact .inl hc
    · exact .inr hc
  · exact .inl ((absText_spec he heo z.im).2.1 c hc)
  · exact .inr (by simpa using hc)

end Cx

end TClifford
