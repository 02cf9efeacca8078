import Verif.Spec.NestedReader
import Verif.Props.Display
import Verif.Props.Nested
import Verif.Proofs.CliffordAlg
import Verif.Proofs.Construct
/-
Formatting of multivectors whose coefficients are multivectors: C50.
-/

set_option linter.unusedSectionVars false

namespace TClifford

open MV Spec

/-! ### Splitting outside of parentheses -/

/-- The number of open parentheses after a text, `none` if one is closed that was not opened. -/
def depthAfter : Nat → List Char → Option Nat
  | d, [] => some d
  | d, c :: cs => if c = '(' then depthAfter (d + 1) cs else if c = ')' then (if d = 0 then none else depthAfter (d - 1) cs)
    else depthAfter d cs

theorem depthAfter_append (d : Nat) (x y : List Char) : depthAfter d (x ++ y) = (depthAfter d x).bind (depthAfter · y) := by
  induction x generalizing d with
  | nil => rfl
  | cons c x ih =>
    simp only [List.cons_append, depthAfter]
    split
    · exact ih _
    · split
      · split
        · rfl
        · exact ih _
      · exact ih _

theorem depthAfter_cons {d e : Nat} {c : Char} {cs : List Char} (h : depthAfter d (c :: cs) = some e) :
    depthAfter (deeper d c) cs = some e ∧ (c = ')' → d ≠ 0) := by
  unfold depthAfter at h
  unfold deeper
  split at h
  · rename_i hc
    subst hc
    exact ⟨by simpa using h, fun h => absurd h (by decide)⟩
  · rename_i hc
    split at h
    · rename_i hc'
      split at h
      · simp at h
      · rename_i hd
        subst hc'
        exact ⟨by simpa using h, fun _ => hd⟩
    · rename_i hc'
      refine ⟨?_, fun h' => absurd h' hc'⟩
      rw [if_neg hc, if_neg hc']
      exact h

theorem splitTop_ne (d : Nat) (x : List Char) : splitTop d x ≠ [] := by
  cases x with
  | nil => simp [splitTop]
  | cons c x =>
    unfold splitTop
    split
    · simp
    · split <;> simp

theorem splitTop_cons {d : Nat} {c : Char} (h : ¬ (c = ' ' ∧ d = 0)) (x : List Char) :
    ∃ t ts, splitTop (deeper d c) x = t :: ts ∧ splitTop d (c :: x) = (c :: t) :: ts := by
  cases hs : splitTop (deeper d c) x with
  | nil => exact absurd hs (splitTop_ne _ _)
  | cons t ts => exact ⟨t, ts, rfl, by rw [splitTop, if_neg h, hs]⟩

theorem intercalate_splitTop (d : Nat) (x : List Char) : [' '].intercalate (splitTop d x) = x := by
  induction x generalizing d with
  | nil => simp [splitTop]
  | cons c x ih =>
    by_cases h : c = ' ' ∧ d = 0
    · rw [splitTop, if_pos h]
      have : [] :: splitTop 0 x = [[]] ++ splitTop 0 x := rfl
      rw [this, intercalate_append _ (by simp) (splitTop_ne _ _), ih, h.1]
      simp
    · obtain ⟨t, ts, h1, h2⟩ := splitTop_cons h x
      have := ih (deeper d c)
      rw [h1] at this
      rw [h2, ← this]
      cases ts <;> simp

theorem splitTop_append {d : Nat} {x : List Char} (h : depthAfter d x = some 0) (y : List Char) :
    splitTop d (x ++ ' ' :: y) = splitTop d x ++ splitTop 0 y := by
  induction x generalizing d with
  | nil =>
    simp only [depthAfter, Option.some.injEq] at h
    subst h
    simp [splitTop]
  | cons c x ih =>
    have ih := ih (depthAfter_cons h).1
    rw [List.cons_append]
    by_cases hc : c = ' ' ∧ d = 0
    · obtain ⟨rfl, rfl⟩ := hc
      have : deeper 0 ' ' = 0 := by decide
      rw [this] at ih
      rw [splitTop, if_pos ⟨rfl, rfl⟩, splitTop, if_pos ⟨rfl, rfl⟩, ih, List.cons_append]
    · obtain ⟨t, ts, h1, h2⟩ := splitTop_cons hc x
      obtain ⟨t', ts', h1', h2'⟩ := splitTop_cons hc (x ++ ' ' :: y)
      rw [ih, h1, List.cons_append] at h1'
      injection h1' with e1 e2
      rw [h2, h2', ← e1, ← e2, List.cons_append]

theorem splitTop_inner {d e : Nat} {x : List Char} (h : depthAfter d x = some e) (z : List Char) :
    ∃ t ts, splitTop (e + 1) z = t :: ts ∧ splitTop (d + 1) (x ++ z) = (x ++ t) :: ts := by
  induction x generalizing d with
  | nil =>
    simp only [depthAfter, Option.some.injEq] at h
    subst h
    cases hs : splitTop (d + 1) z with
    | nil => exact absurd hs (splitTop_ne _ _)
    | cons t ts => exact ⟨t, ts, rfl, hs⟩
  | cons c x ih =>
    obtain ⟨h1, h2⟩ := depthAfter_cons h
    have hd : deeper (d + 1) c = deeper d c + 1 := by
      unfold deeper
      split
      · rfl
      · split
        · rename_i hc
          have := h2 hc
          omega
        · rfl
    obtain ⟨t, ts, ht, hts⟩ := ih h1
    obtain ⟨u, us, hu, hus⟩ := splitTop_cons (d := d + 1) (c := c) (by omega) (x ++ z)
    rw [hd, hts] at hu
    injection hu with e1 e2
    exact ⟨t, ts, ht, by rw [List.cons_append, hus, ← e1, ← e2, List.cons_append]⟩

/-- A text in parentheses is not split. -/
theorem splitTop_group {x : List Char} (h : depthAfter 0 x = some 0) :
    splitTop 0 ('(' :: (x ++ [')'])) = ['(' :: (x ++ [')'])] := by
  obtain ⟨t, ts, h1, h2⟩ := splitTop_cons (d := 0) (c := '(') (by decide) (x ++ [')'])
  obtain ⟨u, us, h3, h4⟩ := splitTop_inner h [')']
  have h5 : splitTop (0 + 1) [')'] = [[')']] := by decide
  rw [h5] at h3
  injection h3 with e1 e2
  subst e1 e2
  have h6 : deeper 0 '(' = 0 + 1 := by decide
  rw [h6, h4] at h1
  injection h1 with e1 e2
  rw [h2, ← e1, ← e2]

theorem splitTop_word {x : List Char} (d : Nat) (h : ' ' ∉ x) : splitTop d x = [x] := by
  induction x generalizing d with
  | nil => rfl
  | cons c x ih =>
    simp only [List.mem_cons, not_or] at h
    obtain ⟨t, ts, h1, h2⟩ := splitTop_cons (d := d) (c := c) (fun h' => h.1 h'.1.symm) x
    rw [ih _ h.2] at h1
    injection h1 with e1 e2
    rw [h2, ← e1, ← e2]

theorem depthAfter_plain {x : List Char} (d : Nat) (h1 : '(' ∉ x) (h2 : ')' ∉ x) : depthAfter d x = some d := by
  induction x generalizing d with
  | nil => rfl
  | cons c x ih =>
    simp only [List.mem_cons, not_or] at h1 h2
    rw [depthAfter, if_neg (fun h => h1.1 h.symm), if_neg (fun h => h2.1 h.symm)]
    exact ih _ h1.2 h2.2

theorem depthAfter_group {x : List Char} (h : depthAfter 0 x = some 0) : depthAfter 0 ('(' :: (x ++ [')'])) = some 0 := by
  have key : ∀ (x : List Char) (d e : Nat), depthAfter d x = some e → depthAfter (d + 1) x = some (e + 1) := by
    intro x
    induction x with
    | nil =>
      intro d e h
      simp only [depthAfter, Option.some.injEq] at h ⊢
      omega
    | cons c x ih =>
      intro d e h
      simp only [depthAfter] at h ⊢
      split at h
      · rename_i hc
        rw [if_pos hc]
        exact ih _ _ h
      · rename_i hc
        rw [if_neg hc]
        split at h
        · rename_i hc'
          rw [if_pos hc']
          split at h
          · simp at h
          · rename_i hd
            rw [if_neg (by omega)]
            have := ih _ _ h
            rw [show d - 1 + 1 = d + 1 - 1 by omega] at this
            exact this
        · rename_i hc'
          rw [if_neg hc']
          exact ih _ _ h
  rw [depthAfter, if_pos rfl, depthAfter_append, key x 0 0 h]
  rfl

/-! ### Texts of coefficients -/

/-- The text contains a sign. -/
def hasSign (s : String) : Bool := s.toList.any (fun c => c = '+' || c = '-')

/-- A token that is a product of generators of the algebra. -/
def IsLabel (A : ClAlg) (tok : List Char) : Prop := (readLabel A.axisName A.dim tok).isSome = true

/-- A text that may stand in a term without parentheses: one term, not ending with a token of `R`, and not in parentheses. -/
structure Bare (R : Set (List Char)) (s : List Char) : Prop where
  plus : ['+'] ∉ splitTop 0 s
  last : ∀ l, (splitTop 0 s).getLast? = some l → l ∉ R
  group : ∀ x, splitTop 0 s ≠ ['(' :: x]

theorem Bare.mono {R R' : Set (List Char)} (h : R ⊆ R') {s : List Char} (hs : Bare R' s) : Bare R s :=
  ⟨hs.plus, fun l hl hr => hs.last l hl (h hr), hs.group⟩

section
variable {T : Type} [Zero T]

/-- What the text of a multivector needs of the texts `fmt` of its coefficients, `plain` being their texts without flags: they
can be read back, the parentheses match, and a text which will not be put in parentheses can stand in a term. -/
structure Writes (signPlus : Bool) (fmt plain : T → String) (readC : String → Option T) (R : Set (List Char)) : Prop where
  read : ∀ t, readC (fmt t) = some t
  depth : ∀ t, depthAfter 0 (fmt t).toList = some 0
  zero : Bare R (fmt 0).toList
  bare : signPlus = false → ∀ t, hasSign (plain t) = false → Bare R (fmt t).toList

theorem Writes.mono {signPlus : Bool} {fmt plain : T → String} {readC : String → Option T} {R R' : Set (List Char)} (h : R ⊆ R')
    (hw : Writes signPlus fmt plain readC R') : Writes signPlus fmt plain readC R :=
  ⟨hw.read, hw.depth, hw.zero.mono h, fun hs t ht => (hw.bare hs t ht).mono h⟩

/-- The tokens of the coefficient of a term. -/
def coeffTokens (fmt : T → String) (b : Bool) (c : T) : List (List Char) :=
  if b then ['(' :: ((fmt c).toList ++ [')'])] else splitTop 0 (fmt c).toList

variable {signPlus : Bool} {fmt plain : T → String} {readC : String → Option T} {R : Set (List Char)}

theorem coeffTokens_ne (b : Bool) (c : T) : coeffTokens fmt b c ≠ [] := by
  unfold coeffTokens
  split
  · simp
  · exact splitTop_ne _ _

theorem splitTop_body (hw : Writes signPlus fmt plain readC R) (b : Bool) (c : T) :
    splitTop 0 (bodyText fmt b c).toList = coeffTokens fmt b c ∧ depthAfter 0 (bodyText fmt b c).toList = some 0 := by
  cases b
  · exact ⟨rfl, hw.depth c⟩
  · have : (bodyText fmt true c).toList = '(' :: ((fmt c).toList ++ [')']) := by
      unfold bodyText
      simp
    rw [this]
    exact ⟨splitTop_group (hw.depth c), depthAfter_group (hw.depth c)⟩

theorem readCoeffTokens_body (hw : Writes signPlus fmt plain readC R) (b : Bool) (c : T)
    (hb : b = false → Bare R (fmt c).toList) : readCoeffTokens readC (coeffTokens fmt b c) = some c := by
  cases b
  · have h := (hb rfl).group
    have e : coeffTokens fmt false c = splitTop 0 (fmt c).toList := rfl
    rw [e]
    have : readCoeffTokens readC (splitTop 0 (fmt c).toList) = readC (String.ofList ([' '].intercalate (splitTop 0 (fmt c).toList))) := by
      unfold readCoeffTokens
      split
      · rename_i heq
        exact absurd heq (h _)
      · rfl
    rw [this, intercalate_splitTop, String.ofList_toList, hw.read]
  · have e : coeffTokens fmt true c = ['(' :: ((fmt c).toList ++ [')'])] := rfl
    rw [e]
    unfold readCoeffTokens
    simp [hw.read]

end

/-! ### Texts of multivectors -/

/-- Axis names in nested texts: also no parentheses. -/
structure GoodNestedNames (A : ClAlg) : Prop extends GoodTextNames A where
  opened : ∀ i < A.dim, '(' ∉ (A.axisName i).toList
  closed : ∀ i < A.dim, ')' ∉ (A.axisName i).toList

section
variable {A : ClAlg} {S T : Type} [Ring T] [DecidableEq T] [CoeffStorage S T] [LawfulStorage S T]

theorem label_chars {p : Char} (hp : p ≠ '^') (h : ∀ i < A.dim, p ∉ (A.axisName i).toList) {w : List Nat} (hw : ∀ i ∈ w, i < A.dim) :
    p ∉ (String.intercalate "^" (w.map A.axisName)).toList := by
  rw [label_toList]
  induction w with
  | nil => simp
  | cons x w ih =>
    have hx := h x (hw x (by simp))
    have ih := ih fun i hi => hw i (by simp [hi])
    cases w with
    | nil => simpa using hx
    | cons y w =>
      rw [List.map_cons, List.map_cons, List.intercalate_cons_cons]
      rw [List.map_cons] at ih
      simp [hx, ih, hp]

/-- The tokens of a term. -/
def termTokensN (ct : List (List Char)) (lbl : List Char) : List (List Char) := if lbl = [] then ct else ct ++ [lbl]

/-- The tokens of terms joined with ` + `. -/
theorem splitTop_join (ts : List (List Char)) (hne : ts ≠ []) (h : ∀ t ∈ ts, depthAfter 0 t = some 0) :
    splitTop 0 ([' ', '+', ' '].intercalate ts) = [['+']].intercalate (ts.map (splitTop 0)) ∧
    depthAfter 0 ([' ', '+', ' '].intercalate ts) = some 0 := by
  induction ts with
  | nil => exact absurd rfl hne
  | cons t ts ih =>
    cases ts with
    | nil => simpa using h t (by simp)
    | cons u ts =>
      obtain ⟨ih1, ih2⟩ := ih (by simp) fun t' ht' => h t' (by simp [ht'])
      have ht := h t (by simp)
      rw [List.intercalate_cons_cons, List.map_cons, List.map_cons, List.intercalate_cons_cons]
      rw [List.map_cons] at ih1
      constructor
      · have e : t ++ [' ', '+', ' '] ++ [' ', '+', ' '].intercalate (u :: ts) =
            t ++ ' ' :: (['+'] ++ ' ' :: [' ', '+', ' '].intercalate (u :: ts)) := by simp
        rw [e, splitTop_append ht, splitTop_append (by decide), ih1]
        have : splitTop 0 ['+'] = [['+']] := by decide
        rw [this]
        simp
      · rw [List.append_assoc, depthAfter_append, ht]
        exact ih2

variable {fmt plain : T → String} {readC : String → Option T} {R : Set (List Char)}

/-- The shown coefficient. -/
def shown (alternate : Bool) (p : Nat × T) : T := if alternate then revC p.1 p.2 else p.2

/-- The coefficient is put in parentheses. -/
def inParens (plain : T → String) (alternate signPlus : Bool) (p : Nat × T) : Bool := signPlus || hasSign (plain (shown alternate p))

/-- The label of a term. -/
def labelOf (A : ClAlg) (alternate : Bool) (i : Nat) : List Char :=
  (String.intercalate "^" ((labelWord A alternate i).map A.axisName)).toList

theorem fmtTerm_toList (hd : A.dim ≤ 64) (alternate signPlus : Bool) (p : Nat × T) :
    (fmtTerm (A := A) fmt plain alternate signPlus p.1 p.2).toList =
      if labelOf A alternate p.1 = [] then (bodyText fmt (inParens plain alternate signPlus p) (shown alternate p)).toList
      else (bodyText fmt (inParens plain alternate signPlus p) (shown alternate p)).toList ++ ' ' :: labelOf A alternate p.1 := by
  unfold fmtTerm
  dsimp only
  rw [label_eq hd]
  unfold labelOf
  by_cases hl : (String.intercalate "^" ((labelWord A alternate p.1).map A.axisName)).toList = []
  · rw [if_neg, if_pos hl]
    · rfl
    · rw [← String.length_toList, hl]; simp
  · rw [if_pos, if_neg hl]
    · simp [bodyText, shown, inParens, hasSign]
    · rw [← String.length_toList]
      exact List.length_pos_iff.mpr hl

theorem splitTop_term {signPlus : Bool} (hd : A.dim ≤ 64) (hN : GoodNestedNames A) (hw : Writes signPlus fmt plain readC R)
    (alternate : Bool) (p : Nat × T) :
    splitTop 0 (fmtTerm (A := A) fmt plain alternate signPlus p.1 p.2).toList =
      termTokensN (coeffTokens fmt (inParens plain alternate signPlus p) (shown alternate p)) (labelOf A alternate p.1) ∧
    depthAfter 0 (fmtTerm (A := A) fmt plain alternate signPlus p.1 p.2).toList = some 0 := by
  have hwd : ∀ i ∈ labelWord A alternate p.1, i < A.dim := fun k hk => (mem_labelWord.mp hk).1
  obtain ⟨h1, h2⟩ := splitTop_body hw (inParens plain alternate signPlus p) (shown alternate p)
  have hs : ' ' ∉ labelOf A alternate p.1 := label_chars (by decide) hN.space hwd
  have ho : '(' ∉ labelOf A alternate p.1 := label_chars (by decide) hN.opened hwd
  have hc : ')' ∉ labelOf A alternate p.1 := label_chars (by decide) hN.closed hwd
  rw [fmtTerm_toList hd]
  unfold termTokensN
  split
  · exact ⟨h1, h2⟩
  · rw [splitTop_append h2, h1, splitTop_word 0 hs, depthAfter_append, h2]
    refine ⟨rfl, ?_⟩
    show depthAfter 0 (' ' :: labelOf A alternate p.1) = some 0
    exact depthAfter_plain 0 (by simp [ho]) (by simp [hc])

theorem label_ne_plus (hN : GoodTextNames A) (alternate : Bool) (i : Nat) : labelOf A alternate i ≠ ['+'] := by
  have hwd : ∀ k ∈ labelWord A alternate i, k < A.dim := fun k hk => (mem_labelWord.mp hk).1
  unfold labelOf
  intro h
  by_cases h0 : labelWord A alternate i = []
  · rw [h0] at h; simp at h
  · have hr := readLabel_label hN.toGoodNames h0 hwd
    rw [h] at hr
    unfold readLabel at hr
    rw [List.splitOn_eq_singleton (by decide)] at hr
    have : readAxis A.axisName A.dim ['+'] = none := by
      unfold readAxis
      rw [List.find?_eq_none]
      intro i hi
      simp only [decide_eq_true_eq]
      intro hc
      exact hN.plus i (List.mem_range.mp hi) (String.toList_inj.mp hc)
    simp [this] at hr

theorem labelOf_nil (hN : GoodNames A) {alternate : Bool} {i : Nat} : labelOf A alternate i = [] ↔ labelWord A alternate i = [] := by
  unfold labelOf
  constructor
  · intro h
    by_contra h0
    exact label_ne hN h0 (fun _ hk => (mem_labelWord.mp hk).1) h
  · intro h
    rw [h]; simp

theorem readLabel_labelOf (hN : GoodNames A) {alternate : Bool} {i : Nat} (h : labelOf A alternate i ≠ []) :
    readLabel A.axisName A.dim (labelOf A alternate i) = some (labelWord A alternate i) :=
  readLabel_label hN (fun h0 => h ((labelOf_nil hN).mpr h0)) fun _ hk => (mem_labelWord.mp hk).1

/-- Coefficients that are not put in parentheses can stand in a term. -/
theorem bare_of_inParens {signPlus : Bool} (hw : Writes signPlus fmt plain readC R) {alternate : Bool} {p : Nat × T}
    (h : inParens plain alternate signPlus p = false) : Bare R (fmt (shown alternate p)).toList := by
  unfold inParens at h
  rw [Bool.or_eq_false_iff] at h
  exact hw.bare h.1 _ h.2

theorem readTerm_term {signPlus : Bool} (hN : GoodNestedNames A) (hw : Writes signPlus fmt plain readC R) (hR : ∀ l, IsLabel A l → l ∈ R)
    (alternate : Bool) (p : Nat × T) :
    readTerm readC A.axisName A.dim
      (termTokensN (coeffTokens fmt (inParens plain alternate signPlus p) (shown alternate p)) (labelOf A alternate p.1)) =
      some (shown alternate p, labelWord A alternate p.1) := by
  have hr := readCoeffTokens_body hw (inParens plain alternate signPlus p) (shown alternate p) (bare_of_inParens hw)
  have hne := coeffTokens_ne (fmt := fmt) (inParens plain alternate signPlus p) (shown alternate p)
  unfold termTokensN
  by_cases hl : labelOf A alternate p.1 = []
  · rw [if_pos hl, (labelOf_nil hN.toGoodNames).mp hl]
    unfold readTerm
    split
    · rename_i l c cs h1 h2
      have : readLabel A.axisName A.dim l = none := by
        by_contra hc
        have hlab : IsLabel A l := Option.isSome_iff_ne_none.mpr hc
        cases hb : inParens plain alternate signPlus p with
        | true =>
          rw [hb] at h2
          simp [coeffTokens] at h2
        | false =>
          rw [hb] at h1
          exact (bare_of_inParens hw hb).last l h1 (hR l hlab)
      rw [this, hr]
      rfl
    · rw [hr]
      rfl
  · rw [if_neg hl]
    unfold readTerm
    rw [List.getLast?_concat, List.dropLast_concat]
    cases hct : coeffTokens fmt (inParens plain alternate signPlus p) (shown alternate p) with
    | nil => exact absurd hct hne
    | cons c cs =>
      dsimp only
      rw [readLabel_labelOf hN.toGoodNames hl]
      dsimp only
      rw [← hct, hr]
      rfl

theorem plus_not_mem {signPlus : Bool} (hN : GoodNestedNames A) (hw : Writes signPlus fmt plain readC R) (alternate : Bool) (p : Nat × T) :
    ['+'] ∉ termTokensN (coeffTokens fmt (inParens plain alternate signPlus p) (shown alternate p)) (labelOf A alternate p.1) := by
  have h1 : ['+'] ∉ coeffTokens fmt (inParens plain alternate signPlus p) (shown alternate p) := by
    cases hb : inParens plain alternate signPlus p with
    | true => simp [coeffTokens]
    | false => exact (bare_of_inParens hw hb).plus
  unfold termTokensN
  split
  · exact h1
  · rw [List.mem_append, List.mem_singleton]
    rintro (h | h)
    · exact h1 h
    · exact label_ne_plus hN.toGoodTextNames _ _ h.symm

/-- **C50.** The text of a multivector denotes it, also if the texts of the coefficients contain spaces and parentheses, as those of
multivectors do: reading the text (see Verif/Spec/NestedReader.lean) and adding up the terms gives the multivector, for both forms,
with and without the `+` flag, and any storage. -/
theorem C50_nested_text_partial (hA : A.WF) (hN : GoodNestedNames A) {signPlus : Bool} (hw : Writes signPlus fmt plain readC R)
    (hR : ∀ l, IsLabel A l → l ∈ R) (alternate : Bool) {a : MV A S} (ha : a.Valid) :
    ∃ ts, readNested readC A.axisName A.dim (a.display fmt plain alternate signPlus) = some ts ∧ termsValue ts ≈ᵣ .ok a := by
  have hd : A.dim ≤ 63 := LawfulStorage.supp_le ha.supp
  set q : List (Nat × T) := a.coeffEnumerate.filter (fun p => decide (p.2 ≠ 0)) with hq
  by_cases hq0 : q = []
  · refine ⟨[(0, [])], ?_, ?_⟩
    · unfold MV.display
      dsimp only
      rw [← hq, hq0, List.map_nil, if_pos rfl]
      unfold readNested
      rw [List.splitOn_eq_singleton hw.zero.plus]
      have hr := readCoeffTokens_body hw false 0 fun _ => hw.zero
      have hr : readCoeffTokens readC (splitTop 0 (fmt 0).toList) = some 0 := hr
      have : readTerm readC A.axisName A.dim (splitTop 0 (fmt 0).toList) = some (0, []) := by
        unfold readTerm
        split
        · rename_i l c cs h1 h2
          have : readLabel A.axisName A.dim l = none := by
            by_contra hc
            exact hw.zero.last l h1 (hR l (Option.isSome_iff_ne_none.mpr hc))
          rw [this, hr]
          rfl
        · rw [hr]
          rfl
      simp [this]
    · have hv := termsValue_terms hA alternate ha
      rw [← hq, hq0, List.map_nil] at hv
      refine Agree.trans ?_ hv
      refine Agree.of_denotes (termsValue_denotes hA ha.supp _ (by simp)) (termsValue_denotes hA ha.supp _ (by simp)) fun i _ => ?_
      simp [evw, single]
  · refine ⟨q.map fun p => (shown alternate p, labelWord A alternate p.1), ?_, termsValue_terms hA alternate ha⟩
    unfold MV.display
    dsimp only
    rw [← hq, if_neg (by simpa using hq0)]
    unfold readNested
    rw [String.toList_intercalate, List.map_map]
    rw [show (" + " : String).toList = [' ', '+', ' '] from rfl, (splitTop_join _ (by simpa using hq0) ?_).1, List.map_map,
      List.splitOn_intercalate _ _ (by simpa using hq0)]
    · have : ∀ q : List (Nat × T), (q.map (splitTop 0 ∘ String.toList ∘ fun p =>
          fmtTerm (A := A) fmt plain alternate signPlus p.1 p.2)).mapM (readTerm readC A.axisName A.dim) =
          some (q.map fun p => (shown alternate p, labelWord A alternate p.1)) := by
        intro q
        induction q with
        | nil => rfl
        | cons p q ih =>
          rw [List.map_cons, List.mapM_cons, ih]
          simp only [Function.comp]
          rw [(splitTop_term (by omega) hN hw alternate p).1, readTerm_term hN hw hR]
          rfl
      exact this q
    · intro l hl
      rw [List.mem_map] at hl
      obtain ⟨p, -, rfl⟩ := hl
      simp only [Function.comp]
      rw [(splitTop_term (by omega) hN hw alternate p).1]
      exact plus_not_mem hN hw alternate p
    · intro t ht
      rw [List.mem_map] at ht
      obtain ⟨p, -, rfl⟩ := ht
      exact (splitTop_term (by omega) hN hw alternate p).2

theorem display_nil (fmt plain : T → String) (alternate signPlus : Bool) {a : MV A S}
    (h : a.coeffEnumerate.filter (fun p => decide (p.2 ≠ 0)) = []) : a.display fmt plain alternate signPlus = fmt 0 := by
  unfold MV.display
  dsimp only
  rw [h, List.map_nil, if_pos rfl]

theorem display_cons (fmt plain : T → String) (alternate signPlus : Bool) {a : MV A S}
    (h : a.coeffEnumerate.filter (fun p => decide (p.2 ≠ 0)) ≠ []) :
    (a.display fmt plain alternate signPlus).toList = [' ', '+', ' '].intercalate
      ((a.coeffEnumerate.filter (fun p => decide (p.2 ≠ 0))).map
        fun p => (fmtTerm (A := A) fmt plain alternate signPlus p.1 p.2).toList) := by
  unfold MV.display
  dsimp only
  rw [if_neg (by simpa using h), String.toList_intercalate, List.map_map]
  rfl

/-- A token cannot be a product of generators of two algebras without common axis names. -/
theorem isLabel_disjoint {A B : ClAlg} (h : ∀ i < A.dim, ∀ j < B.dim, A.axisName i ≠ B.axisName j) {t : List Char}
    (hA : IsLabel A t) : ¬ IsLabel B t := by
  intro hB
  unfold IsLabel readLabel at hA hB
  cases hs : t.splitOn '^' with
  | nil => exact absurd hs (List.splitOn_ne_nil _ _)
  | cons x xs =>
    rw [hs, List.mapM_cons] at hA hB
    cases ha : readAxis A.axisName A.dim x with
    | none => rw [ha] at hA; simp at hA
    | some i =>
      cases hb : readAxis B.axisName B.dim x with
      | none => rw [hb] at hB; simp at hB
      | some j =>
        unfold readAxis at ha hb
        have ha1 := List.find?_some ha
        have hb1 := List.find?_some hb
        have ha2 := List.mem_range.mp (List.mem_of_find?_eq_some ha)
        have hb2 := List.mem_range.mp (List.mem_of_find?_eq_some hb)
        simp only [decide_eq_true_eq] at ha1 hb1
        exact h i ha2 j hb2 (String.toList_inj.mp (ha1.trans hb1.symm))

variable [hU : Coeff.Usable A S]

open Classical in
/-- The coefficient a text stands for: the sum of its terms. -/
noncomputable def readMV (readC : String → Option T) (s : String) : Option (Coeff A S) :=
  (readNested readC A.axisName A.dim s).bind fun ts =>
    match termsValue (A := A) (S := S) ts with
    | .ok a => if h : a.Valid then some (Coeff.mk a h) else none
    | .error _ => none

/-- Texts of multivectors can stand as coefficients in texts of multivectors of another algebra if the axis names differ.
`rep` is the multivector that stands for a coefficient (its class under `==`). -/
theorem Writes.nested (hN : GoodNestedNames A) {signPlus : Bool} (alternate : Bool) {R' : Set (List Char)}
    (hw : Writes signPlus fmt plain readC R') (hL : ∀ l, IsLabel A l → l ∈ R') (hRR : R ⊆ R') (hdis : ∀ l, IsLabel A l → l ∉ R)
    (rep : Coeff A S → MV A S) (hv : ∀ c, (rep c).Valid) (hm : ∀ c, Coeff.mk (rep c) (hv c) = c) :
    Writes signPlus (fun c : Coeff A S => (rep c).display fmt plain alternate signPlus)
      (fun c => (rep c).display plain plain false false) (readMV readC) R := by
  have hd : A.dim ≤ 63 := LawfulStorage.supp_le hU.supp
  have hz : (rep 0).coeffEnumerate.filter (fun p => decide (p.2 ≠ 0)) = [] := by
    have h0 := ((Coeff.C57_operations (hv 0) (hv 0)).2.2.2.2.2.2.2).mp (hm 0)
    unfold MV.isZero at h0
    rw [List.all_eq_true] at h0
    rw [List.filter_eq_nil_iff]
    intro p hp
    simpa using h0 p hp
  refine ⟨fun c => ?_, fun c => ?_, ?_, fun hs c hc => ?_⟩
  · obtain ⟨ts, h1, u, v, hu, hv', huv, hvv, hb⟩ := C50_nested_text_partial hU.wf hN hw hL alternate (hv c)
    injection hv' with hv'
    subst hv'
    unfold readMV
    rw [h1, Option.bind_some, hu]
    dsimp only
    rw [dif_pos huv, ← hm c]
    exact congrArg some (Coeff.mk_eq.mpr hb)
  · by_cases hq : (rep c).coeffEnumerate.filter (fun p => decide (p.2 ≠ 0)) = []
    · rw [display_nil _ _ _ _ hq]
      exact hw.depth 0
    · rw [display_cons _ _ _ _ hq]
      refine (splitTop_join _ (by simpa using hq) fun t ht => ?_).2
      rw [List.mem_map] at ht
      obtain ⟨p, -, rfl⟩ := ht
      exact (splitTop_term (by omega) hN hw alternate p).2
  · rw [display_nil _ _ _ _ hz]
    exact hw.zero.mono hRR
  · subst hs
    cases hq : (rep c).coeffEnumerate.filter (fun p => decide (p.2 ≠ 0)) with
    | nil =>
      rw [display_nil _ _ _ _ hq]
      exact hw.zero.mono hRR
    | cons p q =>
      have hne : (rep c).coeffEnumerate.filter (fun p => decide (p.2 ≠ 0)) ≠ [] := by rw [hq]; simp
      unfold hasSign at hc
      rw [display_cons _ _ _ _ hne, hq, List.any_eq_false] at hc
      cases q with
      | cons p' q =>
        exact (hc '+' (by rw [List.map_cons, List.map_cons, List.intercalate_cons_cons]; simp) (by decide)).elim
      | nil =>
        simp only [List.map_cons, List.map_nil, List.intercalate_singleton] at hc
        have hp : p.1 < 2 ^ A.dim := by
          have hmem : p ∈ (rep c).coeffEnumerate := by
            have : p ∈ (rep c).coeffEnumerate.filter (fun p => decide (p.2 ≠ 0)) := by rw [hq]; simp
            exact (List.mem_filter.mp this).1
          exact ((hv c).enum.mem p hmem).1
        have hun : hasSign (plain p.2) = false := by
          by_contra hsg
          have hsg : hasSign (plain p.2) = true := by simpa using hsg
          have hin : inParens plain false false p = true := by simpa [inParens, shown] using hsg
          rw [fmtTerm_toList (by omega), hin] at hc
          have hsg' := hsg
          unfold hasSign at hsg'
          rw [List.any_eq_true] at hsg'
          obtain ⟨x, hx, hx'⟩ := hsg'
          refine hc x ?_ hx'
          split <;> simp [bodyText, shown, hx]
        rw [display_cons _ _ _ _ hne, hq, List.map_cons, List.map_nil, List.intercalate_singleton]
        obtain ⟨hst, -⟩ := splitTop_term (by omega) hN hw alternate p
        have hplus := plus_not_mem hN hw alternate p
        by_cases hl : labelOf A alternate p.1 = []
        · have h0 : p.1 = 0 := (labelWord_nil hp).mp ((labelOf_nil hN.toGoodNames).mp hl)
          have hsh : shown alternate p = p.2 := by
            cases alternate
            · rfl
            · show revC p.1 p.2 = p.2
              rw [h0]
              unfold revC
              exact if_pos (.inl rfl)
          have hin : inParens plain alternate false p = false := by
            unfold inParens
            rw [hsh, hun]; rfl
          rw [hin, hsh] at hst
          unfold termTokensN at hst
          rw [if_pos hl] at hst
          have hst : splitTop 0 (fmtTerm (A := A) fmt plain alternate false p.1 p.2).toList = splitTop 0 (fmt p.2).toList := hst
          have hb := hw.bare rfl p.2 hun
          refine ⟨by rw [hst]; exact hb.plus, fun l h h' => hb.last l (by rw [← hst]; exact h) (hRR h'), fun x => by rw [hst]; exact hb.group x⟩
        · refine ⟨by rw [hst]; exact hplus, fun l h => ?_, fun x h => ?_⟩
          · rw [hst] at h
            unfold termTokensN at h
            rw [if_neg hl, List.getLast?_concat] at h
            injection h with h
            rw [← h]
            exact hdis _ (by unfold IsLabel; rw [readLabel_labelOf hN.toGoodNames hl]; rfl)
          · rw [hst] at h
            unfold termTokensN at h
            rw [if_neg hl] at h
            have := congrArg List.length h
            have hne' := List.length_pos_iff.mpr
              (coeffTokens_ne (fmt := fmt) (inParens plain alternate false p) (shown alternate p))
            simp only [List.length_append, List.length_cons, List.length_nil] at this
            omega

end

/-! ### Any depth -/

/-- For each coefficient that is a class of multivectors under `==`, the multivector that stands for it. -/
structure Reps where
  rep : (l : Level) → (R : CoeffType) → (l.over R).T → MV l.A (l.S R)
  valid : ∀ l R x, (rep l R x).Valid
  mk_rep : ∀ l R x, (Coeff.mk (rep l R x) (valid l R x) : Coeff l.A (l.S R)) = x

/-- The text of a coefficient, the formatter's flags being passed on to all levels; `fmt` and `plain` are the texts with
and without flags of the innermost coefficients. -/
noncomputable def towerFmt (r : Reps) : (ls : List Level) → (R : CoeffType) → (fmt plain : R.T → String) →
    (alternate signPlus : Bool) → (tower ls R).T → String
  | [], _, fmt, _, _, _ => fmt
  | l :: ls, R, fmt, plain, alternate, signPlus => fun x =>
    (r.rep l (tower ls R) x).display (towerFmt r ls R fmt plain alternate signPlus) (towerFmt r ls R plain plain false false)
      alternate signPlus

/-- The coefficient a text stands for. -/
noncomputable def towerRead : (ls : List Level) → (R : CoeffType) → (readC : String → Option R.T) → String → Option (tower ls R).T
  | [], _, readC => readC
  | l :: ls, R, readC => readMV (A := l.A) (S := l.S (tower ls R)) (towerRead ls R readC)

/-- The products of generators of the algebras of several levels. -/
def labels (ls : List Level) : Set (List Char) := {t | ∃ l ∈ ls, IsLabel l.A t}

/-- No axis name in common. -/
def NamesDiffer (A B : ClAlg) : Prop := ∀ i < A.dim, ∀ j < B.dim, A.axisName i ≠ B.axisName j

theorem towerFmt_writes (r : Reps) (R : CoeffType) {fmt plain : R.T → String} {readC : String → Option R.T} (alternate signPlus : Bool)
    (ls : List Level) (hN : ∀ l ∈ ls, GoodNestedNames l.A) (hls : ls.Pairwise fun l l' => NamesDiffer l.A l'.A) (Q : Set (List Char))
    (hw : Writes signPlus fmt plain readC (labels ls ∪ Q)) (hQ : ∀ t ∈ labels ls, t ∉ Q) :
    Writes signPlus (towerFmt r ls R fmt plain alternate signPlus) (towerFmt r ls R plain plain false false) (towerRead ls R readC) Q := by
  induction ls generalizing Q with
  | nil => exact hw.mono (by simp)
  | cons l ls ih =>
    rw [List.pairwise_cons] at hls
    have h := ih (fun l' h' => hN l' (by simp [h'])) hls.2 ({t | IsLabel l.A t} ∪ Q) (hw.mono ?_) ?_
    · exact h.nested (hN l (by simp)) alternate (fun t ht => .inl ht) (fun t ht => .inr ht)
        (fun t ht => hQ t ⟨l, by simp, ht⟩) (r.rep l (tower ls R)) (r.valid l (tower ls R)) (r.mk_rep l (tower ls R))
    · rintro t (⟨l', hl', ht⟩ | ht | ht)
      · exact .inl ⟨l', by simp [hl'], ht⟩
      · exact .inl ⟨l, by simp, ht⟩
      · exact .inr ht
    · rintro t ⟨l', hl', ht⟩ (h | h)
      · exact isLabel_disjoint (hls.1 l' hl') h ht
      · exact hQ t ⟨l', by simp [hl'], ht⟩ h

/-- **C50.** The text of multivectors of multivectors, to any depth, denotes them, in both forms, if no two of the algebras have
an axis name in common.  (With common names it is false: `C50_nested_same_names_false`.)  The innermost coefficients need a text
that can be read back; see `Writes`. -/
theorem C50_nested_partial (r : Reps) (R : CoeffType) {fmt plain : R.T → String} {readC : String → Option R.T} (alternate signPlus : Bool)
    {B : ClAlg} (hB : B.WF) (hBN : GoodNestedNames B) (ls : List Level) (hN : ∀ l ∈ ls, GoodNestedNames l.A)
    (hls : ls.Pairwise fun l l' => NamesDiffer l.A l'.A) (hBl : ∀ l ∈ ls, NamesDiffer B l.A)
    (hw : Writes signPlus fmt plain readC (labels ls ∪ {t | IsLabel B t}))
    {S : Type} [CoeffStorage S (tower ls R).T] [LawfulStorage S (tower ls R).T] {a : MV B S} (ha : a.Valid) :
    ∃ ts, readNested (towerRead ls R readC) B.axisName B.dim
        (a.display (towerFmt r ls R fmt plain alternate signPlus) (towerFmt r ls R plain plain false false) alternate signPlus) = some ts ∧
      termsValue ts ≈ᵣ .ok a := by
  refine C50_nested_text_partial hB hBN (towerFmt_writes r R alternate signPlus ls hN hls {t | IsLabel B t} hw ?_) (fun l h => h) alternate ha
  rintro t ⟨l, hl, ht⟩ h
  exact isLabel_disjoint (hBl l hl) h ht

/-! ### Common axis names -/

section
variable {A : ClAlg} {S T : Type} [Ring T] [DecidableEq T] [CoeffStorage S T] [LawfulStorage S T]

theorem terms_single {a : MV A S} (ha : a.Valid) {i : Nat} {v : T} (hi : i < 2 ^ A.dim) (hv : v ≠ 0)
    (h : ∀ k < 2 ^ A.dim, a.val k = if k = i then v else 0) : a.coeffEnumerate.filter (fun p => decide (p.2 ≠ 0)) = [(i, v)] := by
  set q := a.coeffEnumerate.filter (fun p => decide (p.2 ≠ 0)) with hq
  have hmem : ∀ p ∈ q, p = (i, v) := by
    intro p hp
    rw [hq, List.mem_filter] at hp
    obtain ⟨h1, h2⟩ := ha.enum.mem p hp.1
    have h3 := h _ h1
    rw [← h2] at h3
    have h4 : p.2 ≠ 0 := by simpa using hp.2
    split at h3
    · rename_i h5
      exact Prod.ext h5 h3
    · exact absurd h3 h4
  have hnd : q.Nodup := (ha.enum.nodup.of_map _).filter _
  have hin : (i, v) ∈ q := by
    have h1 := h i hi
    rw [if_pos rfl] at h1
    have := ha.enum.complete i hi (by rw [h1]; exact hv)
    rw [h1] at this
    rw [hq, List.mem_filter]
    exact ⟨this, by simpa using hv⟩
  obtain ⟨x, hx⟩ : ∃ x, q = [x] := by
    cases hq' : q with
    | nil => rw [hq'] at hin; simp at hin
    | cons x xs =>
      cases xs with
      | nil => exact ⟨x, rfl⟩
      | cons y ys =>
        rw [hq'] at hmem hnd
        have h1 := hmem x (by simp)
        have h2 := hmem y (by simp)
        rw [h1, h2] at hnd
        simp at hnd
  rw [hx, hmem x (by rw [hx]; simp)]

theorem exists_single (hS : LawfulStorage.Supp (S := S) (T := T) A.dim) {i : Nat} (hi : i < 2 ^ A.dim) (v : T) :
    ∃ a : MV A S, a.Valid ∧ ∀ k < 2 ^ A.dim, a.val k = if k = i then v else 0 := by
  obtain ⟨z, -, hz, hzv⟩ := default_denotes (A := A) (S := S) (T := T) hS
  exact ⟨z.setByIdx i v, hz.set i v, fun k hk => by rw [hz.set_val hi, hzv k hk]⟩

/-- The text of a multivector with one term. -/
theorem display_single (hd : A.dim ≤ 64) {a : MV A S} (ha : a.Valid) {i : Nat} {v : T} (hi : i < 2 ^ A.dim) (hv : v ≠ 0)
    (h : ∀ k < 2 ^ A.dim, a.val k = if k = i then v else 0) (fmt plain : T → String) (alternate : Bool)
    (hs : shown alternate (i, v) = v) (hp : hasSign (plain v) = false) :
    (a.display fmt plain alternate false).toList =
      if labelOf A alternate i = [] then (fmt v).toList else (fmt v).toList ++ ' ' :: labelOf A alternate i := by
  have hq := terms_single ha hi hv h
  rw [display_cons _ _ _ _ (by rw [hq]; simp), hq, List.map_cons, List.map_nil, List.intercalate_singleton,
    fmtTerm_toList hd (p := (i, v)), hs]
  have : inParens plain alternate false (i, v) = false := by unfold inParens; rw [hs, hp]; rfl
  rw [this]
  rfl

theorem shown_zero (alternate : Bool) (v : T) : shown alternate (0, v) = v := by
  cases alternate
  · rfl
  · show revC 0 v = v
    unfold revC
    exact if_pos (.inl rfl)

theorem shown_two_pow (alternate : Bool) {i : Nat} (hi : i < 64) (v : T) : shown alternate (2 ^ i, v) = v := by
  cases alternate
  · rfl
  · show revC (2 ^ i) v = v
    unfold revC
    exact if_pos (.inr (by rw [countOnes_two_pow hi]))

theorem labelOf_zero (A : ClAlg) (alternate : Bool) : labelOf A alternate 0 = [] := by
  have : labelWord A alternate 0 = [] := by unfold labelWord word; simp
  unfold labelOf
  rw [this]; rfl

theorem labelOf_two_pow {i : Nat} (hi : i < A.dim) (alternate : Bool) : labelOf A alternate (2 ^ i) = (A.axisName i).toList := by
  have : labelWord A alternate (2 ^ i) = [i] := by unfold labelWord; rw [word_two_pow hi]; simp
  unfold labelOf
  rw [this]; simp

end

/-- **C50.** Whenever the algebra of the coefficients and the outer one have an axis name in common, the text is ambiguous: for
`c` printed without a sign, the scalar with the coefficient `c e` and the multivector `c e` of the outer algebra are both printed
`c e`.  All algebras declared without names have common axis names. -/
theorem C50_nested_same_names_false (r : Reps) (l : Level) (R : CoeffType) (fmt plain : R.T → String) (alternate : Bool)
    {B : ClAlg} {S : Type} [CoeffStorage S (l.over R).T] [LawfulStorage S (l.over R).T]
    (hS : LawfulStorage.Supp (S := S) (T := (l.over R).T) B.dim) {i j : Nat} (hi : i < l.A.dim) (hj : j < B.dim)
    (hij : l.A.axisName i = B.axisName j) (hname : hasSign (B.axisName j) = false) {c : R.T} (hc : c ≠ 0)
    (hplain : hasSign (plain c) = false) :
    ∃ a b : MV B S, a.Valid ∧ b.Valid ∧ a.beq b = false ∧
      a.display (towerFmt r [l] R fmt plain alternate false) (towerFmt r [l] R plain plain false false) alternate false =
      b.display (towerFmt r [l] R fmt plain alternate false) (towerFmt r [l] R plain plain false false) alternate false := by
  have hd : B.dim ≤ 63 := LawfulStorage.supp_le hS
  have hU : Coeff.Usable l.A (l.S R) := inferInstance
  have hd' : l.A.dim ≤ 63 := LawfulStorage.supp_le hU.supp
  have hi2 : 2 ^ i < 2 ^ l.A.dim := Nat.pow_lt_pow_right (by omega) hi
  have hj2 : 2 ^ j < 2 ^ B.dim := Nat.pow_lt_pow_right (by omega) hj
  obtain ⟨x, hx, hxv⟩ := exists_single (A := l.A) (S := l.S R) hU.supp hi2 c
  obtain ⟨y, hy, hyv⟩ := exists_single (A := l.A) (S := l.S R) hU.supp (Nat.two_pow_pos _) c
  -- what stands for the two coefficients has the same values
  have hrep : ∀ (z : MV l.A (l.S R)) (hz : z.Valid), ∀ k < 2 ^ l.A.dim, (r.rep l R (Coeff.mk z hz)).val k = z.val k := fun z hz =>
    (beq_iff (r.valid l R _) hz).mp (Coeff.mk_eq.mp (r.mk_rep l R (Coeff.mk z hz)))
  have hne : ∀ (z : MV l.A (l.S R)) (hz : z.Valid) (k : Nat), k < 2 ^ l.A.dim → z.val k = c → (Coeff.mk z hz : (l.over R).T) ≠ 0 := by
    intro z hz k hk hzk h0
    have := ((Coeff.C57_operations hz hz).2.2.2.2.2.2.2).mp h0
    rw [isZero_iff hz] at this
    exact hc (hzk ▸ this k hk)
  have hx0 := hne x hx _ hi2 (by rw [hxv _ hi2, if_pos rfl])
  have hy0 := hne y hy 0 (Nat.two_pow_pos _) (by rw [hyv _ (Nat.two_pow_pos _), if_pos rfl])
  have tx : ∀ (f p : R.T → String) (alt : Bool), hasSign (p c) = false → (towerFmt r [l] R f p alt false (Coeff.mk x hx)).toList =
      if (l.A.axisName i).toList = [] then (f c).toList else (f c).toList ++ ' ' :: (l.A.axisName i).toList := by
    intro f p alt hp
    rw [← labelOf_two_pow hi alt]
    exact display_single (by omega) (r.valid l R _) hi2 hc (fun k hk => (hrep x hx k hk).trans (hxv k hk)) f p alt
      (shown_two_pow alt (by omega) c) hp
  have ty : ∀ (f p : R.T → String) (alt : Bool), hasSign (p c) = false → (towerFmt r [l] R f p alt false (Coeff.mk y hy)).toList =
      (f c).toList := by
    intro f p alt hp
    refine (display_single (by omega) (r.valid l R _) (Nat.two_pow_pos _) hc (fun k hk => (hrep y hy k hk).trans (hyv k hk)) f p alt
      (shown_zero alt c) hp).trans ?_
    rw [if_pos (labelOf_zero _ _)]
  obtain ⟨X, hx0, tx⟩ : ∃ X : (l.over R).T, X ≠ 0 ∧ ∀ (f p : R.T → String) (alt : Bool), hasSign (p c) = false →
      (towerFmt r [l] R f p alt false X).toList =
        if (l.A.axisName i).toList = [] then (f c).toList else (f c).toList ++ ' ' :: (l.A.axisName i).toList :=
    ⟨Coeff.mk x hx, hx0, tx⟩
  obtain ⟨Y, hy0, ty⟩ : ∃ Y : (l.over R).T, Y ≠ 0 ∧ ∀ (f p : R.T → String) (alt : Bool), hasSign (p c) = false →
      (towerFmt r [l] R f p alt false Y).toList = (f c).toList := ⟨Coeff.mk y hy, hy0, ty⟩
  obtain ⟨a, ha, hav⟩ := exists_single (A := B) (S := S) hS (Nat.two_pow_pos _) X
  obtain ⟨b, hb, hbv⟩ := exists_single (A := B) (S := S) hS hj2 Y
  refine ⟨a, b, ha, hb, ?_, String.toList_inj.mp ?_⟩
  · rw [← Bool.not_eq_true]
    intro h
    have := (beq_iff ha hb).mp h 0 (Nat.two_pow_pos _)
    rw [hav _ (Nat.two_pow_pos _), hbv _ (Nat.two_pow_pos _), if_pos rfl, if_neg (by positivity)] at this
    exact hx0 this
  · have hsx : hasSign (towerFmt r [l] R plain plain false false X) = false := by
      unfold hasSign at hname hplain ⊢
      rw [tx plain plain false hplain, hij]
      split
      · exact hplain
      · rw [List.any_append, hplain, List.any_cons, hname]; rfl
    have hsy : hasSign (towerFmt r [l] R plain plain false false Y) = false := by
      unfold hasSign at hplain ⊢
      rw [ty plain plain false hplain]
      exact hplain
    refine (display_single (by omega) ha (Nat.two_pow_pos _) hx0 hav _ _ _ (shown_zero _ _) hsx).trans (Eq.trans ?_
      (display_single (by omega) hb hj2 hy0 hbv _ _ _ (shown_two_pow _ (by omega) _) hsy).symm)
    rw [if_pos (labelOf_zero _ _), tx fmt plain alternate hplain, ty fmt plain alternate hplain, labelOf_two_pow hj, hij]

/-! ### Examples -/

/-- Texts without spaces and parentheses, as those of numbers, can stand in terms if they are not axis names. -/
theorem writes_of_good {T : Type} [Zero T] {fmt : T → String} {readC : String → Option T} (hf : GoodFmt fmt readC)
    {Q : Set (List Char)} (hQ : ∀ t, (fmt t).toList ∉ Q) (signPlus : Bool) (plain : T → String) : Writes signPlus fmt plain readC Q := by
  have hb : ∀ t, Bare Q (fmt t).toList := by
    intro t
    have hs : splitTop 0 (fmt t).toList = [(fmt t).toList] := splitTop_word 0 fun h => (hf.chars t _ h).1 rfl
    refine ⟨?_, ?_, ?_⟩
    · rw [hs, List.mem_singleton]
      intro h
      exact hf.plus t (String.toList_inj.mp h.symm)
    · intro l hl
      rw [hs] at hl
      injection hl with hl
      rw [← hl]
      exact hQ t
    · intro x h
      rw [hs] at h
      injection h with h _
      exact (hf.chars t '(' (by rw [h]; simp)).2.1 rfl
  exact ⟨hf.read, fun t => depthAfter_plain 0 (fun h => (hf.chars t _ h).2.1 rfl) (fun h => (hf.chars t _ h).2.2 rfl), hb 0, fun _ t _ => hb t⟩

/-- The text of an integer is not a product of generators if each axis name has a character other than digits and `-`. -/
theorem int_not_label {A : ClAlg} (h : ∀ i < A.dim, ∃ c ∈ (A.axisName i).toList, c.isDigit = false ∧ c ≠ '-') (n : ℤ) :
    ¬ IsLabel A (Int.repr n).toList := by
  intro hl
  unfold IsLabel readLabel at hl
  cases hs : (Int.repr n).toList.splitOn '^' with
  | nil => exact absurd hs (List.splitOn_ne_nil _ _)
  | cons x xs =>
    rw [hs, List.mapM_cons] at hl
    cases ha : readAxis A.axisName A.dim x with
    | none => rw [ha] at hl; simp at hl
    | some i =>
      unfold readAxis at ha
      have ha1 := List.find?_some ha
      have ha2 := List.mem_range.mp (List.mem_of_find?_eq_some ha)
      simp only [decide_eq_true_eq] at ha1
      obtain ⟨c, hc, hc1, hc2⟩ := h i ha2
      have hmem : c ∈ (Int.repr n).toList := by
        have h1 : ['^'].intercalate ((Int.repr n).toList.splitOn '^') = (Int.repr n).toList := List.intercalate_splitOn _
        rw [← h1, hs, ← ha1]
        cases xs with
        | nil => simpa using hc
        | cons y ys => rw [List.intercalate_cons_cons]; simp [hc]
      cases n with
      | ofNat m => rw [nat_repr_digit (n := m) hmem] at hc1; simp at hc1
      | negSucc m =>
        have h1 : (Int.repr (Int.negSucc m)).toList = '-' :: (Nat.repr (m + 1)).toList := by simp [Int.repr]
        rw [h1, List.mem_cons] at hmem
        rcases hmem with h2 | h2
        · exact hc2 h2
        · rw [nat_repr_digit h2] at hc1; simp at hc1

namespace Ex

/-- Representatives chosen in any way. -/
noncomputable def reps : Reps where
  rep _ _ x := (Quotient.out x).1
  valid _ _ x := (Quotient.out x).2
  mk_rep _ _ x := Quotient.out_eq x

/-- An algebra with names of its own. -/
def PQ : ClAlg := (declareAlgebra [.plus, .minus] ["p", "q"]).get rfl

theorem PQ_wf : PQ.WF := declareAlgebra_wf (sig := [.plus, .minus]) (names := ["p", "q"]) rfl

/-- Another one. -/
def UVW : ClAlg := (declareAlgebra [.plus, .plus, .null] ["u", "v", "w"]).get rfl

theorem UVW_wf : UVW.WF := declareAlgebra_wf (sig := [.plus, .plus, .null]) (names := ["u", "v", "w"]) rfl

example (alternate : Bool) := C50_nested_text_partial (A := E) (S := ArrayStorage ℤ) E_wf ⟨E_names, by decide, by decide⟩
  (writes_of_good goodFmt_int (Q := {t | IsLabel E t}) (fun t ht => int_not_label (A := E) (by decide) t ht) false Int.repr)
  (fun _ h => h) alternate (a := ⟨⟨3, ⟨8, fun i => (i : ℤ) - 3⟩⟩⟩) ⟨by decide, rfl, rfl⟩

/-- Three levels: multivectors of `E` whose coefficients are sparse ones of `UVW` over dense ones of `PQ` over the integers. -/
def namedLevels : List Level := [.sparse UVW UVW_wf (by decide) (fun _ => revOrder), .dense PQ PQ_wf (by decide)]

example (alternate : Bool) (x y : (tower namedLevels Zc).T) :=
  C50_nested_partial reps Zc (fmt := Int.repr) (plain := Int.repr) (readC := String.toInt?) alternate false E_wf
    ⟨E_names, by decide, by decide⟩ namedLevels
    (by
      intro l hl
      simp only [namedLevels, List.mem_cons, List.not_mem_nil, or_false] at hl
      rcases hl with rfl | rfl
      · exact (⟨⟨⟨by decide, by decide, by decide⟩, by decide, by decide⟩, by decide, by decide⟩ : GoodNestedNames UVW)
      · exact (⟨⟨⟨by decide, by decide, by decide⟩, by decide, by decide⟩, by decide, by decide⟩ : GoodNestedNames PQ))
    (by
      simp only [namedLevels, List.pairwise_cons, List.mem_cons, List.not_mem_nil, or_false]
      refine ⟨?_, ⟨fun _ h => h.elim, .nil⟩⟩
      rintro l rfl
      show NamesDiffer UVW PQ
      unfold NamesDiffer; decide)
    (by
      intro l hl
      simp only [namedLevels, List.mem_cons, List.not_mem_nil, or_false] at hl
      rcases hl with rfl | rfl
      · show NamesDiffer E UVW
        unfold NamesDiffer; decide
      · show NamesDiffer E PQ
        unfold NamesDiffer; decide)
    (writes_of_good goodFmt_int (by
      rintro t (⟨l, hl, ht⟩ | ht)
      · simp only [namedLevels, List.mem_cons, List.not_mem_nil, or_false] at hl
        rcases hl with rfl | rfl
        · exact int_not_label (A := UVW) (by decide) t ht
        · exact int_not_label (A := PQ) (by decide) t ht
      · exact int_not_label (A := E) (by decide) t ht) false Int.repr)
    (a := (⟨⟨3, ⟨8, fun i => if i = 5 then x else y⟩⟩⟩ : MV E (ArrayStorage (tower namedLevels Zc).T))) ⟨by decide, rfl, rfl⟩

example (alternate : Bool) := C50_nested_same_names_false reps levelE Zc Int.repr Int.repr alternate (B := E)
  (S := ArrayStorage (levelE.over Zc).T) (by show E.dim ≤ 63; decide) (i := 0) (j := 0) (by decide) (by decide) (by decide) (by decide)
  (c := (2 : ℤ)) (by show (2 : ℤ) ≠ 0; decide) (by decide)

end Ex

end TClifford
