import Verif.Model.Display
import Verif.Spec.Reader
import Verif.Proofs.Words
import Verif.Proofs.Lift
import Verif.Props.Examples
import Std.Data.String.ToInt
/-
Formatting of multivectors: C50.
-/

set_option linter.unusedSectionVars false

namespace TClifford

open MV Spec

/-! ### Words -/

theorem rsg_two_pow (n x : Nat) : rsg n (2 ^ x) = 1 := by
  rw [rsg_eq]
  by_cases h : x < n
  · rw [cnt_two_pow h]; simp
  · have : cnt n (2 ^ x) = 0 := by
      have hc : cnt n (2 ^ x) = cnt n 0 := cnt_congr fun i hi => by rw [Nat.testBit_two_pow]; simp; omega
      rw [hc, cnt_zero]
    rw [this]; simp

theorem evw_reverse (σ : Nat → ℤ) (n : Nat) (w : List Nat) :
    (evw σ n w.reverse).2 = (evw σ n w).2 ∧ (evw σ n w.reverse).1 = rsg n (evw σ n w).2 * (evw σ n w).1 := by
  induction w with
  | nil => simp [evw, rsg_eq]
  | cons x w ih =>
    obtain ⟨h1, h2⟩ := evw_append σ n w.reverse [x]
    rw [List.reverse_cons, h1, h2, ih.1, ih.2]
    simp only [evw, Nat.xor_zero, bsgn_zero_right, mul_one]
    refine ⟨Nat.xor_comm _ _, ?_⟩
    have h := bsgn_rev σ n (2 ^ x) (evw σ n w).2
    rw [rsg_two_pow, one_mul] at h
    linear_combination -(evw σ n w).1 * h

section
variable {A : ClAlg} {S T : Type} [Ring T] [DecidableEq T] [CoeffStorage S T] [LawfulStorage S T]

theorem termValue_aux (hA : A.WF) (hS : LawfulStorage.Supp (S := S) (T := T) A.dim) (w : List Nat) (hw : ∀ i ∈ w, i < A.dim) :
    ∀ (u : MV A S) (a : Nat) (c : T), a < 2 ^ A.dim → u.Valid → (∀ i < 2 ^ A.dim, u.val i = single a c i) →
    Denotes (w.foldlM (m := Res) (fun acc i => do
      let e ← MV.basisVec (T := T) i
      acc.naiveMulImpl e) u) (single (a ^^^ (evw A.sigma A.dim w).2)
        ((bsgn A.sigma A.dim a (evw A.sigma A.dim w).2 * (evw A.sigma A.dim w).1) • c)) := by
  induction w with
  | nil =>
    intro u a c ha hu huf
    simp only [evw, Nat.xor_zero, bsgn_zero_right, mul_one, one_smul]
    exact (Denotes.of_valid hu).congr huf
  | cons x w ih =>
    intro u a c ha hu huf
    have hx := hw x (by simp)
    have hx' : 2 ^ x < 2 ^ A.dim := Nat.pow_lt_pow_right (by norm_num) hx
    rw [List.foldlM_cons]
    have h1 : Denotes (do let e ← MV.basisVec (A := A) (S := S) (T := T) x; u.naiveMulImpl e)
        (single (a ^^^ 2 ^ x) (bsgn A.sigma A.dim a (2 ^ x) • c)) := by
      refine (basisVec_denotes hS hx).bind fun e he hef => (mul_denotes hA hu he).congr fun i hi => ?_
      rw [geo_congr (fun _ _ => rfl) huf hef hi, geo_single_single _ ha, mul_one]
    refine h1.bind fun v hv hvf => ?_
    refine (ih (fun i hi => hw i (by simp [hi])) v _ _ (Nat.xor_lt_two_pow ha hx') hv hvf).congr fun i _ => ?_
    simp only [evw]
    rw [Nat.xor_assoc, smul_smul]
    congr 2
    have := bsgn_cocycle A.sigma A.dim a (2 ^ x) (evw A.sigma A.dim w).2
    linear_combination (evw A.sigma A.dim w).1 * this

/-- The value of a term is its coefficient times the blade of its word. -/
theorem termValue_denotes (hA : A.WF) (hS : LawfulStorage.Supp (S := S) (T := T) A.dim) (c : T) (w : List Nat)
    (hw : ∀ i ∈ w, i < A.dim) : Denotes (termValue (A := A) (S := S) (c, w))
      (single (evw A.sigma A.dim w).2 ((evw A.sigma A.dim w).1 • c)) := by
  unfold termValue
  refine (fromScalar_denotes hS c).bind fun u hu huf => ?_
  refine (termValue_aux hA hS w hw u 0 c (Nat.two_pow_pos _) hu huf).congr fun i _ => ?_
  rw [Nat.zero_xor, bsgn_zero_left, one_mul]

theorem termsValue_denotes (hA : A.WF) (hS : LawfulStorage.Supp (S := S) (T := T) A.dim) (ts : List (T × List Nat))
    (hw : ∀ t ∈ ts, ∀ i ∈ t.2, i < A.dim) : Denotes (termsValue (A := A) (S := S) ts)
      (fun i => (ts.map fun t => single (evw A.sigma A.dim t.2).2 ((evw A.sigma A.dim t.2).1 • t.1) i).sum) := by
  unfold termsValue
  refine (default_denotes hS).bind fun z hz hzf => ?_
  have : ∀ (ts : List (T × List Nat)), (∀ t ∈ ts, ∀ i ∈ t.2, i < A.dim) → ∀ u : MV A S, u.Valid →
      Denotes (ts.foldlM (m := Res) (fun acc t => do
        let x ← termValue t
        acc.add x) u)
        (fun i => u.val i + (ts.map fun t => single (evw A.sigma A.dim t.2).2 ((evw A.sigma A.dim t.2).1 • t.1) i).sum) := by
    intro ts
    induction ts with
    | nil =>
      intro _ u hu
      exact (Denotes.of_valid hu).congr fun i _ => by simp
    | cons t ts ih =>
      intro h u hu
      rw [List.foldlM_cons]
      have h1 : Denotes (do let x ← termValue (A := A) (S := S) t; u.add x)
          (fun i => u.val i + single (evw A.sigma A.dim t.2).2 ((evw A.sigma A.dim t.2).1 • t.1) i) :=
        (termValue_denotes hA hS t.1 t.2 (h t (by simp))).bind fun x hx hxf => (add_denotes hu hx).congr fun i hi => by rw [hxf i hi]
      refine h1.bind fun v hv hvf => ?_
      refine (ih (fun t' h' => h t' (by simp [h'])) v hv).congr fun i hi => ?_
      rw [hvf i hi, List.map_cons, List.sum_cons, add_assoc]
  refine (this ts hw z hz).congr fun i hi => ?_
  rw [hzf i hi, zero_add]

/-! ### Labels -/

/-- Conditions on the axis names: distinct, not empty, without `^`. -/
structure GoodNames (A : ClAlg) : Prop where
  inj : ∀ i < A.dim, ∀ j < A.dim, A.axisName i = A.axisName j → i = j
  ne : ∀ i < A.dim, A.axisName i ≠ ""
  hat : ∀ i < A.dim, '^' ∉ (A.axisName i).toList

/-- The generators of a label in the order written. -/
def labelWord (A : ClAlg) (alternate : Bool) (idx : Nat) : List Nat :=
  if alternate then (word A.dim idx).reverse else word A.dim idx

theorem and_ushl_ne {idx i : Nat} (hi : i < 64) : decide (idx &&& ushl 1 i ≠ 0) = idx.testBit i := by
  rw [ushl_one hi, Nat.testBit_eq_decide_div_mod_eq, Nat.and_two_pow]
  have := Nat.toNat_testBit idx i
  rw [Nat.testBit_eq_decide_div_mod_eq] at *
  by_cases h : idx / 2 ^ i % 2 = 1
  · simp [h]
  · have h0 : idx / 2 ^ i % 2 = 0 := by omega
    simp [h0]

theorem label_eq (hd : A.dim ≤ 64) (alternate : Bool) (idx : Nat) :
    (if alternate then A.bladeLabelRev idx else A.bladeLabel idx) =
      String.intercalate "^" ((labelWord A alternate idx).map A.axisName) := by
  have h1 : (List.range A.dim).filter (fun i => decide (idx &&& ushl 1 i ≠ 0)) = (List.range A.dim).filter (fun i => idx.testBit i) :=
    List.filter_congr fun i hi => and_ushl_ne (by have := List.mem_range.mp hi; omega)
  unfold labelWord ClAlg.bladeLabel ClAlg.bladeLabelRev word
  cases alternate
  · simp only [Bool.false_eq_true, if_false]
    rw [List.filter_reverse, h1]
  · simp only [if_true]
    rw [h1, List.reverse_reverse]

theorem mem_labelWord {alternate : Bool} {idx i : Nat} : i ∈ labelWord A alternate idx ↔ i < A.dim ∧ idx.testBit i = true := by
  unfold labelWord
  cases alternate <;> simp [mem_word]

theorem labelWord_nil {alternate : Bool} {idx : Nat} (hi : idx < 2 ^ A.dim) : labelWord A alternate idx = [] ↔ idx = 0 := by
  constructor
  · intro h
    apply Nat.eq_of_testBit_eq
    intro i
    rw [Nat.zero_testBit]
    by_cases hid : i < A.dim
    · by_contra hc
      have : i ∈ labelWord A alternate idx := mem_labelWord.mpr ⟨hid, by simpa using hc⟩
      rw [h] at this
      simp at this
    · exact testBit_eq_false_of_lt hi (by omega)
  · rintro rfl
    rw [List.eq_nil_iff_forall_not_mem]
    intro i hi
    have := (mem_labelWord.mp hi).2
    simp at this

/-- The characters of a label. -/
theorem label_toList (w : List Nat) :
    (String.intercalate "^" (w.map A.axisName)).toList = ['^'].intercalate (w.map fun i => (A.axisName i).toList) := by
  rw [String.toList_intercalate, List.map_map]
  rfl

theorem readAxis_name (hN : GoodNames A) {i : Nat} (hi : i < A.dim) : readAxis A.axisName A.dim (A.axisName i).toList = some i := by
  unfold readAxis
  rw [List.find?_eq_some_iff_getElem]
  refine ⟨by simp, i, by simpa using hi, by simp, ?_⟩
  intro j hj
  simp only [List.getElem_range, Bool.not_eq_true', decide_eq_false_iff_not]
  intro h
  have := hN.inj j (by omega) i hi (String.toList_inj.mp h)
  omega

theorem readLabel_label (hN : GoodNames A) {w : List Nat} (hw : w ≠ []) (hwd : ∀ i ∈ w, i < A.dim) :
    readLabel A.axisName A.dim (String.intercalate "^" (w.map A.axisName)).toList = some w := by
  unfold readLabel
  rw [label_toList, List.splitOn_intercalate]
  · have : ∀ w : List Nat, (∀ i ∈ w, i < A.dim) → (w.map fun i => (A.axisName i).toList).mapM (readAxis A.axisName A.dim) = some w := by
      intro w
      induction w with
      | nil => intro _; rfl
      | cons x w ih =>
        intro h
        rw [List.map_cons, List.mapM_cons, readAxis_name hN (h x (by simp)), ih fun i hi => h i (by simp [hi])]
        rfl
    exact this w hwd
  · intro l hl
    rw [List.mem_map] at hl
    obtain ⟨i, hi, rfl⟩ := hl
    exact hN.hat i (hwd i hi)
  · simpa using hw

theorem label_ne (hN : GoodNames A) {w : List Nat} (hw : w ≠ []) (hwd : ∀ i ∈ w, i < A.dim) :
    (String.intercalate "^" (w.map A.axisName)).toList ≠ [] := by
  rw [label_toList]
  cases w with
  | nil => exact absurd rfl hw
  | cons x w =>
    have hx : (A.axisName x).toList ≠ [] := by
      intro h
      exact hN.ne x (hwd x (by simp)) (String.toList_inj.mp (by rw [h]; rfl))
    cases w with
    | nil => simpa using hx
    | cons y w =>
      rw [List.map_cons, List.map_cons, List.intercalate_cons_cons]
      simp

/-- **C50.** Labels of distinct blades differ, in both forms, if the axis names are distinct, non-empty and do not contain
`^`.  The claim asks for distinct names only, with which it is false: see `C50_labels_collide_false`. -/
theorem C50_labels_distinct_partial (hN : GoodNames A) (hd : A.dim ≤ 64) {i j : Nat} (hi : i < 2 ^ A.dim) (hj : j < 2 ^ A.dim) :
    (A.bladeLabel i = A.bladeLabel j → i = j) ∧ (A.bladeLabelRev i = A.bladeLabelRev j → i = j) := by
  have key : ∀ alt : Bool, (if alt then A.bladeLabelRev i else A.bladeLabel i) = (if alt then A.bladeLabelRev j else A.bladeLabel j) →
      i = j := by
    intro alt h
    rw [label_eq hd, label_eq hd] at h
    have hwi : ∀ k ∈ labelWord A alt i, k < A.dim := fun k hk => (mem_labelWord.mp hk).1
    have hwj : ∀ k ∈ labelWord A alt j, k < A.dim := fun k hk => (mem_labelWord.mp hk).1
    have hw : labelWord A alt i = labelWord A alt j := by
      by_cases h1 : labelWord A alt i = []
      · by_contra hc
        have h2 : labelWord A alt j ≠ [] := fun e => hc (by rw [h1, e])
        refine label_ne hN h2 hwj ?_
        rw [← h, h1]; simp
      · by_cases h2 : labelWord A alt j = []
        · exfalso
          refine label_ne hN h1 hwi ?_
          rw [h, h2]; simp
        · have a1 := readLabel_label hN h1 hwi
          have a2 := readLabel_label hN h2 hwj
          rw [h, a2] at a1
          injection a1 with a1
          exact a1.symm
    apply Nat.eq_of_testBit_eq
    intro k
    by_cases hk : k < A.dim
    · have := congrArg (fun w => decide (k ∈ w)) hw
      simp only [mem_labelWord, hk, true_and] at this
      simpa using this
    · rw [testBit_eq_false_of_lt hi (by omega), testBit_eq_false_of_lt hj (by omega)]
  exact ⟨key false, key true⟩

end

/-! ### Texts -/

section
variable {A : ClAlg} {S T : Type} [Zero T] [One T] [Add T] [Sub T] [Neg T] [Mul T] [DecidableEq T] [CoeffStorage S T]
  [LawfulStorage S T]

/-- The tokens of a printed term. -/
def termTokens (body : List Char) (lbl : List Char) : List (List Char) := if lbl = [] then [body] else [body, lbl]

/-- The tokens of a sequence of terms. -/
def joinTokens : List (List Char × List Char) → List (List Char)
  | [] => []
  | [t] => termTokens t.1 t.2
  | t :: ts => termTokens t.1 t.2 ++ ['+'] :: joinTokens ts

theorem intercalate_append {α : Type} (x : List α) {l m : List (List α)} (hl : l ≠ []) (hm : m ≠ []) :
    x.intercalate (l ++ m) = x.intercalate l ++ x ++ x.intercalate m := by
  induction l with
  | nil => exact absurd rfl hl
  | cons a l ih =>
    cases l with
    | nil =>
      cases m with
      | nil => exact absurd rfl hm
      | cons b m => simp
    | cons b l =>
      have := ih (by simp)
      simp only [List.cons_append, List.intercalate_cons_cons] at *
      rw [this]
      simp [List.append_assoc]

theorem termTokens_ne (b l : List Char) : termTokens b l ≠ [] := by unfold termTokens; split <;> simp

theorem joinTokens_ne {ts : List (List Char × List Char)} (h : ts ≠ []) : joinTokens ts ≠ [] := by
  cases ts with
  | nil => exact absurd rfl h
  | cons t ts =>
    cases ts with
    | nil => exact termTokens_ne _ _
    | cons u ts => simp [joinTokens]

/-- Joining the tokens with spaces gives the terms joined with ` + `. -/
theorem joinTokens_intercalate (ts : List (List Char × List Char)) :
    [' '].intercalate (joinTokens ts) =
      [' ', '+', ' '].intercalate (ts.map fun t => [' '].intercalate (termTokens t.1 t.2)) := by
  induction ts with
  | nil => rfl
  | cons t ts ih =>
    cases ts with
    | nil => simp [joinTokens]
    | cons u ts =>
      rw [joinTokens]
      · rw [intercalate_append _ (termTokens_ne _ _) (by simp)]
        have h2 : ['+'] :: joinTokens (u :: ts) = [['+']] ++ joinTokens (u :: ts) := rfl
        rw [h2, intercalate_append _ (by simp) (joinTokens_ne (by simp)), ih]
        simp [List.append_assoc]
      · simp

/-- Conditions on the formatting of coefficients: it can be read back, and has no spaces or parentheses in it. -/
structure GoodFmt (fmtCoeff : T → String) (readC : String → Option T) : Prop where
  read : ∀ t, readC (fmtCoeff t) = some t
  chars : ∀ t, ∀ c ∈ (fmtCoeff t).toList, c ≠ ' ' ∧ c ≠ '(' ∧ c ≠ ')'
  plus : ∀ t, fmtCoeff t ≠ "+"

/-- The coefficient part of a printed term. -/
def bodyText (fmtCoeff : T → String) (b : Bool) (c : T) : String := if b then "(" ++ fmtCoeff c ++ ")" else fmtCoeff c

theorem readCoeff_body {fmtCoeff : T → String} {readC : String → Option T} (hf : GoodFmt fmtCoeff readC) (b : Bool) (c : T) :
    readCoeff readC (bodyText fmtCoeff b c).toList = some c := by
  cases b
  · have : (bodyText fmtCoeff false c).toList = (fmtCoeff c).toList := rfl
    rw [this]
    have h : readCoeff readC (fmtCoeff c).toList = readC (String.ofList (fmtCoeff c).toList) := by
      have hc := hf.chars c
      cases hl : (fmtCoeff c).toList with
      | nil => rfl
      | cons x l =>
        have := (hc x (by rw [hl]; simp)).2.1
        unfold readCoeff
        split
        · rename_i heq
          injection heq with h1 _
          exact absurd h1 this
        · rfl
    rw [h, String.ofList_toList, hf.read]
  · have : (bodyText fmtCoeff true c).toList = '(' :: ((fmtCoeff c).toList ++ [')']) := by
      unfold bodyText
      simp
    rw [this]
    unfold readCoeff
    simp [hf.read]

theorem body_chars {fmtCoeff : T → String} {readC : String → Option T} (hf : GoodFmt fmtCoeff readC) (b : Bool) (c : T) :
    ' ' ∉ (bodyText fmtCoeff b c).toList := by
  have h : ' ' ∉ (fmtCoeff c).toList := fun h => (hf.chars c _ h).1 rfl
  cases b
  · exact h
  · have : (bodyText fmtCoeff true c).toList = '(' :: ((fmtCoeff c).toList ++ [')']) := by
      unfold bodyText
      simp
    rw [this]
    simp [h]

/-- What is printed for a list of terms is read back. -/
theorem readTokens_join {readC : String → Option T} (ts : List (List Char × List Char)) (vs : List (T × List Nat)) (hne : ts ≠ [])
    (h : List.Forall₂ (fun t v => readCoeff readC t.1 = some v.1 ∧ t.2 ≠ ['+'] ∧
      (t.2 = [] → v.2 = []) ∧ (t.2 ≠ [] → readLabel A.axisName A.dim t.2 = some v.2)) ts vs) :
    readTokens readC A.axisName A.dim (joinTokens ts) = some vs := by
  induction h with
  | nil => exact absurd rfl hne
  | @cons t v ts vs htv hts ih =>
    obtain ⟨h1, h2, h3, h4⟩ := htv
    obtain ⟨v1, v2⟩ := v
    cases hts with
    | nil =>
      unfold joinTokens termTokens
      by_cases hl : t.2 = []
      · rw [if_pos hl]
        have := h3 hl
        dsimp only at this h1
        subst this
        simp [readTokens, h1]
      · rw [if_neg hl]
        have := h4 hl
        simp [readTokens, h1, this]
    | @cons u w ts vs huw hts =>
      have ih := ih (by simp)
      have hj := joinTokens_ne (ts := u :: ts) (by simp)
      rw [joinTokens]
      · unfold termTokens
        by_cases hl : t.2 = []
        · rw [if_pos hl]
          have := h3 hl
          dsimp only at this h1
          subst this
          cases hjj : joinTokens (u :: ts) with
          | nil => exact absurd hjj hj
          | cons p rest =>
            rw [hjj] at ih
            simp [readTokens, h1, ih]
        · rw [if_neg hl]
          have := h4 hl
          simp [readTokens, h1, h2, this, ih]
      · simp

/-- Axis names in texts: no spaces, and not the separator. -/
structure GoodTextNames (A : ClAlg) : Prop extends GoodNames A where
  space : ∀ i < A.dim, ' ' ∉ (A.axisName i).toList
  plus : ∀ i < A.dim, A.axisName i ≠ "+"

/-- The terms of the text of a multivector: a coefficient and the axes of its label each. -/
def displayTerms (alternate : Bool) (a : MV A S) : List (T × List Nat) :=
  let q := a.coeffEnumerate.filter (fun p => decide (p.2 ≠ 0))
  if q = [] then [(0, [])] else q.map fun p => (if alternate then revC p.1 p.2 else p.2, labelWord A alternate p.1)

/-- Reading the text of a multivector gives its terms. -/
theorem readText_display (hN : GoodTextNames A) {fmtCoeff : T → String} {readC : String → Option T}
    (hf : GoodFmt fmtCoeff readC) (signCheck : T → String) (alternate signPlus : Bool) {a : MV A S} (ha : a.Valid) :
    readText readC A.axisName A.dim (a.display fmtCoeff signCheck alternate signPlus) = some (displayTerms alternate a) := by
  have hd : A.dim ≤ 63 := LawfulStorage.supp_le ha.supp
  set q : List (Nat × T) := a.coeffEnumerate.filter (fun p => decide (p.2 ≠ 0)) with hq
  have hqe : Enumerates A.dim q a.val := by
    refine (ha.enum.filter (fun p => decide (p.2 ≠ 0))).congr fun i _ => ?_
    by_cases h : a.val i = 0 <;> simp [h]
  by_cases hq0 : q = []
  · have hterms : displayTerms alternate a = [(0, [])] := by
      unfold displayTerms
      dsimp only
      rw [← hq, hq0, if_pos rfl]
    rw [hterms]
    · unfold MV.display
      dsimp only
      rw [← hq, hq0, List.map_nil, if_pos rfl]
      unfold readText
      rw [List.splitOn_eq_singleton (fun h => (hf.chars 0 _ h).1 rfl)]
      have := readCoeff_body hf false 0
      change readCoeff readC (fmtCoeff 0).toList = some 0 at this
      simp [readTokens, this]
  · let val : Nat × T → T := fun p => if alternate then revC p.1 p.2 else p.2
    let sgn : Nat × T → Bool := fun p => signPlus || (signCheck (val p)).toList.any (fun c => c = '+' || c = '-')
    let ts : List (List Char × List Char) := q.map fun p =>
      ((bodyText fmtCoeff (sgn p) (val p)).toList, (String.intercalate "^" ((labelWord A alternate p.1).map A.axisName)).toList)
    let vs : List (T × List Nat) := q.map fun p => (val p, labelWord A alternate p.1)
    have hts : ts ≠ [] := by simpa [ts] using hq0
    have htext : (a.display fmtCoeff signCheck alternate signPlus).toList = [' '].intercalate (joinTokens ts) := by
      unfold MV.display
      dsimp only
      rw [← hq, if_neg (by simpa using hq0), String.toList_intercalate, joinTokens_intercalate, List.map_map, List.map_map]
      congr 1
      refine List.map_congr_left fun p _ => ?_
      show (fmtTerm fmtCoeff signCheck alternate signPlus p.1 p.2).toList = _
      unfold fmtTerm
      dsimp only
      rw [label_eq (by omega)]
      simp only [Function.comp]
      unfold termTokens
      by_cases hl : (String.intercalate "^" ((labelWord A alternate p.1).map A.axisName)).toList = []
      · rw [if_neg, if_pos hl]
        · simp [bodyText, sgn, val]
        · rw [← String.length_toList, hl]; simp
      · rw [if_pos, if_neg hl]
        · simp [bodyText, sgn, val]
        · rw [← String.length_toList]
          exact List.length_pos_iff.mpr hl
    have hterms : displayTerms alternate a = vs := by
      unfold displayTerms
      dsimp only
      rw [← hq, if_neg hq0]
    rw [hterms]
    · unfold readText
      rw [htext, List.splitOn_intercalate _ _ (joinTokens_ne hts)]
      · refine readTokens_join ts vs hts ?_
        rw [List.forall₂_map_left_iff, List.forall₂_map_right_iff, List.forall₂_same]
        intro p hp
        have hp1 := (hqe.mem p hp).1
        have hwd : ∀ i ∈ labelWord A alternate p.1, i < A.dim := fun k hk => (mem_labelWord.mp hk).1
        refine ⟨readCoeff_body hf _ _, ?_, ?_, ?_⟩
        · dsimp only
          intro h
          by_cases h0 : labelWord A alternate p.1 = []
          · rw [h0] at h; simp at h
          · have hr := readLabel_label hN.toGoodNames h0 hwd
            rw [h] at hr
            unfold readLabel at hr
            rw [List.splitOn_eq_singleton (by decide)] at hr
            have : readAxis A.axisName A.dim ['+'] = none := by
              unfold readAxis
              rw [List.find?_eq_none]
              intro i hi
              simp only [decide_eq_true_eq]
              intro hc
              exact hN.plus i (List.mem_range.mp hi) (String.toList_inj.mp hc)
            simp [this] at hr
        · dsimp only
          intro h
          by_contra h0
          exact label_ne hN.toGoodNames h0 hwd h
        · dsimp only
          intro h
          refine readLabel_label hN.toGoodNames ?_ hwd
          intro h0
          rw [h0] at h
          simp at h
      · have hlbl : ∀ w : List Nat, (∀ i ∈ w, i < A.dim) → ' ' ∉ (String.intercalate "^" (w.map A.axisName)).toList := by
          intro w
          rw [label_toList]
          induction w with
          | nil => intro _; simp
          | cons x w ih =>
            intro h
            have hx := hN.space x (h x (by simp))
            have ih := ih fun i hi => h i (by simp [hi])
            cases w with
            | nil => simpa using hx
            | cons y w =>
              rw [List.map_cons, List.map_cons, List.intercalate_cons_cons]
              rw [List.map_cons] at ih
              simp [hx, ih]
        have hjoin : ∀ ts : List (List Char × List Char), (∀ t ∈ ts, ' ' ∉ t.1 ∧ ' ' ∉ t.2) → ∀ l ∈ joinTokens ts, ' ' ∉ l := by
          intro ts
          induction ts with
          | nil => intro _ l hl; simp [joinTokens] at hl
          | cons t ts ih =>
            intro h l hl
            have ht := h t (by simp)
            have hterm : ∀ l ∈ termTokens t.1 t.2, ' ' ∉ l := by
              intro l hl
              unfold termTokens at hl
              split at hl
              · simp at hl; subst hl; exact ht.1
              · simp at hl
                rcases hl with rfl | rfl
                · exact ht.1
                · exact ht.2
            cases ts with
            | nil => exact hterm l hl
            | cons u ts =>
              rw [joinTokens] at hl
              · rw [List.mem_append, List.mem_cons] at hl
                rcases hl with hl | rfl | hl
                · exact hterm l hl
                · decide
                · exact ih (fun t' ht' => h t' (by simp [ht'])) l hl
              · simp
        refine hjoin ts ?_
        intro t ht
        rw [List.mem_map] at ht
        obtain ⟨p, hp, rfl⟩ := ht
        exact ⟨body_chars hf _ _, hlbl _ fun k hk => (mem_labelWord.mp hk).1⟩

end

section
variable {A : ClAlg} {S T : Type} [Ring T] [DecidableEq T] [CoeffStorage S T] [LawfulStorage S T]

/-- Terms for the coefficients of a multivector add up to it. -/
theorem termsValue_enum (hA : A.WF) (alternate : Bool) {a : MV A S} (ha : a.Valid) {q : List (Nat × T)}
    (hqe : Enumerates A.dim q a.val) :
    termsValue (q.map fun p => ((if alternate then revC p.1 p.2 else p.2 : T), labelWord A alternate p.1)) ≈ᵣ .ok a := by
  let val : Nat × T → T := fun p => if alternate then revC p.1 p.2 else p.2
  let vs : List (T × List Nat) := q.map fun p => (val p, labelWord A alternate p.1)
  refine Agree.of_denotes (termsValue_denotes hA ha.supp vs ?_) (.of_valid ha) fun i hi => ?_
  · intro t ht
    rw [List.mem_map] at ht
    obtain ⟨p, hp, rfl⟩ := ht
    exact fun k hk => (mem_labelWord.mp hk).1
  · rw [List.map_map]
    have : q.map ((fun t : T × List Nat => single (evw A.sigma A.dim t.2).2 ((evw A.sigma A.dim t.2).1 • t.1) i) ∘
        fun p => (val p, labelWord A alternate p.1)) = q.map fun p => single p.1 p.2 i := by
      refine List.map_congr_left fun p hp => ?_
      have hp1 := (hqe.mem p hp).1
      have he := evw_word A.sigma hp1
      simp only [Function.comp]
      unfold labelWord
      cases halt : alternate
      · have hv : val p = p.2 := by simp [val, halt]
        simp [he, hv]
      · have hv : val p = revC p.1 p.2 := by simp [val, halt]
        obtain ⟨h1, h2⟩ := evw_reverse A.sigma A.dim (word A.dim p.1)
        simp only [if_true]
        rw [h1, h2, he, hv, revC_eq hp1, mul_one, smul_smul, rsg_mul_self, one_smul]
    rw [this, hqe.sum (fun j c => single j c i) (fun j => by unfold single; simp)]
    rw [Finset.sum_eq_single i]
    · simp [single]
    · intro j _ hj
      simp [single, hj.symm]
    · intro h; exact absurd (Finset.mem_range.mpr hi) h

/-- The terms that are printed add up to the multivector. -/
theorem termsValue_terms (hA : A.WF) (alternate : Bool) {a : MV A S} (ha : a.Valid) :
    termsValue ((a.coeffEnumerate.filter (fun p => decide (p.2 ≠ 0))).map fun p =>
      ((if alternate then revC p.1 p.2 else p.2 : T), labelWord A alternate p.1)) ≈ᵣ .ok a := by
  refine termsValue_enum hA alternate ha ((ha.enum.filter (fun p => decide (p.2 ≠ 0))).congr fun i _ => ?_)
  by_cases h : a.val i = 0 <;> simp [h]

/-- **C50.** The text of a multivector denotes it: reading the text back (see `Verif/Spec/Reader.lean`) and adding up the terms,
each the coefficient times the product of the named basis vectors in the order written, gives the multivector.  For both the
normal and the alternate form, with and without the `+` flag, whichever coefficients are put in parentheses, and any storage. -/
theorem C50_text_partial (hA : A.WF) (hN : GoodTextNames A) {fmtCoeff : T → String} {readC : String → Option T}
    (hf : GoodFmt fmtCoeff readC) (signCheck : T → String) (alternate signPlus : Bool) {a : MV A S} (ha : a.Valid) :
    ∃ ts, readText readC A.axisName A.dim (a.display fmtCoeff signCheck alternate signPlus) = some ts ∧
      termsValue ts ≈ᵣ .ok a := by
  refine ⟨_, readText_display hN hf signCheck alternate signPlus ha, ?_⟩
  unfold displayTerms
  set q : List (Nat × T) := a.coeffEnumerate.filter (fun p => decide (p.2 ≠ 0)) with hq
  have hqe : Enumerates A.dim q a.val := by
    refine (ha.enum.filter (fun p => decide (p.2 ≠ 0))).congr fun i _ => ?_
    by_cases h : a.val i = 0 <;> simp [h]
  dsimp only
  by_cases hq0 : q = []
  · rw [if_pos hq0]
    · refine Agree.of_denotes (termsValue_denotes hA ha.supp _ (by simp)) (.of_valid ha) fun i hi => ?_
      have : a.val i = 0 := by
        by_contra h
        have := hqe.complete i hi h
        rw [hq0] at this
        simp at this
      rw [this]
      simp [evw, single]
  · rw [if_neg hq0]
    exact termsValue_terms hA alternate ha

end

/-! ### Default names, integer coefficients -/

theorem nat_repr_digit {n : Nat} {c : Char} (hc : c ∈ (Nat.repr n).toList) : c.isDigit = true := by
  rw [Nat.repr_eq_ofList_toDigits, String.toList_ofList] at hc
  exact Nat.isDigit_of_mem_toDigits (by omega) (by omega) hc

theorem default_name (n : Nat) : axisNameFunc [] n = "e" ++ Nat.repr n := rfl

/-- **C50.** The names of the axes are the declared ones, in the declared order, and `e0`, `e1`, … without declared names; the labels
of the generators are these names. -/
theorem C50_declared_names {sig : List Sym} {names : List String} {A : ClAlg} (h : declareAlgebra sig names = some A) :
    (names ≠ [] → A.dim = names.length) ∧ ∀ i, (hi : i < A.dim) →
      A.axisName i = (if h : i < names.length then names[i] else s!"e{i}") ∧
      A.bladeLabel (2 ^ i) = A.axisName i ∧ A.bladeLabelRev (2 ^ i) = A.axisName i := by
  obtain ⟨-, hd, hdim, -, -, -, -, -, -, hn, hl⟩ := declareAlgebra_eq h
  refine ⟨fun hne => by rw [hdim]; exact (hl.resolve_left hne).symm, fun i hi => ⟨?_, ?_⟩⟩
  · rw [hn]
    rcases hl with rfl | hl
    · rfl
    · have hi' : i < names.length := by omega
      rw [dif_pos hi']
      cases names with
      | nil => simp at hi'
      | cons x xs => simp only [axisNameFunc, List.getElem?_eq_getElem hi', Option.getD_some]
  · have hw : ∀ alt, labelWord A alt (2 ^ i) = [i] := by
      have h1 : word A.dim (2 ^ i) = [i] := by
        have h2 : (List.range A.dim).filter (fun j => (2 ^ i).testBit j) = [i] := by
          have h3 : (List.range A.dim).filter (fun j => (2 ^ i).testBit j) = (List.range A.dim).filter (fun j => j == i) :=
            List.filter_congr fun j _ => by rw [Nat.testBit_two_pow]; by_cases hji : i = j <;> simp [hji, eq_comm (a := j)]
          rw [h3, List.filter_beq, List.count_eq_one_of_mem List.nodup_range (List.mem_range.mpr hi)]
          rfl
        unfold word
        simp only [h2, List.reverse_cons, List.reverse_nil, List.nil_append]
      intro alt
      unfold labelWord
      rw [h1]
      cases alt <;> rfl
    have hb := label_eq (A := A) (by omega) false (2 ^ i)
    have hr := label_eq (A := A) (by omega) true (2 ^ i)
    rw [hw] at hb hr
    exact ⟨hb, hr⟩

example : Ex.E.axisName 1 = "y" ∧ Ex.E.bladeLabel 4 = "z" :=
  ⟨((C50_declared_names Ex.E_decl).2 1 (by decide)).1, by
    rw [show (4 : Nat) = 2 ^ 2 from rfl, ((C50_declared_names Ex.E_decl).2 2 (by decide)).2.1]; rfl⟩

/-- **C50.** In an algebra declared without names the default names `e0`, `e1`, … meet the conditions of the theorems on labels
and texts, for every signature. -/
theorem C50_default_names {sig : List Sym} {A : ClAlg} (h : declareAlgebra sig [] = some A) : GoodTextNames A := by
  have hn : ∀ i, A.axisName i = "e" ++ Nat.repr i := by
    unfold declareAlgebra at h
    split at h
    · simp at h
    · split at h
      · simp at h
      · split at h
        · simp at h
        · injection h with h
          intro i
          rw [← h]
          rfl
  have hl : ∀ i, (A.axisName i).toList = 'e' :: (Nat.repr i).toList := fun i => by rw [hn]; simp
  have hx : ∀ i (c : Char), c.isDigit = false → c ≠ 'e' → c ∉ (A.axisName i).toList := by
    intro i c hc he hm
    rw [hl, List.mem_cons] at hm
    rcases hm with rfl | hm
    · exact he rfl
    · rw [nat_repr_digit hm] at hc; simp at hc
  refine ⟨⟨?_, ?_, ?_⟩, ?_, ?_⟩
  · intro i _ j _ hij
    have := congrArg String.toList hij
    rw [hl, hl] at this
    injection this with _ this
    exact Nat.repr_inj.mp (String.toList_inj.mp this)
  · intro i _ hc
    have := congrArg String.toList hc
    rw [hl] at this
    simp at this
  · exact fun i _ => hx i _ (by decide) (by decide)
  · exact fun i _ => hx i _ (by decide) (by decide)
  · intro i _ hc
    have := congrArg String.toList hc
    rw [hl] at this
    simp at this

theorem goodFmt_int : GoodFmt Int.repr String.toInt? where
  read := Int.toInt?_repr
  chars := by
    have key : ∀ (n : Nat) (c : Char), c ∈ (Nat.repr n).toList → c ≠ ' ' ∧ c ≠ '(' ∧ c ≠ ')' := by
      intro n c hc
      have := nat_repr_digit hc
      refine ⟨?_, ?_, ?_⟩ <;> (rintro rfl; exact absurd this (by decide))
    intro t c hc
    cases t with
    | ofNat m => exact key m c hc
    | negSucc m =>
      have : (Int.repr (Int.negSucc m)).toList = '-' :: (Nat.repr (m + 1)).toList := by simp [Int.repr]
      rw [this, List.mem_cons] at hc
      rcases hc with rfl | hc
      · decide
      · exact key _ c hc
  plus := by
    intro t h
    cases t with
    | ofNat m =>
      have : '+' ∈ (Nat.repr m).toList := by
        have h' : Nat.repr m = "+" := h
        rw [h']; decide
      exact absurd (nat_repr_digit this) (by decide)
    | negSucc m =>
      have : (Int.repr (Int.negSucc m)).toList = '-' :: (Nat.repr (m + 1)).toList := by simp [Int.repr]
      rw [h] at this
      simp at this

namespace Ex

/-- Names meeting the declaration's requirements but not those of the theorem: one contains `^`. -/
def Hat : ClAlg := (declareAlgebra [.plus, .plus, .plus] ["x", "y", "y^x"]).get rfl

/-- Names one of which is empty. -/
def Empty : ClAlg := (declareAlgebra [.plus, .plus] ["", "y"]).get rfl

end Ex

/-- **C50.** With distinct axis names alone distinct blades may have the same label: `y^x` may be the product of `y` and `x` or
the third generator, and a generator with the empty name has the label of the scalars. -/
theorem C50_labels_collide_false :
    (∃ A : ClAlg, declareAlgebra [.plus, .plus, .plus] ["x", "y", "y^x"] = some A ∧ A.dim = 3 ∧
      (∀ i < 3, ∀ j < 3, A.axisName i = A.axisName j → i = j) ∧ A.bladeLabel 3 = A.bladeLabel 4) ∧
    (∃ A : ClAlg, declareAlgebra [.plus, .plus] ["", "y"] = some A ∧ A.dim = 2 ∧
      (∀ i < 2, ∀ j < 2, A.axisName i = A.axisName j → i = j) ∧ A.bladeLabel 0 = A.bladeLabel 1) :=
  ⟨⟨Ex.Hat, rfl, rfl, by decide, by decide +kernel⟩, ⟨Ex.Empty, rfl, rfl, by decide, by decide +kernel⟩⟩

namespace Ex

theorem E_names : GoodTextNames E := ⟨⟨by decide, by decide, by decide⟩, by decide, by decide⟩

example : E.bladeLabel 5 = E.bladeLabel 6 → (5 : Nat) = 6 :=
  (C50_labels_distinct_partial E_names.toGoodNames (by decide) (by decide) (by decide)).1

example (alternate signPlus : Bool) :
    ∃ ts, readText String.toInt? M.axisName M.dim (mB.display Int.repr Int.repr alternate signPlus) = some ts ∧
      termsValue ts ≈ᵣ .ok mB :=
  C50_text_partial M_wf (C50_default_names M_decl) goodFmt_int Int.repr alternate signPlus mB_valid

/-- The text itself, in both forms. -/
example : mB.display Int.repr Int.repr false false =
    "(-1) e0 + 4 e1 + (-9) e1^e0 + 16 e2 + (-25) e2^e0 + 36 e2^e1 + (-49) e2^e1^e0" := by decide +kernel

example : mB.display Int.repr Int.repr true false =
    "(-1) e0 + 4 e1 + 9 e0^e1 + 16 e2 + 25 e0^e2 + (-36) e1^e2 + 49 e0^e1^e2" := by decide +kernel

end Ex

end TClifford
