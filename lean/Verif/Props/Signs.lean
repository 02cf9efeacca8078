import Verif.Props.Examples
import Verif.Proofs.Words
import Verif.Proofs.GradeIterCast
/-
C01, C02: signs of products of basis blades.  C22: grade iteration.  C42, C43: declaration of algebras.
-/

namespace TClifford

open Spec

/-! ### C01 -/

/-- **C01.** `blade_geo_product_sign` never panics for in-range indices; the sign it returns is the sign obtained by
concatenating the generator words (written in descending order) of the two blades and rewriting the result to a descending
word: it can be reached, and it is the only sign that can be reached. -/
theorem C01_blade_geo_product_sign {sig : List Sym} {names : List String} {A : ClAlg}
    (hA : declareAlgebra sig names = some A) {a b : Nat} (ha : a < 2 ^ sig.length) (hb : b < 2 ^ sig.length) :
    ∃ s, A.bladeGeoProductSign a b = .ok s ∧
      Rewrites (squareOf sig) (1, word sig.length a ++ word sig.length b) (s.toInt, word sig.length (a ^^^ b)) ∧
      ∀ t w, Rewrites (squareOf sig) (1, word sig.length a ++ word sig.length b) (t, w) → w.Pairwise (· > ·) →
        t = s.toInt ∧ w = word sig.length (a ^^^ b) := by
  have hd : A.dim = sig.length := (declareAlgebra_eq hA).2.2.1
  rw [← hd] at ha hb ⊢
  obtain ⟨s, h1, h2⟩ := ClAlg.bladeGeoProductSign_eq (declareAlgebra_wf hA) ha hb
  have h3 : bsgn A.sigma A.dim a b = bsgn (squareOf sig) A.dim a b :=
    bsgn_congr (fun i hi => squareOf_eq hA (by omega)) (fun _ _ => rfl) (fun _ _ => rfl)
  refine ⟨s, h1, ?_, ?_⟩
  · rw [h2, h3]; exact rewrites_product_exists ha hb
  · intro t w h hw
    rw [h2, h3]; exact rewrites_product ha hb h hw

/-- Non-vacuity: `e2^e1 * e1^e0` in `[+,-,0]` rewrites to `-1 * e2^e0`, and the model returns `Minus`. -/
example : word 3 6 = [2, 1] ∧ word 3 3 = [1, 0] ∧ Ex.M.bladeGeoProductSign 6 3 = .ok .Minus ∧
    Rewrites (squareOf Ex.sigM) (1, [2, 1] ++ [1, 0]) (-1, [2, 0]) := by
  obtain ⟨s, h1, h2, _⟩ := C01_blade_geo_product_sign Ex.M_decl (a := 6) (b := 3) (by decide) (by decide)
  have h : Ex.M.bladeGeoProductSign 6 3 = .ok .Minus := by decide +kernel
  rw [h] at h1
  cases h1
  exact ⟨by decide, by decide, h, h2⟩

/-- Wedge sign: null iff the blades share a generator, otherwise the reordering sign. -/
theorem C01_blade_wedge_product_sign {A : ClAlg} (hA : A.dim ≤ 64) {a b : Nat} (ha : a < 2 ^ A.dim) (hb : b < 2 ^ A.dim) :
    ∃ s, A.bladeWedgeProductSign a b = .ok s ∧
      Rewrites (fun _ => 0) (1, word A.dim a ++ word A.dim b) (s.toInt, word A.dim (a ^^^ b)) ∧
      ∀ t w, Rewrites (fun _ => 0) (1, word A.dim a ++ word A.dim b) (t, w) → w.Pairwise (· > ·) →
        t = s.toInt ∧ w = word A.dim (a ^^^ b) := by
  obtain ⟨s, h1, h2⟩ := ClAlg.bladeWedgeProductSign_eq hA ha hb
  refine ⟨s, h1, ?_, ?_⟩
  · rw [h2]; exact rewrites_product_exists ha hb
  · intro t w h hw
    rw [h2]; exact rewrites_product ha hb h hw

example : Ex.A7.bladeWedgeProductSign 0b0010010 0b1000101 = .ok .Minus ∧
    Rewrites (fun _ => 0) (1, [4, 1] ++ [6, 2, 0]) (-1, [6, 4, 2, 1, 0]) := by
  obtain ⟨s, h1, h2, _⟩ := C01_blade_wedge_product_sign (A := Ex.A7) (by decide) (a := 0b0010010) (b := 0b1000101)
    (by decide) (by decide)
  have h : Ex.A7.bladeWedgeProductSign 0b0010010 0b1000101 = .ok .Minus := by decide +kernel
  rw [h] at h1
  cases h1
  exact ⟨h, h2⟩

/-! ### C02 -/

/-- **C02.** The precomputed table contains the answer of the general loop, for every dimension it is used for. -/
theorem C02_table_eq_loop {d a b : Nat} (hd : d ≤ 6) (ha : a < 2 ^ d) (hb : b < 2 ^ d) :
    ClAlg.tableBit d a b = .ok (match acProductSignLoop d a b with
      | .Plus => 0
      | _ => 1) := by
  rw [tableBit_eq hd ha hb]
  cases acProductSignLoop d a b <;> rfl

example := C02_table_eq_loop (d := 6) (a := 0b101101) (b := 0b110011) (by decide) (by decide) (by decide)

/-- **C02.** Hence the answer never depends on the path: in every dimension `ac_product_sign` is the loop's answer and
`ac_negated_product_sign` the opposite. -/
theorem C02_path_independent {A : ClAlg} (hA : A.dim ≤ 64) {a b : Nat} (ha : a < 2 ^ A.dim) (hb : b < 2 ^ A.dim) :
    A.acProductSign a b = .ok (acProductSignLoop A.dim a b) ∧
    A.acNegatedProductSign a b = .ok (if acProductSignLoop A.dim a b = .Plus then .Minus else .Plus) := by
  have hl := acProductSignLoop_eq (a := a) hA hb
  rw [ClAlg.acProductSign_eq hA ha hb, ClAlg.acNegatedProductSign_eq hA ha hb, hl]
  unfold ClAlg.acSign
  refine ⟨rfl, ?_⟩
  split <;> rfl

example := C02_path_independent (A := Ex.A7) (a := 0b1011010) (b := 0b1100111) (by decide) (by decide) (by decide)

example : ClAlg.tableBit 6 0b101101 0b110010 = .ok 1 ∧ acProductSignLoop 6 0b101101 0b110010 = .Minus := by
  decide +kernel

/-! ### C22 -/

theorem nthCall_eq (w : Nat) (it : GradeIter w) (h : okState w it) (n : Nat) :
    (GradeIter.next w ((fun s => (GradeIter.next w s).2)^[n] it)).1 = (rem w it)[n]? := by
  induction n generalizing it with
  | zero =>
    have := next_spec w it h
    rw [Function.iterate_zero, id, this.1]
    cases rem w it <;> rfl
  | succ n ih =>
    have := next_spec w it h
    rw [Function.iterate_succ, Function.comp_apply, ih _ this.2.2, this.2.1]
    cases rem w it <;> simp

/-- The answer of the `n`-th call of `next()`, counted from 0; `none` if a call needs more than `fuel` nested calls. -/
def nthCall (chk : Bool) (fuel : Nat) : (n : Nat) → GIter → Option (Res (Option Nat))
  | 0, it => (it.next chk fuel).map (·.map Prod.fst)
  | n + 1, it => match it.next chk fuel with
    | none => none
    | some (.error e) => some (.error e)
    | some (.ok (_, it)) => nthCall chk fuel n it

theorem nthCall_toG (chk : Bool) {w : Nat} (hw : w < 2 ^ 63) (n : Nat) : ∀ (it : GradeIter w), Good w it →
    ∃ m, ∀ fuel ≥ m, nthCall chk fuel n (toG w it) =
      some (.ok (GradeIter.next w ((fun s => (GradeIter.next w s).2)^[n] it)).1) := by
  induction n with
  | zero =>
    intro it hg
    obtain ⟨_, m, h⟩ := toG_next chk w it hw hg
    exact ⟨m, fun fuel hf => by rw [nthCall, h fuel hf]; rfl⟩
  | succ n ih =>
    intro it hg
    obtain ⟨h1, m, h⟩ := toG_next chk w it hw hg
    obtain ⟨m', h'⟩ := ih _ h1
    refine ⟨max m m', fun fuel hf => ?_⟩
    rw [nthCall, h fuel (by omega)]
    exact h' fuel (by omega)

/-- **C22.** The calls of `next()` on `grade_index_iter(k)` answer the elements of a list and then `None` forever; the list
is strictly decreasing, contains exactly the indices below `2^dim` with `k` set bits, and has `binomial(dim, k)` elements.
No arithmetic overflows, so the debug (`chk`) and the release build agree.

Missing: `k ≥ 2^63`, for which this is false (`C22_huge_grade_false`). -/
theorem C22_grade_iter_partial (chk : Bool) {dim k : Nat} (hd : dim ≤ 64) (hk : k < 2 ^ 63) :
    ∃ (l : List Nat) (it : GIter), GIter.new chk dim k = .ok it ∧
      (∀ n, ∃ m, ∀ fuel ≥ m, nthCall chk fuel n it = some (.ok l[n]?)) ∧ gradeIterList dim k = l ∧
      l.Pairwise (· > ·) ∧ l.length = dim.choose k ∧
      ∀ x, x ∈ l ↔ x < 2 ^ dim ∧ ((List.range dim).filter (fun i => x.testBit i)).length = k := by
  have hcnt : ∀ n x, ((List.range n).filter (fun i => x.testBit i)).length = cnt n x := by
    intro n x
    induction n with
    | zero => rfl
    | succ n ih =>
      rw [List.range_succ, List.filter_append, List.length_append, ih, cnt_succ]
      cases h : x.testBit n <;> simp [h]
  refine ⟨comb k dim, _, toG_new chk k hd, ?_, gradeIterList_eq hd, comb_sorted k dim, comb_length k dim, ?_⟩
  · intro n
    obtain ⟨m, h⟩ := nthCall_toG chk hk n _ (good_new k hd)
    refine ⟨m, fun fuel hf => ?_⟩
    rw [h fuel hf, nthCall_eq _ _ (okState_gradeIter k (by omega)), rem_gradeIter, if_neg (by omega), Int.toNat_natCast]
  · intro x; rw [mem_comb, hcnt]

/-- **C22.** `index_iter()` yields every index below `2^dim` once, in increasing order; and up to order it is what
`grade_index_iter(0)`, …, `grade_index_iter(dim)` yield together. -/
theorem C22_index_iter {A : ClAlg} (hd : A.dim ≤ 63) :
    A.indexIter.Pairwise (· < ·) ∧ (∀ i, i ∈ A.indexIter ↔ i < 2 ^ A.dim) ∧
      A.indexIter.Perm ((List.range (A.dim + 1)).flatMap (gradeIterList A.dim)) := by
  have h : A.indexIter = List.range (2 ^ A.dim) := by
    unfold ClAlg.indexIter
    rw [ushl_one (by omega)]
  rw [h]
  refine ⟨List.pairwise_lt_range, fun i => List.mem_range, (List.perm_ext_iff_of_nodup List.nodup_range ?_).mpr ?_⟩
  · rw [List.nodup_flatMap]
    refine ⟨fun k _ => ?_, List.nodup_range.imp_of_mem ?_⟩
    · rw [gradeIterList_eq (by omega)]
      exact (comb_sorted k A.dim).imp fun h => by omega
    · intro k l _ _ hkl x hx hx'
      rw [gradeIterList_eq (by omega), mem_comb] at hx hx'
      exact hkl (hx.2.symm.trans hx'.2)
  · intro i
    rw [List.mem_range, List.mem_flatMap]
    constructor
    · intro hi
      refine ⟨cnt A.dim i, List.mem_range.mpr (Nat.lt_succ_of_le (cnt_le _ _)), ?_⟩
      rw [gradeIterList_eq (by omega), mem_comb]
      exact ⟨hi, rfl⟩
    · rintro ⟨k, _, hk⟩
      rw [gradeIterList_eq (by omega), mem_comb] at hk
      exact hk.1

example := C22_index_iter (A := Ex.A7) (by decide)
example : Ex.M.indexIter = [0, 1, 2, 3, 4, 5, 6, 7] := by decide +kernel

/-- **C22, finding.** For grades `k ≥ 2^63` the first call of `next()` on `grade_index_iter(k)` does not return within `2^63 - 3`
nested calls, because `self.weight as isize` is negative; so `grade_extract(k)` of a dense multivector hangs or overflows
the stack, instead of giving zero. -/
theorem C22_huge_grade_false (chk : Bool) {dim k : Nat} (hd : dim ≤ 64) (hk : 2 ^ 63 ≤ k) (hk' : k < 2 ^ 64) :
    ∃ it, GIter.new chk dim k = .ok it ∧ ∀ fuel ≤ 2 ^ 63 - 3, nthCall chk fuel 0 it = none := by
  refine ⟨.leaf k (dim - 1), ?_, fun fuel hf => ?_⟩
  · unfold GIter.new
    rw [asIsize_small (by omega), isz_ok (by omega) (by omega)]; rfl
  · rw [nthCall, next_stuck chk fuel (.leaf k ((dim : Int) - 1)) ⟨hk, hk', by omega, by omega, by omega⟩]; rfl

example := C22_huge_grade_false true (dim := 3) (k := 2 ^ 63 + 5) (by decide) (by decide) (by decide)

example : ∃ it, GIter.new true 4 2 = .ok it ∧ (∃ m, ∀ fuel ≥ m, nthCall true fuel 1 it = some (.ok (some 10))) ∧
    ∃ m, ∀ fuel ≥ m, nthCall true fuel 6 it = some (.ok none) := by
  obtain ⟨l, it, h0, h1, h2, _⟩ := C22_grade_iter_partial true (dim := 4) (k := 2) (by decide) (by decide)
  have h : gradeIterList 4 2 = [12, 10, 9, 6, 5, 3] := by
    rw [gradeIterList_eq (by decide)]; decide
  rw [h] at h2
  subst h2
  exact ⟨it, h0, h1 1, h1 6⟩

/-- The machine, run by the kernel. -/
example : nthCall false 20 1 (.leaf 2 3) = some (.ok (some 10)) ∧ nthCall true 20 6 (.leaf 2 3) = some (.ok none) ∧
    nthCall true 20 0 (.leaf 5 3) = some (.ok none) ∧ nthCall true 20 0 (.leaf (2 ^ 64 - 1) 3) = none := by decide +kernel

/-! ### C42 -/

/-- **C42.** `declare_algebra!` compiles exactly for non-empty signatures of at most 64 generators whose null generators come
last, with no names or one name per generator. -/
theorem C42_accepts_iff (sig : List Sym) (names : List String) :
    (declareAlgebra sig names).isSome = true ↔
      sig ≠ [] ∧ sig.length ≤ 64 ∧ (names = [] ∨ names.length = sig.length) ∧
      ∀ i j (hi : i < sig.length) (hj : j < sig.length), i < j → sig[i] = .null → sig[j] = .null := by
  have horder : orderCheck sig = true ↔ sig ≠ [] ∧
      ∀ i j (hi : i < sig.length) (hj : j < sig.length), i < j → sig[i] = .null → sig[j] = .null := by
    rw [orderCheck_iff]
    refine and_congr_right ?_
    intro _
    constructor
    · rintro ⟨l, m, rfl, hl⟩ i j hi hj hij hnull
      rw [List.getElem_append] at hnull
      split at hnull
      · exact absurd (hnull ▸ List.getElem_mem _) hl
      · rw [List.getElem_append_right (by omega)]
        simp
    · intro h
      induction sig with
      | nil => exact ⟨[], 0, rfl, by simp⟩
      | cons t ts ih =>
        have hts : ∀ i j (hi : i < ts.length) (hj : j < ts.length), i < j → ts[i] = .null → ts[j] = .null := by
          intro i j hi hj hij hn
          exact h (i + 1) (j + 1) (by simpa using hi) (by simpa using hj) (by omega) hn
        by_cases hnil : ts = []
        · subst hnil
          cases t
          · exact ⟨[.plus], 0, by simp, by simp⟩
          · exact ⟨[.minus], 0, by simp, by simp⟩
          · exact ⟨[], 1, by simp, by simp⟩
        obtain ⟨l, m, hlm, hl⟩ := ih hnil hts
        by_cases ht : t = .null
        · refine ⟨[], ts.length + 1, ?_, by simp⟩
          subst ht
          rw [List.nil_append, List.replicate_succ]
          congr 1
          rw [List.eq_replicate_iff]
          refine ⟨rfl, ?_⟩
          intro b hb
          obtain ⟨j, hj, rfl⟩ := List.mem_iff_getElem.mp hb
          exact h 0 (j + 1) (by simp) (by simpa using hj) (by omega) rfl
        · exact ⟨t :: l, m, by rw [hlm]; rfl, by simp [hl]; exact Ne.symm ht⟩
  unfold declareAlgebra
  constructor
  · intro h
    split at h
    · simp at h
    · rename_i h1
      split at h
      · simp at h
      · rename_i h2
        split at h
        · simp at h
        · rename_i h3
          obtain ⟨g1, g2⟩ := horder.mp (by simpa using h1)
          refine ⟨g1, by omega, ?_, g2⟩
          by_cases hn : names = []
          · exact Or.inl hn
          · right; by_contra hc; exact h2 ⟨hn, hc⟩
  · rintro ⟨h1, h2, h3, h4⟩
    rw [if_neg (by rw [horder.mpr ⟨h1, h4⟩]; simp), if_neg (by tauto), if_neg (by omega)]
    rfl

example : declareAlgebra [.plus, .null, .minus] [] = none := by
  rw [← Option.not_isSome_iff_eq_none, C42_accepts_iff]
  exact fun h => absurd (h.2.2.2 1 2 (by decide) (by decide) (by decide) rfl) (by decide)

/-- **C42.** The declared algebra has the declared dimension and signature; the masks partition the generators; the three
counts count the tokens. -/
theorem C42_declared {sig : List Sym} {names : List String} {A : ClAlg} (h : declareAlgebra sig names = some A) :
    A.dim = sig.length ∧ A.signature = sig.map Sym.square ∧
    A.realDim = sig.count .plus ∧ A.imagDim = sig.count .minus ∧ A.projDim = sig.count .null ∧
    A.realMask < 2 ^ A.dim ∧ A.imagMask < 2 ^ A.dim ∧ A.projMask < 2 ^ A.dim ∧
    ∀ i (hi : i < sig.length),
      (A.realMask.testBit i = true ↔ sig[i] = .plus) ∧ (A.imagMask.testBit i = true ↔ sig[i] = .minus) ∧
      (A.projMask.testBit i = true ↔ sig[i] = .null) := by
  obtain ⟨_, h64, hd, hr, him, hp, hrd, hid, hpd, _⟩ := declareAlgebra_eq h
  have hm := (declareAlgebra_wf h).mask_lt
  refine ⟨hd, declareAlgebra_signature h, ?_, ?_, ?_, hm.1, hm.2.1, hm.2.2, ?_⟩
  · rw [hrd, hr, countOnes_produceMask _ h64]
  · rw [hid, him, countOnes_produceMask _ h64]
  · rw [hpd, hp, countOnes_produceMask _ h64]
  · intro i hi
    rw [hr, him, hp]
    simp only [produceMask_testBit _ _ _ _ (show 0 + sig.length ≤ 64 by omega), Nat.sub_zero,
      List.getElem?_eq_getElem hi]
    simp

example : Ex.A7.signature = [1, -1, 1, -1, 1, 0, 0] ∧ Ex.A7.realMask = 0b10101 ∧ Ex.A7.imagMask = 0b1010 ∧
    Ex.A7.projMask = 0b1100000 ∧ declareAlgebra [.plus, .null, .minus] [] = none := by decide +kernel

example : Ex.A7.signature = Ex.sig7.map Sym.square := (C42_declared Ex.A7_decl).2.1

/-- **C42, marker traits.** `NonDegenerate`: no null generator. -/
theorem C42_nonDegenerate_iff (sig : List Sym) : implNonDegenerate sig = true ↔ sig ≠ [] ∧ Sym.null ∉ sig := by
  induction sig with
  | nil => simp [implNonDegenerate]
  | cons t ts ih =>
    match ts, t with
    | [], .plus => simp [implNonDegenerate]
    | [], .minus => simp [implNonDegenerate]
    | [], .null => simp [implNonDegenerate]
    | u :: us, .plus =>
      rw [show implNonDegenerate (.plus :: u :: us) = implNonDegenerate (u :: us) from rfl, ih]; simp
    | u :: us, .minus =>
      rw [show implNonDegenerate (.minus :: u :: us) = implNonDegenerate (u :: us) from rfl, ih]; simp
    | u :: us, .null => simp [implNonDegenerate]

example : implNonDegenerate [.plus, .minus, .plus] = true := (C42_nonDegenerate_iff _).mpr (by decide)

/-- **C42, marker traits.** `SplitSignature`: one or more copies of `+,-`. -/
theorem C42_split_iff (sig : List Sym) :
    implSplitSignature sig = true ↔ ∃ m, sig = (List.replicate (m + 1) [Sym.plus, Sym.minus]).flatten := by
  constructor
  · intro h
    induction hn : sig.length using Nat.strong_induction_on generalizing sig with
    | _ n ih =>
      match sig, h with
      | [.plus, .minus], _ => exact ⟨0, rfl⟩
      | .plus :: .minus :: t :: ts, h =>
        have h' : implSplitSignature (t :: ts) = true := by
          rw [← h]; rfl
        simp only [List.length_cons] at hn
        obtain ⟨m, hm⟩ := ih (t :: ts).length (by simp; omega) (t :: ts) h' rfl
        refine ⟨m + 1, ?_⟩
        rw [hm, List.replicate_succ (n := m + 1)]; rfl
  · rintro ⟨m, rfl⟩
    induction m with
    | zero => rfl
    | succ m ih =>
      rw [List.replicate_succ, List.flatten_cons]
      rcases hl : (List.replicate (m + 1) [Sym.plus, Sym.minus]).flatten with _ | ⟨t, ts⟩
      · rw [hl] at ih; simp [implSplitSignature] at ih
      · rw [hl] at ih
        rw [← ih]
        rfl

example : implSplitSignature [.plus, .minus, .plus, .minus] = true := (C42_split_iff _).mpr ⟨1, rfl⟩

/-- **C42, marker traits.** `PGAlgebra<d>`: `d ≥ 1` times `+`, then one `0`. -/
theorem C42_pga_iff (sig : List Sym) (d : Nat) :
    implPga sig = some d ↔ 1 ≤ d ∧ sig = List.replicate d Sym.plus ++ [.null] := by
  have h1 : ∀ sig, pgaMatch sig = true ↔ ∃ d, sig = List.replicate (d + 1) Sym.plus ++ [.null] := by
    intro sig
    induction sig with
    | nil =>
      constructor
      · intro h; simp [pgaMatch] at h
      · rintro ⟨d, h⟩; simp [List.replicate_succ] at h
    | cons t ts ih =>
      constructor
      · intro h
        match t, ts, h with
        | .plus, [.null], _ => exact ⟨0, rfl⟩
        | .plus, [.plus], h => simp [pgaMatch] at h
        | .plus, [.minus], h => simp [pgaMatch] at h
        | .plus, [], h => simp [pgaMatch] at h
        | .plus, u :: v :: ts, h =>
          have h' : pgaMatch (u :: v :: ts) = true := by
            revert h; conv_lhs => unfold pgaMatch
            simp
          obtain ⟨d, hd⟩ := ih.mp h'
          exact ⟨d + 1, by rw [hd, List.replicate_succ (n := d + 1)]; rfl⟩
        | .minus, ts, h => simp [pgaMatch] at h
        | .null, ts, h => simp [pgaMatch] at h
      · rintro ⟨d, hd⟩
        rw [List.replicate_succ, List.cons_append] at hd
        obtain ⟨rfl, rfl⟩ := List.cons.inj hd
        cases d with
        | zero => rfl
        | succ d =>
          have := ih.mpr ⟨d, rfl⟩
          revert this
          rcases hl : List.replicate (d + 1) Sym.plus ++ [Sym.null] with _ | ⟨u, us⟩
          · simp at hl
          · intro this
            rcases us with _ | ⟨v, vs⟩
            · cases d <;> simp [List.replicate_succ] at hl
            · rw [← this]
              conv_lhs => unfold pgaMatch
              simp
  unfold implPga
  by_cases h : pgaMatch sig = true
  · rw [if_pos h]
    obtain ⟨e, rfl⟩ := (h1 sig).mp h
    simp only [List.length_append, List.length_replicate, List.length_singleton, Nat.add_sub_cancel, Option.some.injEq]
    constructor
    · rintro rfl; exact ⟨by omega, rfl⟩
    · rintro ⟨_, h2⟩
      have := congrArg List.length h2
      simpa using this
  · rw [if_neg h]
    constructor
    · intro hc; exact absurd hc (by simp)
    · rintro ⟨hd, rfl⟩
      exfalso; apply h
      obtain ⟨e, rfl⟩ : ∃ e, d = e + 1 := ⟨d - 1, by omega⟩
      exact (h1 _).mpr ⟨e, rfl⟩

example : implPga [.plus, .plus, .plus, .null] = some 3 := (C42_pga_iff _ _).mpr ⟨by decide, rfl⟩

/-- **C42, marker traits.** `ComplexAlgebra` is exactly `[-]`, `QuaternionicAlgebra` exactly `[-,-]`, and `DivisionAlgebra`
exactly these two. -/
theorem C42_division_iff (sig : List Sym) :
    (implComplex sig = true ↔ sig = [.minus]) ∧ (implQuaternionic sig = true ↔ sig = [.minus, .minus]) ∧
    (implDivision sig = true ↔ sig = [.minus] ∨ sig = [.minus, .minus]) := by
  refine ⟨by simp [implComplex], by simp [implQuaternionic], by simp [implDivision, implComplex, implQuaternionic]⟩

example : implDivision [.minus, .minus] = true := (C42_division_iff _).2.2.mpr (.inr rfl)

example : implPga [.plus, .plus, .plus, .null] = some 3 ∧ implPga [.plus, .minus, .null] = none ∧
    implSplitSignature [.plus, .minus, .plus, .minus] = true ∧ implSplitSignature [.plus, .minus, .plus] = false ∧
    implNonDegenerate [.plus, .minus] = true ∧ implDivision [.minus, .minus] = true := by decide

/-! ### C43 -/

/-- **C43 (what holds).** For every accepted algebra with at most 63 generators, a coefficient stored in a sparse multivector
at an in-range index can be read back.
Missing for the full claim: algebras with 64 generators, for which it is false, see `C43_not_usable_64`. -/
theorem C43_usable_partial {sig : List Sym} {names : List String} {A : ClAlg} (_hA : declareAlgebra sig names = some A)
    (h63 : sig.length ≤ 63) {T : Type} [Ring T] [DecidableEq T] [HashOrder T] {i : Nat} (hi : i < 2 ^ sig.length) (v : T) :
    ∃ z : MV A (SparseStorage T), MV.default (T := T) = .ok z ∧ (z.setByIdx i v).getByIdx i = .ok v := by
  have hd : A.dim = sig.length := (declareAlgebra_eq _hA).2.2.1
  have hsupp : LawfulStorage.Supp (S := SparseStorage T) (T := T) A.dim := show A.dim ≤ 63 by omega
  obtain ⟨z, h1, h2, h3⟩ := MV.default_denotes (A := A) (S := SparseStorage T) (T := T) hsupp
  refine ⟨z, h1, ?_⟩
  have hi' : i < 2 ^ A.dim := by rw [hd]; exact hi
  rw [(h2.set i v).get hi', h2.set_val hi']; simp

example :
    letI : HashOrder ℤ := Ex.revOrder
    ∃ z : MV Ex.A7 (SparseStorage ℤ), MV.default (T := ℤ) = .ok z ∧ (z.setByIdx 100 (7 : ℤ)).getByIdx 100 = .ok (7 : ℤ) :=
  letI : HashOrder ℤ := Ex.revOrder
  C43_usable_partial Ex.A7_decl (by decide) (by decide) 7

/-- **C43 is false for 64 generators:** the macro accepts the signature, but `1 << 64` wraps to 1 (it panics in a debug
build), so a coefficient written at an in-range index is dropped. -/
theorem C43_not_usable_64 (T : Type) [Ring T] [DecidableEq T] [Nontrivial T] [HashOrder T] :
    ∃ (A : ClAlg), declareAlgebra (List.replicate 64 Sym.plus) [] = some A ∧ ∃ i < 2 ^ A.dim,
      ∃ z : MV A (SparseStorage T), MV.default (T := T) = .ok z ∧ (z.setByIdx i (1 : T)).getByIdx i = .ok (0 : T) := by
  refine ⟨_, rfl, 5, by decide, _, rfl, ?_⟩
  show Except.ok (SparseStorage.getByIdx (SparseStorage.setByIdx (SparseStorage.new 64) 5 1) 5) = _
  rw [SparseStorage.setByIdx, if_neg]
  · rfl
  · show ¬ 5 < ushl 1 64
    decide

end TClifford
