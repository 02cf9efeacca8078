import Verif.Proofs.Complexify
import Verif.Props.Product
import Verif.Props.Examples
/-
The algebra `Even<A>` in which `ifft` collects its result, and the way back from it: C60.
-/

set_option linter.unusedSectionVars false

namespace TClifford

open MV Finset

/-! ### Signs and products in the larger algebra -/

theorem par_ins {p n : Nat} (hp : p ≤ n) (a : Nat) : par (n + 1) (ins p a) = par n a := by
  induction n, hp using Nat.le_induction with
  | base =>
    rw [par_succ, ins_testBit, if_neg (by omega), if_pos rfl, Bool.xor_false]
    exact par_congr fun i hi => by rw [ins_testBit, if_pos hi]
  | succ n hn ih => rw [par_succ, ih, ins_testBit, if_neg (by omega), if_neg (by omega), par_succ]; rfl

theorem bsgn_ins {σ τ : Nat → ℤ} {p n : Nat} (hp : p ≤ n) (h1 : ∀ i < p, τ i = σ i) (h2 : ∀ i, p ≤ i → i < n → τ (i + 1) = σ i)
    (a b : Nat) : bsgn τ (n + 1) (ins p a) (ins p b) = bsgn σ n a b := by
  induction n, hp using Nat.le_induction with
  | base =>
    rw [bsgn_succ, ins_testBit, ins_testBit, if_neg (by omega), if_pos rfl]
    simp only [if_neg (lt_irrefl p), if_true, Bool.false_and, sg_false, mul_one, cond_false]
    exact bsgn_congr h1 (fun i hi => by rw [ins_testBit, if_pos hi]) (fun i hi => by rw [ins_testBit, if_pos hi])
  | succ n hn ih =>
    have ht : ∀ c : Nat, (ins p c).testBit (n + 1) = c.testBit n := fun c => by
      rw [ins_testBit, if_neg (by omega), if_neg (by omega)]; rfl
    rw [bsgn_succ, ih (fun i hi hi' => h2 i hi (by omega)), ht, ht, par_ins hn, h2 n hn (by omega), bsgn_succ]

theorem ins_xor (p a b : Nat) : ins p (a ^^^ b) = ins p a ^^^ ins p b := by
  apply Nat.eq_of_testBit_eq
  intro i
  simp only [Nat.testBit_xor, ins_testBit]
  split
  · rfl
  · split
    · rfl
    · rfl

/-- The product of multivectors that do not involve the generator `p` can be computed without it. -/
theorem geo_ins {T : Type} [Ring T] {σ τ : Nat → ℤ} {p n : Nat} (hp : p ≤ n) (h1 : ∀ i < p, τ i = σ i)
    (h2 : ∀ i, p ≤ i → i < n → τ (i + 1) = σ i) (f g : Nat → T) (hf : ∀ i < 2 ^ (n + 1), i.testBit p = true → f i = 0) (k : Nat) :
    geo τ (n + 1) f g (ins p k) = geo σ n (fun i => f (ins p i)) (fun i => g (ins p i)) k := by
  unfold geo
  symm
  refine Finset.sum_of_injOn (ins p) ?_ ?_ ?_ ?_
  · intro i _ j _ hij
    have := congrArg (rmv p) hij
    rwa [rmv_ins, rmv_ins] at this
  · intro i hi
    simp only [Finset.coe_range, Set.mem_Iio] at hi ⊢
    exact ins_lt hp hi
  · intro i hi hni
    rw [mem_range] at hi
    rcases hb : i.testBit p with _ | _
    · exact absurd ⟨rmv p i, by simpa using rmv_lt hp hi, ins_rmv hb⟩ hni
    · rw [hf i hi hb]; simp
  · intro i _
    rw [← ins_xor, bsgn_ins hp h1 h2]

/-! ### C60 -/

section
variable {A : ClAlg}

theorem even_sigma (hA : A.WF) (hd : A.dim < 64) (ho : A.nn % 2 = 1) :
    (∀ i < A.nn, A.even.sigma i = A.sigma i) ∧ A.even.sigma A.nn = 1 ∧
      ∀ i, A.nn ≤ i → i < A.dim → A.even.sigma (i + 1) = A.sigma i := by
  have hne : ¬ (A.realDim + A.imagDim) % 2 = 0 := by unfold ClAlg.nn at ho; omega
  have hpm : A.even.projMask = ushl A.projMask 1 := if_neg hne
  have hp : A.projMask < 2 ^ A.dim := hA.mask_lt.2.2
  have hs : ushl A.projMask 1 = A.projMask <<< 1 := by
    refine ushl_of_lt (n := A.dim + 1) ?_ (by omega) (by norm_num)
    rw [Nat.shiftLeft_eq, pow_succ]; omega
  have hsb : ∀ i, A.even.projMask.testBit i = (decide (A.nn + 1 ≤ i) && decide (i < A.dim + 1)) := by
    intro i
    rw [hpm, hs, Nat.testBit_shiftLeft, hA.testBit_proj]
    rcases i with _ | i
    · simp
    · simp
  have him : A.even.imagMask = A.imagMask := rfl
  refine ⟨fun i hi => ?_, ?_, fun i hi hi' => ?_⟩
  · rw [hA.sigma_nonnull hi]
    unfold ClAlg.sigma
    rw [hsb, him]
    simp [show ¬ A.nn + 1 ≤ i by omega]
  · unfold ClAlg.sigma
    rw [hsb, him, hA.testBit_imag_of_le le_rfl]
    simp
  · rw [hA.sigma_null hi hi']
    unfold ClAlg.sigma
    rw [hsb, him, hA.testBit_imag_of_le (by omega)]
    simp [hi, hi']

theorem ClAlg.WF.even (hA : A.WF) (hd : A.dim < 64) : A.even.WF := by
  by_cases he : (A.realDim + A.imagDim) % 2 = 0
  · have e : A.even = { A with axisName := A.even.axisName } := by
      unfold ClAlg.even
      simp only [he, if_true]
    rw [e]
    exact ⟨hA.dim_le, hA.dims, hA.nonnull, hA.disjoint, hA.null, hA.realDim_eq, hA.imagDim_eq, hA.projDim_eq⟩
  · have hnn := hA.nn_le
    have hdims := hA.dims
    have hsh : ushl 1 (A.realDim + A.imagDim) = 2 ^ A.nn := ushl_one (by unfold ClAlg.nn at hnn; omega)
    have hp : A.projMask < 2 ^ A.dim := hA.mask_lt.2.2
    have hs : ushl A.projMask 1 = 2 ^ (A.dim + 1) - 2 ^ (A.nn + 1) := by
      have : ushl A.projMask 1 = A.projMask <<< 1 := by
        refine ushl_of_lt (n := A.dim + 1) ?_ (by omega) (by norm_num)
        rw [Nat.shiftLeft_eq, pow_succ]; omega
      rw [this, Nat.shiftLeft_eq, hA.null, Nat.sub_mul, ← pow_succ, pow_one, ← pow_succ]; rfl
    have hd1 : A.even.dim = A.dim + 1 := if_neg he
    have hr1 : A.even.realMask = A.realMask ||| 2 ^ A.nn := by rw [← hsh]; exact if_neg he
    have hp1 : A.even.projMask = 2 ^ (A.dim + 1) - 2 ^ (A.nn + 1) := by rw [← hs]; exact if_neg he
    have hrd : A.even.realDim = A.realDim + 1 := if_neg he
    have hi1 : A.even.imagMask = A.imagMask := rfl
    have hid : A.even.imagDim = A.imagDim := rfl
    have hpd : A.even.projDim = A.projDim := rfl
    refine ⟨by omega, by omega, ?_, ?_, ?_, ?_, ?_, ?_⟩
    · rw [hr1, hi1, hrd, hid, show A.realDim + 1 + A.imagDim = A.nn + 1 by unfold ClAlg.nn; omega]
      apply Nat.eq_of_testBit_eq
      intro i
      rw [Nat.testBit_or, Nat.testBit_or, Nat.testBit_two_pow_sub_one, Nat.testBit_two_pow]
      have := hA.testBit_nonnull i
      by_cases h : i < A.nn
      · rw [decide_eq_true h] at this
        rw [decide_eq_true (show i < A.nn + 1 by omega)]
        revert this
        cases A.realMask.testBit i <;> cases A.imagMask.testBit i <;> simp
      · rw [decide_eq_false h] at this
        rw [Bool.or_eq_false_iff] at this
        rw [this.1, this.2]
        by_cases h' : A.nn = i
        · simp [h']
        · simp [h']; omega
    · rw [hr1, hi1]
      apply Nat.eq_of_testBit_eq
      intro i
      rw [Nat.testBit_and, Nat.testBit_or, Nat.zero_testBit, Nat.testBit_two_pow]
      have := hA.testBit_disjoint i
      by_cases h' : A.nn = i
      · rw [hA.testBit_imag_of_le (by omega)]; simp
      · simpa [h'] using this
    · rw [hp1, hd1, hrd, hid, show A.realDim + 1 + A.imagDim = A.nn + 1 by unfold ClAlg.nn; omega]
    · have hdis : A.realMask &&& 2 ^ A.nn = 0 := by
        apply Nat.eq_of_testBit_eq
        intro i
        rw [Nat.testBit_and, Nat.zero_testBit, Nat.testBit_two_pow]
        by_cases h' : A.nn = i
        · rw [hA.testBit_real_of_le (by omega)]; simp
        · simp [h']
      have hlt : A.realMask ||| 2 ^ A.nn < 2 ^ (A.dim + 1) :=
        Nat.or_lt_two_pow (lt_of_lt_of_le hA.mask_lt.1 (Nat.pow_le_pow_right (by norm_num) (by omega)))
          (Nat.pow_lt_pow_right (by norm_num) (by omega))
      rw [hrd, hr1, hA.realDim_eq, countOnes_eq_cnt hA.mask_lt.1, countOnes_eq_cnt hlt, cnt_or_of_disjoint hdis,
        cnt_of_le (m := A.dim + 1) hA.mask_lt.1 (by omega), cnt_two_pow (by omega)]
    · rw [hid, hi1, hA.imagDim_eq]
    · have hp2 : A.even.projMask = 2 * A.projMask := by
        rw [hp1, hA.null, pow_succ, pow_succ, Nat.mul_sub, mul_comm 2, mul_comm 2]; rfl
      rw [hpd, hp2, hA.projDim_eq, countOnes_eq_cnt hp, countOnes_eq_cnt (n := A.dim + 1) (by rw [pow_succ]; omega), cnt_succ']
      simp

theorem signature_eq (hA : A.WF) : A.signature = (List.range A.dim).map A.sigma := by
  unfold ClAlg.signature
  refine List.map_congr_left fun i hi => ?_
  have hi : i < A.dim := List.mem_range.mp hi
  have := hA.dim_le
  rw [ushl_one (by omega)]
  simp only [two_pow_and_ne_zero]
  have h1 := hA.testBit_nonnull i
  have h2 := hA.testBit_disjoint i
  by_cases hn : i < A.nn
  · rw [hA.sigma_nonnull hn]
    rw [decide_eq_true hn] at h1
    revert h1 h2
    cases A.realMask.testBit i <;> cases A.imagMask.testBit i <;> simp
  · rw [hA.sigma_null (by omega) hi, hA.testBit_real_of_le (by omega), hA.testBit_imag_of_le (by omega)]
    simp

/-- **C60.** `Even<A>` has an even number of generators with non-zero square: if `A` has an odd number of them, then one more with
square `+1`, displayed as `?`, is put behind them and before the generators with square `0`. -/
theorem C60_even {sig : List Sym} {names : List String} (hA : declareAlgebra sig names = some A) (hd : A.dim < 64) :
    A.even.WF ∧ (A.even.realDim + A.even.imagDim) % 2 = 0 ∧
    A.even.signature = (if (sig.filter (· ≠ .null)).length % 2 = 0 then sig
      else sig.filter (· ≠ .null) ++ [.plus] ++ sig.filter (· = .null)).map Sym.square ∧
    (List.range A.even.dim).map A.even.axisName =
      if (sig.filter (· ≠ .null)).length % 2 = 0 then (List.range A.dim).map A.axisName
      else ((List.range A.dim).map A.axisName).insertIdx (sig.filter (· ≠ .null)).length "?" := by
  have hwf := declareAlgebra_wf hA
  have hE := hwf.even hd
  obtain ⟨hoc, hlen, hdim, hr, hi, hp, hrd, hid, hpd, _, _⟩ := declareAlgebra_eq hA
  obtain ⟨_, l, m, hsig, hl⟩ := (orderCheck_iff sig).mp hoc
  have hf1 : sig.filter (· ≠ .null) = l := by
    rw [hsig, List.filter_append, List.filter_eq_self.mpr, List.filter_eq_nil_iff.mpr, List.append_nil]
    · intro x hx; simp [List.eq_of_mem_replicate hx]
    · intro x hx; simp only [ne_eq, decide_not, Bool.not_eq_true', decide_eq_false_iff_not]; exact fun h => hl (h ▸ hx)
  have hf2 : sig.filter (· = .null) = List.replicate m .null := by
    rw [hsig, List.filter_append, List.filter_eq_nil_iff.mpr, List.filter_eq_self.mpr, List.nil_append]
    · intro x hx; simp [List.eq_of_mem_replicate hx]
    · intro x hx; simp only [decide_eq_true_eq]; exact fun h => hl (h ▸ hx)
  have hlen64 : sig.length ≤ 64 := by omega
  have hnn : A.nn = l.length := by
    unfold ClAlg.nn
    rw [hrd, hr, hid, hi, countOnes_produceMask .plus hlen64, countOnes_produceMask .minus hlen64, hsig, List.count_append,
      List.count_append, ← count_plus_minus hl, List.count_replicate, List.count_replicate]
    simp
  have hs0 := declareAlgebra_signature hA
  rw [signature_eq hwf] at hs0
  rw [hf1, hf2]
  refine ⟨hE, ?_, ?_, ?_⟩
  · have := ClAlg.even_nn A
    unfold ClAlg.nn at this
    omega
  · rw [signature_eq hE]
    by_cases he : l.length % 2 = 0
    · rw [if_pos he, ← hs0]
      have he' : (A.realDim + A.imagDim) % 2 = 0 := by unfold ClAlg.nn at hnn; omega
      have hdd : A.even.dim = A.dim := if_pos he'
      rw [hdd]
      refine List.map_congr_left fun i _ => ?_
      unfold ClAlg.sigma
      have : A.even.projMask = A.projMask := if_pos he'
      rw [this]; rfl
    · rw [if_neg he]
      have he' : ¬ (A.realDim + A.imagDim) % 2 = 0 := by unfold ClAlg.nn at hnn; omega
      have hdd : A.even.dim = A.dim + 1 := if_neg he'
      obtain ⟨s1, s2, s3⟩ := even_sigma hwf hd (by omega)
      have hdl : A.dim = l.length + m := by rw [hdim, hsig]; simp
      have hget : ∀ i (hi : i < sig.length), A.sigma i = (sig[i]).square := fun i hi => declareAlgebra_sigma hA hi
      subst hsig
      apply List.ext_getElem
      · simp only [List.length_map, List.length_range, List.length_append, List.length_replicate, List.length_singleton]
        omega
      · intro i h1 h2
        simp only [List.getElem_map, List.getElem_range]
        simp only [List.length_map, List.length_range] at h1
        rcases lt_trichotomy i l.length with h | h | h
        · rw [s1 i (by omega), hget i (by simp; omega)]
          congr 1
          simp only [List.append_assoc, List.getElem_append_left h]
        · have : A.nn = i := by omega
          subst h
          have s2' : A.even.sigma l.length = 1 := by rw [← this]; exact s2
          simp [s2', Sym.square]
        · obtain ⟨j, rfl⟩ : ∃ j, i = j + 1 := ⟨i - 1, by omega⟩
          rw [s3 j (by omega) (by omega), hget j (by simp; omega)]
          congr 1
          simp only [List.getElem_append_right (show l.length ≤ j by omega),
            List.getElem_append_right (show (l ++ [Sym.plus]).length ≤ j + 1 by simp; omega), List.getElem_replicate]
  · by_cases he : l.length % 2 = 0
    · rw [if_pos he]
      have he' : (A.realDim + A.imagDim) % 2 = 0 := by unfold ClAlg.nn at hnn; omega
      have hdd : A.even.dim = A.dim := if_pos he'
      rw [hdd]
      refine List.map_congr_left fun i _ => ?_
      exact if_pos he'
    · rw [if_neg he]
      have he' : ¬ (A.realDim + A.imagDim) % 2 = 0 := by unfold ClAlg.nn at hnn; omega
      have hdd : A.even.dim = A.dim + 1 := if_neg he'
      have hnd := hwf.nn_le
      have hname : ∀ i, A.even.axisName i = if i = l.length then "?" else if i > l.length then A.axisName (i - 1) else A.axisName i := by
        intro i
        rw [← hnn]
        exact if_neg he'
      apply List.ext_getElem
      · rw [List.length_insertIdx_of_le_length (by simp; omega)]
        simp [hdd]
      · intro i h1 h2
        rw [List.getElem_map, List.getElem_range, hname, List.getElem_insertIdx]
        rcases lt_trichotomy i l.length with h | h | h
        · rw [if_neg (by omega), if_neg (by omega), dif_pos h, List.getElem_map, List.getElem_range]
        · rw [if_pos h, dif_neg (by omega), dif_pos h]
        · rw [if_neg (by omega), if_pos h, dif_neg (by omega), dif_neg (by omega), List.getElem_map, List.getElem_range]

variable {S T : Type} [Ring T] [DecidableEq T] [CoeffStorage S T] [LawfulStorage S T]

theorem even_index_lt (hA : A.WF) {k : Nat} (hk : k < 2 ^ A.dim) : (if A.nn % 2 = 0 then k else ins A.nn k) < 2 ^ A.even.dim := by
  by_cases he : A.nn % 2 = 0
  · have hdd : A.even.dim = A.dim := if_pos he
    rw [if_pos he, hdd]; exact hk
  · have hdd : A.even.dim = A.dim + 1 := if_neg he
    rw [if_neg he, hdd]; exact ins_lt hA.nn_le hk

/-- **C60.** `into_original` reads the coefficient of each blade of `A` from the blade of `Even<A>` with the same generators. -/
theorem C60_into_original (hA : A.WF) (hd : A.dim < 63) {a : MV A.even S} (ha : a.Valid)
    (h' : LawfulStorage.Supp (S := S) (T := T) A.dim) :
    ∃ b, a.intoOriginal = .ok b ∧ b.Valid ∧ ∀ k < 2 ^ A.dim, ∀ k',
      (∀ i, k'.testBit i = if (A.realDim + A.imagDim) % 2 = 0 ∨ i < A.realDim + A.imagDim then k.testBit i
        else if i = A.realDim + A.imagDim then false else k.testBit (i - 1)) →
      b.getByIdx k = a.getByIdx k' := by
  obtain ⟨b, h1, h2, h3⟩ := intoOriginal_denotes hA hd ha h'
  refine ⟨b, h1, h2, fun k hk k' hk' => ?_⟩
  have e : k' = if A.nn % 2 = 0 then k else ins A.nn k := by
    apply Nat.eq_of_testBit_eq
    intro i
    rw [hk' i]
    change (if A.nn % 2 = 0 ∨ i < A.nn then k.testBit i else if i = A.nn then false else k.testBit (i - 1)) = _
    by_cases he : A.nn % 2 = 0
    · simp [he]
    · rw [if_neg he, ins_testBit]
      simp [he]
  rw [ha.get (show k' < 2 ^ A.even.dim by rw [e]; exact even_index_lt hA hk), h2.get hk, h3 k hk, e]

/-- **C60.** On multivectors without the additional generator, `into_original` is multiplicative. -/
theorem C60_into_original_mul (hA : A.WF) (hd : A.dim < 63) {a b : MV A.even S} (ha : a.Valid) (hb : b.Valid)
    (h' : LawfulStorage.Supp (S := S) (T := T) A.dim)
    (hx : (A.realDim + A.imagDim) % 2 = 1 → ∀ k < 2 ^ A.even.dim, k.testBit (A.realDim + A.imagDim) = true → a.getByIdx k = .ok 0) :
    (do let c ← a.naiveMulImpl b; c.intoOriginal) ≈ᵣ
      (do let x ← a.intoOriginal; let y ← b.intoOriginal; x.naiveMulImpl y) := by
  have hE := hA.even (show A.dim < 64 by omega)
  refine Agree.of_denotes (f := fun k => geo A.even.sigma A.even.dim a.val b.val (if A.nn % 2 = 0 then k else ins A.nn k))
    (g := geo A.sigma A.dim (fun k => a.val (if A.nn % 2 = 0 then k else ins A.nn k))
      (fun k => b.val (if A.nn % 2 = 0 then k else ins A.nn k)))
    ((mul_denotes hE ha hb).bind fun c hc hcf => (intoOriginal_denotes hA hd hc h').congr fun i hi => hcf _ (even_index_lt hA hi))
    ((intoOriginal_denotes hA hd ha h').bind fun x hx hxf => (intoOriginal_denotes hA hd hb h').bind fun y hy hyf =>
      (mul_denotes hA hx hy).congr fun i hi => geo_congr (fun _ _ => rfl) hxf hyf hi) fun k hk => ?_
  by_cases he : A.nn % 2 = 0
  · simp only [if_pos he]
    have he' : (A.realDim + A.imagDim) % 2 = 0 := he
    have hdd : A.even.dim = A.dim := if_pos he'
    have hpm : A.even.projMask = A.projMask := if_pos he'
    rw [hdd]
    refine geo_congr (fun i _ => ?_) (fun _ _ => rfl) (fun _ _ => rfl) hk
    unfold ClAlg.sigma
    rw [hpm]
    rfl
  · simp only [if_neg he]
    have hdd : A.even.dim = A.dim + 1 := if_neg he
    obtain ⟨s1, -, s3⟩ := even_sigma hA (by omega) (show A.nn % 2 = 1 by omega)
    rw [hdd]
    refine geo_ins hA.nn_le s1 s3 a.val b.val (fun i hi hb => ?_) k
    have := hx (show A.nn % 2 = 1 by omega) i (by rw [hdd]; exact hi) hb
    rw [ha.get (by rw [hdd]; exact hi)] at this
    injection this

end

/-! ### Examples -/

section examples
open Ex

example := C60_even A7_decl (by decide)
/-- `[+,-,+,-,+,0,0]` gets a sixth generator with square `+1`. -/
example : A7.even.signature = [1, -1, 1, -1, 1, 1, 0, 0] :=
  (C60_even A7_decl (by decide)).2.2.1.trans rfl
/-- A multivector of `Even<A7>` with integer coefficients that does not involve the additional generator. -/
def e7 : MV A7.even (ArrayStorage ℤ) := ⟨⟨8, ⟨256, fun i => if i.testBit 5 then 0 else i + 1⟩⟩⟩
/-- One that does. -/
def e7' : MV A7.even (ArrayStorage ℤ) := ⟨⟨8, ⟨256, fun i => 3 - i⟩⟩⟩
theorem e7_valid : e7.Valid := ⟨by decide, rfl, rfl⟩
theorem e7'_valid : e7'.Valid := ⟨by decide, rfl, rfl⟩
example := C60_into_original A7_wf (by decide) e7'_valid (show A7.dim ≤ 63 by decide)
example : (do let c ← e7.naiveMulImpl e7'; c.intoOriginal) ≈ᵣ
    (do let x ← e7.intoOriginal; let y ← e7'.intoOriginal; x.naiveMulImpl y) := by
  refine C60_into_original_mul A7_wf (by decide) e7_valid e7'_valid (show A7.dim ≤ 63 by decide) fun _ k hk hb => ?_
  have hb : k.testBit 5 = true := hb
  have hk : k < 256 := hk
  show (if k > 256 then .ok 0 else (⟨256, fun i => if i.testBit 5 then 0 else (i : ℤ) + 1⟩ : Arr1 ℤ).index k) = .ok 0
  rw [if_neg (by omega)]
  unfold Arr1.index
  rw [if_pos hk]
  simp [hb]

end examples

end TClifford
