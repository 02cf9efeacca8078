import Verif.Proofs.Sign
/-
`declare_algebra!` yields a well-formed algebra with the declared signature (helper lemmas for C42).
-/

namespace TClifford

/-- The square of a generator declared with the given token. -/
def Sym.square : Sym → ℤ
  | .plus => 1
  | .minus => -1
  | .null => 0

theorem ushl_zero_left (s : Nat) : ushl 0 s = 0 := by simp [ushl]

theorem produceMask_testBit (s : Sym) (ts : List Sym) (shift i : Nat) (h : shift + ts.length ≤ 64) :
    (produceMask s shift ts).testBit i = (decide (shift ≤ i) && decide (ts[i - shift]? = some s)) := by
  induction ts generalizing shift with
  | nil => simp [produceMask]
  | cons t ts ih =>
    rw [List.length_cons] at h
    rw [produceMask, Nat.testBit_or, ih (shift + 1) (by omega)]
    have h1 : (if t = s then ushl 1 shift else ushl 0 shift).testBit i = (decide (i = shift) && decide (t = s)) := by
      split
      · rename_i hts
        rw [ushl_one (by omega), Nat.testBit_two_pow]
        simp [hts, eq_comm]
      · rename_i hts
        rw [ushl_zero_left]; simp [hts]
    rw [h1]
    by_cases hi : i = shift
    · subst hi
      simp
    · by_cases hlt : shift ≤ i
      · obtain ⟨k, rfl⟩ : ∃ k, i = shift + k + 1 := ⟨i - shift - 1, by omega⟩
        have e1 : shift + k + 1 - (shift + 1) = k := by omega
        have e2 : shift + k + 1 - shift = k + 1 := by omega
        rw [e1, e2]
        simp [hi, hlt]
      · simp [hi, hlt]; omega

theorem cnt_two_pow {n i : Nat} (h : i < n) : cnt n (2 ^ i) = 1 := by
  induction n with
  | zero => omega
  | succ n ih =>
    rw [cnt_succ, Nat.testBit_two_pow]
    by_cases hi : i = n
    · subst hi
      rw [cnt_congr (b := 0), cnt_zero]
      · simp
      · intro j hj; rw [Nat.testBit_two_pow]; simp; omega
    · rw [ih (by omega)]; simp [hi]

theorem cnt_produceMask (s : Sym) (ts : List Sym) (shift : Nat) (h : shift + ts.length ≤ 64) :
    cnt 64 (produceMask s shift ts) = ts.count s := by
  induction ts generalizing shift with
  | nil => simp [produceMask]
  | cons t ts ih =>
    rw [List.length_cons] at h
    rw [produceMask, cnt_or_of_disjoint, ih (shift + 1) (by omega), List.count_cons]
    · by_cases hts : t = s
      · subst hts
        simp only [if_true, beq_self_eq_true]
        rw [ushl_one (by omega), cnt_two_pow (by omega)]; omega
      · rw [if_neg hts, ushl_zero_left, cnt_zero]
        simp [hts]
    · apply Nat.eq_of_testBit_eq
      intro i
      rw [Nat.testBit_and, produceMask_testBit s ts _ _ (by omega)]
      by_cases hi : i = shift
      · subst hi; simp
      · split
        · rw [ushl_one (by omega), Nat.testBit_two_pow]; simp [Ne.symm hi]
        · rw [ushl_zero_left]; simp

theorem produceMask_lt (s : Sym) {ts : List Sym} (h : ts.length ≤ 64) : produceMask s 0 ts < 2 ^ ts.length := by
  apply Nat.lt_pow_two_of_testBit
  intro i hi
  rw [produceMask_testBit s ts 0 i (by omega)]
  simp [List.getElem?_eq_none hi]

theorem countOnes_produceMask (s : Sym) {ts : List Sym} (h : ts.length ≤ 64) :
    countOnes (produceMask s 0 ts) = ts.count s := by
  rw [countOnes_eq_cnt (produceMask_lt s h), ← cnt_of_le (produceMask_lt s h) h, cnt_produceMask s ts 0 (by omega)]

theorem orderCheckEnd_iff (ts : List Sym) : orderCheckEnd ts = true ↔ ts = List.replicate ts.length .null := by
  induction ts with
  | nil => simp [orderCheckEnd]
  | cons t ts ih =>
    cases t <;> simp [orderCheckEnd, List.replicate_succ, ih]

/-- The order check accepts exactly the non-empty signatures whose null generators come last. -/
theorem orderCheck_iff (ts : List Sym) : orderCheck ts = true ↔
    ts ≠ [] ∧ ∃ l m, ts = l ++ List.replicate m .null ∧ Sym.null ∉ l := by
  induction ts with
  | nil => simp [orderCheck]
  | cons t ts ih =>
    match ts, t with
    | [], t =>
      simp only [orderCheck, ne_eq, reduceCtorEq, not_false_eq_true, true_and, true_iff]
      cases t
      · exact ⟨[.plus], 0, by simp, by simp⟩
      · exact ⟨[.minus], 0, by simp, by simp⟩
      · exact ⟨[], 1, by simp, by simp⟩
    | u :: us, .null =>
      rw [show orderCheck (.null :: u :: us) = orderCheckEnd (u :: us) from rfl, orderCheckEnd_iff]
      constructor
      · intro h
        refine ⟨by simp, [], (u :: us).length + 1, ?_, by simp⟩
        rw [List.nil_append, List.replicate_succ, ← h]
      · rintro ⟨_, l, m, h1, h2⟩
        cases l with
        | nil =>
          rw [List.nil_append] at h1
          cases m with
          | zero => simp at h1
          | succ m =>
            rw [List.replicate_succ] at h1
            have := (List.cons.inj h1).2
            rw [this]; simp
        | cons x xs =>
          have := (List.cons.inj h1).1
          simp [← this] at h2
    | u :: us, .plus =>
      rw [show orderCheck (.plus :: u :: us) = orderCheck (u :: us) from rfl, ih]
      constructor
      · rintro ⟨_, l, m, h1, h2⟩
        exact ⟨by simp, .plus :: l, m, by simp [h1], by simp [h2]⟩
      · rintro ⟨_, l, m, h1, h2⟩
        refine ⟨by simp, ?_⟩
        cases l with
        | nil =>
          cases m with
          | zero => simp at h1
          | succ m => simp [List.replicate_succ] at h1
        | cons x xs =>
          exact ⟨xs, m, (List.cons.inj h1).2, by simp at h2; exact h2.2⟩
    | u :: us, .minus =>
      rw [show orderCheck (.minus :: u :: us) = orderCheck (u :: us) from rfl, ih]
      constructor
      · rintro ⟨_, l, m, h1, h2⟩
        exact ⟨by simp, .minus :: l, m, by simp [h1], by simp [h2]⟩
      · rintro ⟨_, l, m, h1, h2⟩
        refine ⟨by simp, ?_⟩
        cases l with
        | nil =>
          cases m with
          | zero => simp at h1
          | succ m => simp [List.replicate_succ] at h1
        | cons x xs =>
          exact ⟨xs, m, (List.cons.inj h1).2, by simp at h2; exact h2.2⟩

theorem declareAlgebra_eq {sig : List Sym} {names : List String} {A : ClAlg} (h : declareAlgebra sig names = some A) :
    orderCheck sig = true ∧ sig.length ≤ 64 ∧ A.dim = sig.length ∧ A.realMask = produceMask .plus 0 sig ∧
    A.imagMask = produceMask .minus 0 sig ∧ A.projMask = produceMask .null 0 sig ∧ A.realDim = countOnes A.realMask ∧
    A.imagDim = countOnes A.imagMask ∧ A.projDim = countOnes A.projMask ∧ A.axisName = axisNameFunc names ∧
    (names = [] ∨ names.length = sig.length) := by
  unfold declareAlgebra at h
  split at h
  · exact absurd h (by simp)
  · rename_i h1
    split at h
    · exact absurd h (by simp)
    · rename_i h2
      split at h
      · exact absurd h (by simp)
      · rename_i h3
        have := Option.some.inj h
        subst this
        refine ⟨by simpa using h1, by omega, rfl, rfl, rfl, rfl, rfl, rfl, rfl, rfl, ?_⟩
        by_cases hn : names = []
        · exact Or.inl hn
        · right; by_contra hc; exact h2 ⟨hn, hc⟩

theorem count_plus_minus {l : List Sym} (hl : Sym.null ∉ l) : l.count .plus + l.count .minus = l.length := by
  induction l with
  | nil => rfl
  | cons x xs ih =>
    simp only [List.mem_cons, not_or] at hl
    have := ih hl.2
    rw [List.count_cons, List.count_cons, List.length_cons]
    cases x
    · simp; omega
    · simp; omega
    · exact absurd rfl hl.1

theorem two_pow_and_ne_zero (i m : Nat) : (2 ^ i &&& m ≠ 0) ↔ m.testBit i = true := by
  constructor
  · intro h
    obtain ⟨j, hj⟩ := Nat.exists_testBit_of_ne_zero h
    rw [Nat.testBit_and, Nat.testBit_two_pow, Bool.and_eq_true, decide_eq_true_eq] at hj
    rw [hj.1]; exact hj.2
  · intro h hc
    have := congrArg (fun x => Nat.testBit x i) hc
    simp [Nat.testBit_and, h] at this

theorem declareAlgebra_wf {sig : List Sym} {names : List String} {A : ClAlg} (h : declareAlgebra sig names = some A) : A.WF := by
  obtain ⟨hoc, hlen, hd, hr, hi, hp, hrd, hid, hpd, _, _⟩ := declareAlgebra_eq h
  obtain ⟨_, l, m, rfl, hl⟩ := (orderCheck_iff sig).mp hoc
  have hlen64 : (l ++ List.replicate m Sym.null).length ≤ 64 := by omega
  have hlm : (l ++ List.replicate m Sym.null).length = l.length + m := by simp
  have hcp := countOnes_produceMask .plus hlen64
  have hcm := countOnes_produceMask .minus hlen64
  have hcn := countOnes_produceMask .null hlen64
  have hsum : l.count .plus + l.count .minus = l.length := count_plus_minus hl
  have hrd' : A.realDim = l.count .plus := by
    rw [hrd, hr, hcp, List.count_append, List.count_replicate]; simp
  have hid' : A.imagDim = l.count .minus := by
    rw [hid, hi, hcm, List.count_append, List.count_replicate]; simp
  have hpd' : A.projDim = m := by
    rw [hpd, hp, hcn, List.count_append, List.count_replicate, List.count_eq_zero.mpr hl]; simp
  have hnn : A.realDim + A.imagDim = l.length := by omega
  have hget : ∀ i, (l ++ List.replicate m Sym.null)[i]? = if i < l.length then l[i]? else
      if i < l.length + m then some .null else none := by
    intro i
    rw [List.getElem?_append]
    split
    · rfl
    · rw [List.getElem?_replicate]
      by_cases h : i < l.length + m
      · rw [if_pos (by omega), if_pos h]
      · rw [if_neg (by omega), if_neg h]
  refine ⟨by omega, by omega, ?_, ?_, ?_, hrd, hid, hpd⟩
  · rw [hnn]
    apply Nat.eq_of_testBit_eq
    intro i
    rw [Nat.testBit_or, hr, hi, produceMask_testBit _ _ _ _ (by omega), produceMask_testBit _ _ _ _ (by omega),
      Nat.testBit_two_pow_sub_one, Nat.sub_zero, hget]
    by_cases hil : i < l.length
    · have hx : l[i]? = some l[i] := List.getElem?_eq_getElem hil
      have hne : l[i] ≠ .null := fun hc => hl (hc ▸ List.getElem_mem hil)
      rw [if_pos hil, hx]
      revert hne
      generalize l[i] = x
      intro hne
      cases x <;> simp_all
    · rw [if_neg hil]
      split <;> simp <;> omega
  · apply Nat.eq_of_testBit_eq
    intro i
    rw [Nat.testBit_and, hr, hi, produceMask_testBit _ _ _ _ (by omega), produceMask_testBit _ _ _ _ (by omega),
      Nat.zero_testBit]
    generalize (l ++ List.replicate m Sym.null)[i - 0]? = x
    rcases x with _ | x
    · simp
    · cases x <;> simp
  · rw [hnn, hd, hlm]
    apply Nat.eq_of_testBit_eq
    intro i
    rw [two_pow_sub_two_pow_testBit (by omega), hp, produceMask_testBit _ _ _ _ (by omega), Nat.sub_zero, hget]
    by_cases hil : i < l.length
    · have hx : l[i]? = some l[i] := List.getElem?_eq_getElem hil
      have hne : l[i] ≠ .null := fun hc => hl (hc ▸ List.getElem_mem hil)
      rw [if_pos hil, hx]
      simp [hne]; omega
    · rw [if_neg hil]
      by_cases h2 : i < l.length + m
      · simp [h2]; omega
      · simp [h2]

theorem declareAlgebra_sigma {sig : List Sym} {names : List String} {A : ClAlg} (h : declareAlgebra sig names = some A)
    {i : Nat} (hi : i < sig.length) : A.sigma i = (sig[i]).square := by
  obtain ⟨_, h64, _, hr, him, hp, _⟩ := declareAlgebra_eq h
  unfold ClAlg.sigma
  rw [him, hp, produceMask_testBit _ _ _ _ (by omega), produceMask_testBit _ _ _ _ (by omega), Nat.sub_zero,
    List.getElem?_eq_getElem hi]
  cases sig[i] <;> simp [Sym.square]

theorem declareAlgebra_signature {sig : List Sym} {names : List String} {A : ClAlg} (h : declareAlgebra sig names = some A) :
    A.signature = sig.map Sym.square := by
  obtain ⟨_, h64, hd, hr, him, hp, _⟩ := declareAlgebra_eq h
  unfold ClAlg.signature
  rw [hd]
  apply List.ext_getElem
  · simp
  · intro i h1 h2
    have hi : i < sig.length := by simpa using h2
    simp only [List.getElem_map, List.getElem_range]
    rw [ushl_one (by omega)]
    have hb : ∀ (s : Sym), (2 ^ i &&& produceMask s 0 sig ≠ 0) ↔ sig[i] = s := by
      intro s
      rw [two_pow_and_ne_zero, produceMask_testBit _ _ _ _ (by omega), Nat.sub_zero, List.getElem?_eq_getElem hi]
      simp
    rw [hr, him]
    simp only [hb]
    cases sig[i] <;> simp [Sym.square]

end TClifford
