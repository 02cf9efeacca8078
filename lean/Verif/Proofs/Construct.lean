import Verif.Proofs.Lift
/-
Constructors from vectors and lists, filters, and the sparse-only operations.
-/

set_option linter.unusedSectionVars false

namespace TClifford.MV

open Finset

section
variable {A : ClAlg} {S T : Type} [Zero T] [One T] [Add T] [Sub T] [Neg T] [Mul T] [DecidableEq T] [CoeffStorage S T] [LawfulStorage S T]

/-- The coefficient function of a vector. -/
def vecF (l : List T) : Nat → T := fun i => if countOnes i = 1 then l.getD (Nat.log2 i) 0 else 0

theorem countOnes_two_pow {n : Nat} (_h : n < 64) : countOnes (2 ^ n) = 1 := by
  rw [countOnes_eq_cnt (n := n + 1) (Nat.pow_lt_pow_right (by norm_num) (by omega)), cnt_succ,
    cnt_congr (b := 0), cnt_zero, Nat.testBit_two_pow_self]
  · rfl
  · intro i hi
    rw [Nat.testBit_two_pow, Nat.zero_testBit]
    simp; omega

theorem vecF_two_pow (l : List T) {n : Nat} (h : n < 64) : vecF l (2 ^ n) = l.getD n 0 := by
  unfold vecF
  rw [if_pos (countOnes_two_pow h), Nat.log2_two_pow]

/-- A number with one bit is a power of two. -/
theorem eq_two_pow_of_countOnes {n i : Nat} (hi : i < 2 ^ n) (h : countOnes i = 1) : ∃ k < n, i = 2 ^ k := by
  rw [countOnes_eq_cnt hi] at h
  have key : ∀ n i, i < 2 ^ n → cnt n i = 1 → ∃ k < n, i = 2 ^ k := by
    intro n
    induction n with
    | zero => intro i hi h; simp [cnt] at h
    | succ n ih =>
      intro i hi h
      rw [cnt_succ] at h
      by_cases hb : i.testBit n = true
      · rw [hb] at h
        have h0 : cnt n i = 0 := by simpa using h
        refine ⟨n, by omega, ?_⟩
        apply Nat.eq_of_testBit_eq
        intro j
        rw [Nat.testBit_two_pow]
        rcases lt_trichotomy j n with hj | hj | hj
        · have hs := cnt_eq_sum n i
          rw [h0] at hs
          have := (Finset.sum_eq_zero_iff.mp hs.symm) j (Finset.mem_range.mpr hj)
          have hne : ¬ n = j := by omega
          cases hij : i.testBit j
          · simp [hne]
          · rw [hij] at this; simp at this
        · subst hj; simp [hb]
        · rw [testBit_eq_false_of_lt hi (by omega)]
          simp; omega
      · have hb' : i.testBit n = false := by simpa using hb
        rw [hb'] at h
        have hlt : i < 2 ^ n := by
          by_contra hc
          have := Nat.testBit_eq_decide_div_mod_eq (x := i) (i := n)
          rw [hb'] at this
          have hd : i / 2 ^ n = 1 := by
            apply Nat.div_eq_of_lt_le <;> rw [Nat.pow_succ] at hi <;> omega
          rw [hd] at this
          simp at this
        obtain ⟨k, hk, rfl⟩ := ih i hlt (by simpa using h)
        exact ⟨k, by omega, rfl⟩
  exact key n i hi h

/-- The loop of `from_vector`. -/
theorem fromVector_loop (hd : A.dim ≤ 63) (l : List T) (n : Nat) (u : MV A S) (hu : u.Valid) :
    (n + l.length ≤ A.dim → ∃ v : MV A S, l.foldlM (fun (st : Nat × MV A S) c =>
        if st.1 ≥ A.dim then (.error (.cl .InvalidShape) : Res (Nat × MV A S))
        else .ok (st.1 + 1, st.2.setByIdx (ushl 1 st.1) c)) (n, u) = .ok (n + l.length, v) ∧ v.Valid ∧
        ∀ i, v.val i = if ∃ k < l.length, i = 2 ^ (n + k) then l.getD (Nat.log2 i - n) 0 else u.val i) ∧
    (n ≤ A.dim → A.dim < n + l.length → l.foldlM (fun (st : Nat × MV A S) c =>
        if st.1 ≥ A.dim then (.error (.cl .InvalidShape) : Res (Nat × MV A S))
        else .ok (st.1 + 1, st.2.setByIdx (ushl 1 st.1) c)) (n, u) = .error (.cl .InvalidShape)) := by
  induction l generalizing n u with
  | nil =>
    refine ⟨fun _ => ⟨u, rfl, hu, ?_⟩, ?_⟩
    · intro i; rw [if_neg]; rintro ⟨k, hk, -⟩; simp at hk
    · intro h1 h2; simp at h2; omega
  | cons c l ih =>
    have hstep : n < A.dim → (List.foldlM (fun (st : Nat × MV A S) c =>
        if st.1 ≥ A.dim then (.error (.cl .InvalidShape) : Res (Nat × MV A S))
        else .ok (st.1 + 1, st.2.setByIdx (ushl 1 st.1) c)) (n, u) (c :: l)) =
        List.foldlM (fun (st : Nat × MV A S) c =>
        if st.1 ≥ A.dim then (.error (.cl .InvalidShape) : Res (Nat × MV A S))
        else .ok (st.1 + 1, st.2.setByIdx (ushl 1 st.1) c)) (n + 1, u.setByIdx (2 ^ n) c) l := by
      intro hn
      rw [List.foldlM_cons]
      dsimp only
      rw [if_neg (by omega), ushl_one (by omega)]
      rfl
    have hv : (u.setByIdx (2 ^ n) c).Valid := hu.set _ _
    have h := ih (n + 1) (u.setByIdx (2 ^ n) c) hv
    constructor
    · intro hle
      simp only [List.length_cons] at hle
      rw [hstep (by omega)]
      obtain ⟨v, h1, h2, h3⟩ := h.1 (by omega)
      refine ⟨v, by rw [h1, List.length_cons]; congr 2; omega, h2, ?_⟩
      intro i
      rw [h3 i]
      by_cases hi : i = 2 ^ n
      · subst hi
        rw [if_neg, if_pos ⟨0, by simp, by simp⟩, hu.set_val (Nat.pow_lt_pow_right (by norm_num) (by omega)), if_pos rfl,
          Nat.log2_two_pow]
        · simp
        · rintro ⟨k, hk, he⟩
          have := Nat.pow_right_injective (le_refl 2) he
          omega
      · rw [hu.set_val (Nat.pow_lt_pow_right (by norm_num) (by omega)), if_neg hi]
        by_cases hex : ∃ k < l.length, i = 2 ^ (n + 1 + k)
        · rw [if_pos hex]
          obtain ⟨k, hk, he⟩ := hex
          rw [if_pos ⟨k + 1, by simp [hk], by rw [he]; congr 1; omega⟩, he, Nat.log2_two_pow]
          rw [show n + 1 + k - n = k + 1 by omega, show n + 1 + k - (n + 1) = k by omega]
          simp
        · rw [if_neg hex, if_neg]
          rintro ⟨k, hk, he⟩
          cases k with
          | zero => exact hi (by simpa using he)
          | succ k => exact hex ⟨k, by simpa using hk, by rw [he]; congr 1; omega⟩
    · intro hle hlt
      simp only [List.length_cons] at hlt
      by_cases hn : n < A.dim
      · rw [hstep hn]
        exact h.2 (by omega) (by omega)
      · rw [List.foldlM_cons]
        dsimp only
        rw [if_pos (by omega)]
        rfl

theorem fromVector_denotes (h : LawfulStorage.Supp (S := S) (T := T) A.dim) {l : List T} (hl : l.length = A.dim) :
    Denotes (fromVector (A := A) (S := S) l) (vecF l) := by
  have hd := LawfulStorage.supp_le h
  obtain ⟨u, h1, h2, h3⟩ := default_denotes (A := A) h
  obtain ⟨v, g1, g2, g3⟩ := (fromVector_loop hd l 0 u h2).1 (by omega)
  refine ⟨v, ?_, g2, ?_⟩
  · unfold fromVector
    rw [h1]
    show (List.foldlM (m := Res) _ (0, u) l >>= _) = _
    rw [g1]
    show (if 0 + l.length ≠ A.dim then _ else _) = _
    rw [if_neg (by omega)]; rfl
  · intro i hi
    rw [g3 i]
    unfold vecF
    by_cases hc : countOnes i = 1
    · obtain ⟨k, hk, rfl⟩ := eq_two_pow_of_countOnes hi hc
      rw [if_pos hc, if_pos ⟨k, by omega, by simp⟩]; simp
    · rw [if_neg hc, if_neg, h3 i hi]
      rintro ⟨k, hk, rfl⟩
      apply hc
      rw [Nat.zero_add]
      exact countOnes_two_pow (by omega)

theorem fromVector_err (h : LawfulStorage.Supp (S := S) (T := T) A.dim) {l : List T} (hl : l.length ≠ A.dim) :
    fromVector (A := A) (S := S) l = .error (.cl .InvalidShape) := by
  have hd := LawfulStorage.supp_le h
  obtain ⟨u, h1, h2, h3⟩ := default_denotes (A := A) h
  unfold fromVector
  rw [h1]
  show (List.foldlM (m := Res) _ (0, u) l >>= _) = _
  rcases Nat.lt_or_gt_of_ne hl with hlt | hgt
  · obtain ⟨v, g1, g2, g3⟩ := (fromVector_loop hd l 0 u h2).1 (by omega)
    rw [g1]
    show (if 0 + l.length ≠ A.dim then _ else _) = _
    rw [if_pos (by omega)]
  · rw [(fromVector_loop hd l 0 u h2).2 (by omega) (by omega)]
    rfl

theorem fromIndexedIter_err (h : LawfulStorage.Supp (S := S) (T := T) A.dim) {l : List (Nat × T)}
    (hl : ∃ p ∈ l, 2 ^ A.dim ≤ p.1) : fromIndexedIter (A := A) (S := S) l = .error (.cl .IndexOutOfBounds) := by
  have hd := LawfulStorage.supp_le h
  obtain ⟨u, h1, -⟩ := default_denotes (A := A) h
  unfold fromIndexedIter
  rw [h1]
  show List.foldlM _ u l = _
  rw [ushl_one (by omega)]
  clear h1
  induction l generalizing u with
  | nil => simp at hl
  | cons q qs ih =>
    rw [List.foldlM_cons]
    by_cases hq : 2 ^ A.dim ≤ q.1
    · rw [if_pos hq]; rfl
    · rw [if_neg hq]
      obtain ⟨p, hp, hpl⟩ := hl
      rcases List.mem_cons.mp hp with rfl | hp
      · exact absurd hpl hq
      · exact ih ⟨p, hp, hpl⟩ _

theorem lastWrite_find (l : List (Nat × T)) (i : Nat) (init : T) :
    lastWrite l i init = ((l.reverse.find? (fun p => p.1 = i)).map Prod.snd).getD init := by
  induction l using List.reverseRecOn with
  | nil => rfl
  | append_singleton l p ih =>
    unfold lastWrite at *
    rw [List.foldl_append, List.reverse_append]
    simp only [List.foldl_cons, List.foldl_nil, List.reverse_cons, List.reverse_nil, List.nil_append,
      List.singleton_append, List.find?_cons]
    by_cases h : p.1 = i
    · simp [h]
    · simp [h, ih, Ne.symm h]

end

theorem filter_denotes {A : ClAlg} {T : Type} [Ring T] [DecidableEq T] {a : MV A (ArrayStorage T)} (ha : a.Valid)
    (f : Nat → T → Bool) :
    Denotes (a.filter f) (fun i => if f i (a.val i) then a.val i else 0) :=
  (fromIndexedIter_enum ha.supp (ha.enum.filter (fun p => f p.1 p.2))).unwrap

section sparse
variable {A : ClAlg} {T : Type} [Ring T] [DecidableEq T] [HashOrder T]

theorem sparse_val (a : MV A (SparseStorage T)) (i : Nat) : a.val i = SparseStorage.getByIdx a.coeffs i := rfl

theorem lookup_filter (l : List (Nat × T)) (hl : (l.map Prod.fst).Nodup) (q : Nat × T → Bool) (i : Nat) :
    (l.filter q).lookup i = (l.lookup i).filter (fun v => q (i, v)) := by
  induction l with
  | nil => rfl
  | cons p ps ih =>
    rw [List.map_cons, List.nodup_cons] at hl
    obtain ⟨a, b⟩ := p
    rw [List.lookup_cons]
    by_cases hi : i = a
    · subst hi
      simp only [beq_self_eq_true]
      by_cases hq : q (i, b) = true
      · rw [List.filter_cons_of_pos hq, List.lookup_cons]
        simp [Option.filter, hq]
      · rw [List.filter_cons_of_neg (by simpa using hq), ih hl.2, lookup_eq_none.mpr hl.1]
        simp [Option.filter, hq]
    · have : (i == a) = false := by simp [hi]
      rw [this]
      by_cases hq : q (a, b) = true
      · rw [List.filter_cons_of_pos hq, List.lookup_cons, this, ih hl.2]
      · rw [List.filter_cons_of_neg (by simpa using hq), ih hl.2]

theorem filterInplace_eq (a : MV A (SparseStorage T)) (f : Nat → T → Bool) :
    (a.filterInplace f).coeffs.coeffs.entries = a.coeffs.coeffs.entries.filter (fun p => f p.1 p.2) := by
  show List.filterMap _ _ = _
  rw [← List.filterMap_eq_filter]
  apply List.filterMap_congr
  intro p _
  by_cases h : f p.1 p.2 = true <;> simp [h, Option.guard]

theorem filterInplace_denotes {a : MV A (SparseStorage T)} (ha : a.Valid) (f : Nat → T → Bool) :
    Denotes (.ok (a.filterInplace f)) (fun i => if f i (a.val i) then a.val i else 0) := by
  have he := filterInplace_eq a f
  refine ⟨_, rfl, ⟨ha.1, ha.2.1, ha.2.2.1, ?_, ?_⟩, ?_⟩
  · rw [he]
    exact List.Nodup.sublist (List.Sublist.map _ List.filter_sublist) ha.2.2.2.1
  · intro p hp
    rw [he] at hp
    exact ha.2.2.2.2 p (List.mem_of_mem_filter hp)
  · intro i _
    rw [sparse_val]
    unfold SparseStorage.getByIdx HashMap.get?
    rw [he, lookup_filter _ ha.2.2.2.1]
    beta_reduce
    rw [sparse_val]
    unfold SparseStorage.getByIdx HashMap.get?
    rcases a.coeffs.coeffs.entries.lookup i with _ | v
    · simp
    · by_cases h : f i v = true <;> simp [Option.filter, h]

theorem gradesExtract_denotes {a : MV A (SparseStorage T)} (ha : a.Valid) (gs : List Nat) :
    Denotes (a.gradesExtract gs) (fun i => if countOnes i ∈ gs then a.val i else 0) := by
  refine ((fromIndexedIter_enum ha.supp (ha.enum.filter (fun p => gs.contains (countOnes p.1)))).unwrap).congr ?_
  intro i _
  simp

theorem retainGrades_denotes {a : MV A (SparseStorage T)} (ha : a.Valid) (gs : List Nat) :
    Denotes (.ok (a.retainGrades gs)) (fun i => if countOnes i ∈ gs then a.val i else 0) :=
  (filterInplace_denotes ha _).congr (fun i _ => by simp)

end sparse

end TClifford.MV
