import Verif.Model.Storage
import Verif.Proofs.GradeIter
import Mathlib.Tactic.Linarith
/-
What the multivector code needs to know about a coefficient storage, and proofs that the three storages of the crate
(dense array, sparse hash map, quaternion) satisfy it.
-/

set_option linter.unusedSectionVars false

namespace TClifford

/-- The laws of the coefficient type that the storages rely on.  They hold in every ring, and also for floating point
numbers (with the two zeros identified), where addition is not associative. -/
class CoeffLaws (T : Type) [Zero T] [Add T] [Sub T] : Prop where
  add_zero : ∀ x : T, x + 0 = x
  sub_zero : ∀ x : T, x - 0 = x

instance (T : Type) [Ring T] : CoeffLaws T := ⟨_root_.add_zero, _root_.sub_zero⟩

/-- Laws of a coefficient storage.  `Valid d s` is the representation invariant for dimension `d`, `val s` the
coefficient function. -/
class LawfulStorage (S : Type) (T : outParam Type) [Zero T] [Add T] [Sub T] [DecidableEq T] [CoeffStorage S T] where
  /-- dimensions supported by the storage -/
  Supp : Nat → Prop
  Valid : Nat → S → Prop
  val : S → Nat → T
  supp_le : ∀ {d}, Supp d → d ≤ 63
  valid_supp : ∀ {d s}, Valid d s → Supp d
  val_oob : ∀ {d s i}, Valid d s → 2 ^ d ≤ i → val s i = 0
  new_ok : ∀ {d}, Supp d → ∃ s, CoeffStorage.new (S := S) d = .ok s ∧ Valid d s ∧ ∀ i, val s i = 0
  get_ok : ∀ {d s i}, Valid d s → i < 2 ^ d → CoeffStorage.getByIdx s i = .ok (val s i)
  set_valid : ∀ {d s i v}, Valid d s → Valid d (CoeffStorage.setByIdx s i v)
  set_val : ∀ {d s i v}, Valid d s → i < 2 ^ d → ∀ j, val (CoeffStorage.setByIdx s i v) j = if j = i then v else val s j
  set_oob : ∀ {d s i v}, Valid d s → 2 ^ d ≤ i → CoeffStorage.setByIdx s i v = s
  enum_nodup : ∀ {d s}, Valid d s → ((CoeffStorage.coeffEnumerate s).map Prod.fst).Nodup
  enum_mem : ∀ {d s p}, Valid d s → p ∈ CoeffStorage.coeffEnumerate s → p.1 < 2 ^ d ∧ p.2 = val s p.1
  enum_complete : ∀ {d s i}, Valid d s → val s i ≠ 0 → (i, val s i) ∈ CoeffStorage.coeffEnumerate s
  grade_nodup : ∀ {d s} (k), Valid d s → ((CoeffStorage.gradeEnumerate s k).map Prod.fst).Nodup
  grade_mem : ∀ {d s p k}, Valid d s → k < 2 ^ 32 → p ∈ CoeffStorage.gradeEnumerate s k →
    p.1 < 2 ^ d ∧ countOnes p.1 = k ∧ p.2 = val s p.1
  grade_complete : ∀ {d s i k}, Valid d s → k < 2 ^ 32 → val s i ≠ 0 → countOnes i = k →
    (i, val s i) ∈ CoeffStorage.gradeEnumerate s k
  add_ok : ∀ {d a b}, Valid d a → Valid d b →
    ∃ s, CoeffStorage.add a b = .ok s ∧ Valid d s ∧ ∀ i, val s i = val a i + val b i
  sub_ok : ∀ {d a b}, Valid d a → Valid d b →
    ∃ s, CoeffStorage.sub a b = .ok s ∧ Valid d s ∧ ∀ i, val s i = val a i - val b i
  beq_iff : ∀ {d a b}, Valid d a → Valid d b → (CoeffStorage.beq a b = true ↔ ∀ i, val a i = val b i)
  mapMut_ok : ∀ {d s} {f : T → Res T} {g : T → T}, Valid d s → (∀ x, f x = .ok (g x)) → g 0 = 0 →
    (∀ i, val s i ≠ 0 → g (val s i) ≠ 0) →
    ∃ s', CoeffStorage.coeffMapMut s f = .ok s' ∧ Valid d s' ∧ ∀ i, val s' i = g (val s i)

/-- A monadic fold whose steps all succeed is a plain fold. -/
theorem foldlM_ok {α β : Type} {P : α → Prop} {f : α → β → Res α} {g : α → β → α} (l : List β)
    (h : ∀ acc, ∀ x ∈ l, P acc → f acc x = .ok (g acc x) ∧ P (g acc x)) (a : α) (ha : P a) :
    l.foldlM f a = .ok (l.foldl g a) ∧ P (l.foldl g a) := by
  induction l generalizing a with
  | nil => exact ⟨rfl, ha⟩
  | cons x xs ih =>
    have h1 := h a x (by simp) ha
    have h2 := ih (fun acc y hy => h acc y (by simp [hy])) (g a x) h1.2
    refine ⟨?_, h2.2⟩
    rw [List.foldlM_cons, h1.1]
    exact h2.1

/-! ### Dense storage -/

namespace ArrayStorage
variable {T : Type} [Zero T] [Add T] [Sub T] [CoeffLaws T] [DecidableEq T]

/-- Coefficient function (zero outside of the array). -/
def val (s : ArrayStorage T) (i : Nat) : T := if i < s.array.len then s.array.get i else 0

/-- Representation invariant of the dense storage. -/
def Valid (d : Nat) (s : ArrayStorage T) : Prop := d ≤ 63 ∧ s.dim = d ∧ s.array.len = 2 ^ d

theorem mem_enum {s : ArrayStorage T} {p : Nat × T} :
    p ∈ coeffEnumerate s ↔ p.1 < s.array.len ∧ p.2 = s.array.get p.1 ∧ p.2 ≠ 0 := by
  unfold coeffEnumerate
  simp only [List.mem_filter, List.mem_map, List.mem_range, decide_eq_true_eq]
  constructor
  · rintro ⟨⟨i, hi, rfl⟩, h2⟩; exact ⟨hi, rfl, h2⟩
  · rintro ⟨h1, h2, h3⟩; exact ⟨⟨p.1, h1, by rw [← h2]⟩, h3⟩

theorem enum_nodup (s : ArrayStorage T) : ((coeffEnumerate s).map Prod.fst).Nodup := by
  unfold coeffEnumerate
  refine List.Nodup.sublist (List.Sublist.map _ List.filter_sublist) ?_
  rw [List.map_map]
  have : (Prod.fst ∘ fun i => (i, s.array.get i)) = id := rfl
  rw [this, List.map_id]
  exact List.nodup_range

theorem mapMut_fold (g : T → T) (l : List (Nat × T)) (hl : (l.map Prod.fst).Nodup) (s : ArrayStorage T) :
    let s' := l.foldl (fun acc p => (⟨acc.dim, acc.array.set p.1 (g p.2)⟩ : ArrayStorage T)) s
    s'.dim = s.dim ∧ s'.array.len = s.array.len ∧ (∀ p ∈ l, s'.array.get p.1 = g p.2) ∧
      (∀ j, j ∉ l.map Prod.fst → s'.array.get j = s.array.get j) := by
  induction l generalizing s with
  | nil => simp
  | cons q qs ih =>
    rw [List.map_cons, List.nodup_cons] at hl
    have h := ih hl.2 ⟨s.dim, s.array.set q.1 (g q.2)⟩
    simp only [List.foldl_cons] at *
    refine ⟨h.1, h.2.1, ?_, ?_⟩
    · intro p hp
      rcases List.mem_cons.mp hp with rfl | hp
      · rw [h.2.2.2 p.1 hl.1]; simp [Arr1.set]
      · exact h.2.2.1 p hp
    · intro j hj
      rw [List.map_cons, List.mem_cons, not_or] at hj
      rw [h.2.2.2 j hj.2]; simp [Arr1.set, hj.1]

instance : LawfulStorage (ArrayStorage T) T where
  Supp d := d ≤ 63
  Valid := Valid
  val := val
  supp_le h := h
  valid_supp h := h.1
  val_oob := by
    intro d s i h hi
    unfold val
    rw [if_neg]; rw [h.2.2]; omega
  new_ok := by
    intro d hd
    refine ⟨_, rfl, ⟨hd, rfl, ?_⟩, ?_⟩
    · show ushl 1 d = 2 ^ d
      exact ushl_one (by omega)
    · intro i; exact ite_self _
  get_ok := by
    intro d s i h hi
    have : i < s.array.len := by rw [h.2.2]; exact hi
    show getByIdx s i = _
    unfold getByIdx Arr1.index val
    rw [if_neg (by omega), if_pos this, if_pos this]
  set_valid := by
    intro d s i v h
    show Valid d (setByIdx s i v)
    unfold setByIdx
    split
    · exact h
    · exact h
  set_val := by
    intro d s i v h hi j
    show val (setByIdx s i v) j = _
    have : i < s.array.len := by rw [h.2.2]; exact hi
    unfold setByIdx val
    rw [if_pos this]
    simp only [Arr1.set]
    by_cases hj : j = i
    · subst hj; simp [this]
    · simp [hj]
  set_oob := by
    intro d s i v h hi
    show setByIdx s i v = s
    unfold setByIdx
    rw [if_neg]; rw [h.2.2]; omega
  enum_nodup := fun _ => enum_nodup _
  enum_mem := by
    intro d s p h hp
    have := mem_enum.mp hp
    refine ⟨by rw [← h.2.2]; exact this.1, ?_⟩
    unfold val
    rw [if_pos this.1]; exact this.2.1
  enum_complete := by
    intro d s i h hv
    refine mem_enum.mpr ?_
    unfold val at *
    by_cases hi : i < s.array.len
    · rw [if_pos hi] at *; exact ⟨hi, rfl, hv⟩
    · rw [if_neg hi] at hv; exact absurd rfl hv
  grade_nodup := by
    intro d s k h
    show ((gradeEnumerate s k).map Prod.fst).Nodup
    unfold gradeEnumerate
    rw [List.map_map]
    have : (Prod.fst ∘ fun i => (i, s.array.get i)) = id := rfl
    rw [this, List.map_id, h.2.1, gradeIterList_eq (by have := h.1; omega)]
    exact comb_nodup _ _
  grade_mem := by
    intro d s p k h hk hp
    change p ∈ gradeEnumerate s k at hp
    unfold gradeEnumerate at hp
    rw [List.mem_map, h.2.1] at hp
    obtain ⟨i, hi, rfl⟩ := hp
    rw [mem_gradeIterList (by have := h.1; omega)] at hi
    refine ⟨hi.1, hi.2, ?_⟩
    unfold val
    rw [if_pos (by rw [h.2.2]; exact hi.1)]
  grade_complete := by
    intro d s i k h hk hv hc
    show _ ∈ gradeEnumerate s k
    unfold gradeEnumerate
    rw [List.mem_map, h.2.1]
    by_cases hi : i < 2 ^ d
    · refine ⟨i, (mem_gradeIterList (by have := h.1; omega)).mpr ⟨hi, hc⟩, ?_⟩
      unfold val
      rw [if_pos (by rw [h.2.2]; exact hi)]
    · exfalso; apply hv; unfold val; rw [if_neg]; rw [h.2.2]; exact hi
  add_ok := by
    intro d a b ha hb
    have hl : a.array.len = b.array.len := by rw [ha.2.2, hb.2.2]
    refine ⟨⟨a.dim, a.array.len, fun i => a.array.get i + b.array.get i⟩, ?_, ?_, ?_⟩
    · show add a b = _
      unfold add
      rw [if_pos hl]
    · exact ha
    · intro i
      unfold val
      rw [← hl]
      split
      · rfl
      · exact (CoeffLaws.add_zero _).symm
  sub_ok := by
    intro d a b ha hb
    have hl : a.array.len = b.array.len := by rw [ha.2.2, hb.2.2]
    refine ⟨⟨a.dim, a.array.len, fun i => a.array.get i - b.array.get i⟩, ?_, ?_, ?_⟩
    · show sub a b = _
      unfold sub
      rw [if_pos hl]
    · exact ha
    · intro i
      unfold val
      rw [← hl]
      split
      · rfl
      · exact (CoeffLaws.sub_zero _).symm
  beq_iff := by
    intro d a b ha hb
    have hl : a.array.len = b.array.len := by rw [ha.2.2, hb.2.2]
    show beq a b = true ↔ _
    unfold beq Arr1.beq val
    rw [← hl]
    simp only [beq_self_eq_true, Bool.true_and, List.all_eq_true, List.mem_range, decide_eq_true_eq]
    constructor
    · intro h i
      by_cases hi : i < a.array.len
      · rw [if_pos hi, if_pos hi, h i hi]
      · rw [if_neg hi, if_neg hi]
    · intro h i hi
      have := h i
      rwa [if_pos hi, if_pos hi] at this
  mapMut_ok := by
    intro d s f g h hf h0 hn
    have h1 := foldlM_ok (P := fun _ => True)
      (f := fun (acc : ArrayStorage T) (p : Nat × T) => (do
        let v ← f p.2
        return ⟨acc.dim, acc.array.set p.1 v⟩ : Res (ArrayStorage T)))
      (g := fun (acc : ArrayStorage T) (p : Nat × T) => ⟨acc.dim, acc.array.set p.1 (g p.2)⟩)
      (coeffEnumerate s) (fun acc x _ _ => ⟨by rw [hf]; rfl, trivial⟩) s trivial
    have h2 := mapMut_fold g (coeffEnumerate s) (enum_nodup s) s
    refine ⟨_, h1.1, ?_, ?_⟩
    · exact ⟨h.1, by rw [h2.1]; exact h.2.1, by rw [h2.2.1]; exact h.2.2⟩
    · intro i
      unfold val
      rw [h2.2.1]
      by_cases hi : i < s.array.len
      · rw [if_pos hi, if_pos hi]
        by_cases hz : s.array.get i = 0
        · rw [h2.2.2.2 i, hz, h0]
          intro hm
          rw [List.mem_map] at hm
          obtain ⟨p, hp, rfl⟩ := hm
          rw [mem_enum] at hp
          exact hp.2.2 (by rw [hp.2.1, hz])
        · exact h2.2.2.1 (i, s.array.get i) (mem_enum.mpr ⟨hi, rfl, hz⟩)
      · rw [if_neg hi, if_neg hi, h0]

end ArrayStorage

/-! ### Sparse storage -/

theorem lookup_eq_some {T : Type} {l : List (Nat × T)} (hl : (l.map Prod.fst).Nodup) {k : Nat} {v : T} :
    l.lookup k = some v ↔ (k, v) ∈ l := by
  induction l with
  | nil => simp
  | cons q qs ih =>
    rw [List.map_cons, List.nodup_cons] at hl
    obtain ⟨a, b⟩ := q
    rw [List.lookup_cons]
    by_cases h : k = a
    · subst h
      simp only [beq_self_eq_true, List.mem_cons, Option.some.injEq, Prod.mk.injEq, true_and]
      constructor
      · intro h; exact Or.inl h.symm
      · rintro (h | h)
        · exact h.symm
        · exact absurd (List.mem_map_of_mem (f := Prod.fst) h) hl.1
    · have : (k == a) = false := by simp [h]
      rw [this]
      simp [h, ih hl.2]

theorem lookup_eq_none {T : Type} {l : List (Nat × T)} {k : Nat} : l.lookup k = none ↔ k ∉ l.map Prod.fst := by
  induction l with
  | nil => simp
  | cons q qs ih =>
    obtain ⟨a, b⟩ := q
    rw [List.lookup_cons]
    by_cases h : k = a
    · subst h; simp
    · have : (k == a) = false := by simp [h]
      rw [this]
      simp [h, ih]

theorem lookup_filter_ne {T : Type} (l : List (Nat × T)) (k j : Nat) :
    (l.filter (fun p => p.1 ≠ k)).lookup j = if j = k then none else l.lookup j := by
  induction l with
  | nil => simp
  | cons q qs ih =>
    obtain ⟨a, b⟩ := q
    by_cases h : a = k
    · subst h
      rw [List.filter_cons_of_neg (by simp), ih, List.lookup_cons]
      by_cases hj : j = a
      · simp [hj]
      · have : (j == a) = false := by simp [hj]
        simp [hj, this]
    · rw [List.filter_cons_of_pos (by simpa using h), List.lookup_cons, List.lookup_cons, ih]
      by_cases hj : j = a
      · subst hj; simp [h]
      · have : (j == a) = false := by simp [hj]
        simp [this]

namespace SparseStorage
variable {T : Type} [Zero T] [Add T] [Sub T] [CoeffLaws T] [DecidableEq T] [HashOrder T]

/-- Representation invariant of the sparse storage. -/
def Valid (d : Nat) (s : SparseStorage T) : Prop :=
  d ≤ 63 ∧ s.dim = d ∧ s.size = 2 ^ d ∧ (s.coeffs.entries.map Prod.fst).Nodup ∧
    ∀ p ∈ s.coeffs.entries, p.1 < 2 ^ d ∧ p.2 ≠ 0

theorem mem_enum {s : SparseStorage T} {p : Nat × T} : p ∈ coeffEnumerate s ↔ p ∈ s.coeffs.entries :=
  (HashOrder.perm _).mem_iff

theorem enum_nodup {d : Nat} {s : SparseStorage T} (h : Valid d s) : ((coeffEnumerate s).map Prod.fst).Nodup :=
  ((HashOrder.perm s.coeffs.entries).map Prod.fst).nodup_iff.mpr h.2.2.2.1

theorem get_of_mem {d : Nat} {s : SparseStorage T} (h : Valid d s) {p : Nat × T} (hp : p ∈ s.coeffs.entries) :
    getByIdx s p.1 = p.2 := by
  unfold getByIdx HashMap.get?
  rw [(lookup_eq_some h.2.2.2.1 (k := p.1) (v := p.2)).mpr hp]; rfl

theorem mem_of_get {d : Nat} {s : SparseStorage T} (h : Valid d s) {i : Nat} (hi : getByIdx s i ≠ 0) :
    (i, getByIdx s i) ∈ s.coeffs.entries := by
  rw [← lookup_eq_some h.2.2.2.1]
  unfold getByIdx HashMap.get? at *
  rcases hl : s.coeffs.entries.lookup i with _ | v
  · rw [hl] at hi; exact absurd rfl hi
  · rfl

theorem new_valid {d : Nat} (hd : d ≤ 63) : Valid (T := T) d (new d) := by
  refine ⟨hd, rfl, ushl_one (by omega), ?_, ?_⟩ <;> simp [new, HashMap.empty]

theorem set_valid {d : Nat} {s : SparseStorage T} {i : Nat} {v : T} (h : Valid d s) : Valid d (setByIdx s i v) := by
  have hf : ((s.coeffs.entries.filter (fun p => p.1 ≠ i)).map Prod.fst).Nodup :=
    List.Nodup.sublist (List.Sublist.map _ List.filter_sublist) h.2.2.2.1
  have hm : ∀ p ∈ s.coeffs.entries.filter (fun p => p.1 ≠ i), p.1 < 2 ^ d ∧ p.2 ≠ 0 := by
    intro p hp
    exact h.2.2.2.2 p (List.mem_of_mem_filter hp)
  unfold setByIdx
  split
  · rename_i hi
    split
    · exact ⟨h.1, h.2.1, h.2.2.1, hf, hm⟩
    · rename_i hv
      refine ⟨h.1, h.2.1, h.2.2.1, ?_, ?_⟩
      · show (((i, v) :: s.coeffs.entries.filter (fun p => p.1 ≠ i)).map Prod.fst).Nodup
        rw [List.map_cons, List.nodup_cons]
        refine ⟨?_, hf⟩
        intro hc
        rw [List.mem_map] at hc
        obtain ⟨p, hp, hpi⟩ := hc
        have := List.of_mem_filter hp
        simp at this; exact this hpi
      · intro p hp
        change p ∈ (i, v) :: s.coeffs.entries.filter (fun p => p.1 ≠ i) at hp
        rcases List.mem_cons.mp hp with rfl | hp
        · exact ⟨by rw [← h.2.2.1]; exact hi, hv⟩
        · exact hm p hp
  · exact h

theorem set_val {d : Nat} {s : SparseStorage T} {i : Nat} {v : T} (h : Valid d s) (hi : i < 2 ^ d) (j : Nat) :
    getByIdx (setByIdx s i v) j = if j = i then v else getByIdx s j := by
  unfold setByIdx
  rw [if_pos (by rw [h.2.2.1]; exact hi)]
  unfold getByIdx HashMap.get?
  split
  · rename_i hv
    simp only [HashMap.remove]
    rw [lookup_filter_ne]
    by_cases hj : j = i
    · simp [hj, hv]
    · simp [hj]
  · simp only [HashMap.insert, HashMap.remove]
    rw [List.lookup_cons, lookup_filter_ne]
    by_cases hj : j = i
    · simp [hj]
    · have : (j == i) = false := by simp [hj]
      simp [hj, this]

theorem fold_upd {d : Nat} (G : T → T → T) (l : List (Nat × T)) (hl : (l.map Prod.fst).Nodup)
    (hlt : ∀ p ∈ l, p.1 < 2 ^ d) (r : SparseStorage T) (hr : Valid d r) :
    let s' := l.foldl (fun r p => setByIdx r p.1 (G (getByIdx r p.1) p.2)) r
    Valid d s' ∧ (∀ p ∈ l, getByIdx s' p.1 = G (getByIdx r p.1) p.2) ∧
      (∀ j, j ∉ l.map Prod.fst → getByIdx s' j = getByIdx r j) := by
  induction l generalizing r with
  | nil => exact ⟨hr, by simp, by simp⟩
  | cons q qs ih =>
    rw [List.map_cons, List.nodup_cons] at hl
    have hq := hlt q (by simp)
    have h := ih hl.2 (fun p hp => hlt p (by simp [hp])) (setByIdx r q.1 (G (getByIdx r q.1) q.2)) (set_valid hr)
    simp only [List.foldl_cons] at *
    refine ⟨h.1, ?_, ?_⟩
    · intro p hp
      rcases List.mem_cons.mp hp with rfl | hp
      · rw [h.2.2 p.1 hl.1, set_val hr hq]; simp
      · rw [h.2.1 p hp, set_val hr hq, if_neg]
        intro he
        exact hl.1 (by rw [← he]; exact List.mem_map_of_mem hp)
    · intro j hj
      rw [List.map_cons, List.mem_cons, not_or] at hj
      rw [h.2.2 j hj.2, set_val hr hq, if_neg hj.1]

theorem fold_enum {d : Nat} (G : T → T → T) (hG : ∀ x, G x 0 = x) {b : SparseStorage T} (hb : Valid d b)
    (r : SparseStorage T) (hr : Valid d r) :
    let s' := (coeffEnumerate b).foldl (fun r p => setByIdx r p.1 (G (getByIdx r p.1) p.2)) r
    Valid d s' ∧ ∀ i, getByIdx s' i = G (getByIdx r i) (getByIdx b i) := by
  have h := fold_upd (d := d) G (coeffEnumerate b) (enum_nodup hb) (fun p hp => (hb.2.2.2.2 p (mem_enum.mp hp)).1) r hr
  refine ⟨h.1, ?_⟩
  intro i
  by_cases hi : getByIdx b i = 0
  · rw [hi, hG]
    apply h.2.2
    intro hc
    rw [List.mem_map] at hc
    obtain ⟨p, hp, rfl⟩ := hc
    rw [mem_enum] at hp
    rw [get_of_mem hb hp] at hi
    exact (hb.2.2.2.2 p hp).2 hi
  · exact h.2.1 (i, getByIdx b i) (mem_enum.mpr (mem_of_get hb hi))

theorem copy_spec {d : Nat} {a : SparseStorage T} (ha : Valid d a) :
    let s' := (coeffEnumerate a).foldl (fun r p => setByIdx r p.1 p.2) (new a.dim)
    Valid d s' ∧ ∀ i, getByIdx s' i = getByIdx a i := by
  have hl := fold_upd (d := d) (fun _ y => y) (coeffEnumerate a) (enum_nodup ha)
    (fun p hp => (ha.2.2.2.2 p (mem_enum.mp hp)).1) (new a.dim) (by rw [ha.2.1]; exact new_valid ha.1)
  refine ⟨hl.1, ?_⟩
  intro i
  by_cases hi : getByIdx a i = 0
  · rw [hi]
    refine (hl.2.2 i ?_).trans ?_
    · intro hc
      rw [List.mem_map] at hc
      obtain ⟨p, hp, rfl⟩ := hc
      rw [mem_enum] at hp
      rw [get_of_mem ha hp] at hi
      exact (ha.2.2.2.2 p hp).2 hi
    · simp [getByIdx, new, HashMap.get?, HashMap.empty]
  · exact hl.2.1 (i, getByIdx a i) (mem_enum.mpr (mem_of_get ha hi))

theorem mapM_entries {f : T → Res T} {g : T → T} (hf : ∀ x, f x = .ok (g x)) (l : List (Nat × T)) :
    l.mapM (fun p => (do
      let v ← f p.2
      return (p.1, v) : Res (Nat × T))) = .ok (l.map (fun p => (p.1, g p.2))) := by
  induction l with
  | nil => rfl
  | cons q qs ih => rw [List.mapM_cons, ih, hf]; rfl

theorem lookup_map (g : T → T) (l : List (Nat × T)) (k : Nat) :
    (l.map (fun p => (p.1, g p.2))).lookup k = (l.lookup k).map g := by
  induction l with
  | nil => rfl
  | cons q qs ih =>
    rw [List.map_cons, List.lookup_cons, List.lookup_cons, ih]
    split <;> rfl

instance : LawfulStorage (SparseStorage T) T where
  Supp d := d ≤ 63
  Valid := Valid
  val := getByIdx
  supp_le h := h
  valid_supp h := h.1
  val_oob := by
    intro d s i h hi
    by_contra hc
    have := (h.2.2.2.2 _ (mem_of_get h hc)).1
    simp at this; omega
  new_ok := by
    intro d hd
    refine ⟨_, rfl, new_valid hd, ?_⟩
    intro i; simp [getByIdx, new, HashMap.get?, HashMap.empty]
  get_ok := fun _ _ => rfl
  set_valid := set_valid
  set_val := set_val
  set_oob := by
    intro d s i v h hi
    show setByIdx s i v = s
    unfold setByIdx
    rw [if_neg]; rw [h.2.2.1]; omega
  enum_nodup := enum_nodup
  enum_mem := by
    intro d s p h hp
    have := mem_enum.mp hp
    exact ⟨(h.2.2.2.2 p this).1, (get_of_mem h this).symm⟩
  enum_complete := by
    intro d s i h hv
    exact mem_enum.mpr (mem_of_get h hv)
  grade_nodup := by
    intro d s k h
    exact List.Nodup.sublist (List.Sublist.map _ List.filter_sublist) (enum_nodup h)
  grade_mem := by
    intro d s p k h hk hp
    change p ∈ gradeEnumerate s k at hp
    unfold gradeEnumerate at hp
    rw [Nat.mod_eq_of_lt hk, List.mem_filter, decide_eq_true_eq, mem_enum] at hp
    exact ⟨(h.2.2.2.2 p hp.1).1, hp.2, (get_of_mem h hp.1).symm⟩
  grade_complete := by
    intro d s i k h hk hv hc
    show _ ∈ gradeEnumerate s k
    unfold gradeEnumerate
    rw [Nat.mod_eq_of_lt hk, List.mem_filter, decide_eq_true_eq, mem_enum]
    exact ⟨mem_of_get h hv, hc⟩
  add_ok := by
    intro d a b ha hb
    have h1 := copy_spec ha
    have h2 := fold_enum (fun x y => x + y) CoeffLaws.add_zero hb _ h1.1
    refine ⟨_, rfl, h2.1, ?_⟩
    intro i
    exact (h2.2 i).trans (by rw [h1.2])
  sub_ok := by
    intro d a b ha hb
    have h1 := copy_spec ha
    have h2 := fold_enum (fun x y => x - y) CoeffLaws.sub_zero hb _ h1.1
    refine ⟨_, rfl, h2.1, ?_⟩
    intro i
    exact (h2.2 i).trans (by rw [h1.2])
  beq_iff := by
    intro d a b ha hb
    show beq a b = true ↔ _
    unfold beq
    simp only [Bool.and_eq_true, List.all_eq_true, decide_eq_true_eq, mem_enum]
    constructor
    · rintro ⟨h1, h2⟩ i
      by_cases hi : getByIdx a i = 0
      · by_cases hj : getByIdx b i = 0
        · rw [hi, hj]
        · exact h2 _ (mem_of_get hb hj)
      · exact (h1 _ (mem_of_get ha hi)).symm
    · intro h
      refine ⟨fun p hp => ?_, fun p hp => ?_⟩
      · rw [← h, get_of_mem ha hp]
      · rw [h, get_of_mem hb hp]
  mapMut_ok := by
    intro d s f g h hf h0 hn
    refine ⟨{ s with coeffs := ⟨s.coeffs.entries.map (fun p => (p.1, g p.2))⟩ }, ?_, ?_, ?_⟩
    · show coeffMapMut s f = _
      unfold coeffMapMut
      rw [mapM_entries hf]; rfl
    · refine ⟨h.1, h.2.1, h.2.2.1, ?_, ?_⟩
      · simp only [List.map_map]
        exact h.2.2.2.1
      · intro p hp
        simp only [List.mem_map] at hp
        obtain ⟨q, hq, rfl⟩ := hp
        have e := get_of_mem h hq
        exact ⟨(h.2.2.2.2 q hq).1, by rw [← e]; exact hn q.1 (by rw [show getByIdx s q.1 = _ from e]; exact (h.2.2.2.2 q hq).2)⟩
    · intro i
      simp only [getByIdx, HashMap.get?]
      rw [lookup_map]
      cases s.coeffs.entries.lookup i with
      | none => simp [h0]
      | some v => rfl

end SparseStorage

/-! ### Quaternion storage -/

namespace QStorage
variable {T : Type} [Zero T] [Add T] [Sub T] [CoeffLaws T] [DecidableEq T]

theorem get_of_le (s : QStorage T) {i : Nat} (h : 4 ≤ i) : getByIdx s i = 0 := by
  match i, h with
  | i + 4, _ => rfl

theorem set_get (s : QStorage T) (i j : Nat) (v : T) (hi : i < 4) :
    getByIdx (setByIdx s i v) j = if j = i then v else getByIdx s j := by
  match i, hi with
  | 0, _ => match j with | 0 => rfl | 1 => rfl | 2 => rfl | 3 => rfl | j + 4 => simp [getByIdx]
  | 1, _ => match j with | 0 => rfl | 1 => rfl | 2 => rfl | 3 => rfl | j + 4 => simp [getByIdx]
  | 2, _ => match j with | 0 => rfl | 1 => rfl | 2 => rfl | 3 => rfl | j + 4 => simp [getByIdx]
  | 3, _ => match j with | 0 => rfl | 1 => rfl | 2 => rfl | 3 => rfl | j + 4 => simp [getByIdx]

theorem mem_enum {s : QStorage T} {p : Nat × T} : p ∈ coeffEnumerate s ↔ p.1 < 4 ∧ p.2 = getByIdx s p.1 := by
  obtain ⟨i, v⟩ := p
  simp only [coeffEnumerate, List.mem_cons, Prod.mk.injEq, List.not_mem_nil, or_false]
  constructor
  · rintro (⟨rfl, rfl⟩ | ⟨rfl, rfl⟩ | ⟨rfl, rfl⟩ | ⟨rfl, rfl⟩) <;> simp [getByIdx]
  · rintro ⟨h1, h2⟩
    match i, h1 with
    | 0, _ => simp_all [getByIdx]
    | 1, _ => simp_all [getByIdx]
    | 2, _ => simp_all [getByIdx]
    | 3, _ => simp_all [getByIdx]

theorem enum_nodup (s : QStorage T) : ((coeffEnumerate s).map Prod.fst).Nodup := by
  simp [coeffEnumerate]

theorem forall_get {P : Nat → T → T → Prop} {a b : QStorage T} (h0 : P 0 a.c0 b.c0) (h1 : P 1 a.c1 b.c1)
    (h2 : P 2 a.c2 b.c2) (h3 : P 3 a.c3 b.c3) (hz : ∀ i, P i 0 0) (i : Nat) : P i (getByIdx a i) (getByIdx b i) := by
  match i with
  | 0 => exact h0
  | 1 => exact h1
  | 2 => exact h2
  | 3 => exact h3
  | i + 4 => exact hz _

instance : LawfulStorage (QStorage T) T where
  Supp d := d = 2
  Valid d _ := d = 2
  val := getByIdx
  supp_le h := by omega
  valid_supp h := h
  val_oob := by
    intro d s i h hi
    subst h
    exact get_of_le s hi
  new_ok := by
    intro d hd
    subst hd
    refine ⟨⟨0, 0, 0, 0⟩, rfl, rfl, ?_⟩
    intro i
    match i with | 0 => rfl | 1 => rfl | 2 => rfl | 3 => rfl | i + 4 => rfl
  get_ok := fun _ _ => rfl
  set_valid h := h
  set_val := by
    intro d s i v h hi j
    subst h
    exact set_get s i j v hi
  set_oob := by
    intro d s i v h hi
    subst h
    match i, hi with
    | i + 4, _ => rfl
  enum_nodup _ := enum_nodup _
  enum_mem := by
    intro d s p h hp
    subst h
    exact mem_enum.mp hp
  enum_complete := by
    intro d s i h hv
    refine mem_enum.mpr ⟨?_, rfl⟩
    by_contra hc
    exact hv (get_of_le s (by omega))
  grade_nodup := by
    intro d s k h
    exact List.Nodup.sublist (List.Sublist.map _ List.filter_sublist) (enum_nodup s)
  grade_mem := by
    intro d s p k h hk hp
    subst h
    change p ∈ gradeEnumerate s k at hp
    unfold gradeEnumerate at hp
    rw [List.mem_filter, decide_eq_true_eq, mem_enum] at hp
    exact ⟨hp.1.1, hp.2, hp.1.2⟩
  grade_complete := by
    intro d s i k h hk hv hc
    show _ ∈ gradeEnumerate s k
    unfold gradeEnumerate
    rw [List.mem_filter, decide_eq_true_eq, mem_enum]
    refine ⟨⟨?_, rfl⟩, hc⟩
    by_contra hc
    exact hv (get_of_le s (by omega))
  add_ok := by
    intro d a b ha hb
    refine ⟨_, rfl, ha, ?_⟩
    intro i
    match i with | 0 => rfl | 1 => rfl | 2 => rfl | 3 => rfl | i + 4 => exact (CoeffLaws.add_zero _).symm
  sub_ok := by
    intro d a b ha hb
    refine ⟨_, rfl, ha, ?_⟩
    intro i
    match i with | 0 => rfl | 1 => rfl | 2 => rfl | 3 => rfl | i + 4 => exact (CoeffLaws.sub_zero _).symm
  beq_iff := by
    intro d a b ha hb
    show decide (a = b) = true ↔ _
    rw [decide_eq_true_eq]
    constructor
    · rintro rfl i; rfl
    · intro h
      have h0 := h 0; have h1 := h 1; have h2 := h 2; have h3 := h 3
      simp only [getByIdx] at h0 h1 h2 h3
      cases a; cases b; simp_all
  mapMut_ok := by
    intro d s f g h hf h0 hn
    refine ⟨⟨g s.c0, g s.c1, g s.c2, g s.c3⟩, ?_, h, ?_⟩
    · show coeffMapMut s f = _
      unfold coeffMapMut
      rw [hf, hf, hf, hf]; rfl
    · intro i
      match i with | 0 => rfl | 1 => rfl | 2 => rfl | 3 => rfl | i + 4 => exact h0.symm

end QStorage

end TClifford
