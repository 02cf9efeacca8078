import Verif.Proofs.Wedge
import Verif.Proofs.Construct
/-
Sparse storages in which a coefficient may be stored although it is zero (`filter_inplace` can leave such entries): they are a
lawful storage too, so that all generic theorems apply to them, and the operations that build their result with `set_by_idx`
remove the stored zeros.
-/

set_option linter.unusedSectionVars false

namespace TClifford

namespace SparseStorage
section
variable {T : Type} [Zero T] [Add T] [Sub T] [CoeffLaws T] [DecidableEq T] [HashOrder T]

/-- Representation invariant without the requirement that stored coefficients are non-zero. -/
def Loose (d : Nat) (s : SparseStorage T) : Prop :=
  d ≤ 63 ∧ s.dim = d ∧ s.size = 2 ^ d ∧ (s.coeffs.entries.map Prod.fst).Nodup ∧ ∀ p ∈ s.coeffs.entries, p.1 < 2 ^ d

/-- No stored coefficient is zero. -/
def Tidy (s : SparseStorage T) : Prop := ∀ p ∈ s.coeffs.entries, p.2 ≠ 0

theorem valid_iff {d : Nat} {s : SparseStorage T} : Valid d s ↔ Loose d s ∧ Tidy s :=
  ⟨fun h => ⟨⟨h.1, h.2.1, h.2.2.1, h.2.2.2.1, fun p hp => (h.2.2.2.2 p hp).1⟩, fun p hp => (h.2.2.2.2 p hp).2⟩,
    fun h => ⟨h.1.1, h.1.2.1, h.1.2.2.1, h.1.2.2.2.1, fun p hp => ⟨h.1.2.2.2.2 p hp, h.2 p hp⟩⟩⟩

namespace Loose
variable {d : Nat} {s : SparseStorage T}

theorem enum_nodup (h : Loose d s) : ((coeffEnumerate s).map Prod.fst).Nodup :=
  ((HashOrder.perm s.coeffs.entries).map Prod.fst).nodup_iff.mpr h.2.2.2.1

theorem get_of_mem (h : Loose d s) {p : Nat × T} (hp : p ∈ s.coeffs.entries) : getByIdx s p.1 = p.2 := by
  unfold getByIdx HashMap.get?
  rw [(lookup_eq_some h.2.2.2.1 (k := p.1) (v := p.2)).mpr hp]; rfl

theorem mem_of_get (h : Loose d s) {i : Nat} (hi : getByIdx s i ≠ 0) : (i, getByIdx s i) ∈ s.coeffs.entries := by
  rw [← lookup_eq_some h.2.2.2.1]
  unfold getByIdx HashMap.get? at *
  rcases hl : s.coeffs.entries.lookup i with _ | v
  · rw [hl] at hi; exact absurd rfl hi
  · rfl

theorem new {d : Nat} (hd : d ≤ 63) : Loose (T := T) d (SparseStorage.new d) := (valid_iff.mp (new_valid hd)).1

theorem set {i : Nat} {v : T} (h : Loose d s) : Loose d (setByIdx s i v) := by
  have hf : ((s.coeffs.entries.filter (fun p => p.1 ≠ i)).map Prod.fst).Nodup :=
    List.Nodup.sublist (List.Sublist.map _ List.filter_sublist) h.2.2.2.1
  have hm : ∀ p ∈ s.coeffs.entries.filter (fun p => p.1 ≠ i), p.1 < 2 ^ d :=
    fun p hp => h.2.2.2.2 p (List.mem_of_mem_filter hp)
  unfold setByIdx
  split
  · rename_i hi
    split
    · exact ⟨h.1, h.2.1, h.2.2.1, hf, hm⟩
    · refine ⟨h.1, h.2.1, h.2.2.1, ?_, ?_⟩
      · show (((i, v) :: s.coeffs.entries.filter (fun p => p.1 ≠ i)).map Prod.fst).Nodup
        rw [List.map_cons, List.nodup_cons]
        refine ⟨?_, hf⟩
        intro hc
        rw [List.mem_map] at hc
        obtain ⟨p, hp, hpi⟩ := hc
        have := List.of_mem_filter hp
        simp at this; exact this hpi
      · intro p hp
        change p ∈ (i, v) :: s.coeffs.entries.filter (fun p => p.1 ≠ i) at hp
        rcases List.mem_cons.mp hp with rfl | hp
        · rw [← h.2.2.1]; exact hi
        · exact hm p hp
  · exact h

theorem set_val {i : Nat} {v : T} (h : Loose d s) (hi : i < 2 ^ d) (j : Nat) :
    getByIdx (setByIdx s i v) j = if j = i then v else getByIdx s j := by
  unfold setByIdx
  rw [if_pos (by rw [h.2.2.1]; exact hi)]
  unfold getByIdx HashMap.get?
  split
  · rename_i hv
    simp only [HashMap.remove]
    rw [lookup_filter_ne]
    by_cases hj : j = i
    · simp [hj, hv]
    · simp [hj]
  · simp only [HashMap.insert, HashMap.remove]
    rw [List.lookup_cons, lookup_filter_ne]
    by_cases hj : j = i
    · simp [hj]
    · have : (j == i) = false := by simp [hj]
      simp [hj, this]

theorem fold_upd (G : T → T → T) (l : List (Nat × T)) (hl : (l.map Prod.fst).Nodup)
    (hlt : ∀ p ∈ l, p.1 < 2 ^ d) (r : SparseStorage T) (hr : Loose d r) :
    let s' := l.foldl (fun r p => setByIdx r p.1 (G (getByIdx r p.1) p.2)) r
    Loose d s' ∧ (∀ p ∈ l, getByIdx s' p.1 = G (getByIdx r p.1) p.2) ∧
      (∀ j, j ∉ l.map Prod.fst → getByIdx s' j = getByIdx r j) := by
  induction l generalizing r with
  | nil => exact ⟨hr, by simp, by simp⟩
  | cons q qs ih =>
    rw [List.map_cons, List.nodup_cons] at hl
    have hq := hlt q (by simp)
    have h := ih hl.2 (fun p hp => hlt p (by simp [hp])) (setByIdx r q.1 (G (getByIdx r q.1) q.2)) hr.set
    simp only [List.foldl_cons] at *
    refine ⟨h.1, ?_, ?_⟩
    · intro p hp
      rcases List.mem_cons.mp hp with rfl | hp
      · rw [h.2.2 p.1 hl.1, hr.set_val hq]; simp
      · rw [h.2.1 p hp, hr.set_val hq, if_neg]
        intro he
        exact hl.1 (by rw [← he]; exact List.mem_map_of_mem hp)
    · intro j hj
      rw [List.map_cons, List.mem_cons, not_or] at hj
      rw [h.2.2 j hj.2, hr.set_val hq, if_neg hj.1]

/-- An index without an entry reads as zero. -/
theorem get_of_not_mem {i : Nat} (hi : i ∉ s.coeffs.entries.map Prod.fst) (h : Loose d s) : getByIdx s i = 0 := by
  by_contra hc
  exact hi (List.mem_map.mpr ⟨_, h.mem_of_get hc, rfl⟩)

theorem fold_enum (G : T → T → T) (hG : ∀ x, G x 0 = x) {b : SparseStorage T} (hb : Loose d b)
    (r : SparseStorage T) (hr : Loose d r) :
    let s' := (coeffEnumerate b).foldl (fun r p => setByIdx r p.1 (G (getByIdx r p.1) p.2)) r
    Loose d s' ∧ ∀ i, getByIdx s' i = G (getByIdx r i) (getByIdx b i) := by
  have h := fold_upd (d := d) G (coeffEnumerate b) hb.enum_nodup (fun p hp => hb.2.2.2.2 p (mem_enum.mp hp)) r hr
  refine ⟨h.1, ?_⟩
  intro i
  by_cases hi : i ∈ (coeffEnumerate b).map Prod.fst
  · obtain ⟨p, hp, rfl⟩ := List.mem_map.mp hi
    exact (h.2.1 p hp).trans (by rw [hb.get_of_mem (mem_enum.mp hp)])
  · refine (h.2.2 i hi).trans ?_
    rw [hb.get_of_not_mem (fun hc => hi ?_), hG]
    obtain ⟨p, hp, rfl⟩ := List.mem_map.mp hc
    exact List.mem_map.mpr ⟨p, mem_enum.mpr hp, rfl⟩

theorem copy_spec {a : SparseStorage T} (ha : Loose d a) :
    let s' := (coeffEnumerate a).foldl (fun r p => setByIdx r p.1 p.2) (SparseStorage.new a.dim)
    Loose d s' ∧ ∀ i, getByIdx s' i = getByIdx a i := by
  have hl := fold_upd (d := d) (fun _ y => y) (coeffEnumerate a) ha.enum_nodup
    (fun p hp => ha.2.2.2.2 p (mem_enum.mp hp)) (SparseStorage.new a.dim) (by rw [ha.2.1]; exact .new ha.1)
  refine ⟨hl.1, ?_⟩
  intro i
  by_cases hi : i ∈ (coeffEnumerate a).map Prod.fst
  · obtain ⟨p, hp, rfl⟩ := List.mem_map.mp hi
    exact (hl.2.1 p hp).trans (by rw [ha.get_of_mem (mem_enum.mp hp)])
  · refine (hl.2.2 i hi).trans ?_
    rw [ha.get_of_not_mem (i := i) (fun hc => hi ?_)]
    · simp [getByIdx, SparseStorage.new, HashMap.get?, HashMap.empty]
    · obtain ⟨p, hp, rfl⟩ := List.mem_map.mp hc
      exact List.mem_map.mpr ⟨p, mem_enum.mpr hp, rfl⟩

end Loose

/-- The sparse storage is lawful for the weaker invariant, too.  Not an instance: it has to be selected by hand. -/
@[reducible] def looseLawful : LawfulStorage (SparseStorage T) T where
  Supp d := d ≤ 63
  Valid := Loose
  val := getByIdx
  supp_le h := h
  valid_supp h := h.1
  val_oob := by
    intro d s i h hi
    by_contra hc
    have := h.2.2.2.2 _ (h.mem_of_get hc)
    simp at this; omega
  new_ok := by
    intro d hd
    refine ⟨_, rfl, .new hd, ?_⟩
    intro i; simp [getByIdx, new, HashMap.get?, HashMap.empty]
  get_ok := fun _ _ => rfl
  set_valid := Loose.set
  set_val := Loose.set_val
  set_oob := by
    intro d s i v h hi
    show setByIdx s i v = s
    unfold setByIdx
    rw [if_neg]; rw [h.2.2.1]; omega
  enum_nodup := Loose.enum_nodup
  enum_mem := by
    intro d s p h hp
    have := mem_enum.mp hp
    exact ⟨h.2.2.2.2 p this, (h.get_of_mem this).symm⟩
  enum_complete := by
    intro d s i h hv
    exact mem_enum.mpr (h.mem_of_get hv)
  grade_nodup := by
    intro d s k h
    exact List.Nodup.sublist (List.Sublist.map _ List.filter_sublist) h.enum_nodup
  grade_mem := by
    intro d s p k h hk hp
    change p ∈ gradeEnumerate s k at hp
    unfold gradeEnumerate at hp
    rw [Nat.mod_eq_of_lt hk, List.mem_filter, decide_eq_true_eq, mem_enum] at hp
    exact ⟨h.2.2.2.2 p hp.1, hp.2, (h.get_of_mem hp.1).symm⟩
  grade_complete := by
    intro d s i k h hk hv hc
    show _ ∈ gradeEnumerate s k
    unfold gradeEnumerate
    rw [Nat.mod_eq_of_lt hk, List.mem_filter, decide_eq_true_eq, mem_enum]
    exact ⟨h.mem_of_get hv, hc⟩
  add_ok := by
    intro d a b ha hb
    have h1 := ha.copy_spec
    have h2 := hb.fold_enum (fun x y => x + y) CoeffLaws.add_zero _ h1.1
    refine ⟨_, rfl, h2.1, ?_⟩
    intro i
    exact (h2.2 i).trans (by rw [h1.2])
  sub_ok := by
    intro d a b ha hb
    have h1 := ha.copy_spec
    have h2 := hb.fold_enum (fun x y => x - y) CoeffLaws.sub_zero _ h1.1
    refine ⟨_, rfl, h2.1, ?_⟩
    intro i
    exact (h2.2 i).trans (by rw [h1.2])
  beq_iff := by
    intro d a b ha hb
    show beq a b = true ↔ _
    unfold beq
    simp only [Bool.and_eq_true, List.all_eq_true, decide_eq_true_eq, mem_enum]
    constructor
    · rintro ⟨h1, h2⟩ i
      by_cases hi : getByIdx a i = 0
      · by_cases hj : getByIdx b i = 0
        · rw [hi, hj]
        · exact h2 _ (hb.mem_of_get hj)
      · exact (h1 _ (ha.mem_of_get hi)).symm
    · intro h
      refine ⟨fun p hp => ?_, fun p hp => ?_⟩
      · rw [← h, ha.get_of_mem hp]
      · rw [h, hb.get_of_mem hp]
  mapMut_ok := by
    intro d s f g h hf h0 hn
    refine ⟨{ s with coeffs := ⟨s.coeffs.entries.map (fun p => (p.1, g p.2))⟩ }, ?_, ?_, ?_⟩
    · show coeffMapMut s f = _
      unfold coeffMapMut
      rw [mapM_entries hf]; rfl
    · refine ⟨h.1, h.2.1, h.2.2.1, ?_, ?_⟩
      · simp only [List.map_map]
        exact h.2.2.2.1
      · intro p hp
        simp only [List.mem_map] at hp
        obtain ⟨q, hq, rfl⟩ := hp
        exact h.2.2.2.2 q hq
    · intro i
      simp only [getByIdx, HashMap.get?]
      rw [lookup_map]
      cases s.coeffs.entries.lookup i with
      | none => simp [h0]
      | some v => rfl

theorem new_tidy (d : Nat) : Tidy (new d : SparseStorage T) := fun p hp => by simp [new, HashMap.empty] at hp

theorem set_tidy {s : SparseStorage T} (h : Tidy s) (i : Nat) (v : T) : Tidy (setByIdx s i v) := by
  have hm : ∀ p ∈ s.coeffs.entries.filter (fun p => p.1 ≠ i), p.2 ≠ 0 := fun p hp => h p (List.mem_of_mem_filter hp)
  unfold setByIdx
  split
  · split
    · exact hm
    · rename_i hv
      intro p hp
      change p ∈ (i, v) :: s.coeffs.entries.filter (fun p => p.1 ≠ i) at hp
      rcases List.mem_cons.mp hp with rfl | hp
      · exact hv
      · exact hm p hp
  · exact h

theorem foldl_tidy {β : Type} (f : SparseStorage T → β → SparseStorage T) (hf : ∀ s x, Tidy s → Tidy (f s x)) (l : List β)
    {s : SparseStorage T} (h : Tidy s) : Tidy (l.foldl f s) := by
  induction l generalizing s with
  | nil => exact h
  | cons x xs ih => exact ih (hf s x h)

theorem add_tidy (a b : SparseStorage T) : Tidy (add a b) :=
  foldl_tidy _ (fun _ _ h => set_tidy h _ _) _ (foldl_tidy _ (fun _ _ h => set_tidy h _ _) _ (new_tidy _))

theorem sub_tidy (a b : SparseStorage T) : Tidy (sub a b) :=
  foldl_tidy _ (fun _ _ h => set_tidy h _ _) _ (foldl_tidy _ (fun _ _ h => set_tidy h _ _) _ (new_tidy _))

end
end SparseStorage

namespace MV
variable {T : Type} [Ring T] [DecidableEq T] [HashOrder T] {A : ClAlg}

/-- No coefficient stored in the sparse multivector is zero. -/
def Tidy (a : MV A (SparseStorage T)) : Prop := ∀ p ∈ a.coeffs.coeffs.entries, p.2 ≠ 0

/-- The result of the computation, if there is one, stores no zeros. -/
def TidyR (x : Res (MV A (SparseStorage T))) : Prop := ∀ c, x = .ok c → c.Tidy

theorem Tidy.set {a : MV A (SparseStorage T)} (h : a.Tidy) (i : Nat) (v : T) : (a.setByIdx i v).Tidy :=
  SparseStorage.set_tidy (s := a.coeffs) h i v

theorem TidyR.ok {a : MV A (SparseStorage T)} (h : a.Tidy) : TidyR (.ok a) := by
  intro c hc; injection hc with hc; subst hc; exact h

theorem TidyR.error {e : Err} : TidyR (.error e : Res (MV A (SparseStorage T))) := fun _ h => by cases h

theorem TidyR.unwrap {x : Res (MV A (SparseStorage T))} (h : TidyR x) : TidyR (TClifford.unwrap x) := by
  intro c hc
  refine h c ?_
  unfold TClifford.unwrap at hc
  split at hc <;> simp_all

theorem TidyR.foldlM {β : Type} {f : MV A (SparseStorage T) → β → Res (MV A (SparseStorage T))}
    (hf : ∀ s x, s.Tidy → TidyR (f s x)) (l : List β) {s : MV A (SparseStorage T)} (h : s.Tidy) : TidyR (l.foldlM f s) := by
  induction l generalizing s with
  | nil => exact .ok h
  | cons x xs ih =>
    intro c hc
    rw [List.foldlM_cons] at hc
    rcases hx : f s x with e | u
    · rw [hx] at hc; cases hc
    · rw [hx] at hc
      exact ih (hf s x h u hx) c hc

theorem TidyR.foldl {β : Type} {f : MV A (SparseStorage T) → β → MV A (SparseStorage T)}
    (hf : ∀ s x, s.Tidy → (f s x).Tidy) (l : List β) {s : MV A (SparseStorage T)} (h : s.Tidy) : (l.foldl f s).Tidy := by
  induction l generalizing s with
  | nil => exact h
  | cons x xs ih => exact ih (hf s x h)

/-- The pattern of almost all operations: fill in an empty multivector. -/
theorem TidyR.of_default {g : MV A (SparseStorage T) → Res (MV A (SparseStorage T))} (hg : ∀ z, z.Tidy → TidyR (g z)) :
    TidyR (MV.default (T := T) >>= g) := by
  intro c hc
  exact hg ⟨SparseStorage.new A.dim⟩ (SparseStorage.new_tidy _) c hc

theorem TidyR.bind {α : Type} {x : Res α} {g : α → Res (MV A (SparseStorage T))} (hg : ∀ u, TidyR (g u)) : TidyR (x >>= g) := by
  rcases x with e | u
  · exact .error
  · exact hg u

theorem accumulate_tidy {r : MV A (SparseStorage T)} (h : r.Tidy) (i : Nat) (s : Res Sign) (x y : T) :
    TidyR (r.accumulate i s x y) := by
  unfold accumulate
  refine .bind fun c => .bind fun σ => ?_
  rcases σ with _ | _ | _
  all_goals first | exact .ok h | exact .ok (h.set _ _)

end MV

end TClifford
