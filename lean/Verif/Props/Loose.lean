import Verif.Props.Storage
import Verif.Proofs.Loose
/-
Sparse multivectors with stored zeros (`filter_inplace` may leave them, C20): C73.
-/

set_option linter.unusedSectionVars false

namespace TClifford

open MV Finset

section
variable {T : Type} [Ring T] [DecidableEq T] {A : ClAlg}

/-- The part of the sparse storage invariant that survives every operation, `filter_inplace` with any closure included:
dimensions of the algebra, unique keys in range.  Coefficients may be stored although they are zero. -/
def MV.Loose (a : MV A (SparseStorage T)) : Prop :=
  A.dim ≤ 63 ∧ a.coeffs.dim = A.dim ∧ a.coeffs.size = 2 ^ A.dim ∧ (a.coeffs.coeffs.entries.map Prod.fst).Nodup ∧
    ∀ p ∈ a.coeffs.coeffs.entries, p.1 < 2 ^ A.dim

/-- The correspondence of two multivectors with stored zeros, under two iteration orders. -/
abbrev CorrL (o o' : HashOrder T) (a a' : MV A (SparseStorage T)) : Prop :=
  @Corr T _ _ (SparseStorage T) (SparseStorage T) (@SparseStorage.instCoeffStorage T _ _ _ _ o)
    (@SparseStorage.looseLawful T _ _ _ _ _ o) (@SparseStorage.instCoeffStorage T _ _ _ _ o')
    (@SparseStorage.looseLawful T _ _ _ _ _ o') A a a'

theorem CorrL.mk' {o o' : HashOrder T} {a a' : MV A (SparseStorage T)} (ha : a.Loose) (ha' : a'.Loose)
    (h : SameCoeffs a a') : CorrL o o' a a' := ⟨ha, ha', fun i hi => congrArg Except.ok (h i hi)⟩

abbrev CorrRL (o o' : HashOrder T) (x y : Res (MV A (SparseStorage T))) : Prop :=
  @CorrR T _ _ (SparseStorage T) (SparseStorage T) (@SparseStorage.instCoeffStorage T _ _ _ _ o)
    (@SparseStorage.looseLawful T _ _ _ _ _ o) (@SparseStorage.instCoeffStorage T _ _ _ _ o')
    (@SparseStorage.looseLawful T _ _ _ _ _ o') A x y

theorem CorrRL.same {o o' : HashOrder T} {x y : Res (MV A (SparseStorage T))} (h : CorrRL o o' x y) : SameR x y := by
  obtain ⟨u, v, hu, hv, hc⟩ := h
  exact ⟨u, v, hu, hv, fun i hi => by have := hc.2.2 i hi; injection this⟩

/-- The generic theorems about the wedge product apply to storages with stored zeros. -/
theorem looseWedge (o : HashOrder T) : @LawfulWedge A (SparseStorage T) T _ _ (@SparseStorage.instCoeffStorage T _ _ _ _ o)
    (@SparseStorage.looseLawful T _ _ _ _ _ o) (letI := o; inferInstance) :=
  letI := o
  letI : LawfulStorage (SparseStorage T) T := SparseStorage.looseLawful
  ⟨MV.naiveWedge_denotes, MV.naiveMeet_denotes⟩

theorem gradesExtract_loose {o : HashOrder T} {a : MV A (SparseStorage T)} (ha : a.Loose) (gs : List Nat) :
    ∃ c, a.gradesExtract gs = .ok c ∧ c.Loose ∧ ∀ i < 2 ^ A.dim, (c.coeffs.coeffs.get? i).getD 0 =
      if countOnes i ∈ gs then (a.coeffs.coeffs.get? i).getD 0 else 0 := by
  let _ : LawfulStorage (SparseStorage T) T := SparseStorage.looseLawful
  have ha : a.Valid := ha
  obtain ⟨c, hc, hcv, hcf⟩ :=
    (fromIndexedIter_enum (S := SparseStorage T) ha.supp (ha.enum.filter (fun p => gs.contains (countOnes p.1)))).unwrap
  refine ⟨c, hc, hcv, fun i hi => (hcf i hi).trans ?_⟩
  simp only [List.contains_eq_mem, decide_eq_true_eq]
  rfl

theorem filterInplace_loose {a : MV A (SparseStorage T)} (ha : a.Loose) (f : Nat → T → Bool) (i : Nat) :
    ((a.filterInplace f).coeffs.coeffs.get? i).getD 0 =
      if f i ((a.coeffs.coeffs.get? i).getD 0) then (a.coeffs.coeffs.get? i).getD 0 else 0 := by
  let _ : HashOrder T := ⟨id, fun l => List.Perm.refl l⟩
  unfold HashMap.get?
  rw [filterInplace_eq a f, lookup_filter _ ha.2.2.2.1]
  rcases a.coeffs.coeffs.entries.lookup i with _ | v
  · simp
  · by_cases h : f i v = true <;> simp [Option.filter, h]

/-- **C73.** Stored zeros and the iteration order are invisible to the operations: operands with the same coefficients give
results with the same coefficients. -/
theorem C73_operations (hA : A.WF) (o o' : HashOrder T) {a a' b b' : MV A (SparseStorage T)}
    (ha : a.Loose) (ha' : a'.Loose) (hb : b.Loose) (hb' : b'.Loose) (haa : SameCoeffs a a') (hbb : SameCoeffs b b') :
    SameR (letI := o; a.add b) (letI := o'; a'.add b') ∧
    SameR (letI := o; a.sub b) (letI := o'; a'.sub b') ∧
    SameR (letI := o; a.neg) (letI := o'; a'.neg) ∧
    (∀ t : T, SameR (letI := o; a.smul t) (letI := o'; a'.smul t)) ∧
    SameR (letI := o; a.naiveMulImpl b) (letI := o'; a'.naiveMulImpl b') ∧
    SameR (letI := o; a.wedge b) (letI := o'; a'.wedge b') ∧
    SameR (letI := o; a.meet b) (letI := o'; a'.meet b') ∧
    SameR (letI := o; a.rev) (letI := o'; a'.rev) ∧
    SameR (letI := o; a.flip) (letI := o'; a'.flip) ∧
    (∀ mask, SameR (letI := o; a.flipSubspace mask) (letI := o'; a'.flipSubspace mask)) ∧
    SameR (letI := o; a.dual) (letI := o'; a'.dual) ∧
    SameR (letI := o; a.undual) (letI := o'; a'.undual) ∧
    (∀ n, SameR (letI := o; a.pow n) (letI := o'; a'.pow n)) ∧
    (∀ k, SameR (letI := o; a.gradeExtract k) (letI := o'; a'.gradeExtract k)) ∧
    (∀ gs, SameR (letI := o; a.gradesExtract gs) (letI := o'; a'.gradesExtract gs)) ∧
    (∀ f, SameCoeffs (a.filterInplace f) (a'.filterInplace f)) ∧
    (∀ i v, SameCoeffs (a.setByIdx i v) (a'.setByIdx i v)) := by
  have c1 : CorrL o o' a a' := .mk' ha ha' haa
  have c2 : CorrL o o' b b' := .mk' hb hb' hbb
  obtain ⟨h1, h2, h3, h4, h5, h6, h7, h8, h9, h10, h11, h12, h13, h14, h15⟩ :=
    @corr_operations T _ _ (SparseStorage T) (SparseStorage T) (@SparseStorage.instCoeffStorage T _ _ _ _ o)
      (@SparseStorage.looseLawful T _ _ _ _ _ o) (@SparseStorage.instCoeffStorage T _ _ _ _ o')
      (@SparseStorage.looseLawful T _ _ _ _ _ o') A a b a' b'
      (letI := o; inferInstance) (looseWedge o)
      (letI := o'; inferInstance) (looseWedge o') hA c1 c2
  refine ⟨CorrRL.same h1, CorrRL.same h2, CorrRL.same h3, fun t => CorrRL.same (h4 t), CorrRL.same h5, CorrRL.same h6,
    CorrRL.same h7, CorrRL.same h8, CorrRL.same h9, fun m => CorrRL.same (h10 m), CorrRL.same h11, CorrRL.same h12,
    fun n => CorrRL.same (h13 n), fun k => ?_, fun gs => ?_, fun f i hi => ?_,
    fun i v j hj => by have := (h15 i v).2.2 j hj; injection this⟩
  · have h := CorrRL.same (h14 (k % 2 ^ 32) (Nat.mod_lt _ (by norm_num)))
    rwa [← @sparse_gradeExtract_mod T _ _ o, ← @sparse_gradeExtract_mod T _ _ o'] at h
  · obtain ⟨u, hu, huf⟩ := gradesExtract_loose (o := o) ha gs
    obtain ⟨v, hv, hvf⟩ := gradesExtract_loose (o := o') ha' gs
    refine ⟨u, v, hu, hv, fun i hi => ?_⟩
    rw [huf.2 i hi, hvf.2 i hi, haa i hi]
  · rw [filterInplace_loose ha f i, filterInplace_loose ha' f i, haa i hi]

/-- **C73.** Nor do the queries see stored zeros: products, equality, `is_zero`, … -/
theorem C73_queries (hA : A.WF) (o o' : HashOrder T) {a a' b b' : MV A (SparseStorage T)}
    (ha : a.Loose) (ha' : a'.Loose) (hb : b.Loose) (hb' : b'.Loose) (haa : SameCoeffs a a') (hbb : SameCoeffs b b') :
    (letI := o; a.scalarPart) = (letI := o'; a'.scalarPart) ∧
    (letI := o; a.vsdot b) = (letI := o'; a'.vsdot b') ∧
    (letI := o; a.vdot b) = (letI := o'; a'.vdot b') ∧
    (letI := o; a.mag2) = (letI := o'; a'.mag2) ∧
    (letI := o; a.isZero) = (letI := o'; a'.isZero) ∧
    (letI := o; a.beq b) = (letI := o'; a'.beq b') ∧
    (letI := o; a.extractVector) = (letI := o'; a'.extractVector) := by
  have c1 : CorrL o o' a a' := .mk' ha ha' haa
  have c2 : CorrL o o' b b' := .mk' hb hb' hbb
  exact @corr_scalars T _ _ (SparseStorage T) (SparseStorage T) (@SparseStorage.instCoeffStorage T _ _ _ _ o)
      (@SparseStorage.looseLawful T _ _ _ _ _ o) (@SparseStorage.instCoeffStorage T _ _ _ _ o')
      (@SparseStorage.looseLawful T _ _ _ _ _ o') A a b a' b' hA c1 c2

variable [HashOrder T]

/-- **C73.** Every operation except `pow(1)`, `retain_grades` and `filter_inplace` stores no zeros in its result, whatever its
operands store. -/
theorem C73_tidy (a b : MV A (SparseStorage T)) :
    TidyR (a.add b) ∧ TidyR (a.sub b) ∧ TidyR a.neg ∧ (∀ t : T, TidyR (a.smul t)) ∧ TidyR (a.naiveMulImpl b) ∧
    TidyR (a.wedge b) ∧ TidyR (a.meet b) ∧ TidyR a.rev ∧ TidyR a.flip ∧ (∀ mask, TidyR (a.flipSubspace mask)) ∧
    TidyR a.dual ∧ TidyR a.undual ∧ (∀ n, n ≠ 1 → TidyR (a.pow n)) ∧ (∀ k, TidyR (a.gradeExtract k)) ∧
    (∀ gs, TidyR (a.gradesExtract gs)) ∧ (∀ conj : T → T, TidyR (a.revc conj)) := by
  have hmul : ∀ x y : MV A (SparseStorage T), TidyR (x.naiveMulImpl y) := fun x y =>
    .of_default fun z hz => TidyR.foldlM (fun r p hr => TidyR.foldlM (fun r q hr => accumulate_tidy hr _ _ _ _) _ hr) _ hz
  have hidx : ∀ l : List (Nat × T), TidyR (fromIndexedIter (A := A) l) := fun l =>
    .of_default fun z hz => TidyR.foldlM (fun r p hr => by split; exacts [.error, .ok (hr.set _ _)]) _ hz
  have hset : ∀ {β : Type} (l : List β) (i : β → Nat) (v : β → T),
      TidyR (MV.default (T := T) >>= fun (z : MV A (SparseStorage T)) => .ok (l.foldl (fun r p => r.setByIdx (i p) (v p)) z)) :=
    fun l i v => .of_default fun z hz => .ok (TidyR.foldl (fun r p hr => hr.set _ _) _ hz)
  refine ⟨?_, ?_, (hidx _).unwrap, fun t => hset _ _ _, hmul a b, ?_, ?_, hset _ _ _, hset _ _ _, fun m => hset _ _ _,
    ?_, ?_, ?_, fun k => hset _ _ _, fun gs => (hidx _).unwrap, fun conj => (hidx _).unwrap⟩
  · intro c hc
    injection hc with hc
    subst hc
    exact SparseStorage.add_tidy a.coeffs b.coeffs
  · intro c hc
    injection hc with hc
    subst hc
    exact SparseStorage.sub_tidy a.coeffs b.coeffs
  · show TidyR (a.naiveWedgeImpl b)
    exact .of_default fun z hz =>
      TidyR.foldlM (fun r p hr => TidyR.foldlM (fun r q hr => accumulate_tidy hr _ _ _ _) _ hr) _ hz
  · show TidyR (a.naiveMeetImpl b)
    exact .of_default fun z hz =>
      TidyR.foldlM (fun r p hr => TidyR.foldlM (fun r q hr => accumulate_tidy hr _ _ _ _) _ hr) _ hz
  · refine .of_default fun z hz => TidyR.foldlM (fun r p hr => .bind fun σ => ?_) _ hz
    rcases σ with _ | _ | _
    all_goals first | exact .error | exact .ok (hr.set _ _)
  · refine .of_default fun z hz => TidyR.foldlM (fun r p hr => .bind fun σ => ?_) _ hz
    rcases σ with _ | _ | _
    all_goals first | exact .error | exact .ok (hr.set _ _)
  · intro n hn
    rw [pow]
    split
    · exact .of_default fun z hz => .ok (hz.set _ _)
    · refine .bind fun x => ?_
      split
      · exact hmul _ _
      · exact .bind fun y => hmul _ _

/-- **C73.** Conversion to the dense storage and back preserves the coefficients and removes the stored zeros. -/
theorem C73_convert {a : MV A (SparseStorage T)} (ha : a.Loose) :
    ∃ d c, a.toDense = .ok d ∧ d.Valid ∧ d.toSparse = .ok c ∧ c.Tidy ∧ SameCoeffs c a ∧
      ∀ i < 2 ^ A.dim, d.getByIdx i = a.getByIdx i := by
  obtain ⟨d, hd, hdv, hdf⟩ : Denotes (a.toStorageType (S' := ArrayStorage T)) (fun i => SparseStorage.getByIdx a.coeffs i) :=
    letI : LawfulStorage (SparseStorage T) T := SparseStorage.looseLawful
    toStorageType_denotes (S' := ArrayStorage T) (a := a) ha ha.1
  obtain ⟨c, hc, hcv, hcf⟩ := toStorageType_denotes (S' := SparseStorage T) hdv hdv.supp
  refine ⟨d, c, hd, hdv, hc, fun p hp => (hcv.2.2.2.2 p hp).2, fun i hi => (hcf i hi).trans (hdf i hi), fun i hi => ?_⟩
  rw [hdv.get hi, hdf i hi]
  rfl

/-- Everything a program can do with sparse multivectors over a ring, `filter_inplace` with any closure included
(`filtered`, `retain_grades` and `filter_inplace` with a plain predicate are instances of it). -/
inductive ReachAny : MV A (SparseStorage T) → Prop
  | zero {c} : MV.default = .ok c → ReachAny c
  | scalar {t c} : fromScalar t = .ok c → ReachAny c
  | one {c} : MV.one = .ok c → ReachAny c
  | vector {l c} : fromVector l = .ok c → ReachAny c
  | indexed {l c} : fromIndexedIter l = .ok c → ReachAny c
  | basis {n c} : basisVec n = .ok c → ReachAny c
  | ofDense {d : MV A (ArrayStorage T)} {c} : d.Valid → d.toSparse = .ok c → ReachAny c
  | set {a} (i v) : ReachAny a → ReachAny (a.setByIdx i v)
  | add {a b c} : ReachAny a → ReachAny b → a.add b = .ok c → ReachAny c
  | sub {a b c} : ReachAny a → ReachAny b → a.sub b = .ok c → ReachAny c
  | neg {a c} : ReachAny a → a.neg = .ok c → ReachAny c
  | smul {a t c} : ReachAny a → a.smul t = .ok c → ReachAny c
  | mul {a b c} : ReachAny a → ReachAny b → a.naiveMulImpl b = .ok c → ReachAny c
  | wedge {a b c} : ReachAny a → ReachAny b → a.wedge b = .ok c → ReachAny c
  | meet {a b c} : ReachAny a → ReachAny b → a.meet b = .ok c → ReachAny c
  | rev {a c} : ReachAny a → a.rev = .ok c → ReachAny c
  | flip {a c} : ReachAny a → a.flip = .ok c → ReachAny c
  | flipSubspace {a m c} : ReachAny a → a.flipSubspace m = .ok c → ReachAny c
  | dual {a c} : ReachAny a → a.dual = .ok c → ReachAny c
  | undual {a c} : ReachAny a → a.undual = .ok c → ReachAny c
  | pow {a n c} : ReachAny a → a.pow n = .ok c → ReachAny c
  | revc {a c} {conj : T → T} : conj 0 = 0 → ReachAny a → a.revc conj = .ok c → ReachAny c
  | gradeExtract {a k c} : ReachAny a → a.gradeExtract k = .ok c → ReachAny c
  | gradesExtract {a gs c} : ReachAny a → a.gradesExtract gs = .ok c → ReachAny c
  | filterInplaceMut {a} (f : Nat → T → Option T) : ReachAny a → ReachAny (a.filterInplaceMut f)

theorem filterInplaceMut_loose {a : MV A (SparseStorage T)} (ha : a.Loose) (f : Nat → T → Option T) :
    (a.filterInplaceMut f).Loose := by
  refine ⟨ha.1, ha.2.1, ha.2.2.1, ?_, ?_⟩
  · have : ∀ l : List (Nat × T), ((l.filterMap (fun p => (f p.1 p.2).map (fun v => (p.1, v)))).map Prod.fst).Sublist (l.map Prod.fst) := by
      intro l
      induction l with
      | nil => exact .slnil
      | cons p l ih =>
        rw [List.filterMap_cons]
        rcases f p.1 p.2 with _ | v
        · exact ih.cons _
        · exact ih.cons_cons _
    exact ha.2.2.2.1.sublist (this _)
  · intro p hp
    obtain ⟨c, hc, -⟩ := (filterInplaceMut_mem a f p).mp hp
    exact ha.2.2.2.2 (p.1, c) hc

/-- **C73.** Whatever a program does, the keys of a sparse multivector stay unique and in range, so the theorems of C73 apply
to everything it builds. -/
theorem C73_reach (hA : A.WF) (hd : A.dim ≤ 63) {a : MV A (SparseStorage T)} (h : ReachAny a) : a.Loose := by
  let inst : LawfulStorage (SparseStorage T) T := SparseStorage.looseLawful
  have hS : inst.Supp A.dim := hd
  have key : ∀ {x : Res (MV A (SparseStorage T))} {f : Nat → T} {c},
      @Denotes A (SparseStorage T) T _ _ _ _ _ inst x f → x = .ok c → c.Loose := by
    intro x f c h hc
    obtain ⟨u, hu, huv, -⟩ := h
    rw [hu] at hc
    injection hc with hc
    subst hc; exact huv
  have V : ∀ {x : MV A (SparseStorage T)}, x.Loose → x.Valid := fun h => h
  have hw := looseWedge (A := A) (T := T) inferInstance
  induction h with
  | zero h => exact key (default_denotes hS) h
  | scalar h => exact key (fromScalar_denotes hS _) h
  | one h => exact key (one_denotes hS) h
  | @vector l c h =>
    have hl := ((C24_ok_iff (S := SparseStorage T) (T := T) hd l).1).mp ⟨c, h⟩
    exact key (fromVector_denotes hS hl) h
  | @indexed l c h =>
    have hl := ((C25_err_iff (S := SparseStorage T) (T := T) hd l).2).mp ⟨c, h⟩
    exact key (fromIndexedIter_ok hS l hl) h
  | @basis n c h =>
    injection h with h
    subst h
    exact SparseStorage.Loose.set (SparseStorage.Loose.new hd)
  | ofDense hv h => exact key (toStorageType_denotes hv hS) h
  | set i v _ ih => exact SparseStorage.Loose.set ih
  | add _ _ h iha ihb => exact key (add_denotes (V iha) (V ihb)) h
  | sub _ _ h iha ihb => exact key (sub_denotes (V iha) (V ihb)) h
  | neg _ h iha => exact key (neg_denotes (V iha)) h
  | smul _ h iha => exact key (smul_denotes (V iha) _) h
  | mul _ _ h iha ihb => exact key (mul_denotes hA (V iha) (V ihb)) h
  | wedge _ _ h iha ihb => exact key (hw.wedge iha ihb) h
  | meet _ _ h iha ihb => exact key (hw.meet hA iha ihb) h
  | rev _ h iha => exact key (rev_denotes (V iha)) h
  | flip _ h iha => exact key (flip_denotes (V iha)) h
  | flipSubspace _ h iha => exact key (flipSubspace_denotes (V iha) _) h
  | dual _ h iha => exact key (dual_denotes hA (V iha)) h
  | undual _ h iha => exact key (undual_denotes hA (V iha)) h
  | pow _ h iha => exact key (pow_denotes hA (V iha) _) h
  | revc h0 _ h iha => exact key (revc_denotes (V iha) h0) h
  | @gradeExtract a k c _ h iha =>
    rw [sparse_gradeExtract_mod] at h
    exact key (gradeExtractAs_denotes (V iha) hS (Nat.mod_lt _ (by norm_num))) h
  | @gradesExtract a gs c _ h iha =>
    obtain ⟨u, hu, huv, -⟩ := gradesExtract_loose iha gs
    rw [hu] at h
    injection h with h
    subst h; exact huv
  | filterInplaceMut f _ iha => exact filterInplaceMut_loose iha f

/-- Division by a non-zero scalar does not see stored zeros and removes them. -/
theorem C73_sdiv {T : Type} [Field T] [DecidableEq T] (o o' : HashOrder T) {a a' : MV A (SparseStorage T)}
    (ha : a.Loose) (ha' : a'.Loose) (haa : SameCoeffs a a') {t : T} (ht : t ≠ 0) :
    SameR (letI := o; a.sdiv t) (letI := o'; a'.sdiv t) ∧ TidyR (letI := o; a.sdiv t) := by
  have c1 : CorrL o o' a a' := .mk' ha ha' haa
  refine ⟨CorrRL.same (@corr_sdiv T _ _ (SparseStorage T) (SparseStorage T) (@SparseStorage.instCoeffStorage T _ _ _ _ o)
      (@SparseStorage.looseLawful T _ _ _ _ _ o) (@SparseStorage.instCoeffStorage T _ _ _ _ o')
      (@SparseStorage.looseLawful T _ _ _ _ _ o') A a a' c1 t ht), ?_⟩
  let _ := o
  exact .of_default fun z hz => TidyR.foldlM (fun r p hr => .bind fun v => .ok (hr.set _ _)) _ hz

end

/-! ### Examples -/

/-- `2 e_0 ∧ e_2 + 3 - e_1 ∧ e_2` with a zero stored for `e_0` and one for the pseudoscalar. -/
def Ex.sZ : MV Ex.M (SparseStorage ℤ) := ⟨⟨3, 8, ⟨[(7, 0), (6, -1), (5, 2), (1, 0), (0, 3)]⟩⟩⟩

theorem Ex.sZ_loose : Ex.sZ.Loose := ⟨by decide, rfl, rfl, by decide, by decide⟩

theorem Ex.sA_loose : Ex.sA.Loose := ⟨by decide, rfl, rfl, by decide, by decide⟩

theorem Ex.sB_loose : Ex.sB.Loose := ⟨by decide, rfl, rfl, by decide, by decide⟩

theorem Ex.sZ_same : SameCoeffs Ex.sZ Ex.sA := by
  intro i hi
  have hi : i < 8 := hi
  interval_cases i <;> rfl

example : SameR (letI : HashOrder ℤ := Ex.revOrder; Ex.sZ.naiveMulImpl Ex.sB)
    (letI : HashOrder ℤ := Ex.idOrder; Ex.sA.naiveMulImpl Ex.sB) :=
  (C73_operations Ex.M_wf Ex.revOrder Ex.idOrder Ex.sZ_loose Ex.sA_loose Ex.sB_loose Ex.sB_loose Ex.sZ_same
    (fun _ _ => rfl)).2.2.2.2.1

example : (letI : HashOrder ℤ := Ex.revOrder; Ex.sZ.mag2) = (letI : HashOrder ℤ := Ex.idOrder; Ex.sA.mag2) :=
  (C73_queries Ex.M_wf Ex.revOrder Ex.idOrder Ex.sZ_loose Ex.sA_loose Ex.sB_loose Ex.sB_loose Ex.sZ_same
    (fun _ _ => rfl)).2.2.2.1

example [HashOrder ℤ] : (TidyR (Ex.sZ.smul (3 : ℤ)) ∧ ¬ Ex.sZ.Tidy) ∧
    ∃ d c, Ex.sZ.toDense = .ok d ∧ d.toSparse = .ok c ∧ c.Tidy ∧ SameCoeffs c Ex.sZ := by
  refine ⟨⟨(C73_tidy Ex.sZ Ex.sZ).2.2.2.1 3, fun h => h (7, 0) (by decide) rfl⟩, ?_⟩
  obtain ⟨d, c, h1, -, h2, h3, h4, -⟩ := C73_convert Ex.sZ_loose
  exact ⟨d, c, h1, h2, h3, h4⟩

example [HashOrder ℤ] (c : MV Ex.M (SparseStorage ℤ))
    (hc : (do let x ← fromVector (A := Ex.M) (S := SparseStorage ℤ) [1, 2, 0]; x.naiveMulImpl x) = .ok c) :
    (c.filterInplaceMut (fun _ v => some (v - 5))).Loose := by
  obtain ⟨x, hx, -⟩ := fromVector_denotes (A := Ex.M) (S := SparseStorage ℤ) (show Ex.M.dim ≤ 63 by decide) (l := [1, 2, 0]) rfl
  rw [hx] at hc
  exact C73_reach Ex.M_wf (by decide) (.filterInplaceMut _ (.mul (.vector hx) (.vector hx) hc))

example (o o' : HashOrder ℚ) : SameR (A := Ex.M) (letI := o; MV.sdiv ⟨⟨3, 8, ⟨[(2, (5 : ℚ)), (1, 0)]⟩⟩⟩ (2 : ℚ))
    (letI := o'; MV.sdiv ⟨⟨3, 8, ⟨[(2, (5 : ℚ))]⟩⟩⟩ (2 : ℚ)) :=
  (C73_sdiv o o' (A := Ex.M) (a := ⟨⟨3, 8, ⟨[(2, 5), (1, 0)]⟩⟩⟩) (a' := ⟨⟨3, 8, ⟨[(2, 5)]⟩⟩⟩)
    ⟨by decide, rfl, rfl, by decide, by decide⟩ ⟨by decide, rfl, rfl, by decide, by decide⟩
    (by intro i hi; have hi : i < 8 := hi; interval_cases i <;> rfl) (t := 2) (by norm_num)).1

/-- **C73, what does distinguish stored zeros.**  `coeff_count`, and division by the scalar zero: dividing the zero
multivector by zero gives the zero multivector, but with a stored zero it gives a non-finite coefficient, although the
dividends compare equal. -/
theorem C73_distinguishes [HashOrder ℚ] :
    ∃ a b : MV Ex.M (SparseStorage ℚ), ReachAny a ∧ ReachAny b ∧ a.beq b = true ∧ SameCoeffs a b ∧
      a.coeffCount = 1 ∧ b.coeffCount = 0 ∧ a.sdiv 0 = .error .nonFinite ∧ b.sdiv 0 = .ok b := by
  have hord : ∀ l : List (Nat × ℚ), l.length ≤ 1 → HashOrder.order l = l := by
    intro l hl
    have hp := HashOrder.perm l
    rcases l with _ | ⟨x, _ | ⟨y, l⟩⟩
    · exact List.Perm.eq_nil hp
    · exact List.perm_singleton.mp hp
    · simp at hl
  refine ⟨⟨⟨3, 8, ⟨[(5, 0)]⟩⟩⟩, ⟨⟨3, 8, ⟨[]⟩⟩⟩, ?_, .zero rfl, ?_, ?_, rfl, rfl, ?_, ?_⟩
  · have h1 : ReachAny (A := Ex.M) (T := ℚ) ⟨⟨3, 8, ⟨[(5, 2)]⟩⟩⟩ := .indexed (l := [(5, 2)]) rfl
    have h2 := ReachAny.filterInplaceMut (fun _ c => some (c - 2)) h1
    have e : (⟨⟨3, 8, ⟨[(5, 0)]⟩⟩⟩ : MV Ex.M (SparseStorage ℚ)) =
        MV.filterInplaceMut ⟨⟨3, 8, ⟨[(5, 2)]⟩⟩⟩ (fun _ c => some (c - 2)) := by
      show _ = (⟨⟨3, 8, ⟨[(5, 2 - 2)]⟩⟩⟩ : MV Ex.M (SparseStorage ℚ))
      rw [sub_self]
    rw [e]; exact h2
  · show SparseStorage.beq _ _ = true
    unfold SparseStorage.beq SparseStorage.coeffEnumerate HashMap.iter
    rw [hord _ (by simp), hord _ (by simp)]
    rfl
  · intro i hi
    have hi : i < 8 := hi
    interval_cases i <;> rfl
  · unfold sdiv MV.coeffEnumerate
    show List.foldlM _ _ (HashOrder.order [(5, (0 : ℚ))]) = _
    rw [hord _ (by simp), List.foldlM_cons]
    have hf : fdiv (0 : ℚ) (0 : ℚ) = .error .nonFinite := if_pos rfl
    rw [hf]
    rfl
  · unfold sdiv MV.coeffEnumerate
    show List.foldlM _ _ (HashOrder.order ([] : List (Nat × ℚ))) = _
    rw [hord _ (by simp)]
    rfl

end TClifford
