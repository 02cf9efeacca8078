import Verif.Props.ExpBound
import Verif.Props.Access
import Verif.Props.Rotors
/-
C87, third part: assertions of the tests that call `exp`, and those of `sparse_test`, for all inputs of the kind, with exact real
coefficients.

The theorems behind the other assertions on random inputs (tests/unit.rs):
- fft_repr_test (100-241): C27, C30-C33, C38; fft_repr_pow_test (243-258): C35; vee_test (384-435): C10, C64;
- dual_test (438-546): Verif/Props/TestsDual.lean; vdot_test (548-556): C15, C34; magnitude_test (558-600): C15, C56;
- trace_test (723-745): C34; examples_test (782-): C82, C83.
Not true for all inputs of the kind, so without a theorem: the assertion of fft_repr_exp_test (259-279), which holds as long as
the Taylor sums of the multivector and of its representation are both accurate, see C67.
-/

set_option linter.unusedSectionVars false

namespace TClifford
open MV Finset

section
variable {A : ClAlg} {S : Type} [DecidableEq ℝ] [CoeffStorage S ℝ] [LawfulStorage S ℝ]

theorem set_val {a : MV A S} (ha : a.Valid) {j : Nat} (hj : j < 2 ^ A.dim) (t : ℝ) :
    (a.setByIdx j t).Valid ∧ ∀ i, (a.setByIdx j t).val i = if i = j then t else a.val i :=
  ⟨LawfulStorage.set_valid ha, LawfulStorage.set_val ha hj⟩

/-- The error of the exponential of a multiple of a blade, and `approx_eq` with what was expected. -/
theorem exp_blade (hA : A.WF) (hS : LawfulStorage.Supp (S := S) (T := ℝ) A.dim) {j : Nat} (hj0 : j ≠ 0) (hj : j < 2 ^ A.dim) {t c s eps : ℝ}
    (hE : ∀ b u : MV A S, blade (A := A) (S := S) j = .ok b → b.Valid → b.smul t = .ok u →
      u.IsExp fun i => (if i = 0 then c else 0) + (single j 1 i : ℝ) * s)
    (heps : (max 1 ⌈|t|⌉₊ : ℕ) * Real.exp |t| / Nat.factorial 19 < eps) {fuel : Nat} (hf : 18 ≤ fuel) :
    ∃ z x : MV A S, MV.default = .ok z ∧ (z.setByIdx j t).exp (fun c => |c|) (RingHom.id ℝ) fuel = some (.ok x) ∧
      x.approxEq (fun c => |c|) ((z.setByIdx 0 c).setByIdx j s) eps = .ok true := by
  obtain ⟨z, z1, z2, z3⟩ := default_denotes (A := A) (S := S) (T := ℝ) hS
  obtain ⟨b, b1, b2, b3⟩ := blade_denotes (A := A) (S := S) (T := ℝ) hS hj
  obtain ⟨u, u1, u2, u3⟩ := smul_denotes b2 t
  obtain ⟨a1, a2⟩ := set_val z2 hj t
  have hga : (z.setByIdx j t).ga = u.ga := GA.of_congr fun i hi => by
    rw [a2, u3 i hi]
    show _ = b.val i * t
    rw [b3 i hi, z3 i hi, single]
    split <;> simp
  have hEa : (z.setByIdx j t).IsExp fun i => (if i = 0 then c else 0) + (single j 1 i : ℝ) * s := by
    rw [isExp_iff hA a1, hga]
    exact (isExp_iff hA u2).mp (hE b u b1 b2 u1)
  have hcoef : Coefs (.ok (z.setByIdx j t)) (fun i => if i = j then t else 0) :=
    ⟨_, rfl, fun i hi => by rw [a1.get hi, a2, z3 i hi]⟩
  obtain ⟨x, r, hx, hr, hb⟩ := C67_error_single hA a1 hcoef hEa hj (fun i _ h => if_neg h) hf
  obtain ⟨y, hy, hyc⟩ := hr
  subst hy
  obtain ⟨m, -, hm⟩ := expIntPow_ok hA (fun c : ℝ => ‖c‖) a1
  obtain ⟨x', hx', hxI⟩ := (exp_is (algebraMap ℝ ℝ) hA (fun c : ℝ => ‖c‖) a1 hm fuel).2 hf
  rw [hx] at hx'
  injection hx' with hx'
  subst hx'
  obtain ⟨y', e, hyv, -⟩ := hxI.ok
  injection e with e
  subst e
  refine ⟨z, y, z1, hx, ?_⟩
  have h0 := Nat.two_pow_pos A.dim
  obtain ⟨c1, c2⟩ := set_val z2 h0 c
  obtain ⟨e1, e2⟩ := set_val c1 hj s
  have heps0 : |(0 : ℝ)| < eps := by
    rw [abs_zero]
    refine lt_of_le_of_lt ?_ heps
    positivity
  obtain ⟨q, q1, q2⟩ := C51_iff (fun c : ℝ => |c|) heps0 hyv e1
  rw [q1]
  congr 1
  refine q2.mpr fun i hi => ⟨_, _, hyc i hi, e1.get hi, ?_⟩
  have hi' : r i - ((z.setByIdx 0 c).setByIdx j s).val i = r i - ((if i = 0 then c else 0) + (single j 1 i : ℝ) * s) := by
    rw [e2, c2, z3 i hi, single]
    by_cases h1 : i = j
    · subst h1
      rw [if_pos rfl, if_neg hj0, if_pos rfl]; ring
    · rw [if_neg h1, if_neg h1]; ring
  rw [hi']
  refine lt_of_le_of_lt ?_ heps
  refine (Finset.single_le_sum (f := fun i => ‖r i - ((if i = 0 then c else 0) + (single j 1 i : ℝ) * s)‖) (fun _ _ => norm_nonneg _)
    (mem_range.mpr hi)).trans (hb.trans ?_)
  simp

/-- **C87** (`ops_test`, src/test.rs:41-52, and `basic_test`, tests/unit.rs:92-96). For a basis blade whose square is `-1` and an angle from 0 to
`2π`, `exp` gives `cos + sin · blade` within `1e-12`. -/
theorem C87_exp_rotation (hA : A.WF) (hS : LawfulStorage.Supp (S := S) (T := ℝ) A.dim) {j : Nat} (hj0 : j ≠ 0) (hj : j < 2 ^ A.dim)
    (hsq : (do let b ← blade (A := A) (S := S) j; b.naiveMulImpl b) ≈ᵣ fromScalar (-1 : ℝ)) {t : ℝ} (h0 : 0 ≤ t) (h1 : t ≤ 2 * Real.pi)
    {fuel : Nat} (hf : 18 ≤ fuel) :
    ∃ z x : MV A S, MV.default = .ok z ∧ (z.setByIdx j t).exp (fun c => |c|) (RingHom.id ℝ) fuel = some (.ok x) ∧
      x.approxEq (fun c => |c|) ((z.setByIdx 0 (Real.cos t)).setByIdx j (Real.sin t)) (1 / 10 ^ 12) = .ok true := by
  refine exp_blade hA hS hj0 hj (fun b u hb hbv hu => ?_) ?_ hf
  · rw [hb] at hsq
    obtain ⟨b', e, -, b3⟩ := blade_denotes (A := A) (S := S) (T := ℝ) hS hj
    rw [hb] at e
    injection e with e
    subst e
    exact C67_square_minus_one hA hbv hu ⟨b, rfl, fun i hi => by rw [hbv.get hi, b3 i hi]⟩ hsq
  · rw [abs_of_nonneg h0]
    have hpi := Real.pi_lt_d2
    have ht : t ≤ 7 := by linarith
    have hm : ((max 1 ⌈t⌉₊ : ℕ) : ℝ) ≤ 7 := by
      have : max 1 ⌈t⌉₊ ≤ 7 := max_le (by norm_num) (Nat.ceil_le.mpr (by exact_mod_cast ht))
      exact_mod_cast this
    have he : Real.exp t ≤ 3 ^ 7 := by
      calc Real.exp t ≤ Real.exp 7 := Real.exp_le_exp.mpr ht
        _ = Real.exp 1 ^ 7 := by rw [← Real.exp_nat_mul]; norm_num
        _ ≤ 3 ^ 7 := pow_le_pow_left₀ (Real.exp_pos _).le (by have := Real.exp_one_lt_d9; linarith) 7
    have : ((max 1 ⌈t⌉₊ : ℕ) : ℝ) * Real.exp t ≤ 7 * 3 ^ 7 := mul_le_mul hm he (Real.exp_pos _).le (by norm_num)
    rw [div_lt_iff₀ (by positivity)]
    refine lt_of_le_of_lt this ?_
    rw [show (Nat.factorial 19 : ℝ) = 121645100408832000 by norm_num [Nat.factorial]]
    norm_num

/-- **C87** (`ops_test`, src/test.rs:54-65). For a basis blade whose square is `1` and a parameter from 0 to 100, `exp` gives
`cosh + sinh · blade` within `e^t / 1e12`. -/
theorem C87_exp_boost (hA : A.WF) (hS : LawfulStorage.Supp (S := S) (T := ℝ) A.dim) {j : Nat} (hj0 : j ≠ 0) (hj : j < 2 ^ A.dim)
    (hsq : (do let b ← blade (A := A) (S := S) j; b.naiveMulImpl b) ≈ᵣ fromScalar (1 : ℝ)) {t : ℝ} (h0 : 0 ≤ t) (h1 : t ≤ 100)
    {fuel : Nat} (hf : 18 ≤ fuel) :
    ∃ z x : MV A S, MV.default = .ok z ∧ (z.setByIdx j t).exp (fun c => |c|) (RingHom.id ℝ) fuel = some (.ok x) ∧
      x.approxEq (fun c => |c|) ((z.setByIdx 0 (Real.cosh t)).setByIdx j (Real.sinh t)) (Real.exp t / 10 ^ 12) = .ok true := by
  refine exp_blade hA hS hj0 hj (fun b u hb hbv hu => ?_) ?_ hf
  · rw [hb] at hsq
    obtain ⟨b', e, -, b3⟩ := blade_denotes (A := A) (S := S) (T := ℝ) hS hj
    rw [hb] at e
    injection e with e
    subst e
    have := C67_square_one (𝕜 := ℝ) hA hbv hu ⟨b, rfl, fun i hi => by rw [hbv.get hi, b3 i hi]⟩ hsq
    rwa [← Real.exp_eq_exp_ℝ, ← Real.cosh_eq, ← Real.sinh_eq] at this
  · rw [abs_of_nonneg h0]
    have hm : ((max 1 ⌈t⌉₊ : ℕ) : ℝ) ≤ 100 := by
      have : max 1 ⌈t⌉₊ ≤ 100 := max_le (by norm_num) (Nat.ceil_le.mpr (by exact_mod_cast h1))
      exact_mod_cast this
    rw [div_lt_iff₀ (by positivity), div_mul_eq_mul_div, lt_div_iff₀ (by positivity)]
    have he := Real.exp_pos t
    calc ((max 1 ⌈t⌉₊ : ℕ) : ℝ) * Real.exp t * 10 ^ 12 ≤ 100 * Real.exp t * 10 ^ 12 :=
          mul_le_mul_of_nonneg_right (mul_le_mul_of_nonneg_right hm he.le) (by positivity)
      _ < Real.exp t * Nat.factorial 19 := by
          rw [show (Nat.factorial 19 : ℝ) = 121645100408832000 by norm_num [Nat.factorial]]
          linarith

end

/-! ### Sparse multivectors -/

section
variable {A : ClAlg} {S T : Type} [Field T] [DecidableEq T] [CoeffStorage S T] [LawfulStorage S T] [WedgeProduct A S] [LawfulWedge A S]

/-- **C87** (`sparse_test`, tests/unit.rs:674-687). The square of the wedge of two vectors is a scalar, `(a·b)² - a² b²`, in every metric. -/
theorem C87_bivector_square (hA : A.WF) (h2 : (2 : T) ≠ 0) {a b : MV A S} (ha : a.Valid) (hb : b.Valid) (ha1 : IsGrade 1 a) (hb1 : IsGrade 1 b)
    {aa ab bb : T} (haa : a.vdot a = .ok aa) (hab : a.vdot b = .ok ab) (hbb : b.vdot b = .ok bb) :
    (do let w ← a.wedge b; w.naiveMulImpl w) ≈ᵣ fromScalar (ab ^ 2 - aa * bb) := by
  have d1 : GA.dot a.ga a.ga = aa := by rw [vdot_dot hA ha ha] at haa; injection haa
  have d2 : GA.dot a.ga b.ga = ab := by rw [vdot_dot hA ha hb] at hab; injection hab
  have d3 : GA.dot b.ga b.ga = bb := by rw [vdot_dot hA hb hb] at hbb; injection hbb
  refine Is.agree ((is_wedge ha hb).bind fun w hw hwg => hwg ▸ is_mul hA hw hw) (Is.fromScalar ha.supp _) ?_
  rw [GA.wdg_eq_biv h2 (ha1.isVec ha) (hb1.isVec hb), GA.biv_sq (ha1.isVec ha) (hb1.isVec hb), d1, d2, d3, Algebra.algebraMap_eq_smul_one]

end

/-- **C87** (`sparse_test`, tests/unit.rs:683-687). For vectors `a`, `b` and `w = a ∧ b`, `(w*w).grades_extract(&[0])` and
`(w*w).filtered(|_, c| c.abs() > eps)` are equal, unless the square is not zero but at most `eps`. -/
theorem C87_sparse {A : ClAlg} [DecidableEq ℝ] [HashOrder ℝ] (hA : A.WF) {a b : MV A (SparseStorage ℝ)} (ha : a.Valid) (hb : b.Valid)
    (ha1 : IsGrade 1 a) (hb1 : IsGrade 1 b) {aa ab bb eps : ℝ} (haa : a.vdot a = .ok aa) (hab : a.vdot b = .ok ab)
    (hbb : b.vdot b = .ok bb) :
    (do let w ← a.wedge b; let s ← w.naiveMulImpl w; s.gradesExtract [0]) ≈ᵣ
      (do let w ← a.wedge b; let s ← w.naiveMulImpl w; return s.filterInplace fun _ c => decide (eps < |c|)) ↔
    ab ^ 2 = aa * bb ∨ eps < |ab ^ 2 - aa * bb| := by
  have d1 : GA.dot a.ga a.ga = aa := by rw [vdot_dot hA ha ha] at haa; injection haa
  have d2 : GA.dot a.ga b.ga = ab := by rw [vdot_dot hA ha hb] at hab; injection hab
  have d3 : GA.dot b.ga b.ga = bb := by rw [vdot_dot hA hb hb] at hbb; injection hbb
  have hs : Is (do let w ← a.wedge b; w.naiveMulImpl w) (algebraMap ℝ (GA A.sigma A.dim ℝ) (ab ^ 2 - aa * bb)) := by
    refine ((is_wedge ha hb).bind fun w hw hwg => hwg ▸ is_mul hA hw hw).congr ?_
    rw [GA.wdg_eq_biv two_ne_zero (ha1.isVec ha) (hb1.isVec hb), GA.biv_sq (ha1.isVec ha) (hb1.isVec hb), d1, d2, d3,
      Algebra.algebraMap_eq_smul_one]
  obtain ⟨s, s1, s2, s3⟩ := hs.ok
  have hval : ∀ i < 2 ^ A.dim, s.val i = if i = 0 then ab ^ 2 - aa * bb else 0 := by
    intro i hi
    rw [← ga_val hi, s3, Algebra.algebraMap_eq_smul_one, GA.vfn_smul, GA.one_def, GA.fn_of _ hi, single]
    split <;> simp
  set q := ab ^ 2 - aa * bb with hq
  have e1 : (do let w ← a.wedge b; let s ← w.naiveMulImpl w; s.gradesExtract [0]) = s.gradesExtract [0] := by
    rw [← bind_assoc, s1]; rfl
  have e2 : (do let w ← a.wedge b; let s ← w.naiveMulImpl w; return s.filterInplace fun _ c => decide (eps < |c|)) =
      (.ok (s.filterInplace fun _ c => decide (eps < |c|)) : Res _) := by
    rw [← bind_assoc, s1]; rfl
  rw [e1, e2]
  obtain ⟨x, x1, x2, x3⟩ := gradesExtract_denotes s2 [0]
  obtain ⟨y, y1, y2, y3⟩ := filterInplace_denotes s2 (fun _ c => decide (eps < |c|))
  injection y1 with y1
  rw [x1, y1]
  have hx : ∀ i < 2 ^ A.dim, x.val i = if i = 0 then q else 0 := by
    intro i hi
    rw [x3 i hi]
    show (if countOnes i ∈ [0] then s.val i else 0) = _
    rw [hval i hi]
    by_cases h : i = 0
    · subst h
      rw [if_pos (by rw [show countOnes 0 = 0 from by decide]; simp)]
    · rw [if_neg h]; simp
  have hy : ∀ i < 2 ^ A.dim, y.val i = if i = 0 ∧ eps < |q| then q else 0 := by
    intro i hi
    rw [y3 i hi]
    show (if decide (eps < |s.val i|) = true then s.val i else 0) = _
    rw [hval i hi]
    by_cases h : i = 0
    · subst h; simp
    · rw [if_neg h, if_neg (c := i = 0 ∧ eps < |q|) (show ¬(i = 0 ∧ eps < |q|) from fun hc => h hc.1)]; simp
  have h0 := Nat.two_pow_pos A.dim
  have key : x.beq y = true ↔ q = 0 ∨ eps < |q| := by
    rw [beq_iff x2 y2]
    constructor
    · intro h
      have := h 0 h0
      rw [hx 0 h0, hy 0 h0, if_pos rfl] at this
      by_cases h' : eps < |q|
      · exact .inr h'
      · rw [if_neg (fun hc => h' hc.2)] at this; exact .inl this
    · intro h i hi
      rw [hx i hi, hy i hi]
      rcases h with h | h
      · rw [h]; simp
      · simp [h]
  rw [← sub_eq_zero, ← hq, ← key]
  exact ⟨fun ⟨u, v, hu, hv, _, _, h⟩ => by injection hu with hu; injection hv with hv; rwa [hu, hv], fun h => ⟨x, y, rfl, rfl, x2, y2, h⟩⟩

section
variable {A : ClAlg} {S T : Type} [Field T] [DecidableEq T] [CoeffStorage S T] [LawfulStorage S T]

/-- **C87** (`sparse_test`, tests/unit.rs:668-672). In an algebra with only `+` generators, for the sum `b` of all basis blades of grade `k`,
`(b.rev() * b).grade_extract(0)` is the binomial coefficient (`A::grade_index_iter(k)`, src/algebra.rs:207-209, is `gradeIterList A.dim k`). -/
theorem C87_binomial (hA : A.WF) (hi : A.imagMask = 0) (hp : A.projMask = 0) (hS : LawfulStorage.Supp (S := S) (T := T) A.dim) (k : Nat) :
    (do let b ← fromIndexedIter (A := A) (S := S) ((gradeIterList A.dim k).map fun idx => (idx, (1 : T)))
        let r ← b.rev; let p ← r.naiveMulImpl b; p.gradeExtract 0) ≈ᵣ fromScalar (A.dim.choose k : T) := by
  have hd := LawfulStorage.supp_le hS
  have h0 := Nat.two_pow_pos A.dim
  rw [gradeIterList_eq (by omega)]
  have hen : Enumerates A.dim ((comb k A.dim).map fun idx => (idx, (1 : T))) (fun i => if cnt A.dim i = k then 1 else 0) := by
    refine ⟨?_, ?_, ?_⟩
    · rw [List.map_map, show (Prod.fst ∘ fun idx : Nat => (idx, (1 : T))) = id from rfl, List.map_id]
      exact comb_nodup k A.dim
    · intro p hp
      obtain ⟨x, hx, rfl⟩ := List.mem_map.mp hp
      rw [mem_comb] at hx
      exact ⟨hx.1, (if_pos hx.2).symm⟩
    · intro i hi h
      by_cases h' : cnt A.dim i = k
      · rw [if_pos h']
        exact List.mem_map.mpr ⟨i, mem_comb.mpr ⟨hi, h'⟩, rfl⟩
      · rw [if_neg h'] at h
        exact absurd rfl h
  obtain ⟨b, b1, b2, b3⟩ := fromIndexedIter_enum (A := A) (S := S) hS hen
  obtain ⟨r, r1, r2, r3⟩ := rev_denotes b2
  obtain ⟨p, p1, p2, p3⟩ := mul_denotes hA r2 b2
  rw [b1]; show (do let r ← b.rev; let p ← r.naiveMulImpl b; p.gradeExtract 0) ≈ᵣ _
  rw [r1]; show (do let p ← r.naiveMulImpl b; p.gradeExtract 0) ≈ᵣ _
  rw [p1]; show p.gradeExtract 0 ≈ᵣ _
  refine Agree.of_denotes (gradeExtractAs_denotes p2 hS (by norm_num)) (fromScalar_denotes hS _) fun i hi' => ?_
  by_cases h : i = 0
  · subst h
    show (if countOnes 0 = 0 then p.val 0 else 0) = single 0 _ 0
    rw [if_pos (by decide), p3 0 h0, single, if_pos rfl,
      geo_congr (fun i _ => sigma_plus hi hp i) r3 b3 h0]
    unfold geo
    have : ∀ i ∈ range (2 ^ A.dim), bsgn (fun _ => 1) A.dim i (i ^^^ 0) • ((rsg A.dim i • b.val i) * (if cnt A.dim (i ^^^ 0) = k then 1 else 0)) =
        if cnt A.dim i = k then (1 : T) else 0 := by
      intro i hi
      rw [mem_range] at hi
      rw [Nat.xor_zero, b3 i hi, bsgn_self_plus, smul_mul_assoc, smul_smul, rsg_mul_self, one_smul]
      split <;> simp [*]
    rw [sum_congr rfl this, sum_boole]
    congr 1
    rw [← comb_length, ← List.toFinset_card_of_nodup (comb_nodup k A.dim)]
    congr 1
    ext i
    rw [mem_filter, mem_range, List.mem_toFinset, mem_comb]
  · show (if countOnes i = 0 then p.val i else 0) = single 0 _ i
    rw [single, if_neg h, if_neg]
    rw [countOnes_eq_cnt hi']
    intro hc
    have : i ∈ comb 0 A.dim := mem_comb.mpr ⟨hi', hc⟩
    rw [comb] at this
    exact h (by simpa using this)

end

/-! ### Examples -/

namespace Ex

/-- The algebra of `ops_test`. -/
def Oct : ClAlg := (declareAlgebra (List.replicate 6 .minus) []).get rfl
theorem Oct_wf : Oct.WF := declareAlgebra_wf (rfl : declareAlgebra (List.replicate 6 .minus) [] = some Oct)

/-- The algebra of `sparse_test`. -/
def Cl20 : ClAlg := (declareAlgebra (List.replicate 20 .plus) []).get rfl
theorem Cl20_wf : Cl20.WF := declareAlgebra_wf (rfl : declareAlgebra (List.replicate 20 .plus) [] = some Cl20)

theorem blade_sq {A : ClAlg} {S T : Type} [CommRing T] [DecidableEq T] [CoeffStorage S T] [LawfulStorage S T] (hA : A.WF)
    (hS : LawfulStorage.Supp (S := S) (T := T) A.dim) {j : Nat} (hj : j < 2 ^ A.dim) {c : T} (hc : ((bsgn A.sigma A.dim j j : ℤ) : T) = c) :
    (do let b ← blade (A := A) (S := S) j; b.naiveMulImpl b) ≈ᵣ fromScalar c := by
  obtain ⟨b, b1, b2, b3⟩ := blade_denotes (A := A) (S := S) (T := T) hS hj
  rw [b1]
  refine Agree.of_denotes (mul_denotes hA b2 b2) (fromScalar_denotes hS _) fun k hk => ?_
  rw [geo_congr (fun _ _ => rfl) b3 b3 hk, geo_single_single _ hj, Nat.xor_self, mul_one, zsmul_one, hc]

end Ex

open Classical in
/-- The first loop of `ops_test`. -/
example [HashOrder ℝ] {t : ℝ} (h0 : 0 ≤ t) (h1 : t ≤ 2 * Real.pi) :=
  C87_exp_rotation (A := Ex.Oct) (S := SparseStorage ℝ) (j := 0b11) Ex.Oct_wf (by show (6 : Nat) ≤ 63; omega) (by decide) (by decide)
    (Ex.blade_sq Ex.Oct_wf (by show (6 : Nat) ≤ 63; omega) (by decide)
      (by rw [show bsgn Ex.Oct.sigma Ex.Oct.dim 3 3 = -1 by decide]; norm_num)) h0 h1 (fuel := 18) le_rfl

open Classical in
/-- The second loop of `ops_test`. -/
example [HashOrder ℝ] {t : ℝ} (h0 : 0 ≤ t) (h1 : t ≤ 100) :=
  C87_exp_boost (A := Ex.Oct) (S := SparseStorage ℝ) (j := 0b101010) Ex.Oct_wf (by show (6 : Nat) ≤ 63; omega) (by decide) (by decide)
    (Ex.blade_sq Ex.Oct_wf (by show (6 : Nat) ≤ 63; omega) (by decide)
      (by rw [show bsgn Ex.Oct.sigma Ex.Oct.dim 0b101010 0b101010 = 1 by decide]; norm_num)) h0 h1 (fuel := 18) le_rfl

example := C87_bivector_square Ex.E_wf (by norm_num) Ex.wU_valid Ex.wV_valid Ex.wU_grade Ex.wV_grade
  (by decide +kernel : Ex.wU.vdot Ex.wU = .ok 38) (by decide +kernel : Ex.wU.vdot Ex.wV = .ok 6) (by decide +kernel : Ex.wV.vdot Ex.wV = .ok 19)

open Classical in
/-- Two vectors of the algebra of `sparse_test`. -/
example [HashOrder ℝ] : ∃ a b : MV Ex.Cl20 (SparseStorage ℝ), a.Valid ∧ b.Valid ∧ IsGrade 1 a ∧ IsGrade 1 b ∧
    ((do let w ← a.wedge b; let s ← w.naiveMulImpl w; s.gradesExtract [0]) ≈ᵣ
      (do let w ← a.wedge b; let s ← w.naiveMulImpl w; return s.filterInplace fun _ c => decide (1 / 10 ^ 14 < |c|))) := by
  have hS : LawfulStorage.Supp (S := SparseStorage ℝ) (T := ℝ) Ex.Cl20.dim := by show (20 : Nat) ≤ 63; omega
  obtain ⟨a, -, a2, a3⟩ := (is_of_denotes (basisVec_denotes (A := Ex.Cl20) (n := 3) hS (by decide))).ok
  obtain ⟨b, -, b2, b3⟩ := (is_of_denotes (basisVec_denotes (A := Ex.Cl20) (n := 7) hS (by decide))).ok
  have ha3 : a.ga = GA.e 3 := a3
  have hb3 : b.ga = GA.e 7 := b3
  have ha1 := isGrade_of_isVec a2 (by rw [ha3]; exact GA.isVec_e (by decide))
  have hb1 := isGrade_of_isVec b2 (by rw [hb3]; exact GA.isVec_e (by decide))
  have s3 : Ex.Cl20.sigma 3 = 1 := by decide
  have s7 : Ex.Cl20.sigma 7 = 1 := by decide
  refine ⟨a, b, a2, b2, ha1, hb1, (C87_sparse Ex.Cl20_wf a2 b2 ha1 hb1 (aa := 1) (ab := 0) (bb := 1) ?_ ?_ ?_).mpr (.inr ?_)⟩
  · rw [vdot_dot Ex.Cl20_wf a2 a2, ha3]
    have := GA.dot_e (σ := Ex.Cl20.sigma) (T := ℝ) (⟨3, by decide⟩ : Fin Ex.Cl20.dim) ⟨3, by decide⟩
    rw [this, if_pos rfl, s3]; simp
  · rw [vdot_dot Ex.Cl20_wf a2 b2, ha3, hb3]
    have := GA.dot_e (σ := Ex.Cl20.sigma) (T := ℝ) (⟨3, by decide⟩ : Fin Ex.Cl20.dim) ⟨7, by decide⟩
    rw [this, if_neg (by decide)]
  · rw [vdot_dot Ex.Cl20_wf b2 b2, hb3]
    have := GA.dot_e (σ := Ex.Cl20.sigma) (T := ℝ) (⟨7, by decide⟩ : Fin Ex.Cl20.dim) ⟨7, by decide⟩
    rw [this, if_pos rfl, s7]; simp
  · norm_num

example [HashOrder ℚ] := C87_binomial (A := Ex.Cl20) (S := SparseStorage ℚ) Ex.Cl20_wf (by decide) (by decide) (by show (20 : Nat) ≤ 63; omega) 2

end TClifford
