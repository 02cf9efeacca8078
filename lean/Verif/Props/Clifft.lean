import Verif.Props.ComplexExamples
import Verif.Proofs.Clifft
import Verif.Proofs.Lift
import Verif.Spec.Arrays
/-
The Clifford-Fourier transform of coefficient arrays: C27, C28, C29, C38.

`K` stands for the complex numbers: any field with a square root of `-1`, with `2 ≠ 0` where the inverse transform is
involved.  Arrays of 2^63 or more complex numbers do not fit in the address space, which is the bound `n < 63`.
-/

set_option linter.unusedSectionVars false

namespace TClifford

open MV Finset

/-- The array `x` converted to complex numbers and filled up with zeros to length `len`. -/
def padded (K : Type) {T : Type} [Zero K] [IntoComplex T K] (x : Arr1 T) (len : Nat) : Arr1 K :=
  ⟨len, fun i => if i < x.len then IntoComplex.into (x.get i) else 0⟩

theorem IsM.same {T : Type} [Ring T] {x y : Res (Arr2 T)} {m : Nat} {M N : Nat → Nat → T} (hx : IsM x m M) (hy : IsM y m N)
    (h : MEq (2 ^ m) (2 ^ m) M N) : Same2 x y := by
  obtain ⟨r, rfl, h1, h2, h3⟩ := hx
  obtain ⟨s, rfl, g1, g2, g3⟩ := hy
  refine ⟨r, s, rfl, rfl, h1.trans g1.symm, h2.trans g2.symm, ?_⟩
  rw [h1, h2]
  exact (h3.trans h).trans g3.symm

section complex
variable {K : Type} [Field K] [ImagUnit K] {T : Type} [IntoComplex T K]

/-! ### C27 -/

/-- **C27.** `iclifft(clifft(x))` is `x`, filled up with zeros to an even number of generators. -/
theorem C27_iclifft_clifft (h2 : (2 : K) ≠ 0) {n : Nat} (hn : n < 63) (x : Arr1 T) (hx : x.len = 2 ^ n) :
    Same1 (do let m ← clifft (K := K) x; iclifft m) (.ok (padded K x (2 ^ (if n % 2 = 0 then n else n + 1)))) := by
  obtain ⟨M, hM, hr, hc, hg⟩ := clifft_spec (K := K) hn x hx
  obtain ⟨r, h1, h3, h4⟩ := iclifft_spec (by omega) M hr hc
  have he : 2 * ((n + 1) / 2) = if n % 2 = 0 then n else n + 1 := by split <;> omega
  rw [hM]
  refine ⟨r, _, h1, rfl, ?_, ?_⟩
  · rw [h3, he]; rfl
  · rw [h3]
    intro i hi
    rw [h4 i hi, ictr_congr hg, ictr_ctr h2 _ hi]
    simp only [pad, padded, hx]

/-- **C27.** For an even number of generators nothing is added. -/
theorem C27_iclifft_clifft_even (h2 : (2 : K) ≠ 0) {m : Nat} (hm : m ≤ 31) (x : Arr1 K) (hx : x.len = 2 ^ (2 * m)) :
    Same1 (do let m ← clifft (K := K) x; iclifft m) (.ok x) := by
  obtain ⟨a, b, h1, h3, h4, h5⟩ := C27_iclifft_clifft (K := K) h2 (n := 2 * m) (by omega) x hx
  rw [if_pos (by omega)] at h3
  injection h3 with h3
  subst h3
  refine ⟨a, x, h1, rfl, h4.trans hx.symm, fun i hi => ?_⟩
  rw [h5 i hi]
  exact if_pos (by rw [hx]; rw [h4] at hi; exact hi)

/-- **C27.** `clifft(iclifft(M)) == M` for every square matrix whose side is a power of two. -/
theorem C27_clifft_iclifft (h2 : (2 : K) ≠ 0) {m : Nat} (hm : m ≤ 31) (M : Arr2 K) (hr : M.rows = 2 ^ m) (hc : M.cols = 2 ^ m) :
    Same2 (do let x ← iclifft M; clifft (K := K) x) (.ok M) := by
  obtain ⟨r, h1, h3, h4⟩ := iclifft_spec (by omega) M hr hc
  rw [h1]
  have h := clifft_spec (K := K) (n := 2 * m) (by omega) r h3
  rw [show (2 * m + 1) / 2 = m by omega] at h
  refine h.same (⟨M, rfl, hr, hc, MEq.rfl' _⟩ : IsM (.ok M) m M.get) ?_
  have := ctr_ictr h2 m M.get
  rw [show ctr m (2 * m) (fun i => IntoComplex.into (r.get i)) = ctr m (2 * m) (ictr m M.get) from ctr_congr h4]
  exact this

/-- **C27.** `clifft_into` fills any buffer of the right shape with what `clifft` returns, whatever it contained before. -/
theorem C27_clifft_into {n : Nat} (hn : n < 63) (x : Arr1 T) (hx : x.len = 2 ^ n) (dest : Arr2 K)
    (hr : dest.rows = 2 ^ ((n + 1) / 2)) (hc : dest.cols = 2 ^ ((n + 1) / 2)) :
    Same2 (clifftInto x dest) (clifft (K := K) x) :=
  (clifftInto_spec hn x dest hx hr hc).same (clifft_spec hn x hx) (MEq.rfl' _)

/-- **C27.** `iclifft_into` fills any buffer of the right length with what `iclifft` returns, whatever it contained before. -/
theorem C27_iclifft_into {m : Nat} (hm : m < 64) (M : Arr2 K) (hr : M.rows = 2 ^ m) (hc : M.cols = 2 ^ m) (dest : Arr1 K)
    (hd : dest.len = 2 ^ m * 2 ^ m) : Same1 (iclifftInto M dest) (iclifft M) := by
  obtain ⟨r, h1, h3, h4⟩ := iclifft_spec hm M hr hc
  obtain ⟨s, g1, g3, g4⟩ := iclifftInto_spec hm M dest hr hc (by rw [hd, two_pow_mul_self])
  refine ⟨s, r, g1, h1, g3.trans h3.symm, fun i hi => ?_⟩
  rw [g3] at hi
  rw [h4 i hi, g4 i hi]

end complex

/-- **C27.** The transforms without the complex factors (`clifft_nn`, `iclifft_nn`) are inverse to each other over any
division ring where `2 ≠ 0`. -/
theorem C27_nn_inverse {T : Type} [DivisionRing T] (h2 : (1 + 1 : T) ≠ 0) {m : Nat} (hm : m ≤ 31) :
    (∀ x : Arr1 T, x.len = 2 ^ (2 * m) → Same1 (do let M ← clifftNn x; iclifftNn M) (.ok x)) ∧
    (∀ M : Arr2 T, M.rows = 2 ^ m → M.cols = 2 ^ m → Same2 (do let x ← iclifftNn M; clifftNn x) (.ok M)) := by
  constructor
  · intro x hx
    obtain ⟨M, hM, hr, hc, hg⟩ := clifftNn_spec m (by omega) x hx
    obtain ⟨r, h1, h3, h4⟩ := iclifftNn_spec (by omega) M hr hc
    rw [hM]
    refine ⟨r, x, h1, rfl, h3.trans hx.symm, fun i hi => ?_⟩
    rw [h3] at hi
    rw [h4 i hi, icnn_congr hg, icnn_cnn h2 m _ hi]
  · intro M hr hc
    obtain ⟨r, h1, h3, h4⟩ := iclifftNn_spec (by omega) M hr hc
    rw [h1]
    have h := clifftNn_spec m (by omega) r h3
    refine h.same (⟨M, rfl, hr, hc, MEq.rfl' _⟩ : IsM (.ok M) m M.get) ?_
    rw [cnn_congr h4]
    exact cnn_icnn h2 m M.get

/-! ### C28 -/

section shapes
variable {K : Type} [Field K] [ImagUnit K] {T : Type} [IntoComplex T K]

theorem clDim_cases (size : Nat) : (∃ n, clDim size = .ok n) ∨ clDim size = .error (.cl .InvalidShape) := by
  unfold clDim
  split
  · exact .inr rfl
  · split
    · exact .inr rfl
    · exact .inl ⟨_, rfl⟩

theorem lt_of_two_pow_lt {a b : Nat} (h : 2 ^ a < 2 ^ b) : a < b := (Nat.pow_lt_pow_iff_right (by norm_num)).mp h

/-- **C28.** `clifft` succeeds exactly on arrays whose length is a power of two. -/
theorem C28_clifft_ok_iff (x : Arr1 T) (hx : x.len < 2 ^ 63) :
    (∃ M, clifft (K := K) x = .ok M) ↔ ∃ n, x.len = 2 ^ n := by
  constructor
  · rintro ⟨M, hM⟩
    rcases clDim_cases x.len with ⟨n, h⟩ | h
    · exact ⟨n, (clDim_ok (by omega) h).1⟩
    · unfold clifft clifftScaled at hM
      rw [h] at hM
      exact absurd hM (by intro h; cases h)
  · rintro ⟨n, hn⟩
    obtain ⟨M, h, _⟩ := clifft_spec (K := K) (lt_of_two_pow_lt (hn ▸ hx)) x hn
    exact ⟨M, h⟩

/-- **C28.** On all other arrays it returns `InvalidShape` (it never panics). -/
theorem C28_clifft_err (x : Arr1 T) (hx : x.len < 2 ^ 63) (h : ¬ ∃ n, x.len = 2 ^ n) :
    clifft (K := K) x = .error (.cl .InvalidShape) := by
  rcases clDim_cases x.len with ⟨n, h'⟩ | h'
  · exact absurd ⟨n, (clDim_ok (by omega) h').1⟩ h
  · unfold clifft clifftScaled
    rw [h']
    rfl

/-- **C28.** The matrix returned by `clifft` for `2^n` coefficients is square of side `2^⌈n/2⌉`. -/
theorem C28_clifft_shape {n : Nat} (hn : n < 63) (x : Arr1 T) (hx : x.len = 2 ^ n) :
    ∃ M, clifft (K := K) x = .ok M ∧ M.rows = 2 ^ ((n + 1) / 2) ∧ M.cols = 2 ^ ((n + 1) / 2) := by
  obtain ⟨M, h, h1, h2, _⟩ := clifft_spec (K := K) hn x hx
  exact ⟨M, h, h1, h2⟩

/-- **C28.** `clifft_nn` accepts exactly arrays whose length is a power of four, and returns `InvalidShape` otherwise. -/
theorem C28_clifft_nn {T : Type} [Ring T] (x : Arr1 T) (hx : x.len < 2 ^ 63) :
    ((∃ M, clifftNn x = .ok M) ↔ ∃ m, x.len = 4 ^ m) ∧
    ((¬ ∃ m, x.len = 4 ^ m) → clifftNn x = .error (.cl .InvalidShape)) := by
  have h4 : ∀ m, 4 ^ m = 2 ^ (2 * m) := fun m => by rw [pow_mul]; rfl
  have key : (∃ m, x.len = 4 ^ m) ∧ (∃ M, clifftNn x = .ok M) ∨ (¬ ∃ m, x.len = 4 ^ m) ∧ clifftNn x = .error (.cl .InvalidShape) := by
    rcases clDim_cases x.len with ⟨n, h⟩ | h
    · obtain ⟨hl, hn⟩ := clDim_ok (by omega) h
      obtain ⟨m, rfl | rfl⟩ : ∃ m, n = 2 * m ∨ n = 2 * m + 1 := ⟨n / 2, by omega⟩
      · refine .inl ⟨⟨m, by rw [hl, h4]⟩, ?_⟩
        obtain ⟨M, h, _⟩ := clifftNn_spec m (by omega) x hl
        exact ⟨M, h⟩
      · refine .inr ⟨?_, ?_⟩
        · rintro ⟨k, hk⟩
          rw [hl, h4] at hk
          have := Nat.pow_right_injective (le_refl 2) hk
          omega
        · unfold clifftNn
          rw [clifftAlloc_two_pow (by omega) x hl]
          exact clifftNnInto_odd m (by omega) x _ hl
    · refine .inr ⟨?_, ?_⟩
      · rintro ⟨m, hm⟩
        rw [hm, h4] at hx h
        rw [clDim_two_pow (by have := lt_of_two_pow_lt hx; omega)] at h
        exact absurd h (by simp)
      · unfold clifftNn clifftAlloc
        rw [h]; rfl
  rcases key with ⟨h1, h2⟩ | ⟨h1, h2⟩
  · exact ⟨⟨fun _ => h1, fun _ => h2⟩, fun h => absurd h1 h⟩
  · exact ⟨⟨fun ⟨M, h⟩ => by rw [h2] at h; exact absurd h (by simp), fun h => absurd h h1⟩, fun _ => h2⟩

theorem badSquare_iff {T : Type} [Ring T] (M : Arr2 T) (hM : M.rows < 2 ^ 64) :
    badSquare M = true ↔ ¬ ∃ m, M.rows = 2 ^ m ∧ M.cols = 2 ^ m := by
  constructor
  · rintro h ⟨m, hr, hc⟩
    rw [badSquare_false hr hc (lt_of_two_pow_lt (hr ▸ hM))] at h
    exact absurd h (by simp)
  · intro h
    by_contra hb
    exact h (badSquare_eq_false (by simpa using hb))

/-- **C28.** `iclifft` accepts exactly square matrices whose side is a power of two, and returns `InvalidShape` otherwise. -/
theorem C28_iclifft (M : Arr2 K) (hM : M.rows < 2 ^ 64) :
    ((∃ x, iclifft M = .ok x) ↔ ∃ m, M.rows = 2 ^ m ∧ M.cols = 2 ^ m) ∧
    ((¬ ∃ m, M.rows = 2 ^ m ∧ M.cols = 2 ^ m) → iclifft M = .error (.cl .InvalidShape)) := by
  have hbad : (¬ ∃ m, M.rows = 2 ^ m ∧ M.cols = 2 ^ m) → iclifft M = .error (.cl .InvalidShape) := by
    intro h
    unfold iclifft iclifftInto iclifftNnInto
    rw [if_pos ((badSquare_iff M hM).mpr h)]
    rfl
  refine ⟨⟨?_, ?_⟩, hbad⟩
  · rintro ⟨x, hx⟩
    by_contra h
    rw [hbad h] at hx
    exact absurd hx (by simp)
  · rintro ⟨m, hr, hc⟩
    obtain ⟨x, h, _⟩ := iclifft_spec (lt_of_two_pow_lt (hr ▸ hM)) M hr hc
    exact ⟨x, h⟩

/-- **C28.** `imaginary_flip` and `reversal` accept exactly square matrices whose side is a power of two. -/
theorem C28_flip_reversal {T : Type} [Ring T] (M : Arr2 T) (hr : M.rows < 2 ^ 64) (hc : M.cols < 2 ^ 64) :
    ((∃ N, imaginaryFlip M = .ok N) ↔ ∃ m, M.rows = 2 ^ m ∧ M.cols = 2 ^ m) ∧
    ((∃ N, reversal M = .ok N) ↔ ∃ m, M.rows = 2 ^ m ∧ M.cols = 2 ^ m) := by
  have h1 := badSquare_iff M hr
  have h2 := badSquare_iff M.transpose hc
  have h3 : (∃ m, M.transpose.rows = 2 ^ m ∧ M.transpose.cols = 2 ^ m) ↔ ∃ m, M.rows = 2 ^ m ∧ M.cols = 2 ^ m :=
    exists_congr fun m => And.comm
  rw [h3] at h2
  have key : ∀ N : Arr2 T, (∃ L, imaginaryFlip N = .ok L) ↔ ¬ badSquare N = true := by
    intro N
    unfold imaginaryFlip
    split <;> simp_all
  rw [key]
  unfold reversal
  rw [key, h1, h2]
  simp

end shapes

/-! ### C29 -/

section mult
variable {K : Type} [Field K] [ImagUnit K] {T : Type} [Ring T] [DecidableEq T] [IntoComplex T K] [LawfulInto T K]

theorem dense_val {A : ClAlg} {a : MV A (ArrayStorage T)} (ha : a.Valid) : a.coeffs.array.len = 2 ^ A.dim ∧
    ∀ i < 2 ^ A.dim, a.val i = a.coeffs.array.get i := by
  refine ⟨ha.2.2, fun i hi => ?_⟩
  show ArrayStorage.val a.coeffs i = _
  unfold ArrayStorage.val
  rw [ha.2.2, if_pos hi]

/-- The transform of the coefficients of a dense multivector. -/
theorem clifft_dense {A : ClAlg} (hd : A.dim < 63) {x : Res (MV A (ArrayStorage T))} {f : Nat → T} (hx : Denotes x f) :
    IsM (do let a ← x; clifft (K := K) a.coeffs.array) ((A.dim + 1) / 2) (ctr ((A.dim + 1) / 2) A.dim (fun i => IntoComplex.into (f i))) := by
  obtain ⟨a, rfl, ha, hf⟩ := hx
  obtain ⟨h1, h2⟩ := dense_val ha
  have := clifft_spec (K := K) hd a.coeffs.array h1
  rw [ctr_congr (y := fun i => IntoComplex.into (f i)) (fun i hi => by rw [← h2 i hi, hf i hi])] at this
  exact this

theorem into_sum (s : Finset Nat) (f : Nat → T) : (IntoComplex.into (∑ i ∈ s, f i) : K) = ∑ i ∈ s, IntoComplex.into (f i) :=
  map_sum (intoHom T K) f s

theorem into_geo (σ : Nat → ℤ) (n : Nat) (f g : Nat → T) (k : Nat) : (IntoComplex.into (geo σ n f g k) : K) =
    geo σ n (fun i => IntoComplex.into (f i)) (fun i => IntoComplex.into (g i)) k := by
  simp only [geo, into_eq, map_sum, map_zsmul, map_mul]

/-- **C29.** The transform of the product is the matrix product of the transforms, in the algebra with `n` generators
that all square to `+1`. -/
theorem C29_mul {n : Nat} {names : List String} {A : ClAlg} (hA : declareAlgebra (List.replicate n .plus) names = some A)
    (hn : n < 63) {a b : MV A (ArrayStorage T)} (ha : a.Valid) (hb : b.Valid) :
    Same2 (do let x ← clifft (K := K) a.coeffs.array; let y ← clifft (K := K) b.coeffs.array; x.dot y)
      (do let c ← a.naiveMulImpl b; clifft (K := K) c.coeffs.array) := by
  have hd : A.dim = n := by
    rw [(declareAlgebra_eq hA).2.2.1, List.length_replicate]
  have hs : ∀ i < A.dim, A.sigma i = 1 := by
    intro i hi
    rw [declareAlgebra_sigma hA (by rw [List.length_replicate]; omega)]
    simp [Sym.square]
  have hx := clifft_dense (K := K) (by omega) (Denotes.of_valid ha)
  have hy := clifft_dense (K := K) (by omega) (Denotes.of_valid hb)
  have hz := clifft_dense (K := K) (by omega) (mul_denotes (declareAlgebra_wf hA) ha hb)
  refine (hx.dot hy).same hz ?_
  refine (ctr_geo (by omega) (by omega) _ _).symm.trans ?_
  rw [ctr_congr (y := fun i => IntoComplex.into (geo A.sigma A.dim a.val b.val i))]
  · exact MEq.rfl' _
  · intro i hi
    rw [into_geo]
    exact geo_congr (fun i hi => (hs i hi).symm) (fun _ _ => rfl) (fun _ _ => rfl) hi

theorem IsM.zip {x y : Res (Arr2 K)} {m : Nat} {M N : Nat → Nat → K} (hx : IsM x m M) (hy : IsM y m N) (f : K → K → K) :
    IsM (do let a ← x; let b ← y; return (⟨a.rows, a.cols, fun i j => f (a.get i j) (b.get i j)⟩ : Arr2 K)) m
      (fun i j => f (M i j) (N i j)) := by
  obtain ⟨r, rfl, h1, h2, h3⟩ := hx
  obtain ⟨s, rfl, g1, g2, g3⟩ := hy
  refine ⟨_, rfl, h1, h2, fun i hi j hj => ?_⟩
  show f (r.get i j) (s.get i j) = _
  rw [h3 i hi j hj, g3 i hi j hj]

/-- **C29.** The transform of a sum (difference) is the sum (difference) of the transforms, entry by entry. -/
theorem C29_add_sub {A : ClAlg} (hd : A.dim < 63) {a b : MV A (ArrayStorage T)} (ha : a.Valid) (hb : b.Valid) :
    Same2 (do let c ← a.add b; clifft (K := K) c.coeffs.array)
      (do let x ← clifft (K := K) a.coeffs.array; let y ← clifft (K := K) b.coeffs.array
          return (⟨x.rows, x.cols, fun i j => x.get i j + y.get i j⟩ : Arr2 K)) ∧
    Same2 (do let c ← a.sub b; clifft (K := K) c.coeffs.array)
      (do let x ← clifft (K := K) a.coeffs.array; let y ← clifft (K := K) b.coeffs.array
          return (⟨x.rows, x.cols, fun i j => x.get i j - y.get i j⟩ : Arr2 K)) := by
  have hx := clifft_dense (K := K) hd (Denotes.of_valid ha)
  have hy := clifft_dense (K := K) hd (Denotes.of_valid hb)
  constructor
  · refine (clifft_dense (K := K) hd (add_denotes ha hb)).same (hx.zip hy (· + ·)) ?_
    rw [ctr_congr (y := (fun i => IntoComplex.into (a.val i)) + fun i => IntoComplex.into (b.val i)) (fun i _ => LawfulInto.into_add _ _), ctr_add]
    exact MEq.rfl' _
  · refine (clifft_dense (K := K) hd (sub_denotes ha hb)).same (hx.zip hy (· - ·)) ?_
    rw [ctr_congr (y := (fun i => IntoComplex.into (a.val i)) - fun i => IntoComplex.into (b.val i)) (fun i _ => map_sub (intoHom T K) _ _), ctr_sub]
    exact MEq.rfl' _

/-- **C29.** The transform of a multiple is the multiple of the transform. -/
theorem C29_smul {A : ClAlg} (hd : A.dim < 63) {a : MV A (ArrayStorage T)} (ha : a.Valid) (t : T) :
    Same2 (do let c ← a.smul t; clifft (K := K) c.coeffs.array)
      (do let x ← clifft (K := K) a.coeffs.array
          return (⟨x.rows, x.cols, fun i j => x.get i j * IntoComplex.into t⟩ : Arr2 K)) := by
  obtain ⟨M, hM, h1, h2, h3⟩ := clifft_dense (K := K) hd (Denotes.of_valid ha)
  have hM' : clifft (K := K) a.coeffs.array = .ok M := hM
  rw [hM']
  refine (clifft_dense (K := K) hd (smul_denotes ha t)).same ⟨_, rfl, h1, h2, fun i hi j hj => ?_⟩ (N := fun i j => ctr ((A.dim + 1) / 2) A.dim (fun i => IntoComplex.into (a.val i)) i j * IntoComplex.into t) ?_
  · show M.get i j * _ = _
    rw [h3 i hi j hj]
  · rw [← ctr_smul, ctr_congr (fun i _ => LawfulInto.into_mul _ _)]
    exact MEq.rfl' _

/-- **C29.** The transform of `1` is the identity matrix. -/
theorem C29_one {A : ClAlg} (hd : A.dim < 63) :
    Same2 (do let c ← MV.one (A := A) (S := ArrayStorage T); clifft (K := K) c.coeffs.array)
      (.ok ⟨2 ^ ((A.dim + 1) / 2), 2 ^ ((A.dim + 1) / 2), fun i j => if i = j then 1 else 0⟩) := by
  have hS : LawfulStorage.Supp (S := ArrayStorage T) (T := T) A.dim := by show A.dim ≤ 63; omega
  refine (clifft_dense (K := K) hd (one_denotes hS)).same ⟨_, rfl, rfl, rfl, MEq.rfl' _⟩ ?_
  rw [ctr_congr (y := single 0 1)]
  · exact ctr_one _ _
  · intro i _
    unfold single
    split
    · exact LawfulInto.into_one
    · exact into_zero

omit [LawfulInto T K] in
/-- **C29.** The transform is faithful: multivectors with equal transforms are equal. -/
theorem C29_injective [FromComplex T K] [LawfulComplex T K] (h2 : (2 : K) ≠ 0) {A : ClAlg} (hd : A.dim < 63) {a b : MV A (ArrayStorage T)}
    (ha : a.Valid) (hb : b.Valid) (h : Same2 (clifft (K := K) a.coeffs.array) (clifft (K := K) b.coeffs.array)) :
    a.beq b = true := by
  obtain ⟨M, hM, h1, h3, h4⟩ := clifft_dense (K := K) hd (Denotes.of_valid ha)
  obtain ⟨N, hN, g1, g3, g4⟩ := clifft_dense (K := K) hd (Denotes.of_valid hb)
  obtain ⟨M', N', e1, e2, e3, e4, e5⟩ := h
  have hM' : clifft (K := K) a.coeffs.array = .ok M := hM
  have hN' : clifft (K := K) b.coeffs.array = .ok N := hN
  rw [hM'] at e1; rw [hN'] at e2
  injection e1 with e1; injection e2 with e2
  subst e1 e2
  rw [beq_iff ha hb]
  intro i hi
  rw [h1, h3] at e5
  have := ctr_injective h2 (by omega) ((h4.symm.trans e5).trans g4) hi
  have := congrArg (FromComplex.from_ (T := T)) this
  simpa only [from_into] using this

end mult

/-! ### C38 -/

section auto
variable {K : Type} [Field K] [ImagUnit K] {T : Type} [IntoComplex T K]

/-- The automorphisms on coefficient arrays: the coefficient of the blade `k` is multiplied by the sign `(-1)^(e k)`. -/
def Signed (e : Nat → Nat) (x : Arr1 K) : Arr1 K := ⟨x.len, fun k => (-1) ^ e k * x.get k⟩

theorem signed_ctr {m n : Nat} (e : Nat → Nat) (x : Arr1 K) (s : Nat → ℤ) (h : ∀ k < 2 ^ n, s k = (-1) ^ e k) :
    ctr m n (fun i => IntoComplex.into ((Signed e x).get i)) = ctr m n (fun i => s i • (IntoComplex.into (x.get i) : K)) := by
  refine ctr_congr fun i hi => ?_
  rw [h i hi, zsmul_eq_mul]
  push_cast
  rfl

/-- **C38.** `parity_flip` of the transform is the transform of the array with the odd-grade coefficients negated. -/
theorem C38_parity_flip {n : Nat} (hn : n < 63) (x : Arr1 K) (hx : x.len = 2 ^ n) :
    Same2 (do let M ← clifft (K := K) x; return parityFlip M) (clifft (K := K) (Signed countOnes x)) := by
  obtain ⟨M, hM, h1, h2, h3⟩ := clifft_spec (K := K) hn x hx
  rw [hM]
  refine (parityFlip_spec M h1 h2).same (clifft_spec (K := K) hn (Signed countOnes x) hx) ?_
  refine (al_congr h3).trans ?_
  rw [signed_ctr countOnes x (fun k => sg (par n k)) (fun k hk => sg_par_pow hk)]
  exact (ctr_flp (by omega) _).symm

/-- **C38.** `imaginary_flip` of the transform is the transform of the array with the coefficients of blades containing
an odd number of odd-numbered generators negated. -/
theorem C38_imaginary_flip {n : Nat} (hn : n < 63) (x : Arr1 K) (hx : x.len = 2 ^ n) :
    Same2 (do let M ← clifft (K := K) x; imaginaryFlip M) (clifft (K := K) (Signed (fun k => countOnes (k &&& oddMask)) x)) := by
  obtain ⟨M, hM, h1, h2, h3⟩ := clifft_spec (K := K) hn x hx
  rw [hM]
  refine (imaginaryFlip_spec (by omega) M h1 h2).same (clifft_spec (K := K) hn (Signed _ x) hx) ?_
  refine (ifl_congr h3).trans ?_
  rw [signed_ctr (fun k => countOnes (k &&& oddMask)) x (fun k => sg (opar ((n + 1) / 2) k))
    (fun k hk => sg_opar_pow (by omega) (lt_of_lt_of_le hk (Nat.pow_le_pow_right (by norm_num) (by omega))))]
  exact (ctr_ifl _).symm

/-- **C38.** `reversal` of the transform is the transform of the array with every blade reversed: the coefficient of a
blade of grade `g` gets the sign of the permutation that reverses `g` factors. -/
theorem C38_reversal {n : Nat} (hn : n < 63) (x : Arr1 K) (hx : x.len = 2 ^ n) :
    Same2 (do let M ← clifft (K := K) x; reversal M)
      (clifft (K := K) (Signed (fun k => countOnes k * (countOnes k - 1) / 2) x)) := by
  obtain ⟨M, hM, h1, h2, h3⟩ := clifft_spec (K := K) hn x hx
  rw [hM]
  refine (reversal_spec (by omega) M h1 h2).same (clifft_spec (K := K) hn (Signed _ x) hx) ?_
  refine (ifl_congr (fun i hi j hj => h3 j hj i hi)).trans ?_
  rw [signed_ctr (fun k => countOnes k * (countOnes k - 1) / 2) x (fun k => rsg n k) (fun k hk => rsg_pow hk)]
  exact (ctr_rev (by omega) _).symm

/-- **C38.** The same on the level of multivectors: `parity_flip` and `reversal` of the transform are the transforms of
`a.flip()` and `a.rev()`. -/
theorem C38_multivector {T : Type} [Ring T] [DecidableEq T] [IntoComplex T K] [LawfulInto T K] {A : ClAlg} (hd : A.dim < 63)
    {a : MV A (ArrayStorage T)} (ha : a.Valid) :
    Same2 (do let M ← clifft (K := K) a.coeffs.array; return parityFlip M) (do let b ← a.flip; clifft (K := K) b.coeffs.array) ∧
    Same2 (do let M ← clifft (K := K) a.coeffs.array; reversal M) (do let b ← a.rev; clifft (K := K) b.coeffs.array) := by
  obtain ⟨M, hM, h1, h2, h3⟩ := clifft_dense (K := K) hd (Denotes.of_valid ha)
  have hM' : clifft (K := K) a.coeffs.array = .ok M := hM
  rw [hM']
  constructor
  · refine (parityFlip_spec M h1 h2).same (clifft_dense (K := K) hd (flip_denotes ha)) ((al_congr h3).trans ?_)
    rw [ctr_congr (x := fun i => IntoComplex.into (flp A.dim a.val i)) (y := flp A.dim (fun i => IntoComplex.into (a.val i)))
      (fun i _ => map_zsmul (intoHom T K) _ _)]
    exact (ctr_flp (by omega) _).symm
  · refine (reversal_spec (by omega) M h1 h2).same (clifft_dense (K := K) hd (rev_denotes ha))
      ((ifl_congr (fun i hi j hj => h3 j hj i hi)).trans ?_)
    rw [ctr_congr (x := fun i => IntoComplex.into (rsg A.dim i • a.val i)) (y := fun i => rsg A.dim i • (IntoComplex.into (a.val i) : K))
      (fun i _ => map_zsmul (intoHom T K) _ _)]
    exact (ctr_rev (by omega) _).symm

end auto

/-! ### Examples -/

section examples
open Ex

example : Same1 (do let m ← clifft (K := ℂ) arr8; iclifft m) (.ok (padded ℂ arr8 (2 ^ (if 3 % 2 = 0 then 3 else 3 + 1)))) :=
  C27_iclifft_clifft two_ne_zero (by norm_num) arr8 (by norm_num [arr8])

example : Same1 (do let m ← clifft (K := ℂ) (⟨4, fun i => i⟩ : Arr1 ℂ); iclifft m) (.ok ⟨4, fun i => i⟩) :=
  C27_iclifft_clifft_even (m := 1) two_ne_zero (by norm_num) _ (by norm_num)

example : Same2 (do let x ← iclifft mat4; clifft (K := ℂ) x) (.ok mat4) :=
  C27_clifft_iclifft (m := 2) two_ne_zero (by norm_num) mat4 (by norm_num [mat4]) (by norm_num [mat4])

example : Same2 (clifftInto arr8 mat4) (clifft (K := ℂ) arr8) :=
  C27_clifft_into (n := 3) (by norm_num) arr8 (by norm_num [arr8]) mat4 (by norm_num [mat4]) (by norm_num [mat4])

example : Same1 (iclifftInto mat4 ⟨16, fun i => i⟩) (iclifft mat4) :=
  C27_iclifft_into (m := 2) (by norm_num) mat4 (by norm_num [mat4]) (by norm_num [mat4]) _ (by norm_num)

example : Same1 (do let M ← clifftNn (⟨16, fun i => (i : ℚ)⟩ : Arr1 ℚ); iclifftNn M) (.ok ⟨16, fun i => i⟩) :=
  (C27_nn_inverse (m := 2) (by norm_num) (by norm_num)).1 _ (by norm_num)

-- the transform of `1 + 2 e0 + 3 e1 + 4 e1^e0` in the field with five elements (where `2` plays the role of `i`)
example : (do let M ← clifft (K := ZMod 5) (⟨4, fun i => (i : ZMod 5) + 1⟩ : Arr1 (ZMod 5))
              return [[M.get 0 0, M.get 0 1], [M.get 1 0, M.get 1 1]] : Res _) = .ok [[4, 3], [1, 3]] := by decide +kernel

example : ∃ M, clifft (K := ℂ) arr8 = .ok M := (C28_clifft_ok_iff arr8 (by norm_num [arr8])).mpr ⟨3, by norm_num [arr8]⟩

example : clifft (K := ℂ) (⟨12, fun i => i⟩ : Arr1 ℂ) = .error (.cl .InvalidShape) := by
  refine C28_clifft_err _ (by norm_num) ?_
  rintro ⟨n, hn⟩
  have h : (12 : Nat) = 2 ^ n := hn
  have : n < 4 := lt_of_two_pow_lt (by omega)
  interval_cases n <;> omega

example : ∃ M, clifft (K := ℂ) arr8 = .ok M ∧ M.rows = 2 ^ ((3 + 1) / 2) ∧ M.cols = 2 ^ ((3 + 1) / 2) :=
  C28_clifft_shape (n := 3) (by norm_num) arr8 (by norm_num [arr8])

example : clifftNn (⟨8, fun i => (i : ℤ)⟩ : Arr1 ℤ) = .error (.cl .InvalidShape) := by
  refine (C28_clifft_nn _ (by norm_num)).2 ?_
  rintro ⟨n, hn⟩
  have h : (8 : Nat) = 4 ^ n := hn
  have : n < 2 := (Nat.pow_lt_pow_iff_right (a := 4) (by norm_num)).mp (by omega)
  interval_cases n <;> omega

example : ∃ x, iclifft mat4 = .ok x := (C28_iclifft mat4 (by norm_num [mat4])).1.mpr ⟨2, by norm_num [mat4], by norm_num [mat4]⟩

example : ∃ N, reversal mat4 = .ok N :=
  (C28_flip_reversal mat4 (by norm_num [mat4]) (by norm_num [mat4])).2.mpr ⟨2, by norm_num [mat4], by norm_num [mat4]⟩

example : Same2 (do let x ← clifft (K := ℂ) eR.coeffs.array; let y ← clifft (K := ℂ) eR'.coeffs.array; x.dot y)
    (do let c ← eR.naiveMulImpl eR'; clifft (K := ℂ) c.coeffs.array) :=
  C29_mul (n := 3) E_decl (by norm_num) eR_valid eR'_valid

example : Same2 (do let c ← eR.add eR'; clifft (K := ℂ) c.coeffs.array)
    (do let x ← clifft (K := ℂ) eR.coeffs.array; let y ← clifft (K := ℂ) eR'.coeffs.array
        return (⟨x.rows, x.cols, fun i j => x.get i j + y.get i j⟩ : Arr2 ℂ)) :=
  (C29_add_sub (by decide) eR_valid eR'_valid).1

example : Same2 (do let c ← eR.smul 3; clifft (K := ℂ) c.coeffs.array)
    (do let x ← clifft (K := ℂ) eR.coeffs.array
        return (⟨x.rows, x.cols, fun i j => x.get i j * IntoComplex.into (3 : ℝ)⟩ : Arr2 ℂ)) :=
  C29_smul (by decide) eR_valid 3

example : Same2 (do let c ← MV.one (A := E) (S := ArrayStorage ℝ); clifft (K := ℂ) c.coeffs.array)
    (.ok ⟨2 ^ ((E.dim + 1) / 2), 2 ^ ((E.dim + 1) / 2), fun i j => if i = j then 1 else 0⟩) := C29_one (by decide)

-- different multivectors have different transforms
example : ¬ Same2 (clifft (K := ℂ) eR.coeffs.array) (clifft (K := ℂ) eR'.coeffs.array) := by
  intro h
  have := (beq_iff eR_valid eR'_valid).mp (C29_injective two_ne_zero (by decide) eR_valid eR'_valid h) 0 (by decide)
  rw [(dense_val eR_valid).2 0 (by decide), (dense_val eR'_valid).2 0 (by decide)] at this
  norm_num [eR, eR'] at this

example : Same2 (do let M ← clifft (K := ℂ) arr8; return parityFlip M) (clifft (K := ℂ) (Signed countOnes arr8)) :=
  C38_parity_flip (n := 3) (by norm_num) arr8 (by norm_num [arr8])

example : Same2 (do let M ← clifft (K := ℂ) arr8; imaginaryFlip M)
    (clifft (K := ℂ) (Signed (fun k => countOnes (k &&& oddMask)) arr8)) :=
  C38_imaginary_flip (n := 3) (by norm_num) arr8 (by norm_num [arr8])

example : Same2 (do let M ← clifft (K := ℂ) arr8; reversal M)
    (clifft (K := ℂ) (Signed (fun k => countOnes k * (countOnes k - 1) / 2) arr8)) :=
  C38_reversal (n := 3) (by norm_num) arr8 (by norm_num [arr8])

example : Same2 (do let M ← clifft (K := ℂ) eR.coeffs.array; reversal M) (do let b ← eR.rev; clifft (K := ℂ) b.coeffs.array) :=
  (C38_multivector (by decide) eR_valid).2

end examples

end TClifford
