import Verif.Props.PgaMotion
import Verif.Props.Center
import Verif.Props.Rotors
/-
C91: in Euclidean algebras the products of unit vectors give all orthogonal maps and the rotors all rotations; rotors with the same
action differ by a sign.
-/

set_option linter.unusedSectionVars false

namespace TClifford

open MV Finset

local notation "𝔼" d => EuclideanSpace ℝ (Fin d)

namespace GA
variable {σ : Nat → ℤ} {n : Nat}

/-- A vector of space in the ring. -/
noncomputable def emb (x : 𝔼 n) : GA σ n ℝ := vec fun k => (coords x).getD k 0

theorem emb_isVec (x : 𝔼 n) : IsVec (emb x : GA σ n ℝ) := vec_isVec _

theorem emb_fn (x : 𝔼 n) (k : Fin n) : (emb x : GA σ n ℝ).fn (2 ^ (k : Nat)) = x k := by
  unfold emb
  rw [fn_vec _ k.2, coords_getD _ k.2]

theorem emb_smul (c : ℝ) (x : 𝔼 n) : (emb (c • x) : GA σ n ℝ) = c • emb x := by
  unfold emb
  rw [← vec_smul]
  refine vec_congr fun k hk => ?_
  rw [coords_getD _ hk, coords_getD _ hk]; simp

theorem emb_sub (x y : 𝔼 n) : (emb (x - y) : GA σ n ℝ) = emb x - emb y := by
  rw [sub_eq_add_neg, sub_eq_add_neg, ← neg_one_smul ℝ y, ← neg_one_smul ℝ (emb y), ← emb_smul]
  unfold emb
  rw [← vec_add]
  refine vec_congr fun k hk => ?_
  rw [coords_getD _ hk, coords_getD _ hk, coords_getD _ hk]; simp

theorem dot_emb (h1 : ∀ i < n, σ i = 1) (x y : 𝔼 n) : dot (emb x : GA σ n ℝ) (emb y) = inner ℝ x y := by
  classical
  rw [dot_eq_sum (emb_isVec x), PiLp.inner_apply]
  refine sum_congr rfl fun i _ => ?_
  rw [emb_fn, dot_comm (isVec_e i.2) (emb_isVec y), dot_eq_sum (emb_isVec y), sum_eq_single i]
  · rw [dot_e, if_pos rfl, emb_fn, h1 _ i.2]
    simp [mul_comm]
  · intro j _ hj
    rw [dot_e, if_neg hj, mul_zero]
  · simp

/-- Sandwiching with a unit vector. -/
theorem emb_reflect (h1 : ∀ i < n, σ i = 1) {u : 𝔼 n} (hu : ‖u‖ = 1) (x : 𝔼 n) :
    (emb u * emb x * emb u : GA σ n ℝ) = -emb ((Submodule.span ℝ {u})ᗮ.reflection x) := by
  have huu : inner ℝ u u = (1 : ℝ) := by rw [real_inner_self_eq_norm_sq, hu, one_pow]
  rw [(emb_isVec u).reflect (emb_isVec x), dot_emb h1, dot_emb h1, huu, one_smul, reflection_eq, huu, emb_sub, emb_smul, add_zero,
    div_one, neg_sub]

end GA

/-- The composition of the reflections in the hyperplanes orthogonal to the vectors, from left to right. -/
noncomputable def reflections {d : Nat} (us : List (𝔼 d)) (x : 𝔼 d) : 𝔼 d :=
  us.foldl (fun x u => (Submodule.span ℝ {u})ᗮ.reflection x) x

theorem refl_smul {d : Nat} {c : ℝ} (hc : c ≠ 0) (v x : 𝔼 d) :
    (Submodule.span ℝ {c • v})ᗮ.reflection x = (Submodule.span ℝ {v})ᗮ.reflection x := by
  rw [reflection_eq, reflection_eq, smul_smul]
  congr 2
  rw [real_inner_smul_left, real_inner_smul_left, real_inner_smul_right]
  by_cases h : inner ℝ v v = (0 : ℝ)
  · rw [h]; simp
  · simp only [add_zero]
    field_simp

theorem reflections_append {d : Nat} (us : List (𝔼 d)) (u x : 𝔼 d) :
    reflections (us ++ [u]) x = (Submodule.span ℝ {u})ᗮ.reflection (reflections us x) := by
  unfold reflections
  rw [List.foldl_append]
  rfl

theorem unit_reflections {d : Nat} (l : List (𝔼 d)) : ∃ us : List (𝔼 d), us.length ≤ l.length ∧ (∀ u ∈ us, ‖u‖ = 1) ∧
    ∀ x, reflections us x = (l.map fun v => (Submodule.span ℝ {v})ᗮ.reflection).prod x := by
  induction l with
  | nil => exact ⟨[], le_rfl, by simp, fun x => rfl⟩
  | cons v l ih =>
    obtain ⟨us, h1, h2, h3⟩ := ih
    have hm : ∀ (a b : (𝔼 d) ≃ₗᵢ[ℝ] (𝔼 d)) x, (a * b) x = a (b x) := fun _ _ _ => rfl
    by_cases hv : v = 0
    · refine ⟨us, by simp; omega, h2, fun x => ?_⟩
      rw [h3, List.map_cons, List.prod_cons, hm, reflection_eq, hv]
      simp
    · have hn : ‖v‖ ≠ 0 := by simpa using hv
      refine ⟨us ++ [‖v‖⁻¹ • v], by simp; omega, ?_, fun x => ?_⟩
      · intro u hu
        rcases List.mem_append.mp hu with hu | hu
        · exact h2 u hu
        · rw [List.mem_singleton.mp hu, norm_smul, norm_inv, norm_norm, inv_mul_cancel₀ hn]
      · rw [reflections_append, h3, List.map_cons, List.prod_cons, hm, refl_smul (inv_ne_zero hn)]

/-- The determinant of a composition of reflections. -/
theorem det_reflections {d : Nat} (us : List (𝔼 d)) (hu : ∀ u ∈ us, ‖u‖ = 1) (f : (𝔼 d) ≃ₗᵢ[ℝ] (𝔼 d)) (hf : ∀ x, reflections us x = f x) :
    LinearMap.det f.toLinearEquiv.toLinearMap = (-1) ^ us.length := by
  induction us using List.reverseRecOn generalizing f with
  | nil =>
    have : f.toLinearEquiv.toLinearMap = LinearMap.id := LinearMap.ext fun x => (hf x).symm
    rw [this, LinearMap.det_id]; simp
  | append_singleton us u ih =>
    have h := ih (fun v hv => hu v (by simp [hv])) (f.trans (Submodule.span ℝ {u})ᗮ.reflection) fun x => by
      have := hf x
      rw [reflections_append] at this
      show _ = (Submodule.span ℝ {u})ᗮ.reflection (f x)
      rw [← this, Submodule.reflection_reflection]
    have e : (f.trans (Submodule.span ℝ {u})ᗮ.reflection).toLinearEquiv.toLinearMap =
        (Submodule.span ℝ {u})ᗮ.reflection.toLinearEquiv.toLinearMap ∘ₗ f.toLinearEquiv.toLinearMap := rfl
    have hne : u ≠ 0 := by
      rintro rfl
      simpa using hu 0 (by simp)
    have hd : LinearMap.det (Submodule.span ℝ {u})ᗮ.reflection.toLinearEquiv.toLinearMap = (-1 : ℝ) := by
      have := Submodule.det_reflection (K := (Submodule.span ℝ {u})ᗮ)
      rw [Submodule.orthogonal_orthogonal, finrank_span_singleton hne, pow_one] at this
      exact this
    rw [e, LinearMap.det_comp, hd] at h
    rw [List.length_append, List.length_singleton, pow_succ, ← h]
    ring

namespace GA
variable {σ : Nat → ℤ} {n : Nat}

theorem prod_sandwich (h1 : ∀ i < n, σ i = 1) (us : List (𝔼 n)) (hu : ∀ u ∈ us, ‖u‖ = 1) (x : 𝔼 n) :
    rev (us.map emb).prod * emb x * (us.map emb).prod = ((-1 : ℝ) ^ us.length • emb (reflections us x) : GA σ n ℝ) := by
  induction us using List.reverseRecOn generalizing x with
  | nil => simp [rev_one, reflections]
  | append_singleton us u ih =>
    have ih := ih (fun v hv => hu v (by simp [hv])) x
    rw [List.map_append, List.prod_append, List.map_singleton, List.prod_singleton, rev_mul, (emb_isVec u).rev_eq]
    have e : ∀ P : GA σ n ℝ, emb u * rev P * emb x * (P * emb u) = emb u * (rev P * emb x * P) * emb u := fun P => by
      simp only [mul_assoc]
    rw [e, ih, mul_smul_comm, smul_mul_assoc, emb_reflect h1 (hu u (by simp)), reflections_append, List.length_append,
      List.length_singleton, pow_succ]
    module

theorem prod_unit (h1 : ∀ i < n, σ i = 1) (us : List (𝔼 n)) (hu : ∀ u ∈ us, ‖u‖ = 1) :
    rev (us.map emb).prod * (us.map emb).prod = (1 : GA σ n ℝ) := by
  induction us with
  | nil => simp [rev_one]
  | cons u us ih =>
    have h : emb u * emb u = (1 : GA σ n ℝ) := by
      rw [(emb_isVec u).sq, dot_emb h1, real_inner_self_eq_norm_sq, hu u (by simp), one_pow, one_smul]
    rw [List.map_cons, List.prod_cons, rev_mul, (emb_isVec u).rev_eq]
    have e : ∀ P : GA σ n ℝ, rev P * emb u * (emb u * P) = rev P * (emb u * emb u) * P := fun P => by simp only [mul_assoc]
    rw [e, h, mul_one, ih fun v hv => hu v (by simp [hv])]

theorem prod_flip (us : List (𝔼 n)) : flip (us.map emb).prod = ((-1 : ℝ) ^ us.length • (us.map emb).prod : GA σ n ℝ) := by
  induction us with
  | nil => simp [flip_one]
  | cons u us ih =>
    rw [List.map_cons, List.prod_cons, flip_mul, ih, (emb_isVec u).flip_eq, List.length_cons, pow_succ, mul_smul_comm]
    rw [neg_mul]
    module

/-- A left inverse is a right inverse. -/
theorem mul_one_comm {T : Type} [CommRing T] {x y : GA σ n T} (h : x * y = 1) : y * x = 1 := by
  have : Module.Finite T (GA σ n T) := inferInstanceAs (Module.Finite T (Fin (2 ^ n) → T))
  have : Module.Free T (GA σ n T) := inferInstanceAs (Module.Free T (Fin (2 ^ n) → T))
  have h' : LinearMap.mulLeft T x ∘ₗ LinearMap.mulLeft T y = LinearMap.id := LinearMap.ext fun z => by
    show x * (y * z) = z
    rw [← mul_assoc, h, one_mul]
  have := LinearMap.congr_fun ((LinearMap.comp_eq_id_comm T (GA σ n T)).mp h') 1
  simpa using this

end GA

section
variable {A : ClAlg} {S T : Type} [DecidableEq T] [CoeffStorage S T]

theorem is_flip [CommRing T] [LawfulStorage S T] {a : MV A S} (ha : a.Valid) : Is a.flip (GA.flip a.ga) := by
  rw [MV.ga, GA.flip_of]
  exact is_of_denotes (flip_denotes ha)

theorem is_rotateF [Field T] [LawfulStorage S T] (hA : A.WF) {R x : MV A S} (hR : R.Valid) (hx : x.Valid) :
    Is (R.rotate x) (GA.rev R.ga * x.ga * R.ga) :=
  (is_rev hR).bind fun r hr hrg => (is_mul hA hr hx).bind fun z hz hzg => (is_mul hA hz hR).congr (by rw [hzg, hrg])

end

section
variable {A : ClAlg} {S : Type} [DecidableEq ℝ] [CoeffStorage S ℝ] [LawfulStorage S ℝ]

/-- The product of the vectors with the given coordinates. -/
noncomputable def vectorProduct (us : List (𝔼 A.dim)) : Res (MV A S) := do
  let vs ← us.mapM fun u => fromVector (coords u)
  versor vs

theorem is_vectorProduct (hA : A.WF) (hS : LawfulStorage.Supp (S := S) (T := ℝ) A.dim) (us : List (𝔼 A.dim)) :
    Is (vectorProduct (S := S) us) (us.map GA.emb).prod := by
  have key : ∃ vs : List (MV A S), us.mapM (fun u => fromVector (A := A) (S := S) (coords u)) = .ok vs ∧ (∀ v ∈ vs, v.Valid) ∧
      vs.map MV.ga = us.map GA.emb := by
    induction us with
    | nil => exact ⟨[], rfl, by simp, rfl⟩
    | cons u us ih =>
      obtain ⟨vs, h1, h2, h3⟩ := ih
      obtain ⟨v, v1, v2, v3⟩ := (is_fromVector (A := A) (S := S) hS (l := coords u) (coords_length u)).ok
      refine ⟨v :: vs, ?_, ?_, ?_⟩
      · rw [List.mapM_cons, v1, h1]; rfl
      · intro w hw
        rcases List.mem_cons.mp hw with rfl | hw
        · exact v2
        · exact h2 w hw
      · rw [List.map_cons, List.map_cons, h3, v3]; rfl
  obtain ⟨vs, h1, h2, h3⟩ := key
  unfold vectorProduct
  rw [h1, ← h3]
  exact is_versor hA hS vs h2

theorem sigma_euclid (hi : A.imagMask = 0) (hp : A.projMask = 0) (i : Nat) : A.sigma i = 1 := by
  unfold ClAlg.sigma
  rw [hi, hp]
  simp

theorem extract_emb {x : Res (MV A S)} {y : 𝔼 A.dim} (h : Is x (GA.emb y)) : (do let v ← x; v.extractVector) = .ok (coords y) := by
  rw [extractVector_is h]
  unfold coords
  congr 2
  funext j
  rw [GA.emb_fn]

/-- What a product of unit vectors does. -/
theorem vectorProduct_acts (hA : A.WF) (hi : A.imagMask = 0) (hp : A.projMask = 0) (hS : LawfulStorage.Supp (S := S) (T := ℝ) A.dim)
    (us : List (𝔼 A.dim)) (hu : ∀ u ∈ us, ‖u‖ = 1) :
    ∃ V : MV A S, vectorProduct us = .ok V ∧ V.Valid ∧ (do let r ← V.rev; r.naiveMulImpl V) ≈ᵣ MV.one ∧
      V.flip ≈ᵣ V.smul ((-1 : ℝ) ^ us.length) ∧
      ∀ x, (do let v ← fromVector (A := A) (S := S) (coords x); let w ← V.rotate v; w.extractVector) =
        .ok (coords ((-1 : ℝ) ^ us.length • reflections us x)) := by
  have hσ : ∀ i < A.dim, A.sigma i = 1 := fun i _ => sigma_euclid hi hp i
  obtain ⟨V, v1, v2, v3⟩ := (is_vectorProduct hA hS us).ok
  refine ⟨V, v1, v2, ?_, ?_, fun x => ?_⟩
  · refine ((is_rev v2).bind fun r hr hrg => (is_mul hA hr v2).congr (g' := GA.rev V.ga * V.ga) (by rw [hrg])).agree (Is.one hS) ?_
    rw [v3]
    exact GA.prod_unit hσ us hu
  · refine (is_flip v2).agree (is_smul v2 _) ?_
    rw [v3]
    exact GA.prod_flip us
  · have hx := is_fromVector (A := A) (S := S) hS (l := coords x) (coords_length x)
    have h := hx.bind fun v hv hvg => (is_rotate' hA v2 hv).congr (g' := GA.emb ((-1 : ℝ) ^ us.length • reflections us x)) (by
      rw [hvg, v3]
      exact (GA.prod_sandwich hσ us hu x).trans (GA.emb_smul _ _).symm)
    have := extract_emb h
    rw [bind_assoc] at this
    exact this

/-- **C91.** In an algebra with the signature `+ … +`, every orthogonal map `f` is given by a product `V` of at most `dim` unit vectors:
`V.rev() * v * V` is `f(v)` up to the sign `(-1)^k`, `k` being the number of the vectors. -/
theorem C91_orthogonal (hA : A.WF) (hi : A.imagMask = 0) (hp : A.projMask = 0) (hS : LawfulStorage.Supp (S := S) (T := ℝ) A.dim)
    (f : (𝔼 A.dim) ≃ₗᵢ[ℝ] (𝔼 A.dim)) :
    ∃ (us : List (𝔼 A.dim)) (V : MV A S), us.length ≤ A.dim ∧ (∀ u ∈ us, ‖u‖ = 1) ∧ vectorProduct us = .ok V ∧ V.Valid ∧
      (do let r ← V.rev; r.naiveMulImpl V) ≈ᵣ MV.one ∧
      ∀ x, (do let v ← fromVector (A := A) (S := S) (coords x); let w ← V.rotate v; w.extractVector) =
        .ok (coords ((-1 : ℝ) ^ us.length • f x)) := by
  obtain ⟨l, hl, hf⟩ := f.reflections_generate_dim
  obtain ⟨us, h1, h2, h3⟩ := unit_reflections l
  obtain ⟨V, v1, v2, v3, -, v4⟩ := vectorProduct_acts (S := S) hA hi hp hS us h2
  refine ⟨us, V, h1.trans (hl.trans (by simp)), h2, v1, v2, v3, fun x => ?_⟩
  rw [v4, h3, hf]

/-- **C91.** Every rotation (orthogonal map of determinant 1) is given by a rotor: an even multivector `R` with `R.rev() * R == 1` and
`R.rev() * v * R == f(v)`, a product of an even number of unit vectors. -/
theorem C91_rotation (hA : A.WF) (hi : A.imagMask = 0) (hp : A.projMask = 0) (hS : LawfulStorage.Supp (S := S) (T := ℝ) A.dim)
    (f : (𝔼 A.dim) ≃ₗᵢ[ℝ] (𝔼 A.dim)) (hf : LinearMap.det f.toLinearEquiv.toLinearMap = 1) :
    ∃ (us : List (𝔼 A.dim)) (R : MV A S), us.length ≤ A.dim ∧ us.length % 2 = 0 ∧ (∀ u ∈ us, ‖u‖ = 1) ∧ vectorProduct us = .ok R ∧
      R.Valid ∧ R.flip ≈ᵣ .ok R ∧ (do let r ← R.rev; r.naiveMulImpl R) ≈ᵣ MV.one ∧
      ∀ x, (do let v ← fromVector (A := A) (S := S) (coords x); let w ← R.rotate v; w.extractVector) = .ok (coords (f x)) := by
  obtain ⟨l, hl, hf'⟩ := f.reflections_generate_dim
  obtain ⟨us, h1, h2, h3⟩ := unit_reflections l
  obtain ⟨V, v1, v2, v3, v5, v4⟩ := vectorProduct_acts (S := S) hA hi hp hS us h2
  have hd := det_reflections us h2 f fun x => by rw [h3, hf']
  rw [hf] at hd
  have he : us.length % 2 = 0 := by
    by_contra hne
    rw [Odd.neg_one_pow (Nat.odd_iff.mpr (by omega))] at hd
    norm_num at hd
  have hs : (-1 : ℝ) ^ us.length = 1 := hd.symm
  refine ⟨us, V, h1.trans (hl.trans (by simp)), he, h2, v1, v2, ?_, v3, fun x => ?_⟩
  · rw [hs] at v5
    exact v5.trans ((is_smul v2 (1 : ℝ)).agree (Is.of_valid v2) (one_smul _ _))
  · rw [v4, hs, one_smul, h3, hf']

end

section
variable {A : ClAlg} {S T : Type} [CommRing T] [DecidableEq T] [CoeffStorage S T] [LawfulStorage S T]

/-- **C91.** If `a * b == 1` then `b * a == 1`, for every algebra and commutative ring of coefficients. -/
theorem C91_inverse (hA : A.WF) {a b : MV A S} (ha : a.Valid) (hb : b.Valid) (h : a.naiveMulImpl b ≈ᵣ MV.one) :
    b.naiveMulImpl a ≈ᵣ MV.one :=
  (is_mul hA hb ha).agree (Is.one ha.supp) (GA.mul_one_comm ((Is.iff_agree (is_mul hA ha hb) (Is.one ha.supp)).mp h))

end

section
variable {A : ClAlg} {S T : Type} [Field T] [DecidableEq T] [CoeffStorage S T] [LawfulStorage S T]

/-- **C91.** In an algebra without null generators, two rotors that do the same to the basis vectors are equal up to the sign. -/
theorem C91_unique (h2 : (2 : T) ≠ 0) (hA : A.WF) (hp : A.projMask = 0) {R Q : MV A S} (hR : R.Valid) (hQ : Q.Valid)
    (hRe : R.flip ≈ᵣ .ok R) (hQe : Q.flip ≈ᵣ .ok Q) (hR1 : (do let r ← R.rev; r.naiveMulImpl R) ≈ᵣ MV.one)
    (hQ1 : (do let r ← Q.rev; r.naiveMulImpl Q) ≈ᵣ MV.one)
    (h : ∀ p < A.dim, (do let v ← basisVec (A := A) (S := S) (T := T) p; R.rotate v) ≈ᵣ (do let v ← basisVec (A := A) (S := S) p; Q.rotate v)) :
    .ok Q ≈ᵣ .ok R ∨ .ok Q ≈ᵣ R.neg := by
  have hflip : ∀ {X : MV A S}, X.Valid → X.flip ≈ᵣ .ok X → GA.flip X.ga = X.ga := fun hX hXe =>
    (Is.iff_agree (is_flip hX) (Is.of_valid hX)).mp hXe
  have hunit : ∀ {X : MV A S}, X.Valid → (do let r ← X.rev; r.naiveMulImpl X) ≈ᵣ MV.one → GA.rev X.ga * X.ga = 1 := fun {X} hX hX1 =>
    (Is.iff_agree ((is_rev hX).bind fun r hr hrg => (is_mul hA hr hX).congr (g' := GA.rev X.ga * X.ga) (by rw [hrg])) (Is.one hX.supp)).mp hX1
  have hrot : ∀ {X : MV A S}, X.Valid → ∀ p < A.dim, Is (do let v ← basisVec (A := A) (S := S) (T := T) p; X.rotate v) (GA.rev X.ga * GA.e p * X.ga) :=
    fun {X} hX p hp => (is_of_denotes (basisVec_denotes hX.supp hp)).bind fun v hv hvg => (is_rotateF hA hX hv).congr (by rw [hvg]; rfl)
  have r1 := hunit hR hR1
  have q1 := hunit hQ hQ1
  have r2 := GA.mul_one_comm r1
  have q2 := GA.mul_one_comm q1
  have re := hflip hR hRe
  have qe := hflip hQ hQe
  have hcom : ∀ p < A.dim, GA.e p * (Q.ga * GA.rev R.ga) = Q.ga * GA.rev R.ga * GA.e p := fun p hp => by
    have hh := (Is.iff_agree (hrot hR p hp) (hrot hQ p hp)).mp (h p hp)
    calc GA.e p * (Q.ga * GA.rev R.ga) = Q.ga * (GA.rev Q.ga * GA.e p * Q.ga) * GA.rev R.ga := by
          simp only [← mul_assoc]; rw [q2, one_mul]
      _ = Q.ga * (GA.rev R.ga * GA.e p * R.ga) * GA.rev R.ga := by rw [hh]
      _ = Q.ga * GA.rev R.ga * GA.e p := by rw [mul_assoc, mul_assoc _ R.ga, r2, mul_one, ← mul_assoc]
  have hrr : GA.flip (GA.rev R.ga) = GA.rev R.ga := by
    have := congrArg GA.flip r1
    rw [GA.flip_mul, GA.flip_one, re] at this
    calc GA.flip (GA.rev R.ga) = GA.flip (GA.rev R.ga) * (R.ga * GA.rev R.ga) := by rw [r2, mul_one]
      _ = GA.rev R.ga := by rw [← mul_assoc, this, one_mul]
  set x : GA A.sigma A.dim T := Q.ga * GA.rev R.ga with hx
  have hxe : GA.flip x = x := by rw [hx, GA.flip_mul, qe, hrr]
  have htor : ∀ t : T, t + t = 0 → t = 0 := fun t ht => by
    rw [← two_mul] at ht
    exact (mul_eq_zero.mp ht).resolve_left h2
  have hsupp : ∀ K < 2 ^ A.dim, x.fn K ≠ 0 → K = 0 := by
    intro K hK hne
    have hpar : par A.dim K = false := by
      by_contra hb
      have := congrArg (fun y => y.fn K) hxe
      simp only [GA.flip, GA.fn_of _ hK, flp] at this
      rw [Bool.not_eq_false] at hb
      rw [hb] at this
      have h1 : sg true • x.fn K = -x.fn K := by simp [sg]
      rw [h1] at this
      exact hne (htor _ (by rw [← sub_neg_eq_add, this, sub_self]))
    rcases central_of_generators hA htor (f := x.fn) (fun p hp k hk => by
      have := congrArg (fun y => y.fn k) (hcom p hp)
      simp only [GA.vmul_fn _ _ hk] at this
      have he : ∀ i < 2 ^ A.dim, (GA.e p : GA A.sigma A.dim T).fn i = single (2 ^ p) 1 i := fun i hi => GA.fn_of _ hi
      rwa [geo_congr (fun _ _ => rfl) he (fun _ _ => rfl) hk, geo_congr (fun _ _ => rfl) (fun _ _ => rfl) he hk] at this) hK hne with ⟨-, hm⟩ | ⟨hn, hm⟩
    · rw [hp, Nat.and_zero] at hm
      exact hm.symm
    · exfalso
      have hfull := cnt_compl (Nat.two_pow_pos A.dim)
      rw [Nat.zero_xor, cnt_zero, add_zero] at hfull
      rw [hm, par_eq, hfull] at hpar
      simp [hn] at hpar
  have hxs : x = x.fn 0 • (1 : GA A.sigma A.dim T) := by
    refine GA.vext_fn fun k hk => ?_
    rw [GA.vsmul_one_fn _ hk]
    unfold single
    split
    · rename_i h; rw [h]
    · rename_i h
      by_contra hne
      exact h (hsupp k hk hne)
  have hQx : Q.ga = x.fn 0 • R.ga := by
    calc Q.ga = x * R.ga := by rw [hx, mul_assoc, r1, mul_one]
      _ = _ := by rw [hxs, smul_mul_assoc, one_mul, ← hxs]
  have hsq : x.fn 0 * x.fn 0 = 1 := by
    rw [hQx, map_smul, smul_mul_assoc, mul_smul_comm, r1, smul_smul] at q1
    have := congrArg (fun y => y.fn 0) q1
    simp only [GA.vfn_smul, GA.one_def, GA.fn_of _ (Nat.two_pow_pos _)] at this
    simpa [single] using this
  rcases mul_self_eq_one_iff.mp hsq with hc | hc
  · left
    exact (Is.of_valid hQ).agree (Is.of_valid hR) (by rw [hQx, hc, one_smul])
  · right
    exact (Is.of_valid hQ).agree (is_neg hR) (by rw [hQx, hc, neg_one_smul])

end

/-! ### Examples -/

/-- Comparison of the results of two computations. -/
def agreeB {A : ClAlg} {S T : Type} [Zero T] [DecidableEq T] [CoeffStorage S T] (x y : Res (MV A S)) : Bool :=
  match x, y with
  | .ok u, .ok v => u.beq v
  | _, _ => false

theorem agree_of_b {A : ClAlg} {S T : Type} [Ring T] [DecidableEq T] [CoeffStorage S T] [LawfulStorage S T] {x y : Res (MV A S)}
    {f g : GA A.sigma A.dim T} (hx : Is x f) (hy : Is y g) (h : agreeB x y = true) : x ≈ᵣ y := by
  obtain ⟨u, rfl, hu, -⟩ := hx.ok
  obtain ⟨v, rfl, hv, -⟩ := hy.ok
  exact ⟨u, v, rfl, rfl, hu, hv, h⟩

namespace Ex

/-- `1 + e2 + 3 e2 e1` and its inverse, in the algebra with one null generator. -/
def iA : MV M (ArrayStorage ℤ) := ⟨⟨3, ⟨8, fun i => if i = 0 then 1 else if i = 4 then 1 else if i = 6 then 3 else 0⟩⟩⟩
def iB : MV M (ArrayStorage ℤ) := ⟨⟨3, ⟨8, fun i => if i = 0 then 1 else if i = 4 then -1 else if i = 6 then -3 else 0⟩⟩⟩
theorem iA_valid : iA.Valid := ⟨by decide, rfl, rfl⟩
theorem iB_valid : iB.Valid := ⟨by decide, rfl, rfl⟩

/-- A rotor. -/
def rR : MV E (ArrayStorage ℚ) := ⟨⟨3, ⟨8, fun i => if i = 0 then 3 / 5 else if i = 3 then 4 / 5 else 0⟩⟩⟩
def rQ : MV E (ArrayStorage ℚ) := ⟨⟨3, ⟨8, fun i => if i = 0 then -3 / 5 else if i = 3 then -4 / 5 else 0⟩⟩⟩
theorem rR_valid : rR.Valid := ⟨by decide, rfl, rfl⟩
theorem rQ_valid : rQ.Valid := ⟨by decide, rfl, rfl⟩

end Ex

example : Ex.iB.naiveMulImpl Ex.iA ≈ᵣ MV.one :=
  C91_inverse Ex.M_wf Ex.iA_valid Ex.iB_valid
    (agree_of_b (is_mul Ex.M_wf Ex.iA_valid Ex.iB_valid) (Is.one Ex.iA_valid.supp) (by decide +kernel))

example : Except.ok Ex.rQ ≈ᵣ .ok Ex.rR ∨ Except.ok Ex.rQ ≈ᵣ Ex.rR.neg := by
  have hu : ∀ X : MV Ex.E (ArrayStorage ℚ), X.Valid → Is (do let r ← X.rev; r.naiveMulImpl X) (GA.rev X.ga * X.ga) := fun X hX =>
    (is_rev hX).bind fun r hr hrg => (is_mul Ex.E_wf hr hX).congr (by rw [hrg])
  have hr : ∀ X : MV Ex.E (ArrayStorage ℚ), X.Valid → ∀ p < 3, Is (do let v ← basisVec (A := Ex.E) (S := ArrayStorage ℚ) (T := ℚ) p; X.rotate v)
      (GA.rev X.ga * GA.e p * X.ga) := fun X hX p hp =>
    (is_of_denotes (basisVec_denotes hX.supp hp)).bind fun v hv hvg => (is_rotateF Ex.E_wf hX hv).congr (by rw [hvg]; rfl)
  refine C91_unique (by norm_num) Ex.E_wf rfl Ex.rR_valid Ex.rQ_valid (agree_of_b (is_flip Ex.rR_valid) (Is.of_valid Ex.rR_valid) (by decide +kernel))
    (agree_of_b (is_flip Ex.rQ_valid) (Is.of_valid Ex.rQ_valid) (by decide +kernel))
    (agree_of_b (hu _ Ex.rR_valid) (Is.one Ex.rR_valid.supp) (by decide +kernel))
    (agree_of_b (hu _ Ex.rQ_valid) (Is.one Ex.rR_valid.supp) (by decide +kernel)) fun p hp => ?_
  have hp : p < 3 := hp
  refine agree_of_b (hr _ Ex.rR_valid p hp) (hr _ Ex.rQ_valid p hp) ?_
  interval_cases p <;> decide +kernel

example [DecidableEq ℝ] := C91_orthogonal (A := Ex.E) (S := ArrayStorage ℝ) Ex.E_wf rfl rfl (show (3 : Nat) ≤ 63 by omega)
  (LinearIsometryEquiv.neg ℝ)

/-- The composition of two reflections is a rotation. -/
example [DecidableEq ℝ] (u v : 𝔼 3) (hu : ‖u‖ = 1) (hv : ‖v‖ = 1) := C91_rotation (A := Ex.E) (S := ArrayStorage ℝ) Ex.E_wf rfl rfl
  (show (3 : Nat) ≤ 63 by omega) ((Submodule.span ℝ {u})ᗮ.reflection.trans (Submodule.span ℝ {v})ᗮ.reflection)
  ((det_reflections [u, v] (by simp [hu, hv]) _ fun _ => rfl).trans (by norm_num))

end TClifford
