import Verif.Proofs.Wedge
/-
`Denotes` for operations applied to results of other operations.
-/

set_option linter.unusedSectionVars false

namespace TClifford.MV

open Finset

section
variable {A : ClAlg} {S T : Type} [Ring T] [DecidableEq T] [CoeffStorage S T] [LawfulStorage S T]

theorem Denotes.un {B : ClAlg} {V W : Type} [Ring W] [DecidableEq W] [CoeffStorage V W] [LawfulStorage V W]
    {x : Res (MV A S)} {f : Nat → T} {k : MV A S → Res (MV B V)} (F : (Nat → T) → Nat → W) (h : Denotes x f)
    (hk : ∀ u : MV A S, u.Valid → Denotes (k u) (F u.val))
    (hF : ∀ f f' : Nat → T, (∀ i < 2 ^ A.dim, f i = f' i) → ∀ i < 2 ^ B.dim, F f i = F f' i) :
    Denotes (x >>= k) (F f) :=
  h.bind (fun u hu huv => (hk u hu).congr (hF _ _ huv))

theorem Denotes.bin {x y : Res (MV A S)} {f g : Nat → T} {k : MV A S → MV A S → Res (MV A S)}
    (F : (Nat → T) → (Nat → T) → Nat → T) (hx : Denotes x f) (hy : Denotes y g)
    (hk : ∀ u v : MV A S, u.Valid → v.Valid → Denotes (k u v) (F u.val v.val))
    (hF : ∀ f f' g g' : Nat → T, (∀ i < 2 ^ A.dim, f i = f' i) → (∀ i < 2 ^ A.dim, g i = g' i) →
      ∀ i < 2 ^ A.dim, F f g i = F f' g' i) :
    Denotes (do let u ← x; let v ← y; k u v) (F f g) :=
  hx.bind (fun u hu huv => hy.bind (fun v hv hvv => (hk u v hu hv).congr (hF _ _ _ _ huv hvv)))

variable {x y : Res (MV A S)} {f g : Nat → T}

theorem Denotes.pure {a : MV A S} {f : Nat → T} (ha : a.Valid) (hf : ∀ i < 2 ^ A.dim, a.val i = f i) :
    Denotes (.ok a) f := ⟨a, rfl, ha, hf⟩

theorem Denotes.add (hx : Denotes x f) (hy : Denotes y g) :
    Denotes (do let u ← x; let v ← y; u.add v) (fun i => f i + g i) :=
  Denotes.bin (fun f g i => f i + g i) hx hy (fun _ _ hu hv => add_denotes hu hv)
    (fun _ _ _ _ h1 h2 i hi => by rw [h1 i hi, h2 i hi])

theorem Denotes.sub (hx : Denotes x f) (hy : Denotes y g) :
    Denotes (do let u ← x; let v ← y; u.sub v) (fun i => f i - g i) :=
  Denotes.bin (fun f g i => f i - g i) hx hy (fun _ _ hu hv => sub_denotes hu hv)
    (fun _ _ _ _ h1 h2 i hi => by rw [h1 i hi, h2 i hi])

theorem Denotes.neg (hx : Denotes x f) : Denotes (do let u ← x; u.neg) (fun i => -f i) :=
  Denotes.un (fun f i => -f i) hx (fun _ hu => neg_denotes hu) (fun _ _ h i hi => by rw [h i hi])

theorem Denotes.smul (hx : Denotes x f) (t : T) : Denotes (do let u ← x; u.smul t) (fun i => f i * t) :=
  Denotes.un (fun f i => f i * t) hx (fun _ hu => smul_denotes hu t) (fun _ _ h i hi => by rw [h i hi])

theorem Denotes.mul (hA : A.WF) (hx : Denotes x f) (hy : Denotes y g) :
    Denotes (do let u ← x; let v ← y; u.naiveMulImpl v) (geo A.sigma A.dim f g) :=
  Denotes.bin (geo A.sigma A.dim) hx hy (fun _ _ hu hv => mul_denotes hA hu hv)
    (fun _ _ _ _ h1 h2 _ hi => geo_congr (fun _ _ => rfl) h1 h2 hi)

theorem Denotes.wedge [WedgeProduct A S] [LawfulWedge A S] (hx : Denotes x f) (hy : Denotes y g) :
    Denotes (do let u ← x; let v ← y; u.wedge v) (geo (fun _ => 0) A.dim f g) :=
  Denotes.bin (geo (fun _ => 0) A.dim) hx hy (fun _ _ hu hv => LawfulWedge.wedge hu hv)
    (fun _ _ _ _ h1 h2 _ hi => geo_congr (fun _ _ => rfl) h1 h2 hi)

theorem meetF_congr {n : Nat} {f f' g g' : Nat → T} (hf : ∀ i < 2 ^ n, f i = f' i) (hg : ∀ i < 2 ^ n, g i = g' i)
    {k : Nat} (hk : k < 2 ^ n) : meetF n f g k = meetF n f' g' k := by
  unfold meetF
  congr 1
  refine geo_congr (fun _ _ => rfl) ?_ ?_ (xor_mask_lt hk)
  · intro i hi; rw [hf _ (xor_mask_lt hi)]
  · intro i hi; rw [hg _ (xor_mask_lt hi)]

theorem Denotes.meet [WedgeProduct A S] [LawfulWedge A S] (hA : A.WF) (hx : Denotes x f) (hy : Denotes y g) :
    Denotes (do let u ← x; let v ← y; u.meet v) (meetF A.dim f g) :=
  Denotes.bin (meetF A.dim) hx hy (fun _ _ hu hv => LawfulWedge.meet hA hu hv)
    (fun _ _ _ _ h1 h2 _ hi => meetF_congr h1 h2 hi)

theorem Denotes.rev (hx : Denotes x f) : Denotes (do let u ← x; u.rev) (fun i => rsg A.dim i • f i) :=
  Denotes.un (fun f i => rsg A.dim i • f i) hx (fun _ hu => rev_denotes hu) (fun _ _ h i hi => by rw [h i hi])

theorem Denotes.flip (hx : Denotes x f) : Denotes (do let u ← x; u.flip) (flp A.dim f) :=
  Denotes.un (fun f => flp A.dim f) hx (fun _ hu => flip_denotes hu) (fun _ _ h i hi => by unfold flp; rw [h i hi])

theorem Denotes.flipSubspace (hx : Denotes x f) (mask : Nat) :
    Denotes (do let u ← x; u.flipSubspace mask) (fun i => sg (par A.dim (i &&& mask)) • f i) :=
  Denotes.un (fun f i => sg (par A.dim (i &&& mask)) • f i) hx (fun _ hu => flipSubspace_denotes hu mask)
    (fun _ _ h i hi => by rw [h i hi])

/-- Coefficient function of the dual. -/
def dualF (n : Nat) (f : Nat → T) : Nat → T := fun i =>
  bsgn (fun _ => 0) n i (i ^^^ (2 ^ n - 1)) • f (i ^^^ (2 ^ n - 1))

/-- Coefficient function of the undual. -/
def undualF (n : Nat) (f : Nat → T) : Nat → T := fun i =>
  bsgn (fun _ => 0) n (i ^^^ (2 ^ n - 1)) i • f (i ^^^ (2 ^ n - 1))

theorem Denotes.dual (hA : A.WF) (hx : Denotes x f) : Denotes (do let u ← x; u.dual) (dualF A.dim f) :=
  Denotes.un (dualF A.dim) hx (fun _ hu => dual_denotes hA hu)
    (fun _ _ h i hi => by unfold dualF; rw [h _ (xor_mask_lt hi)])

theorem Denotes.undual (hA : A.WF) (hx : Denotes x f) : Denotes (do let u ← x; u.undual) (undualF A.dim f) :=
  Denotes.un (undualF A.dim) hx (fun _ hu => undual_denotes hA hu)
    (fun _ _ h i hi => by unfold undualF; rw [h _ (xor_mask_lt hi)])

theorem Denotes.scalarPart (hx : Denotes x f) : (do let u ← x; u.scalarPart) = .ok (f 0) :=
  hx.bind_res (fun u hu huv => by rw [scalarPart_ok hu, huv 0 (Nat.two_pow_pos _)])

theorem Agree.symm (h : x ≈ᵣ y) : y ≈ᵣ x := by
  obtain ⟨u, v, h1, h2, h3, h4, h5⟩ := h
  refine ⟨v, u, h2, h1, h4, h3, ?_⟩
  rw [beq_iff h4 h3]; rw [beq_iff h3 h4] at h5
  exact fun i hi => (h5 i hi).symm

theorem Agree.trans {z : Res (MV A S)} (h : x ≈ᵣ y) (h' : y ≈ᵣ z) : x ≈ᵣ z := by
  obtain ⟨u, v, h1, h2, h3, h4, h5⟩ := h
  obtain ⟨v', w, g1, g2, g3, g4, g5⟩ := h'
  rw [h2] at g1; cases g1
  refine ⟨u, w, h1, g2, h3, g4, ?_⟩
  rw [beq_iff h3 h4] at h5; rw [beq_iff g3 g4] at g5; rw [beq_iff h3 g4]
  exact fun i hi => (h5 i hi).trans (g5 i hi)

/-- A list of successful computations. -/
theorem mapM_ok {X Y : Type} (l : List X) (k : X → Res Y) (h : ∀ x ∈ l, ∃ y, k x = .ok y) :
    ∃ ys, l.mapM k = .ok ys ∧ ys.length = l.length ∧ ∀ i (hi : i < l.length) (hi' : i < ys.length), k l[i] = .ok ys[i] := by
  induction l with
  | nil => exact ⟨[], rfl, rfl, fun i hi => by simp at hi⟩
  | cons x xs ih =>
    obtain ⟨y, hy⟩ := h x (by simp)
    obtain ⟨ys, h1, h2, h3⟩ := ih (fun z hz => h z (by simp [hz]))
    refine ⟨y :: ys, ?_, by simp [h2], ?_⟩
    · rw [List.mapM_cons, hy, h1]; rfl
    · intro i hi hi'
      cases i with
      | zero => exact hy
      | succ i => exact h3 i (by simpa using hi) (by simpa using hi')

/-- `basis()`. -/
theorem basis_ok (h : LawfulStorage.Supp (S := S) (T := T) A.dim) :
    ∃ bs : List (MV A S), basis (T := T) = .ok bs ∧ bs.length = A.dim ∧
      ∀ i (hi : i < bs.length), Denotes (.ok bs[i]) (single (2 ^ i) 1) := by
  obtain ⟨ys, h1, h2, h3⟩ := mapM_ok (List.range A.dim) (fun n => basisVec (A := A) (S := S) (T := T) n) (by
    intro n hn
    obtain ⟨u, hu, -⟩ := basisVec_denotes (A := A) h (List.mem_range.mp hn)
    exact ⟨u, hu⟩)
  rw [List.length_range] at h2
  refine ⟨ys, h1, h2, ?_⟩
  intro i hi
  have h4 := h3 i (by rw [List.length_range]; omega) hi
  rw [List.getElem_range] at h4
  rw [← h4]
  exact basisVec_denotes h (by omega)

end

end TClifford.MV
