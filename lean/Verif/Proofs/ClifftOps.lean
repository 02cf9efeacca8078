import Verif.Model.FFT
import Verif.Math.Clifft
import Verif.Proofs.Construct
/-
What the functions of src/clifft/mod.rs and src/fftrepr/wmul.rs compute, in terms of the operations of the coefficient
type only (no laws), so that the statements also hold for floating point numbers.
-/

set_option linter.unusedSectionVars false

namespace TClifford

open Finset

/-- The computation returns a square matrix of side `2^m` with the given entries. -/
def IsM {T : Type} (x : Res (Arr2 T)) (m : Nat) (M : Nat → Nat → T) : Prop :=
  ∃ r, x = .ok r ∧ r.rows = 2 ^ m ∧ r.cols = 2 ^ m ∧ MEq (2 ^ m) (2 ^ m) r.get M

theorem log2_two_pow' (n : Nat) : Nat.log2 (2 ^ n) = n := by
  exact Nat.log2_two_pow

theorem clDim_two_pow {n : Nat} (h : n < 64) : clDim (2 ^ n) = .ok n := by
  have : 2 ^ n ≠ 0 := (Nat.two_pow_pos n).ne'
  unfold clDim
  rw [if_neg this, log2_two_pow', ushl_one h]
  simp

theorem clDim_ok {size dim : Nat} (hs : size < 2 ^ 64) (h : clDim size = .ok dim) : size = 2 ^ dim ∧ dim < 64 := by
  unfold clDim at h
  split at h
  · exact absurd h (by simp)
  · split at h
    · exact absurd h (by simp)
    · rename_i h0 h1
      have hd : Nat.log2 size = dim := by simpa using h
      have hlt : Nat.log2 size < 64 := (Nat.log2_lt h0).mpr hs
      rw [ushl_one hlt] at h1
      have h1 : 2 ^ Nat.log2 size = size := by simpa using h1
      rw [hd] at h1 hlt
      exact ⟨h1.symm, hlt⟩

section add
variable {T : Type} [Zero T] [Add T] [Sub T] [Neg T]

/-- The transform of `2^(2m)` coefficients (`clifft_nn`). -/
def cnnO : Nat → (Nat → T) → Nat → Nat → T
  | 0, x => fun _ _ => x 0
  | m + 1, x => blk m
      (fun i j => cnnO m x i j + cnnO m (hi (2 * m) (hi (2 * m + 1) x)) i j)
      (fun i j => alpha (cnnO m (hi (2 * m) x) i j + cnnO m (hi (2 * m + 1) x) i j) i j)
      (fun i j => cnnO m (hi (2 * m) x) i j - cnnO m (hi (2 * m + 1) x) i j)
      (fun i j => alpha (cnnO m x i j - cnnO m (hi (2 * m) (hi (2 * m + 1) x)) i j) i j)

theorem cnnO_succ (m : Nat) (x : Nat → T) : cnnO (m + 1) x = blk m
      (fun i j => cnnO m x i j + cnnO m (hi (2 * m) (hi (2 * m + 1) x)) i j)
      (fun i j => alpha (cnnO m (hi (2 * m) x) i j + cnnO m (hi (2 * m + 1) x) i j) i j)
      (fun i j => cnnO m (hi (2 * m) x) i j - cnnO m (hi (2 * m + 1) x) i j)
      (fun i j => alpha (cnnO m x i j - cnnO m (hi (2 * m) (hi (2 * m + 1) x)) i j) i j) := rfl

theorem cnnO_congr {m : Nat} {f g : Nat → T} (h : ∀ i < 2 ^ (2 * m), f i = g i) : cnnO m f = cnnO m g := by
  induction m generalizing f g with
  | zero => funext i j; exact h 0 (by norm_num)
  | succ m ih =>
    have h4 : 2 ^ (2 * (m + 1)) = 2 ^ (2 * m) + 2 ^ (2 * m) + 2 ^ (2 * m) + 2 ^ (2 * m) := by
      rw [show 2 * (m + 1) = 2 * m + 1 + 1 by ring, pow_succ, pow_succ]; ring
    have h2 : 2 ^ (2 * m + 1) = 2 ^ (2 * m) + 2 ^ (2 * m) := by rw [pow_succ]; ring
    rw [h4] at h
    rw [cnnO_succ, cnnO_succ, ih (f := f) (g := g) (fun i hi => h i (by omega)),
      ih (f := hi (2 * m) f) (g := hi (2 * m) g) (fun i hi => h _ (by omega)),
      ih (f := hi (2 * m + 1) f) (g := hi (2 * m + 1) g) (fun i hi => h _ (by omega)),
      ih (f := hi (2 * m) (hi (2 * m + 1) f)) (g := hi (2 * m) (hi (2 * m + 1) g)) (fun i hi => h _ (by omega))]

theorem clifftAlloc_two_pow {n : Nat} (h : n < 64) (coeffs : Arr1 T) (hl : coeffs.len = 2 ^ n) :
    clifftAlloc coeffs = .ok (Arr2.zeros (2 ^ (n / 2)) (2 ^ (n / 2))) := by
  unfold clifftAlloc
  rw [hl, clDim_two_pow h]
  show Except.ok (Arr2.zeros (ushl 1 (n / 2)) (ushl 1 (n / 2))) = _
  rw [ushl_one (by omega)]

theorem clifftNnInto_ops (m : Nat) (hm : 2 * m < 64) (coeffs : Arr1 T) (dest : Arr2 T) (hl : coeffs.len = 2 ^ (2 * m))
    (hr : dest.rows = 2 ^ m) (hc : dest.cols = 2 ^ m) : IsM (clifftNnInto coeffs dest) m (cnnO m coeffs.get) := by
  induction m generalizing coeffs dest with
  | zero =>
    unfold clifftNnInto
    rw [if_pos (show coeffs.len = 1 by simpa using hl)]
    refine ⟨_, rfl, hr, hc, ?_⟩
    intro i hi j hj
    have : i = 0 := by simpa using hi
    have : j = 0 := by simpa using hj
    subst i j
    simp [cnnO]
  | succ m ih =>
    have hpos := Nat.two_pow_pos (2 * m)
    have h4 : 2 ^ (2 * (m + 1)) = 4 * 2 ^ (2 * m) := by
      rw [show 2 * (m + 1) = 2 * m + 1 + 1 by ring, pow_succ, pow_succ]; ring
    have h2 : 2 ^ (2 * m + 1) = 2 * 2 ^ (2 * m) := by rw [pow_succ]; ring
    have hp : 2 ^ (m + 1) = 2 ^ m + 2 ^ m := by rw [pow_succ]; ring
    unfold clifftNnInto
    rw [if_neg (by omega)]
    split
    · rename_i e he
      rw [hl, clDim_two_pow hm] at he
      exact absurd he (by simp)
    · rename_i dim hd
      rw [hl, clDim_two_pow hm] at hd
      have hd : 2 * (m + 1) = dim := by simpa using hd
      subst hd
      have hq : ushl 1 (2 * (m + 1) / 2) / 2 = 2 ^ m := by
        rw [ushl_one (by omega), show 2 * (m + 1) / 2 = m + 1 by omega, hp]; omega
      have hh : coeffs.len / 2 = 2 ^ (2 * m + 1) := by omega
      have hqs : coeffs.len / 4 = 2 ^ (2 * m) := by omega
      simp only [hq, hh, hqs]
      have key : ∀ (n : Nat) (g : Nat → T), n = 2 ^ (2 * m) →
          IsM (do let d ← clifftAlloc (⟨n, g⟩ : Arr1 T); clifftNnInto ⟨n, g⟩ d) m (cnnO m g) := by
        intro n g hn
        rw [clifftAlloc_two_pow (n := 2 * m) (by omega) _ hn, show 2 * m / 2 = m by omega]
        exact ih (by omega) ⟨n, g⟩ _ hn rfl rfl
      obtain ⟨x00, r00, -, -, e00⟩ := key (2 ^ (2 * m)) (coeffs.splitAt (2 ^ (2 * m + 1))).1.get rfl
      obtain ⟨x01, r01, -, -, e01⟩ := key (2 ^ (2 * m + 1) - 2 ^ (2 * m))
        (fun i => (coeffs.splitAt (2 ^ (2 * m + 1))).1.get (i + 2 ^ (2 * m))) (by omega)
      obtain ⟨x10, r10, -, -, e10⟩ := key (2 ^ (2 * m)) (coeffs.splitAt (2 ^ (2 * m + 1))).2.get rfl
      obtain ⟨x11, r11, -, -, e11⟩ := key (coeffs.len - 2 ^ (2 * m + 1) - 2 ^ (2 * m))
        (fun i => (coeffs.splitAt (2 ^ (2 * m + 1))).2.get (i + 2 ^ (2 * m))) (by omega)
      simp only [← bind_assoc, r00, r01, r10, r11]
      refine ⟨_, rfl, ?_, ?_, ?_⟩
      · simp only [Arr2.joinQuarters, Arr2.quarters]; omega
      · simp only [Arr2.joinQuarters, Arr2.quarters]; omega
      · have e00' : MEq (2 ^ m) (2 ^ m) x00.get (cnnO m coeffs.get) := e00
        have e01' : MEq (2 ^ m) (2 ^ m) x01.get (cnnO m (hi (2 * m) coeffs.get)) := e01
        have e10' : MEq (2 ^ m) (2 ^ m) x10.get (cnnO m (hi (2 * m + 1) coeffs.get)) := e10
        have e11' : MEq (2 ^ m) (2 ^ m) x11.get (cnnO m (hi (2 * m) (hi (2 * m + 1) coeffs.get))) := e11
        rw [cnnO_succ]
        intro i hi j hj
        rw [hp] at hi hj
        simp only [Arr2.joinQuarters, Arr2.quarters, blk]
        by_cases h1 : i < 2 ^ m <;> by_cases h3 : j < 2 ^ m
        · simp only [h1, h3, if_true, and_self, e00' i h1 j h3, e11' i h1 j h3]
        · have h3' : j - 2 ^ m < 2 ^ m := by omega
          simp only [h1, h3, h3', if_true, if_false, and_self, e01' i h1 _ h3', e10' i h1 _ h3']
        · have h1' : i - 2 ^ m < 2 ^ m := by omega
          simp only [h1, h3, h1', if_true, if_false, and_self, e01' _ h1' j h3, e10' _ h1' j h3]
        · have h1' : i - 2 ^ m < 2 ^ m := by omega
          have h3' : j - 2 ^ m < 2 ^ m := by omega
          simp only [h1, h3, h1', h3', if_true, if_false, and_self, e00' _ h1' _ h3', e11' _ h1' _ h3']

theorem clifftNn_ops (m : Nat) (hm : 2 * m < 64) (coeffs : Arr1 T) (hl : coeffs.len = 2 ^ (2 * m)) :
    IsM (clifftNn coeffs) m (cnnO m coeffs.get) := by
  unfold clifftNn
  rw [clifftAlloc_two_pow hm _ hl, show 2 * m / 2 = m by omega]
  exact clifftNnInto_ops m hm coeffs _ hl rfl rfl
/-- An odd number of generators is rejected by `clifft_nn`. -/
theorem clifftNnInto_odd (m : Nat) (hm : 2 * m + 1 < 64) (coeffs : Arr1 T) (dest : Arr2 T) (hl : coeffs.len = 2 ^ (2 * m + 1)) :
    clifftNnInto coeffs dest = .error (.cl .InvalidShape) := by
  induction m generalizing coeffs dest with
  | zero =>
    unfold clifftNnInto
    rw [if_neg (by omega)]
    split
    · rename_i e he
      rw [hl, clDim_two_pow hm] at he
      exact absurd he (by simp)
    · simp only [hl]
      have : clifftAlloc (⟨2 ^ (2 * 0 + 1) / 4, (coeffs.splitAt (2 ^ (2 * 0 + 1) / 2)).1.get⟩ : Arr1 T) = .error (.cl .InvalidShape) := rfl
      rw [this]; rfl
  | succ m ih =>
    have h4 : 2 ^ (2 * (m + 1) + 1) = 4 * 2 ^ (2 * m + 1) := by
      rw [show 2 * (m + 1) + 1 = 2 * m + 1 + 1 + 1 by ring, pow_succ _ (2 * m + 1 + 1), pow_succ _ (2 * m + 1)]; ring
    have hpos := Nat.two_pow_pos (2 * m + 1)
    unfold clifftNnInto
    rw [if_neg (by omega)]
    split
    · rename_i e he
      rw [hl, clDim_two_pow hm] at he
      exact absurd he (by simp)
    · have hqs : coeffs.len / 4 = 2 ^ (2 * m + 1) := by omega
      simp only [hqs]
      rw [clifftAlloc_two_pow (n := 2 * m + 1) (by omega) _ rfl]
      simp only [Except.bind, bind]
      rw [ih (by omega) ⟨2 ^ (2 * m + 1), (coeffs.splitAt (coeffs.len / 2)).1.get⟩ _ rfl]
theorem badSquare_false {m : Nat} {M : Arr2 T} (hr : M.rows = 2 ^ m) (hc : M.cols = 2 ^ m) (hm : m < 64) : badSquare M = false := by
  unfold badSquare
  rw [hr, hc, MV.countOnes_two_pow hm]; simp

theorem badSquare_eq_false {M : Arr2 T} (h : badSquare M = false) : ∃ m, M.rows = 2 ^ m ∧ M.cols = 2 ^ m := by
  unfold badSquare at h
  have h1 : M.rows = M.cols ∧ countOnes M.rows = 1 := by simpa using h
  obtain ⟨k, -, hk⟩ := MV.eq_two_pow_of_countOnes (n := M.rows + 1) (Nat.lt_of_lt_of_le Nat.lt_two_pow_self
    (Nat.pow_le_pow_right (by norm_num) (Nat.le_succ _))) h1.2
  exact ⟨k, hk, h1.1 ▸ hk⟩

theorem two_pow_mul_self (m : Nat) : 2 ^ m * 2 ^ m = 2 ^ (2 * m) := by rw [← pow_add, two_mul]

end add

section div
variable {T : Type} [Zero T] [One T] [Add T] [Sub T] [Neg T] [Div T]

/-- The inverse transform (`iclifft_nn`). -/
def icnnO : Nat → (Nat → Nat → T) → Nat → T
  | 0, M => fun _ => M 0 0
  | m + 1, M =>
    let A := icnnO m M
    let B := icnnO m (q01 m M)
    let C := icnnO m (q10 m M)
    let D := icnnO m (q11 m M)
    jn (2 * m + 1)
      (jn (2 * m) (fun k => (A k + alpha (D k) k 0) / (1 + 1)) (fun k => (alpha (B k) k 0 + C k) / (1 + 1)))
      (jn (2 * m) (fun k => (alpha (B k) k 0 - C k) / (1 + 1)) (fun k => (A k - alpha (D k) k 0) / (1 + 1)))

theorem iclifftNnInto_ops (m : Nat) (hm : m < 64) (M : Arr2 T) (dest : Arr1 T) (hr : M.rows = 2 ^ m) (hc : M.cols = 2 ^ m)
    (hd : 2 ^ (2 * m) ≤ dest.len) : ∃ r, iclifftNnInto M dest = .ok r ∧ r.len = dest.len ∧
      (∀ k < 2 ^ (2 * m), r.get k = icnnO m M.get k) ∧ ∀ k, 2 ^ (2 * m) ≤ k → r.get k = dest.get k := by
  induction m generalizing M dest with
  | zero =>
    unfold iclifftNnInto
    have h1 : M.rows = 1 := by simpa using hr
    have h2 : 1 ≤ dest.len := by simpa using hd
    simp only [badSquare_false hr hc hm]
    rw [if_neg (by simp), if_neg (by rw [h1]; omega), dif_pos h1]
    refine ⟨_, rfl, rfl, ?_, ?_⟩
    · intro k hk
      have : k = 0 := by simpa using hk
      subst this
      simp [Arr1.set, icnnO]
    · intro k hk
      have : k ≠ 0 := by
        have : 1 ≤ k := by simpa using hk
        omega
      simp [Arr1.set, this]
  | succ m ih =>
    have hp : 2 ^ (m + 1) = 2 ^ m + 2 ^ m := by rw [pow_succ]; ring
    have hpos := Nat.two_pow_pos m
    have hpos2 := Nat.two_pow_pos (2 * m)
    have h4 : 2 ^ (2 * (m + 1)) = 4 * 2 ^ (2 * m) := by
      rw [show 2 * (m + 1) = 2 * m + 1 + 1 by ring, pow_succ, pow_succ]; ring
    have h2 : 2 ^ (2 * m + 1) = 2 * 2 ^ (2 * m) := by rw [pow_succ]; ring
    have hs : M.rows * M.rows = 4 * 2 ^ (2 * m) := by rw [hr, two_pow_mul_self, h4]
    unfold iclifftNnInto
    simp only [badSquare_false hr hc hm]
    rw [if_neg (by simp), if_neg (by omega), dif_neg (by omega), dif_neg (by omega)]
    have hq : M.rows / 2 = 2 ^ m := by omega
    have hhalf : M.rows * M.rows / 2 = 2 ^ (2 * m + 1) := by omega
    simp only [hq, hhalf, two_pow_mul_self]
    have key : ∀ (r c : Nat) (g : Nat → Nat → T), r = 2 ^ m → c = 2 ^ m →
        ∃ y, iclifftNnInto (⟨r, c, g⟩ : Arr2 T) (Arr1.zeros (⟨r, c, g⟩ : Arr2 T).size) = .ok y ∧
          ∀ k < 2 ^ (2 * m), y.get k = icnnO m g k := by
      intro r c g h5 h6
      obtain ⟨y, h7, -, h8, -⟩ := ih (by omega) (⟨r, c, g⟩ : Arr2 T) (Arr1.zeros (⟨r, c, g⟩ : Arr2 T).size) h5 h6
        (by simp only [Arr2.size, Arr1.zeros, h5, h6, two_pow_mul_self]; exact le_rfl)
      exact ⟨y, h7, h8⟩
    obtain ⟨a, ra, ea⟩ := key (2 ^ m) (2 ^ m) M.get rfl rfl
    obtain ⟨b, rb, eb⟩ := key (2 ^ m) (M.cols - 2 ^ m) (q01 m M.get) rfl (by omega)
    obtain ⟨c, rc, ec⟩ := key (M.rows - 2 ^ m) (2 ^ m) (q10 m M.get) (by omega) rfl
    obtain ⟨d, rd, ed⟩ := key (M.rows - 2 ^ m) (M.cols - 2 ^ m) (q11 m M.get) (by omega) (by omega)
    have ra' := ra
    simp only [Arr2.quarters]
    unfold q01 at rb; unfold q10 at rc; unfold q11 at rd
    rw [ra, rb, rc, rd]
    refine ⟨_, rfl, rfl, ?_, ?_⟩
    · intro k hk
      unfold icnnO
      simp only [jn]
      by_cases k1 : k < 2 ^ (2 * m + 1)
      · simp only [k1, if_true]
        by_cases k2 : k < 2 ^ (2 * m)
        · simp only [k2, if_true, ea k k2, ed k k2]
        · have k3 : k - 2 ^ (2 * m) < 2 ^ (2 * m) := by omega
          simp only [k2, k3, if_true, if_false, eb _ k3, ec _ k3]
      · simp only [k1, if_false]
        by_cases k2 : k - 2 ^ (2 * m + 1) < 2 ^ (2 * m)
        · simp only [k2, if_true, eb _ k2, ec _ k2]
        · have k3 : k - 2 ^ (2 * m + 1) - 2 ^ (2 * m) < 2 ^ (2 * m) := by omega
          simp only [k2, k3, if_true, if_false, ea _ k3, ed _ k3]
    · intro k hk
      rw [h4] at hk
      simp only [show ¬ k < 2 ^ (2 * m + 1) by omega, show ¬ k - 2 ^ (2 * m + 1) < 2 ^ (2 * m) by omega,
        show ¬ k - 2 ^ (2 * m + 1) - 2 ^ (2 * m) < 2 ^ (2 * m) by omega, if_false]

theorem iclifftNn_ops {m : Nat} (hm : m < 64) (M : Arr2 T) (hr : M.rows = 2 ^ m) (hc : M.cols = 2 ^ m) :
    ∃ r, iclifftNn M = .ok r ∧ r.len = 2 ^ (2 * m) ∧ ∀ k < 2 ^ (2 * m), r.get k = icnnO m M.get k := by
  have hs : M.size = 2 ^ (2 * m) := by unfold Arr2.size; rw [hr, hc, two_pow_mul_self]
  obtain ⟨r, h1, h2, h3, -⟩ := iclifftNnInto_ops m hm M (Arr1.zeros M.size) hr hc (by rw [← hs]; exact le_rfl)
  exact ⟨r, h1, h2.trans hs, h3⟩
end div

section mul
variable {T : Type} [Zero T] [Add T] [Mul T]

/-- Product of matrices of side `2^m` (`dot`). -/
def mmO (m : Nat) (X Y : Nat → Nat → T) : Nat → Nat → T := fun i j =>
  ((List.range (2 ^ m)).map (fun k => X i k * Y k j)).foldl (· + ·) 0

theorem mmO_congr {m r c : Nat} {X X' Y Y' : Nat → Nat → T} (h : MEq r (2 ^ m) X X') (h' : MEq (2 ^ m) c Y Y') :
    MEq r c (mmO m X Y) (mmO m X' Y') := fun i hi j hj => by
  unfold mmO
  congr 1
  refine List.map_congr_left fun k hk => ?_
  rw [h i hi k (List.mem_range.mp hk), h' k (List.mem_range.mp hk) j hj]

theorem dot_ops {m : Nat} {a b : Arr2 T} (ha : a.cols = 2 ^ m) (hb : b.rows = 2 ^ m) :
    ∃ r, a.dot b = .ok r ∧ r.rows = a.rows ∧ r.cols = b.cols ∧ r.get = mmO m a.get b.get := by
  refine ⟨_, if_pos (ha.trans hb.symm), rfl, rfl, ?_⟩
  funext i j
  show ((List.range a.cols).map (fun k => a.get i k * b.get k j)).foldl (· + ·) 0 = _
  rw [ha]; rfl

end mul

section imag
variable {T K : Type} [Zero K] [One K] [Add K] [Sub K] [Neg K] [Mul K] [Div K] [HasI K] [IntoComplex T K]

/-- Coefficients padded to `2m` generators and multiplied by the powers of `i`. -/
def pscO (n : Nat) (x : Nat → K) : Nat → K := fun k => if k < 2 ^ n then x k * iPow (countOnes (k &&& oddMask)) else 0

/-- The transform of `2^n` coefficients, `n ≤ 2m`. -/
def ctrO (m n : Nat) (x : Nat → K) : Nat → Nat → K := cnnO m (pscO n x)

/-- The inverse of the transform. -/
def ictrO (m : Nat) (M : Nat → Nat → K) : Nat → K := fun k => icnnO m M k * iPowNeg (countOnes (k &&& oddMask))

theorem clifftScaled_ops {n : Nat} (hn : n < 63) (coeffs : Arr1 T) (hl : coeffs.len = 2 ^ n) :
    ∃ arr : Arr1 K, clifftScaled coeffs = .ok arr ∧ arr.len = 2 ^ (2 * ((n + 1) / 2)) ∧
      ∀ k, arr.get k = pscO n (fun i => IntoComplex.into (coeffs.get i)) k := by
  have hd : (if n &&& 1 = 1 then n + 1 else n) = 2 * ((n + 1) / 2) := by
    rw [Nat.and_one_is_mod]
    split <;> omega
  unfold clifftScaled
  rw [hl, clDim_two_pow (by omega)]
  refine ⟨_, rfl, ?_, fun k => rfl⟩
  show ushl 1 (if n &&& 1 = 1 then n + 1 else n) = _
  rw [hd, ushl_one (by omega)]

theorem clifft_ops {n : Nat} (hn : n < 63) (coeffs : Arr1 T) (hl : coeffs.len = 2 ^ n) :
    IsM (clifft (K := K) coeffs) ((n + 1) / 2) (ctrO ((n + 1) / 2) n (fun i => IntoComplex.into (coeffs.get i))) := by
  obtain ⟨arr, h1, h2, h3⟩ := clifftScaled_ops (K := K) hn coeffs hl
  unfold clifft
  rw [h1]
  have := clifftNn_ops ((n + 1) / 2) (by omega) arr h2
  rw [cnnO_congr (fun k _ => h3 k)] at this
  exact this

theorem clifftInto_ops {n : Nat} (hn : n < 63) (coeffs : Arr1 T) (dest : Arr2 K) (hl : coeffs.len = 2 ^ n)
    (hr : dest.rows = 2 ^ ((n + 1) / 2)) (hc : dest.cols = 2 ^ ((n + 1) / 2)) :
    IsM (clifftInto coeffs dest) ((n + 1) / 2) (ctrO ((n + 1) / 2) n (fun i => IntoComplex.into (coeffs.get i))) := by
  obtain ⟨arr, h1, h2, h3⟩ := clifftScaled_ops (K := K) hn coeffs hl
  unfold clifftInto
  rw [h1]
  have := clifftNnInto_ops ((n + 1) / 2) (by omega) arr dest h2 hr hc
  rw [cnnO_congr (fun k _ => h3 k)] at this
  exact this

theorem iclifftInto_ops {m : Nat} (hm : m < 64) (M : Arr2 K) (dest : Arr1 K) (hr : M.rows = 2 ^ m) (hc : M.cols = 2 ^ m)
    (hd : dest.len = 2 ^ (2 * m)) : ∃ r, iclifftInto M dest = .ok r ∧ r.len = 2 ^ (2 * m) ∧
      ∀ k < 2 ^ (2 * m), r.get k = ictrO m M.get k := by
  obtain ⟨r, h1, h2, h3, -⟩ := iclifftNnInto_ops m hm M dest hr hc hd.ge
  unfold iclifftInto
  rw [h1]
  refine ⟨_, rfl, h2.trans hd, ?_⟩
  intro k hk
  unfold ictrO
  rw [← h3 k hk]

end imag

section wmul
variable {K : Type} [Zero K] [Add K] [Sub K] [Neg K] [Mul K]

/-- Grade involution of a family of matrices. -/
def alWO (X : Nat → Nat → Nat → K) : Nat → Nat → Nat → K := fun w i j =>
  if (countOnes w + countOnes (i ^^^ j)) &&& 1 = 1 then -X w i j else X w i j

/-- The second half of a family of matrices. -/
def hiW {K : Type} (s : Nat) (X : Nat → Nat → Nat → K) : Nat → Nat → Nat → K := fun w => X (w + 2 ^ s)

/-- Agreement of families of `2^s` matrices of side `2^m`. -/
def WEq {K : Type} (s m : Nat) (X Y : Nat → Nat → Nat → K) : Prop := ∀ w < 2 ^ s, MEq (2 ^ m) (2 ^ m) (X w) (Y w)

theorem WEq.rfl' {s m : Nat} (X : Nat → Nat → Nat → K) : WEq s m X X := fun _ _ => MEq.rfl' _
theorem WEq.symm {s m : Nat} {X Y : Nat → Nat → Nat → K} (h : WEq s m X Y) : WEq s m Y X := fun w hw => (h w hw).symm
theorem WEq.trans {s m : Nat} {X Y Z : Nat → Nat → Nat → K} (h : WEq s m X Y) (h' : WEq s m Y Z) : WEq s m X Z :=
  fun w hw => (h w hw).trans (h' w hw)

/-- The product of families of matrices (`wmul`). -/
def WO (m : Nat) : Nat → (Nat → Nat → Nat → K) → (Nat → Nat → Nat → K) → Nat → Nat → Nat → K
  | 0, X, Y => fun _ => mmO m (X 0) (Y 0)
  | s + 1, X, Y => fun w =>
    if w < 2 ^ s then WO m s X Y w
    else fun i j => WO m s (hiW s X) Y (w - 2 ^ s) i j + WO m s (alWO X) (hiW s Y) (w - 2 ^ s) i j

theorem alWO_congr {s m : Nat} {X Y : Nat → Nat → Nat → K} (h : WEq s m X Y) : WEq s m (alWO X) (alWO Y) :=
  fun w hw i hi j hj => by unfold alWO; rw [h w hw i hi j hj]

theorem alWO_alWO (hn : ∀ x : K, - -x = x) (X : Nat → Nat → Nat → K) : alWO (alWO X) = X := by
  funext w i j
  unfold alWO
  split
  · exact hn _
  · rfl

theorem two_pow_succ_half {s w : Nat} (hw : w < 2 ^ (s + 1)) (h : ¬ w < 2 ^ s) : ∃ v < 2 ^ s, w = v + 2 ^ s :=
  ⟨w - 2 ^ s, by rw [pow_succ] at hw; omega, by omega⟩

theorem WO_congr {m s : Nat} {X X' Y Y' : Nat → Nat → Nat → K} (hX : WEq s m X X') (hY : WEq s m Y Y') :
    WEq s m (WO m s X Y) (WO m s X' Y') := by
  induction s generalizing X X' Y Y' with
  | zero => intro w _; exact mmO_congr (hX 0 (by norm_num)) (hY 0 (by norm_num))
  | succ s ih =>
    have hlo : ∀ {Z Z' : Nat → Nat → Nat → K}, WEq (s + 1) m Z Z' → WEq s m Z Z' := fun h w hw => h w (by rw [pow_succ]; omega)
    have hhi : ∀ {Z Z' : Nat → Nat → Nat → K}, WEq (s + 1) m Z Z' → WEq s m (hiW s Z) (hiW s Z') := fun h w hw =>
      h (w + 2 ^ s) (by rw [pow_succ]; omega)
    intro w hw
    show MEq _ _ (if w < 2 ^ s then _ else _) (if w < 2 ^ s then _ else _)
    by_cases h : w < 2 ^ s
    · rw [if_pos h, if_pos h]; exact ih (hlo hX) (hlo hY) w h
    · obtain ⟨v, hv, rfl⟩ := two_pow_succ_half hw h
      rw [if_neg h, if_neg h, Nat.add_sub_cancel]
      intro i hi j hj
      show _ + _ = _ + _
      rw [ih (hhi hX) (hlo hY) v hv i hi j hj, ih (alWO_congr (hlo hX)) (hhi hY) v hv i hi j hj]

/-- The shape of a family of `2^s` matrices of side `2^m`. -/
def Arr3.Is {K : Type} (a : Arr3 K) (s m : Nat) : Prop := a.d0 = 2 ^ s ∧ a.d1 = 2 ^ m ∧ a.d2 = 2 ^ m

theorem wmulImpl_ops (hn : ∀ x : K, - -x = x) (s m : Nat) (a b dest : Arr3 K) (ha : a.Is s m) (hb : b.Is s m) (hd : dest.Is s m) :
    ∃ r : Arr3 K × Arr3 K, wmulImpl a b dest = .ok r ∧ r.2.Is s m ∧ WEq s m r.1.get a.get ∧ WEq s m r.2.get (WO m s a.get b.get) := by
  induction s generalizing a b dest with
  | zero =>
    unfold wmulImpl
    rw [if_neg (by rw [ha.1]; decide), dif_pos (by rw [ha.1]; rfl)]
    obtain ⟨t, ht, e1, e2, e3⟩ := dot_ops (m := m) (a := a.layer 0) (b := b.layer 0) ha.2.2 hb.2.1
    rw [ht]
    refine ⟨_, rfl, hd, WEq.rfl' _, ?_⟩
    intro w hw
    have : w = 0 := by simpa using hw
    subst this
    intro i hi j hj
    show (if (0 : Nat) = 0 then t.get else dest.get 0) i j = _
    rw [if_pos rfl, e3]
    rfl
  | succ s ih =>
    have h2 : 0 < 2 ^ s := Nat.two_pow_pos s
    have hp : 2 ^ (s + 1) = 2 ^ s + 2 ^ s := by rw [Nat.pow_succ]; omega
    have ha0 := ha.1
    have hb0 := hb.1
    have hd0 := hd.1
    have hhalf : a.d0 / 2 = 2 ^ s := by rw [ha0, hp]; omega
    unfold wmulImpl
    rw [if_neg (by omega), dif_neg (by omega)]
    simp only [hhalf]
    set a01 := a.splitAt (2 ^ s) with ha01
    set b01 := b.splitAt (2 ^ s) with hb01
    set d01 := dest.splitAt (2 ^ s) with hd01
    have hA2 : a01.2.Is s m := ⟨by show a.d0 - 2 ^ s = 2 ^ s; omega, ha.2⟩
    have hB1 : b01.1.Is s m := ⟨rfl, hb.2⟩
    have hB2 : b01.2.Is s m := ⟨by show b.d0 - 2 ^ s = 2 ^ s; omega, hb.2⟩
    have hD1 : d01.1.Is s m := ⟨rfl, hd.2⟩
    have hD2 : d01.2.Is s m := ⟨by show dest.d0 - 2 ^ s = 2 ^ s; omega, hd.2⟩
    obtain ⟨r1, e1, -, r1a, r1d⟩ := ih a01.2 b01.1 d01.2 hA2 hB1 hD2
    rw [e1]
    set a0 := wAlphaInplace (⟨2 ^ s, a.d1, a.d2, a.get⟩ : Arr3 K) with ha0'
    have hA0 : a0.Is s m := ⟨rfl, ha.2⟩
    obtain ⟨r2, e2, -, r2a, r2d⟩ := ih a0 b01.2 d01.1 hA0 hB2 hD1
    simp only [Except.bind, bind]
    rw [e2]
    simp only []
    set a0b := wAlphaInplace (⟨2 ^ s, a.d1, a.d2, r2.1.get⟩ : Arr3 K) with ha0b
    have hA0b : (⟨2 ^ s, a0b.d1, a0b.d2, a0b.get⟩ : Arr3 K).Is s m := ⟨rfl, ha.2⟩
    obtain ⟨r3, e3, -, r3a, r3d⟩ := ih ⟨2 ^ s, a0b.d1, a0b.d2, a0b.get⟩ b01.1 ⟨d01.1.d0, dest.d1, dest.d2, r2.2.get⟩ hA0b hB1 ⟨rfl, hd.2⟩
    rw [e3]
    have hback : WEq s m a0b.get a.get := by
      refine (WEq.rfl' _).trans ?_
      refine (alWO_congr r2a).trans ?_
      refine (alWO_congr (WEq.rfl' _)).trans ?_
      show WEq s m (alWO (alWO a.get)) a.get
      rw [alWO_alWO hn]
      exact WEq.rfl' _
    refine ⟨_, rfl, ?_, ?_, ?_⟩
    · refine ⟨?_, hd.2⟩
      show 2 ^ s + (dest.d0 - 2 ^ s) = _
      omega
    · intro w hw
      by_cases h : w < 2 ^ s
      · show MEq _ _ (if w < 2 ^ s then _ else _) _
        rw [if_pos h]
        exact (r3a w h).trans (hback w h)
      · show MEq _ _ (if w < 2 ^ s then _ else _) _
        obtain ⟨v, hv, rfl⟩ := two_pow_succ_half hw h
        rw [if_neg h]
        show MEq _ _ (r1.1.get (v + 2 ^ s - 2 ^ s)) _
        rw [Nat.add_sub_cancel]
        exact r1a v hv
    · intro w hw
      show MEq _ _ (if w < 2 ^ s then _ else _) (if w < 2 ^ s then _ else _)
      by_cases h : w < 2 ^ s
      · rw [if_pos h, if_pos h]
        exact (r3d w h).trans (WO_congr hback (WEq.rfl' _) w h)
      · obtain ⟨v, hv, rfl⟩ := two_pow_succ_half hw h
        rw [if_neg h, if_neg h]
        intro i hi j hj
        show r1.2.get (v + 2 ^ s - 2 ^ s) i j + r2.2.get (v + 2 ^ s - 2 ^ s) i j = _
        rw [Nat.add_sub_cancel, r1d v hv i hi j hj, r2d v hv i hi j hj]
        rfl

theorem wmul_ops (hn : ∀ x : K, - -x = x) {s m : Nat} {a b : Arr3 K} (ha : a.Is s m) (hb : b.Is s m) :
    ∃ r, wmul a b = .ok r ∧ r.Is s m ∧ WEq s m r.get (WO m s a.get b.get) := by
  unfold wmul
  by_cases h : a.d0 = 1
  · rw [if_pos h]
    have hs : s = 0 := by
      have := ha.1
      rw [h] at this
      by_contra hc
      have : 2 ^ 1 ≤ 2 ^ s := Nat.pow_le_pow_right (by norm_num) (by omega)
      omega
    subst hs
    obtain ⟨t, ht, e1, e2, e3⟩ := dot_ops (m := m) (a := a.layer 0) (b := b.layer 0) ha.2.2 hb.2.1
    rw [ht]
    have e1' : t.rows = a.d1 := e1
    have e2' : t.cols = a.d2 := by rw [e2, ha.2.2]; exact hb.2.2
    refine ⟨⟨a.d0, a.d1, a.d2, fun _ => t.get⟩, ?_, ha, ?_⟩
    · show (if t.rows * t.cols = a.d0 * a.d1 * a.d2 ∧ t.cols = a.d2 then _ else _) = _
      rw [if_pos ⟨by rw [e1', e2', h, one_mul], e2'⟩]
      rfl
    · intro w _
      show MEq _ _ t.get _
      rw [e3]
      exact MEq.rfl' _
  · rw [if_neg h]
    obtain ⟨r, hr, h1, h2, h3⟩ := wmulImpl_ops hn s m a b (Arr3.zeros a.d0 a.d1 a.d2) ha hb ha
    rw [hr]
    exact ⟨r.2, rfl, h1, h3⟩

end wmul

end TClifford
