/-
C55: `signed_volume` and `unsigned_volume` are the volume of the simplex.
-/
import Verif.Model.Euclid
import Verif.Spec.Euclid
import Verif.Lemmas.SimplexMeasure
import Verif.Lemmas.Spectral
import Mathlib.LinearAlgebra.AffineSpace.Independent
import Mathlib.LinearAlgebra.Matrix.ToLinearEquiv
import Mathlib.Tactic.FinCases

namespace Verif.Props

open Verif.Model Verif.Spec Matrix

section Field

variable {K : Type} [Field K]

theorem signedVolume_eq {n : Nat} (pts : Matrix (Fin (n + 1)) (Fin n) K) :
    signedVolume pts = .ok ((edgeRows pts).det / (n.factorial : K)) := by
  simp [signedVolume]

/-- C55: `signed_volume` raises a `ValueError` exactly if the number of points is not one more than
the number of coordinates -/
theorem C55_signed_shape {P N : Nat} (pts : Matrix (Fin P) (Fin N) K) :
    (P = N + 1 → ∃ v, signedVolume pts = .ok v) ∧
      (P ≠ N + 1 → signedVolume pts = .error .valueError) := by
  cases P with
  | zero => exact ⟨fun h => absurd h (by omega), fun _ => rfl⟩
  | succ M =>
    refine ⟨fun h => ?_, fun h => ?_⟩
    · have h' : M = N := by omega
      subst h'
      exact ⟨_, signedVolume_eq pts⟩
    · have h' : M ≠ N := by omega
      simp [signedVolume, h']

/-- the determinant of the edges is the determinant of the points with a column of ones -/
theorem det_bordered {n : Nat} (pts : Matrix (Fin (n + 1)) (Fin n) K) :
    (Matrix.of fun (i : Fin (n + 1)) (j : Fin (n + 1)) =>
      (Fin.cons 1 (pts i) : Fin (n + 1) → K) j).det = (edgeRows pts).det := by
  rw [← det_eq_of_forall_row_eq_smul_add_const
    (A := Matrix.of fun (i : Fin (n + 1)) (j : Fin (n + 1)) =>
      (Fin.cons 1 (pts i) : Fin (n + 1) → K) j -
        (if i = 0 then 0 else 1) * (Fin.cons 1 (pts 0) : Fin (n + 1) → K) j)
    (fun i => if i = 0 then 0 else -1) 0 (by simp)
    (fun i j => by
      by_cases h : i = 0
      · simp [h]
      · simp only [of_apply, h, if_false]
        ring)]
  rw [det_succ_column_zero, Finset.sum_eq_single 0]
  · simp only [Fin.val_zero, pow_zero, one_mul, of_apply, Fin.cons_zero, if_true, zero_mul,
      sub_zero]
    congr 1
    ext i j
    simp [edgeRows]
  · intro i _ hi
    simp [hi]
  · simp

/-- C55: exchanging points changes the sign of `signed_volume` by the sign of the permutation -/
theorem C55_permute {n : Nat} (pts : Matrix (Fin (n + 1)) (Fin n) K) (σ : Equiv.Perm (Fin (n + 1)))
    (v : K) (h : signedVolume pts = .ok v) :
    signedVolume (Matrix.of fun i => pts (σ i)) = .ok ((Equiv.Perm.sign σ : ℤ) * v) := by
  rw [signedVolume_eq] at h ⊢
  cases h
  congr 1
  rw [← det_bordered, ← det_bordered pts, ← mul_div_assoc]
  congr 1
  rw [← det_permute]
  rfl

/-- C55: the simplex of the origin and the unit vectors has signed volume `1 / n!` -/
theorem C55_corner (n : Nat) :
    signedVolume (Matrix.of (Fin.cons 0 (fun i => Pi.single i 1) : Fin (n + 1) → Fin n → K)) =
      .ok (1 / (n.factorial : K)) := by
  rw [signedVolume_eq]
  congr 2
  have : edgeRows (Matrix.of (Fin.cons 0 (fun i => Pi.single i 1) : Fin (n + 1) → Fin n → K)) =
      1 := by
    ext i j
    simp [edgeRows, Matrix.one_apply, Pi.single_apply, eq_comm]
  rw [this, det_one]

/-- C55: an affine map multiplies `signed_volume` by its determinant; translations change nothing -/
theorem C55_affine {n : Nat} (pts : Matrix (Fin (n + 1)) (Fin n) K) (A : Matrix (Fin n) (Fin n) K)
    (b : Fin n → K) (v : K) (h : signedVolume pts = .ok v) :
    signedVolume (Matrix.of fun i => A *ᵥ pts i + b) = .ok (A.det * v) := by
  rw [signedVolume_eq] at h ⊢
  cases h
  congr 1
  rw [← mul_div_assoc]
  congr 1
  have : edgeRows (Matrix.of fun i => A *ᵥ pts i + b) = edgeRows pts * Aᵀ := by
    ext i j
    simp only [edgeRows, of_apply, Pi.add_apply, mul_apply, transpose_apply, mulVec, dotProduct]
    rw [add_sub_add_right_eq_sub, ← Finset.sum_sub_distrib]
    exact Finset.sum_congr rfl fun k _ => by ring
  rw [this, det_mul, det_transpose, mul_comm]

/-- C55: a further point divides the simplex: the volumes with each corner in turn replaced by the
point add up to the volume of the simplex, wherever the point is -/
theorem C55_split {n : Nat} (pts : Matrix (Fin (n + 1)) (Fin n) K) (q : Fin n → K) (v : K)
    (h : signedVolume pts = .ok v) :
    ∃ w : Fin (n + 1) → K, (∀ i, signedVolume (pts.updateRow i q) = .ok (w i)) ∧ ∑ i, w i = v := by
  rw [signedVolume_eq] at h
  cases h
  refine ⟨fun i => (edgeRows (pts.updateRow i q)).det / (n.factorial : K),
    fun i => signedVolume_eq _, ?_⟩
  rw [← Finset.sum_div]
  congr 1
  set M : Matrix (Fin (n + 1)) (Fin (n + 1)) K :=
    Matrix.of fun i j => (Fin.cons 1 (pts i) : Fin (n + 1) → K) j with hM
  set b : Fin (n + 1) → K := Fin.cons 1 q with hb
  have e : ∀ i, (edgeRows (pts.updateRow i q)).det = ∑ j, b j * adjugate M j i := by
    intro i
    rw [← det_bordered]
    have : (Matrix.of fun (k : Fin (n + 1)) (j : Fin (n + 1)) =>
        (Fin.cons 1 (pts.updateRow i q k) : Fin (n + 1) → K) j) = M.updateRow i b := by
      ext k j
      by_cases hk : k = i
      · subst hk
        simp [hb]
      · simp [hM, updateRow_ne hk]
    rw [this]
    have h2 : (M.updateRow i b).det = cramer Mᵀ b i := by
      rw [cramer_apply, ← det_transpose, updateCol_transpose]
    rw [h2, cramer_eq_adjugate_mulVec, mulVec, dotProduct]
    refine Finset.sum_congr rfl fun j _ => ?_
    rw [← adjugate_transpose, transpose_apply, mul_comm]
  simp only [e]
  rw [Finset.sum_comm]
  simp only [← Finset.mul_sum]
  have hs : ∀ j, ∑ i, adjugate M j i = if j = 0 then M.det else 0 := by
    intro j
    have h1 := congrFun (congrFun (adjugate_mul M) j) 0
    rw [mul_apply] at h1
    have h2 : ∀ i, M i 0 = 1 := fun i => by simp [hM]
    simp only [h2, mul_one, Matrix.smul_apply, one_apply, smul_eq_mul] at h1
    rw [h1]
    split <;> simp
  simp only [hs]
  simp [hb, hM, det_bordered]

theorem edgeRows_linearIndependent {M N : Nat} (pts : Matrix (Fin (M + 1)) (Fin N) K) :
    AffineIndependent K (fun i => pts i) ↔ LinearIndependent K (fun i => edgeRows pts i) := by
  rw [affineIndependent_iff_linearIndependent_vsub K _ 0,
    ← linearIndependent_equiv (finSuccAboveEquiv (0 : Fin (M + 1)))]
  have : ((fun i : { x : Fin (M + 1) // x ≠ 0 } => (pts i -ᵥ pts 0 : Fin N → K)) ∘
      finSuccAboveEquiv (0 : Fin (M + 1))) = fun i => edgeRows pts i := by
    funext i j
    simp [edgeRows, finSuccAboveEquiv_apply]
  rw [this]

/-- C55: `signed_volume` is zero exactly if the points are not in general position -/
theorem C55_signed_zero [CharZero K] {n : Nat} (pts : Matrix (Fin (n + 1)) (Fin n) K) (v : K)
    (h : signedVolume pts = .ok v) : v ≠ 0 ↔ AffineIndependent K (fun i => pts i) := by
  rw [signedVolume_eq] at h
  cases h
  have hf : (n.factorial : K) ≠ 0 := Nat.cast_ne_zero.2 (Nat.factorial_ne_zero n)
  rw [edgeRows_linearIndependent, div_ne_zero_iff, and_iff_left hf]
  have := linearIndependent_rows_iff_isUnit (A := edgeRows pts)
  rw [isUnit_iff_isUnit_det, isUnit_iff_ne_zero] at this
  exact this.symm

end Field

theorem gram_eq {M N : Nat} (A : Matrix (Fin M) (Fin N) ℝ) :
    (Matrix.of fun j k => ∑ i, A j i * A k i : Matrix (Fin M) (Fin M) ℝ) = A * Aᵀ := by
  ext j k
  simp [mul_apply]

theorem unsignedVolume_eq {M N : Nat} (h : M ≤ N) (pts : Matrix (Fin (M + 1)) (Fin N) ℝ) :
    unsignedVolume pts =
      .ok (Real.sqrt |(edgeRows pts * (edgeRows pts)ᵀ).det| / (M.factorial : ℝ)) := by
  have h' : ¬ M > N := by omega
  by_cases h0 : M = 0
  · subst h0
    simp [unsignedVolume]
  · simp only [unsignedVolume, h', h0, if_false, gram_eq]

/-- C55: `unsigned_volume` raises a `ValueError` exactly if there are no points or more than one
more than there are coordinates -/
theorem C55_unsigned_shape {P N : Nat} (pts : Matrix (Fin P) (Fin N) ℝ) :
    (1 ≤ P ∧ P ≤ N + 1 → ∃ v, unsignedVolume pts = .ok v ∧ 0 ≤ v) ∧
      (¬ (1 ≤ P ∧ P ≤ N + 1) → unsignedVolume pts = .error .valueError) := by
  cases P with
  | zero => exact ⟨fun h => absurd h.1 (by omega), fun _ => rfl⟩
  | succ M =>
    refine ⟨fun h => ⟨_, unsignedVolume_eq (by omega) pts, by positivity⟩, fun h => ?_⟩
    have h' : M > N := by omega
    simp [unsignedVolume, h']

/-- C55: `unsigned_volume` of a full-dimensional simplex is the absolute value of `signed_volume` -/
theorem C55_unsigned_signed {n : Nat} (pts : Matrix (Fin (n + 1)) (Fin n) ℝ) (v : ℝ)
    (h : signedVolume pts = .ok v) : unsignedVolume pts = .ok |v| := by
  rw [signedVolume_eq] at h
  cases h
  rw [unsignedVolume_eq le_rfl, det_mul, det_transpose, abs_mul, Real.sqrt_mul_self (abs_nonneg _),
    abs_div, Nat.abs_cast]

/-- C55: the absolute value of `signed_volume` is the Lebesgue measure of the filled simplex, in
every dimension and for every points -/
theorem C55_signed_measure {n : Nat} (pts : Matrix (Fin (n + 1)) (Fin n) ℝ) (v : ℝ)
    (h : signedVolume pts = .ok v) : HasVolume (fun i => pts i) |v| := by
  rw [signedVolume_eq] at h
  cases h
  refine ⟨abs_nonneg _, ?_⟩
  unfold filled
  rw [volume_simplex, abs_div, Nat.abs_cast]
  rfl

theorem gram_of_congruent {P N N' : Nat} (p : Matrix (Fin (P + 1)) (Fin N) ℝ)
    (q : Matrix (Fin (P + 1)) (Fin N') ℝ) (h : Congruent (fun i => p i) (fun i => q i)) :
    edgeRows p * (edgeRows p)ᵀ = edgeRows q * (edgeRows q)ᵀ := by
  have key : ∀ {D : Nat} (r : Matrix (Fin (P + 1)) (Fin D) ℝ) (j k : Fin P),
      (edgeRows r * (edgeRows r)ᵀ) j k = (dist2 (r j.succ) (r 0) + dist2 (r k.succ) (r 0) -
        dist2 (r j.succ) (r k.succ)) / 2 := by
    intro D r j k
    rw [mul_apply, eq_div_iff (by norm_num)]
    simp only [dist2, edgeRows, of_apply, transpose_apply, ← Finset.sum_add_distrib,
      ← Finset.sum_sub_distrib, Finset.sum_mul]
    exact Finset.sum_congr rfl fun i _ => by ring
  ext j k
  rw [key, key, h, h, h]

/-- C55: `unsigned_volume` depends on nothing but the distances between the points: congruent
simplices, even in spaces of different dimension, have the same volume -/
theorem C55_congruent {P N N' : Nat} (p : Matrix (Fin P) (Fin N) ℝ) (q : Matrix (Fin P) (Fin N') ℝ)
    (hN : P ≤ N + 1) (hN' : P ≤ N' + 1) (h : Congruent (fun i => p i) (fun i => q i)) :
    unsignedVolume p = unsignedVolume q := by
  cases P with
  | zero => rfl
  | succ M =>
    rw [unsignedVolume_eq (by omega), unsignedVolume_eq (by omega), gram_of_congruent p q h]

/-- C55: every simplex has a congruent copy in the space of its own dimension, and `unsigned_volume`
is the Lebesgue measure of every such copy -/
theorem C55_unsigned_measure {M N : Nat} (h : M ≤ N) (pts : Matrix (Fin (M + 1)) (Fin N) ℝ) :
    ∃ v, unsignedVolume pts = .ok v ∧
      (∃ q : Fin (M + 1) → Fin M → ℝ, Congruent (fun i => pts i) q) ∧
      ∀ q : Fin (M + 1) → Fin M → ℝ, Congruent (fun i => pts i) q → HasVolume q v := by
  refine ⟨_, unsignedVolume_eq h pts, ?_, ?_⟩
  · obtain ⟨B, hB⟩ := exists_square_gram (edgeRows pts)
    have hd : ∀ i j, ∑ c, (B i c - B j c) ^ 2 =
        ∑ c, (edgeRows pts i c - edgeRows pts j c) ^ 2 := by
      intro i j
      have g : ∀ {D : Nat} (A : Matrix (Fin M) (Fin D) ℝ), ∑ c, (A i c - A j c) ^ 2 =
          (A * Aᵀ) i i + (A * Aᵀ) j j - 2 * (A * Aᵀ) i j := by
        intro D A
        simp only [mul_apply, transpose_apply, ← Finset.sum_add_distrib, Finset.mul_sum,
          ← Finset.sum_sub_distrib]
        exact Finset.sum_congr rfl fun c _ => by ring
      rw [g, g, hB]
    have hz : ∀ i, ∑ c, (B i c) ^ 2 = ∑ c, (edgeRows pts i c) ^ 2 := by
      intro i
      have := congrFun (congrFun hB i) i
      simpa only [mul_apply, transpose_apply, ← pow_two] using this
    set q : Fin (M + 1) → Fin M → ℝ := Fin.cons (0 : Fin M → ℝ) (fun i => B i) with hq
    have q0 : q 0 = 0 := rfl
    have qs : ∀ i : Fin M, q i.succ = B i := fun i => rfl
    refine ⟨q, fun i j => ?_⟩
    unfold dist2
    refine Fin.cases ?_ (fun i => ?_) i <;> refine Fin.cases ?_ (fun j => ?_) j
    · simp
    · have := hz j
      simp only [q0, qs, Pi.zero_apply, zero_sub, neg_sq]
      rw [this]
      exact Finset.sum_congr rfl fun c _ => by simp only [edgeRows, of_apply]; ring
    · have := hz i
      simp only [q0, qs, Pi.zero_apply, sub_zero]
      rw [this]
      exact Finset.sum_congr rfl fun c _ => by simp only [edgeRows, of_apply]
    · have := hd i j
      simp only [qs]
      rw [this]
      exact Finset.sum_congr rfl fun c _ => by simp only [edgeRows, of_apply]; ring
  · intro q hq
    have e := C55_congruent pts (Matrix.of q) (by omega) (by omega) hq
    obtain ⟨v, hv⟩ := (C55_signed_shape (Matrix.of q)).1 rfl
    rw [unsignedVolume_eq h, C55_unsigned_signed _ v hv] at e
    have := C55_signed_measure _ v hv
    rw [Except.ok.inj e]
    exact this

/-- C55: `unsigned_volume` is zero exactly if the points are not in general position -/
theorem C55_unsigned_zero {M N : Nat} (pts : Matrix (Fin (M + 1)) (Fin N) ℝ) (v : ℝ)
    (h : unsignedVolume pts = .ok v) : v ≠ 0 ↔ AffineIndependent ℝ (fun i => pts i) := by
  have hMN : M ≤ N := by
    by_contra hc
    have := (C55_unsigned_shape pts).2 (by omega)
    rw [this] at h
    cases h
  obtain ⟨w, hw, -, -⟩ := C55_unsigned_measure hMN pts
  rw [unsignedVolume_eq hMN] at h
  cases h
  have hf : (M.factorial : ℝ) ≠ 0 := Nat.cast_ne_zero.2 (Nat.factorial_ne_zero M)
  rw [edgeRows_linearIndependent, div_ne_zero_iff, and_iff_left hf, Real.sqrt_ne_zero (abs_nonneg _),
    abs_ne_zero]
  set A := edgeRows pts
  have hli : LinearIndependent ℝ (fun i => A i) ↔ Function.Injective A.vecMul :=
    (vecMul_injective_iff (M := A)).symm
  rw [hli, ne_eq, ← exists_vecMul_eq_zero_iff]
  constructor
  · intro hn
    have : ∀ x, A.vecMul x = 0 → x = 0 := by
      intro x hx
      by_contra hx0
      exact hn ⟨x, hx0, by rw [← vecMul_vecMul]; simp only [hx, zero_vecMul]⟩
    intro x y hxy
    have h0 := this (x - y) (by rw [sub_vecMul]; simp only [hxy, sub_self])
    exact sub_eq_zero.1 h0
  · rintro hi ⟨x, hx0, hx⟩
    apply hx0
    apply hi
    simp only [zero_vecMul]
    have h1 : (x ᵥ* (A * Aᵀ)) ⬝ᵥ x = 0 := by rw [hx, zero_dotProduct]
    rw [← vecMul_vecMul, vecMul_transpose, dotProduct_comm, dotProduct_mulVec] at h1
    exact dotProduct_self_eq_zero.1 h1

/-- a triangle of the plane with signed volume 6, its mirror image, and a triangle of 3-space -/
example : signedVolume (!![0, 0; 4, 0; 1, 3] : Matrix (Fin 3) (Fin 2) ℚ) = .ok 6 ∧
    signedVolume (!![4, 0; 0, 0; 1, 3] : Matrix (Fin 3) (Fin 2) ℚ) = .ok (-6) ∧
    unsignedVolume (!![0, 0, 0; 0, 3, 0; 4, 0, 0] : Matrix (Fin 3) (Fin 3) ℝ) = .ok 6 := by
  refine ⟨?_, ?_, ?_⟩
  · rw [signedVolume_eq, det_fin_two]
    simp [edgeRows]
    norm_num
  · rw [signedVolume_eq, det_fin_two]
    simp [edgeRows]
    norm_num
  · rw [unsignedVolume_eq (by norm_num), det_fin_two]
    simp [edgeRows, mul_apply, Fin.sum_univ_three]
    norm_num

end Verif.Props
