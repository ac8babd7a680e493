/-
C58: the pseudoinverse of `pycomplex/math/linalg.py` and the circumcenter that is constructed with it.
-/
import Verif.Lemmas.Circumcenter
import Mathlib.LinearAlgebra.Matrix.NonsingularInverse
import Mathlib.LinearAlgebra.Matrix.Rank
import Mathlib.Tactic.FinCases

set_option linter.unusedSectionVars false

namespace Verif.Props

open Verif.Model Verif.Spec Matrix

section

variable {K : Type} [Field K] [LinearOrder K] [IsStrictOrderedRing K]

/-- the first columns of an orthogonal matrix are orthonormal -/
theorem left_orthonormal {m k : Nat} (hk : k ≤ m) (u : Matrix (Fin m) (Fin m) K)
    (h : ∀ i k, ∑ j, u j i * u j k = if i = k then 1 else 0) :
    (u.submatrix id (Fin.castLE hk))ᵀ * u.submatrix id (Fin.castLE hk) = 1 := by
  ext i j
  rw [mul_apply, one_apply]
  simp only [transpose_apply, submatrix_apply, id]
  rw [h]
  by_cases hij : i = j
  · rw [if_pos hij, if_pos (by rw [hij])]
  · rw [if_neg hij, if_neg fun hc => hij (Fin.castLE_injective hk hc)]

theorem right_orthonormal {n k : Nat} (hk : k ≤ n) (v : Matrix (Fin n) (Fin n) K)
    (h : ∀ i k, ∑ j, v i j * v k j = if i = k then 1 else 0) :
    v.submatrix (Fin.castLE hk) id * (v.submatrix (Fin.castLE hk) id)ᵀ = 1 := by
  ext i j
  rw [mul_apply, one_apply]
  simp only [transpose_apply, submatrix_apply, id]
  rw [h]
  by_cases hij : i = j
  · rw [if_pos hij, if_pos (by rw [hij])]
  · rw [if_neg hij, if_neg fun hc => hij (Fin.castLE_injective hk hc)]

/-- a matrix `U diag(s) V` has the pseudoinverse `Vᵀ diag(t) Uᵀ` if `t` inverts `s` where it is not
zero -/
theorem pseudoinverse_of {m n k : Nat} (U : Matrix (Fin m) (Fin k) K) (V : Matrix (Fin k) (Fin n) K)
    (s t : Fin k → K) (hU : Uᵀ * U = 1) (hV : V * Vᵀ = 1)
    (hst : ∀ j, (s j = 0 → t j = 0) ∧ (s j ≠ 0 → t j = 1 / s j)) :
    IsPseudoinverse (U * diagonal s * V) (Vᵀ * diagonal t * Uᵀ) := by
  have e1 : U * diagonal s * V * (Vᵀ * diagonal t * Uᵀ) = U * (diagonal s * diagonal t) * Uᵀ := by
    calc U * diagonal s * V * (Vᵀ * diagonal t * Uᵀ)
        = U * diagonal s * (V * Vᵀ) * diagonal t * Uᵀ := by simp only [Matrix.mul_assoc]
      _ = _ := by rw [hV, Matrix.mul_one]; simp only [Matrix.mul_assoc]
  have e2 : Vᵀ * diagonal t * Uᵀ * (U * diagonal s * V) = Vᵀ * (diagonal t * diagonal s) * V := by
    calc Vᵀ * diagonal t * Uᵀ * (U * diagonal s * V)
        = Vᵀ * diagonal t * (Uᵀ * U) * diagonal s * V := by simp only [Matrix.mul_assoc]
      _ = _ := by rw [hU, Matrix.mul_one]; simp only [Matrix.mul_assoc]
  have hs : diagonal s * diagonal t * diagonal s = diagonal s := by
    rw [diagonal_mul_diagonal, diagonal_mul_diagonal]
    congr 1
    funext j
    by_cases h0 : s j = 0
    · rw [h0, mul_zero]
    · rw [(hst j).2 h0, mul_one_div_cancel h0, one_mul]
  have ht : diagonal t * diagonal s * diagonal t = diagonal t := by
    rw [diagonal_mul_diagonal, diagonal_mul_diagonal]
    congr 1
    funext j
    by_cases h0 : s j = 0
    · rw [(hst j).1 h0, mul_zero]
    · rw [(hst j).2 h0, one_div_mul_cancel h0, one_mul]
  refine ⟨?_, ?_, ?_, ?_⟩
  · rw [e1]
    calc U * (diagonal s * diagonal t) * Uᵀ * (U * diagonal s * V)
        = U * (diagonal s * diagonal t) * (Uᵀ * U) * diagonal s * V := by
          simp only [Matrix.mul_assoc]
      _ = U * (diagonal s * diagonal t * diagonal s) * V := by
          rw [hU, Matrix.mul_one]; simp only [Matrix.mul_assoc]
      _ = _ := by rw [hs]
  · rw [e2]
    calc Vᵀ * (diagonal t * diagonal s) * V * (Vᵀ * diagonal t * Uᵀ)
        = Vᵀ * (diagonal t * diagonal s) * (V * Vᵀ) * diagonal t * Uᵀ := by
          simp only [Matrix.mul_assoc]
      _ = Vᵀ * (diagonal t * diagonal s * diagonal t) * Uᵀ := by
          rw [hV, Matrix.mul_one]; simp only [Matrix.mul_assoc]
      _ = _ := by rw [ht]
  · rw [e1, transpose_mul, transpose_mul, transpose_transpose, diagonal_mul_diagonal,
      diagonal_transpose, Matrix.mul_assoc]
  · rw [e2, transpose_mul, transpose_mul, transpose_transpose, diagonal_mul_diagonal,
      diagonal_transpose, Matrix.mul_assoc]

theorem invertSingular_spec {m n : Nat} (r : K) (hr : 0 < r)
    (s : Fin (min (m + 1) (n + 1)) → K) (h0 : 0 < s ⟨0, by omega⟩) (hn : ∀ j, 0 ≤ s j)
    (hs : ∀ j, s j = 0 ∨ r * s ⟨0, by omega⟩ ≤ s j) (j : Fin (min (m + 1) (n + 1))) :
    (s j = 0 → invertSingular r s j = 0) ∧ (s j ≠ 0 → invertSingular r s j = 1 / s j) := by
  unfold invertSingular
  constructor
  · intro hz
    rw [if_pos (by rw [hz, zero_div, abs_zero]; exact hr)]
  · intro hz
    rw [if_neg]
    rw [not_lt, abs_of_nonneg (div_nonneg (hn j) h0.le), le_div_iff₀ h0]
    exact (hs j).resolve_left hz

/-- C58: `pinv` of a matrix with at least as many rows as columns is its pseudoinverse, as long as
every singular value is zero or at least `r` times the largest one, which is not zero -/
theorem C58_pinv {m n : Nat} (hmn : n ≤ m) (r : K) (hr : 0 < r)
    (A : Matrix (Fin (m + 1)) (Fin (n + 1)) K) (f : Svd (m + 1) (n + 1) K)
    (h : IsSvd A f.u f.s f.v) (h0 : A ≠ 0)
    (hs : ∀ j, f.s j = 0 ∨ r * f.s ⟨0, by omega⟩ ≤ f.s j) :
    ∃ X, pinv r f = .ok X ∧ IsPseudoinverse A X := by
  have hpos : 0 < f.s ⟨0, by omega⟩ := by
    refine lt_of_le_of_ne (h.nonneg _) fun hz => h0 ?_
    ext i k
    rw [h.decomp, Matrix.zero_apply]
    refine Finset.sum_eq_zero fun j _ => ?_
    have : f.s j = 0 := le_antisymm
      ((h.falling ⟨0, by omega⟩ j (Nat.zero_le _)).trans hz.symm.le) (h.nonneg j)
    rw [this, mul_zero, zero_mul]
  unfold pinv
  rw [if_pos hmn]
  refine ⟨_, rfl, ?_⟩
  have hA : A = f.u.submatrix id (Fin.castLE (Nat.min_le_left _ _)) * diagonal f.s *
      f.v.submatrix (Fin.castLE (Nat.min_le_right _ _)) id := by
    ext i k
    rw [h.decomp, mul_apply]
    simp only [mul_diagonal, submatrix_apply, id]
  have hX : (Matrix.of fun k i => ∑ j : Fin (min (m + 1) (n + 1)),
      f.u i (Fin.castLE (Nat.min_le_left _ _) j) * invertSingular r f.s j *
        f.v (Fin.castLE (Nat.min_le_right _ _) j) k) =
      (f.v.submatrix (Fin.castLE (Nat.min_le_right _ _)) id)ᵀ * diagonal (invertSingular r f.s) *
        (f.u.submatrix id (Fin.castLE (Nat.min_le_left _ _)))ᵀ := by
    ext k i
    rw [mul_apply]
    simp only [mul_diagonal, submatrix_apply, id, transpose_apply, of_apply]
    exact Finset.sum_congr rfl fun j _ => by ring
  have key := pseudoinverse_of (f.u.submatrix id (Fin.castLE (Nat.min_le_left _ _)))
    (f.v.submatrix (Fin.castLE (Nat.min_le_right _ _)) id) f.s (invertSingular r f.s)
    (left_orthonormal _ _ h.left) (right_orthonormal _ _ h.right)
    (invertSingular_spec r hr f.s hpos h.nonneg hs)
  rw [← hA, ← hX] at key
  exact key

/-- there is at most one pseudoinverse -/
theorem C58_unique {m n : Nat} (A : Matrix (Fin m) (Fin n) K) (X Y : Matrix (Fin n) (Fin m) K)
    (hX : IsPseudoinverse A X) (hY : IsPseudoinverse A Y) : X = Y := by
  have hA : A * X = A * Y := by
    calc A * X = A * Y * A * X := by rw [hY.axa]
      _ = (A * Y) * (A * X) := by rw [Matrix.mul_assoc]
      _ = (A * Y)ᵀ * (A * X)ᵀ := by rw [hY.ax, hX.ax]
      _ = ((A * X) * (A * Y))ᵀ := (transpose_mul _ _).symm
      _ = (A * X * A * Y)ᵀ := by rw [← Matrix.mul_assoc]
      _ = A * Y := by rw [hX.axa, hY.ax]
  have hB : X * A = Y * A := by
    calc X * A = X * (A * Y * A) := by rw [hY.axa]
      _ = (X * A) * (Y * A) := by simp only [Matrix.mul_assoc]
      _ = (X * A)ᵀ * (Y * A)ᵀ := by rw [hX.xa, hY.xa]
      _ = ((Y * A) * (X * A))ᵀ := (transpose_mul _ _).symm
      _ = (Y * (A * X * A))ᵀ := by simp only [Matrix.mul_assoc]
      _ = Y * A := by rw [hX.axa, hY.xa]
  calc X = X * A * X := hX.xax.symm
    _ = Y * A * X := by rw [hB]
    _ = Y * (A * X) := by rw [Matrix.mul_assoc]
    _ = Y * (A * Y) := by rw [hA]
    _ = Y * A * Y := by rw [Matrix.mul_assoc]
    _ = Y := hY.xax

/-- C58: for a square matrix with linearly independent rows, whose singular values are within `1 / r`
of each other, `pinv` is the inverse -/
theorem C58_inverse {n : Nat} (r : K) (hr : 0 < r)
    (A : Matrix (Fin (n + 1)) (Fin (n + 1)) K) (f : Svd (n + 1) (n + 1) K)
    (h : IsSvd A f.u f.s f.v) (h0 : A.det ≠ 0)
    (hs : ∀ j, r * f.s ⟨0, by omega⟩ ≤ f.s j) :
    pinv r f = .ok A⁻¹ := by
  have hA0 : A ≠ 0 := by
    rintro rfl
    exact h0 det_zero
  obtain ⟨X, hX, hp⟩ := C58_pinv (le_refl n) r hr A f h hA0 fun j => Or.inr (hs j)
  rw [hX]
  congr 1
  have hu := isUnit_iff_ne_zero.2 h0
  calc X = A⁻¹ * (A * X * A) * A⁻¹ := by
        rw [Matrix.mul_assoc A, ← Matrix.mul_assoc A⁻¹, nonsing_inv_mul _ hu, Matrix.one_mul,
          Matrix.mul_assoc, mul_nonsing_inv _ hu, Matrix.mul_one]
    _ = A⁻¹ := by rw [hp.axa, nonsing_inv_mul _ hu, Matrix.one_mul]

/-- C58, negation: `pinv` raises a `ValueError` for every matrix with more columns than rows and at
least two rows -/
theorem C58_wide {m n : Nat} (h1 : 1 ≤ m) (hmn : m < n) (r : K) (f : Svd (m + 1) (n + 1) K) :
    pinv r f = .error .valueError := by
  unfold pinv
  rw [if_neg (by omega), if_neg (by omega)]

/-- what the function `moved` computes: the edges from the first point -/
def edgesFromFirst {m d : Nat} (pts : Matrix (Fin (m + 2)) (Fin (d + 1)) K) :
    Matrix (Fin (m + 1)) (Fin (d + 1)) K :=
  Matrix.of fun i j => pts i.succ j - pts 0 j

/-- C58: `circumcenter_construction` returns the (weighted) circumcenter if there are more points than
dimensions, a circumcenter exists and every singular value of the edges from the first point is zero or
at least `r` times the largest one -/
theorem C58_construction {m d : Nat} (hmd : d ≤ m)
    (svd : Matrix (Fin (m + 1)) (Fin (d + 1)) K → Svd (m + 1) (d + 1) K) (r : K) (hr : 0 < r)
    (pts : Matrix (Fin (m + 2)) (Fin (d + 1)) K) (w : Option (Vec K (m + 2)))
    (hsvd : IsSvd (edgesFromFirst pts) (svd (edgesFromFirst pts)).u (svd (edgesFromFirst pts)).s
      (svd (edgesFromFirst pts)).v) (h0 : ∃ i, pts i ≠ pts 0)
    (hs : ∀ j, (svd (edgesFromFirst pts)).s j = 0 ∨
      r * (svd (edgesFromFirst pts)).s ⟨0, by omega⟩ ≤ (svd (edgesFromFirst pts)).s j)
    (c : Vec K (d + 1)) (hc : IsCenter (fun i => pts i) (weightsOf w) c) :
    circumcenterConstruction svd r pts w = .ok c := by
  set M := edgesFromFirst pts with hM
  have hM0 : M ≠ 0 := by
    obtain ⟨i, hi⟩ := h0
    intro hz
    apply hi
    refine Fin.cases rfl (fun i => ?_) i
    funext j
    exact sub_eq_zero.1 (congrFun (congrFun hz i) j)
  obtain ⟨X, hX, hp⟩ := C58_pinv hmd r hr M (svd M) hsvd hM0 hs
  obtain ⟨⟨y, hy1, hy2⟩, hpow⟩ := hc
  -- the center relative to the first point is a combination of the edges
  have hz : (fun j => c j - pts 0 j) = Mᵀ *ᵥ fun i => y i.succ := by
    funext j
    rw [hy2, mulVec, dotProduct]
    have e : ∑ i : Fin (m + 1), Mᵀ j i * y i.succ =
        ∑ i : Fin (m + 1), y i.succ * pts i.succ j - (∑ i : Fin (m + 1), y i.succ) * pts 0 j := by
      rw [Finset.sum_mul, ← Finset.sum_sub_distrib]
      refine Finset.sum_congr rfl fun i _ => ?_
      show (pts i.succ j - pts 0 j) * y i.succ = _
      ring
    rw [e]
    rw [Fin.sum_univ_succ] at hy1 ⊢
    linear_combination (pts 0 j) * hy1
  set e2 : Vec K (m + 1) := fun i => ∑ j, M i j * M i j - (weightsOf w i.succ - weightsOf w 0)
    with he2
  have hrow : e2 = M *ᵥ fun j => 2 * (c j - pts 0 j) := by
    funext i
    have h1 := hpow i.succ 0
    unfold power at h1
    rw [mulVec, dotProduct]
    have e : ∑ j, (c j - pts i.succ j) ^ 2 = ∑ j, (c j - pts 0 j) ^ 2 -
        ∑ j, M i j * (2 * (c j - pts 0 j)) + ∑ j, M i j * M i j := by
      rw [← Finset.sum_sub_distrib, ← Finset.sum_add_distrib]
      refine Finset.sum_congr rfl fun j _ => ?_
      show _ = _ - (pts i.succ j - pts 0 j) * _ + (pts i.succ j - pts 0 j) * (pts i.succ j - pts 0 j)
      ring
    have h1 : ∑ j, (c j - pts i.succ j) ^ 2 - weightsOf w i.succ =
      ∑ j, (c j - pts 0 j) ^ 2 - weightsOf w 0 := h1
    rw [e] at h1
    rw [he2]
    linear_combination h1
  have hsol : X *ᵥ e2 = fun j => 2 * (c j - pts 0 j) := by
    have h2 : (fun j => 2 * (c j - pts 0 j)) = Mᵀ *ᵥ fun i => 2 * y i.succ := by
      funext j
      have := congrFun hz j
      rw [mulVec, dotProduct] at this ⊢
      show 2 * (c j - pts 0 j) = _
      rw [show c j - pts 0 j = _ from this, Finset.mul_sum]
      exact Finset.sum_congr rfl fun i _ => by ring
    rw [hrow, mulVec_mulVec, h2, mulVec_mulVec]
    congr 1
    rw [← hp.xa, ← transpose_mul, ← Matrix.mul_assoc, hp.axa]
  have tail : ∀ e, e = e2 → (pinv r (svd M) >>= fun p => Except.ok fun j =>
      dot (p j) e / 2 + pts 0 j) = Except.ok c := by
    rintro e rfl
    rw [hX]
    show Except.ok _ = _
    congr 1
    funext j
    have := congrFun hsol j
    rw [mulVec, dotProduct] at this
    show (∑ i, X j i * e2 i) / 2 + pts 0 j = c j
    rw [this]
    ring
  cases w with
  | none => exact tail (fun i => dot (M i) (M i)) (by funext i; simp [he2, dot, weightsOf])
  | some w => exact tail (fun i => dot (M i) (M i) - (w i.succ - w 0)) rfl

/-- C58, negation: for the triangles of a surface in space, and all other simplices with at least
three corners and fewer corners than dimensions plus one, `circumcenter_construction` raises a
`ValueError` -/
theorem C58_construction_raises {m d : Nat} (h1 : 1 ≤ m) (hmd : m < d)
    (svd : Matrix (Fin (m + 1)) (Fin (d + 1)) K → Svd (m + 1) (d + 1) K) (r : K)
    (pts : Matrix (Fin (m + 2)) (Fin (d + 1)) K) (w : Option (Vec K (m + 2))) :
    circumcenterConstruction svd r pts w = .error .valueError := by
  unfold circumcenterConstruction
  simp only [C58_wide h1 hmd]
  rfl

end

/-- the edge from the origin to (3, 4) -/
def slantedEdge : Matrix (Fin 2) (Fin 2) ℚ := !![0, 0; 3, 4]

/-- a singular value decomposition of the row (3, 4) -/
def slantedSvd : Svd 1 2 ℚ := ⟨!![1], fun _ => 5, !![3 / 5, 4 / 5; -4 / 5, 3 / 5]⟩

/-- C58, negation: the center that `circumcenter_construction` returns for an edge in the plane need
not lie on the edge: `pinv` adds up all right singular vectors -/
theorem C58_construction_edge :
    IsSvd (!![3, 4] : Matrix (Fin 1) (Fin 2) ℚ) slantedSvd.u slantedSvd.s slantedSvd.v ∧
      IsCenter (fun i => slantedEdge i) 0 ![3 / 2, 2] ∧
      circumcenterConstruction (fun _ => slantedSvd) (1 / 10 ^ 9) slantedEdge none =
        .ok ![-1 / 2, 7 / 2] := by
  refine ⟨⟨?_, ?_, ?_, ?_, ?_⟩, ⟨⟨![1 / 2, 1 / 2], ?_, ?_⟩, ?_⟩, ?_⟩
  · decide +kernel
  · decide +kernel
  · intro i k
    rw [show ∀ f : Fin (min 1 2) → ℚ, ∑ j, f j = f ⟨0, by decide⟩ from
      fun f => Fin.sum_univ_one f]
    fin_cases i
    fin_cases k <;> simp [slantedSvd] <;> norm_num
  · decide +kernel
  · decide +kernel
  · decide +kernel
  · decide +kernel
  · unfold power
    decide +kernel
  · simp only [circumcenterConstruction, pinv, slantedSvd, invertSingular, slantedEdge]
    show Except.ok _ = _
    congr 1
    funext k
    fin_cases k <;> simp [dot, Fin.sum_univ_two] <;> norm_num

/-- C58, negation: `pinv` of a row need not be its pseudoinverse -/
theorem C58_row : ∃ X, pinv (1 / 10 ^ 9) slantedSvd = .ok X ∧
    ¬ IsPseudoinverse (!![3, 4] : Matrix (Fin 1) (Fin 2) ℚ) X := by
  refine ⟨_, rfl, fun h => ?_⟩
  have := congrFun (congrFun h.xa 0) 1
  revert this
  decide +kernel

/-- a right triangle with legs along the axes, and weights -/
example : circumcenterConstruction (fun _ => ⟨!![1, 0; 0, 1], ![3, 2], !![1, 0; 0, 1]⟩) (1 / 10 ^ 9)
    (!![1, 1; 4, 1; 1, 3] : Matrix (Fin 3) (Fin 2) ℚ) (some ![0, 3, 2]) = .ok ![2, 3 / 2] := by
  refine C58_construction (le_refl 1) _ _ (by norm_num) _ _ ⟨?_, ?_, ?_, ?_, ?_⟩ ⟨1, ?_⟩ ?_ _
    ⟨⟨![5 / 12, 1 / 3, 1 / 4], ?_, ?_⟩, ?_⟩
  · decide +kernel
  · decide +kernel
  · intro i k
    rw [show ∀ f : Fin (min 2 2) → ℚ, ∑ j, f j = f ⟨0, by decide⟩ + f ⟨1, by decide⟩ from
      fun f => Fin.sum_univ_two f]
    fin_cases i <;> fin_cases k <;> simp [edgesFromFirst] <;> norm_num
  · decide +kernel
  · decide +kernel
  · decide +kernel
  · decide +kernel
  · decide +kernel
  · decide +kernel
  · unfold power
    intro i j
    fin_cases i <;> fin_cases j <;> simp [weightsOf] <;> norm_num

end Verif.Props
