/-
C43, C51: the closed-form 3x3 inverse, the null space helper and the rotation in a plane.
-/
import Verif.Model.Linalg
import Mathlib.LinearAlgebra.Matrix.Adjugate
import Mathlib.Tactic.Ring
import Mathlib.Tactic.FieldSimp
import Mathlib.Tactic.FinCases
import Mathlib.Algebra.Field.Rat
import Mathlib.Algebra.BigOperators.Fin
import Mathlib.Tactic.NormNum

namespace Verif.Props

open Verif.Model Matrix

theorem npDot_eq {R : Type} [CommRing R] {n : Nat} (a b : Fin n → R) : npDot a b = a ⬝ᵥ b := by
  unfold npDot dotProduct
  rw [← List.sum_ofFn, List.ofFn_eq_map]

/-- C43: over every commutative ring `adjoint` is the matrix of cofactors: the transpose of the
adjugate -/
theorem C43_adjoint {R : Type} [CommRing R] (A : Matrix (Fin 3) (Fin 3) R) :
    adjoint3 A = (adjugate A)ᵀ := by
  ext i j
  rw [transpose_apply, adjugate_fin_three]
  fin_cases i <;> fin_cases j <;> simp [adjoint3, npCross, wrapIndex, Fin.ofNat] <;> ring

/-- the number the code divides by is the determinant -/
theorem inverseTranspose3_eq {K : Type} [Field K] [CharZero K] (A : Matrix (Fin 3) (Fin 3) K) :
    inverseTranspose3 A = Matrix.of fun i j => adjoint3 A i j / A.det := by
  have h : (npDot (adjoint3 A 0) (A 0) + npDot (adjoint3 A 1) (A 1) +
      npDot (adjoint3 A 2) (A 2)) / 3 = A.det := by
    have h3 : (3 : K) ≠ 0 := by norm_num
    rw [div_eq_iff h3, det_fin_three]
    simp only [npDot_eq, dotProduct, Fin.sum_univ_three]
    simp [adjoint3, npCross, wrapIndex, Fin.ofNat]
    ring
  ext i j
  simp only [inverseTranspose3, h]

/-- C43: for every invertible 3x3 matrix over a field of characteristic zero, `inverse` is a
two-sided inverse -/
theorem C43_inverse {K : Type} [Field K] [CharZero K] (A : Matrix (Fin 3) (Fin 3) K)
    (h : A.det ≠ 0) : A * inverse3 A = 1 ∧ inverse3 A * A = 1 := by
  have e : inverse3 A = A.det⁻¹ • adjugate A := by
    unfold inverse3
    rw [inverseTranspose3_eq, C43_adjoint]
    ext i j
    simp [div_eq_inv_mul]
  rw [e]
  constructor
  · rw [Matrix.mul_smul, mul_adjugate, smul_smul, inv_mul_cancel₀ h, one_smul]
  · rw [Matrix.smul_mul, adjugate_mul, smul_smul, inv_mul_cancel₀ h, one_smul]

/-- C43: `inverse_transpose` is the transpose of the inverse: it maps covectors -/
theorem C43_inverse_transpose {K : Type} [Field K] [CharZero K] (A : Matrix (Fin 3) (Fin 3) K)
    (h : A.det ≠ 0) : Aᵀ * inverseTranspose3 A = 1 := by
  have h2 := (C43_inverse A h).2
  have : (inverse3 A * A)ᵀ = 1 := by rw [h2, transpose_one]
  rwa [transpose_mul] at this

/-- C43: for a singular matrix `null` returns a vector orthogonal to all rows -/
theorem C43_null {R : Type} [CommRing R] (A : Matrix (Fin 3) (Fin 3) R) (h : A.det = 0) :
    A *ᵥ null3 A = 0 := by
  have e : null3 A = adjugate A *ᵥ fun _ => 1 := by
    ext j
    simp only [null3, C43_adjoint, transpose_apply, mulVec, dotProduct, Fin.sum_univ_three,
      mul_one]
  rw [e, mulVec_mulVec, mul_adjugate, h, zero_smul, zero_mulVec]

/-- C43: but that vector can be zero although the matrix has rank two, when the three cross products
cancel -/
theorem C43_null_vanishes :
    let A : Matrix (Fin 3) (Fin 3) ℚ := !![1, 0, 0; 1, 0, 0; 0, 1, 0]
    null3 A = 0 ∧ (∃ x, A *ᵥ x = ![1, 1, 0]) ∧ (∃ x, A *ᵥ x = ![0, 0, 1]) := by
  refine ⟨?_, ⟨![1, 0, 0], ?_⟩, ⟨![0, 1, 0], ?_⟩⟩
  · ext j
    fin_cases j <;> simp [null3, adjoint3, npCross, wrapIndex, Fin.ofNat]
  · ext j
    fin_cases j <;> simp [mulVec, dotProduct, Fin.sum_univ_three]
  · ext j
    fin_cases j <;> simp [mulVec, dotProduct, Fin.sum_univ_three]

/-- an invertible matrix and a singular one of rank two with a non-zero null vector -/
example : (!![2, 1, 0; 0, 1, 3; 1, 0, 1] : Matrix (Fin 3) (Fin 3) ℚ).det ≠ 0 ∧
    (!![1, 0, 0; 0, 1, 0; 1, 1, 0] : Matrix (Fin 3) (Fin 3) ℚ).det = 0 ∧
    null3 (!![1, 0, 0; 0, 1, 0; 1, 1, 0] : Matrix (Fin 3) (Fin 3) ℚ) ≠ 0 := by
  refine ⟨?_, ?_, ?_⟩
  · rw [det_fin_three]; simp; norm_num
  · rw [det_fin_three]; simp
  · intro h
    have := congrFun h 2
    simp [null3, adjoint3, npCross, wrapIndex, Fin.ofNat] at this

/-! ### C51 -/

theorem rotation_entry {R : Type} [CommRing R] {n : Nat} (u v : Fin n → R) (i j : Fin n) :
    rotationFromPlane u v i j =
      (if i = j then 1 else 0) - u i * u j - v i * v j + (u i * v j - v i * u j) := by
  simp only [rotationFromPlane, of_apply, npDot_eq, dotProduct, Fin.sum_univ_two]
  simp
  ring

theorem rotation_mulVec {R : Type} [CommRing R] {n : Nat} (u v x : Fin n → R) :
    rotationFromPlane u v *ᵥ x =
      x - (u ⬝ᵥ x) • u - (v ⬝ᵥ x) • v + ((v ⬝ᵥ x) • u - (u ⬝ᵥ x) • v) := by
  ext i
  have hx : ∑ j, (if i = j then 1 else 0) * x j = x i := by simp
  have s : ∀ (c : R) (w : Fin n → R), ∑ j, c * w j * x j = c * (w ⬝ᵥ x) := by
    intro c w
    rw [dotProduct, Finset.mul_sum]
    exact Finset.sum_congr rfl fun j _ => by ring
  have e : (rotationFromPlane u v *ᵥ x) i = ∑ j, (if i = j then 1 else 0) * x j -
      ∑ j, u i * u j * x j - ∑ j, v i * v j * x j +
      (∑ j, u i * v j * x j - ∑ j, v i * u j * x j) := by
    rw [mulVec, dotProduct]
    simp only [← Finset.sum_sub_distrib, ← Finset.sum_add_distrib]
    exact Finset.sum_congr rfl fun j _ => by rw [rotation_entry]; ring
  rw [e, hx, s, s, s, s]
  simp only [Pi.add_apply, Pi.sub_apply, Pi.smul_apply, smul_eq_mul]
  ring

/-- C51: for orthonormal `u`, `v` in any dimension the matrix is orthogonal, turns the plane by a
right angle (`u` to `-v`, `v` to `u`) and fixes every vector orthogonal to the plane -/
theorem C51_rotation {R : Type} [CommRing R] {n : Nat} (u v : Fin n → R) (hu : u ⬝ᵥ u = 1)
    (hv : v ⬝ᵥ v = 1) (huv : u ⬝ᵥ v = 0) :
    rotationFromPlane u v *ᵥ u = -v ∧ rotationFromPlane u v *ᵥ v = u ∧
    (∀ x, u ⬝ᵥ x = 0 → v ⬝ᵥ x = 0 → rotationFromPlane u v *ᵥ x = x) ∧
    (rotationFromPlane u v)ᵀ * rotationFromPlane u v = 1 := by
  have hvu : v ⬝ᵥ u = 0 := by rw [dotProduct_comm]; exact huv
  have h1 : rotationFromPlane u v *ᵥ u = -v := by
    rw [rotation_mulVec, hu, hvu]; simp
  have h2 : rotationFromPlane u v *ᵥ v = u := by
    rw [rotation_mulVec, hv, huv]; simp
  refine ⟨h1, h2, ?_, ?_⟩
  · intro x hx1 hx2
    rw [rotation_mulVec, hx1, hx2]; simp
  · have ht : (rotationFromPlane u v)ᵀ = rotationFromPlane v u := by
      ext i j
      rw [transpose_apply, rotation_entry, rotation_entry]
      by_cases h : i = j
      · subst h; simp; ring
      · rw [if_neg h, if_neg (fun e => h e.symm)]; ring
    rw [ht]
    have key : ∀ x, (rotationFromPlane v u * rotationFromPlane u v) *ᵥ x = x := by
      intro x
      rw [← mulVec_mulVec, rotation_mulVec v u, rotation_mulVec u v]
      simp only [dotProduct_add, dotProduct_sub, dotProduct_smul, hu, hv, huv, hvu, smul_eq_mul]
      ext i
      simp only [Pi.add_apply, Pi.sub_apply, Pi.smul_apply, smul_eq_mul]
      ring
    exact ext_of_mulVec_single fun i => by rw [key, one_mulVec]

/-- an orthonormal pair that is not made of coordinate vectors -/
example : let u : Fin 3 → ℚ := ![3/5, 4/5, 0]
    let v : Fin 3 → ℚ := ![0, 0, 1]
    u ⬝ᵥ u = 1 ∧ v ⬝ᵥ v = 1 ∧ u ⬝ᵥ v = 0 := by
  simp [dotProduct, Fin.sum_univ_three]; norm_num

end Verif.Props
