/-
How `unsigned_volume` changes when the points of a simplex are combined.
-/
import Verif.Props.Volume

set_option linter.unusedSectionVars false

namespace Verif

open Verif.Model Verif.Spec Matrix

/-- the edges of combinations of points -/
def combinedEdges {K : Type} [Field K] {M : Nat} (B : Matrix (Fin (M + 1)) (Fin (M + 1)) K) :
    Matrix (Fin M) (Fin M) K :=
  Matrix.of fun i j => B i.succ j.succ - B 0 j.succ

theorem det_combinedEdges {K : Type} [Field K] {M : Nat} (B : Matrix (Fin (M + 1)) (Fin (M + 1)) K)
    (h : ∀ i, ∑ j, B i j = 1) : (combinedEdges B).det = B.det := by
  set Q : Matrix (Fin (M + 1)) (Fin M) K := Matrix.of fun i j => B i j.succ with hQ
  have h1 : combinedEdges B = edgeRows Q := by
    ext i j
    simp [combinedEdges, edgeRows, hQ]
  rw [h1, ← Props.det_bordered]
  set U : Matrix (Fin (M + 1)) (Fin (M + 1)) K :=
    Matrix.of fun i j => if i = j then 1 else if j = 0 then -1 else 0 with hU
  have hUd : U.det = 1 := by
    have ht : U.BlockTriangular OrderDual.toDual := by
      intro i j hij
      have hij' : i < j := hij
      have h0 : j ≠ 0 := by
        intro h0
        rw [h0] at hij'
        exact absurd hij' (Fin.not_lt_zero i)
      simp [hU, h0, ne_of_lt hij']
    rw [det_of_isLowerTriangular U ht]
    simp [hU]
  have h2 : B = (Matrix.of fun (i : Fin (M + 1)) (j : Fin (M + 1)) =>
      (Fin.cons 1 (Q i) : Fin (M + 1) → K) j) * U := by
    ext i j
    rw [mul_apply, Fin.sum_univ_succ]
    refine Fin.cases ?_ (fun j => ?_) j
    · have hi := h i
      rw [Fin.sum_univ_succ] at hi
      simp [hU, hQ, Fin.succ_ne_zero]
      rw [← hi]
      ring
    · simp [hU, hQ, Fin.succ_inj, (Fin.succ_ne_zero j).symm]
  conv_rhs => rw [h2, det_mul, hUd, mul_one]

/-- the volume of the simplex spanned by the points -/
noncomputable def vol {M D : Nat} (p : Fin (M + 1) → Fin D → ℝ) : ℝ :=
  Real.sqrt |(edgeRows (Matrix.of p) * (edgeRows (Matrix.of p))ᵀ).det| / (M.factorial : ℝ)

/-- combinations of points span a simplex that is larger by the determinant of the combinations -/
theorem vol_combine {M D : Nat} (B : Matrix (Fin (M + 1)) (Fin (M + 1)) ℝ) (h : ∀ i, ∑ j, B i j = 1)
    (p q : Fin (M + 1) → Fin D → ℝ) (hq : ∀ i c, q i c = ∑ j, B i j * p j c) :
    vol q = |B.det| * vol p := by
  have he : edgeRows (Matrix.of q) = combinedEdges B * edgeRows (Matrix.of p) := by
    ext i c
    have h0 : ∀ i, q i c - p 0 c = ∑ j : Fin M, B i j.succ * (p j.succ c - p 0 c) := by
      intro i
      rw [hq, Fin.sum_univ_succ]
      have := h i
      rw [Fin.sum_univ_succ] at this
      have h3 : B i 0 = 1 - ∑ j : Fin M, B i j.succ := by linarith
      simp only [mul_sub, Finset.sum_sub_distrib]
      rw [h3, ← Finset.sum_mul]
      ring
    rw [mul_apply]
    simp only [edgeRows, combinedEdges, of_apply, sub_mul, Finset.sum_sub_distrib]
    rw [← h0, ← h0]
    ring
  unfold vol
  rw [he, transpose_mul, Matrix.mul_assoc, ← Matrix.mul_assoc (edgeRows (Matrix.of p)), det_mul, det_mul,
    det_transpose, det_combinedEdges B h]
  rw [show B.det * ((edgeRows (Matrix.of p) * (edgeRows (Matrix.of p))ᵀ).det * B.det) =
    (B.det * B.det) * (edgeRows (Matrix.of p) * (edgeRows (Matrix.of p))ᵀ).det by ring, abs_mul,
    Real.sqrt_mul (abs_nonneg _), abs_mul, Real.sqrt_mul_self (abs_nonneg _), mul_div_assoc]

theorem volume_eq_vol {M D : Nat} (h : M ≤ D) (p : Fin (M + 1) → Fin D → ℝ) :
    unsignedVolume (Matrix.of p) = .ok (vol p) := Props.unsignedVolume_eq h _

end Verif
