/-
Every symmetric real matrix has the eigenvalue decomposition that `np.linalg.eigh` returns.
-/
import Mathlib.Analysis.Matrix.Spectrum
import Mathlib.Analysis.Matrix.PosDef

namespace Verif

open Matrix

/-- a symmetric real matrix is `w diag(v) wᵀ` with `w` orthogonal -/
theorem exists_eigh {n : Nat} (A : Matrix (Fin n) (Fin n) ℝ) (h : Aᵀ = A) :
    ∃ (v : Fin n → ℝ) (w : Matrix (Fin n) (Fin n) ℝ),
      w * wᵀ = 1 ∧ wᵀ * w = 1 ∧ A = w * diagonal v * wᵀ := by
  have hA : A.IsHermitian := by
    unfold IsHermitian
    rw [conjTranspose_eq_transpose_of_trivial, h]
  have hw := hA.eigenvectorUnitary.2
  have e : star (hA.eigenvectorUnitary : Matrix (Fin n) (Fin n) ℝ) =
      (hA.eigenvectorUnitary : Matrix (Fin n) (Fin n) ℝ)ᵀ := by
    rw [star_eq_conjTranspose, conjTranspose_eq_transpose_of_trivial]
  refine ⟨hA.eigenvalues, hA.eigenvectorUnitary, ?_, ?_, ?_⟩
  · rw [← e]; exact (mem_unitaryGroup_iff.1 hw)
  · rw [← e]; exact (mem_unitaryGroup_iff'.1 hw)
  · have := hA.spectral_theorem
    rw [Unitary.conjStarAlgAut_apply] at this
    rw [← e]
    simpa using this

/-- every Gram matrix of `m` vectors is the Gram matrix of `m` vectors of `m`-space -/
theorem exists_square_gram {m n : Nat} (A : Matrix (Fin m) (Fin n) ℝ) :
    ∃ B : Matrix (Fin m) (Fin m) ℝ, B * Bᵀ = A * Aᵀ := by
  obtain ⟨v, w, h1, h2, h3⟩ := exists_eigh (A * Aᵀ) (by rw [transpose_mul, transpose_transpose])
  have hv : ∀ j, 0 ≤ v j := by
    intro j
    have hd : wᵀ * (A * Aᵀ) * w = diagonal v := by
      rw [h3]
      calc wᵀ * (w * diagonal v * wᵀ) * w = (wᵀ * w) * diagonal v * (wᵀ * w) := by
            simp only [Matrix.mul_assoc]
        _ = diagonal v := by rw [h2, Matrix.one_mul, Matrix.mul_one]
    have e : wᵀ * (A * Aᵀ) * w = (wᵀ * A) * (wᵀ * A)ᵀ := by
      rw [transpose_mul, transpose_transpose]
      simp only [Matrix.mul_assoc]
    have := congrFun (congrFun (e.symm.trans hd) j) j
    rw [diagonal_apply_eq, mul_apply] at this
    rw [← this]
    exact Finset.sum_nonneg fun i _ => by rw [transpose_apply]; exact mul_self_nonneg _
  refine ⟨w * diagonal (fun j => Real.sqrt (v j)), ?_⟩
  rw [h3, transpose_mul, diagonal_transpose]
  calc w * diagonal (fun j => Real.sqrt (v j)) * (diagonal (fun j => Real.sqrt (v j)) * wᵀ)
      = w * (diagonal (fun j => Real.sqrt (v j)) * diagonal (fun j => Real.sqrt (v j))) * wᵀ := by
        simp only [Matrix.mul_assoc]
    _ = w * diagonal v * wᵀ := by
        rw [diagonal_mul_diagonal]
        congr 3
        funext j
        exact Real.mul_self_sqrt (hv j)

end Verif
