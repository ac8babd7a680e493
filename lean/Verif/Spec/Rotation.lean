/-
Distances between matrices, orthonormal matrices, eigenvalue decompositions and rotations of a plane.
-/
import Mathlib.Data.Complex.Basic
import Mathlib.Data.Matrix.Mul
import Mathlib.LinearAlgebra.Matrix.Determinant.Basic
import Mathlib.Analysis.SpecialFunctions.Trigonometric.Basic

namespace Verif.Spec

open Matrix

/-- the sum of the squares of the differences of the entries -/
def squaredDistance {n m : Nat} (A B : Matrix (Fin n) (Fin m) ℝ) : ℝ := ∑ i, ∑ j, (A i j - B i j) ^ 2

/-- the columns are orthonormal, or the rows if there are fewer rows; for square matrices both -/
structure OrthonormalMatrix {n m : Nat} (Q : Matrix (Fin n) (Fin m) ℝ) : Prop where
  columns : m ≤ n → Qᵀ * Q = 1
  rows : n ≤ m → Q * Qᵀ = 1

/-- the columns of `v` are eigenvectors for the eigenvalues `w`: the contract of `np.linalg.eig` -/
def IsEig {n : Nat} (M : Matrix (Fin n) (Fin n) ℝ) (w : Fin n → ℂ) (v : Matrix (Fin n) (Fin n) ℂ) : Prop :=
  ∀ i j, ∑ k, (M i k : ℂ) * v k j = v i j * w j

/-- `R` turns the plane of the orthonormal `u` and `v` by the angle `θ`, from `v` towards `u`, and fixes what is
at a right angle to the plane -/
structure TurnsPlane {n : Nat} (u v : Fin n → ℝ) (θ : ℝ) (R : Matrix (Fin n) (Fin n) ℝ) : Prop where
  first : R *ᵥ u = Real.cos θ • u - Real.sin θ • v
  second : R *ᵥ v = Real.sin θ • u + Real.cos θ • v
  fixed : ∀ x, u ⬝ᵥ x = 0 → v ⬝ᵥ x = 0 → R *ᵥ x = x

end Verif.Spec
