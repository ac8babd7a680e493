/-
What a circumcenter, an eigenvalue decomposition, a singular value decomposition and a pseudoinverse
are, independent of `Verif.Model.Circumcenter`.
-/
import Mathlib.Algebra.Order.Field.Basic
import Mathlib.Data.Matrix.Mul
import Mathlib.Algebra.Order.BigOperators.Ring.Finset

namespace Verif.Spec

section

variable {K : Type} [Field K]

/-- `A = w diag(v) wᵀ` with orthonormal columns: the contract of `np.linalg.eigh` -/
structure IsEigh {n : Nat} (A : Matrix (Fin n) (Fin n) K) (v : Fin n → K)
    (w : Matrix (Fin n) (Fin n) K) : Prop where
  rows : ∀ i k, ∑ j, w i j * w k j = if i = k then 1 else 0
  cols : ∀ i k, ∑ j, w j i * w j k = if i = k then 1 else 0
  decomp : ∀ i k, A i k = ∑ j, w i j * v j * w k j

/-- `A = u diag(s) v` with `u`, `v` orthogonal and `s` falling and not negative: the contract of
`np.linalg.svd` -/
structure IsSvd [LE K] {m n : Nat} (A : Matrix (Fin m) (Fin n) K) (u : Matrix (Fin m) (Fin m) K)
    (s : Fin (min m n) → K) (v : Matrix (Fin n) (Fin n) K) : Prop where
  left : ∀ i k, ∑ j, u j i * u j k = if i = k then 1 else 0
  right : ∀ i k, ∑ j, v i j * v k j = if i = k then 1 else 0
  decomp : ∀ i k, A i k = ∑ j : Fin (min m n),
    u i (Fin.castLE (Nat.min_le_left m n) j) * s j * v (Fin.castLE (Nat.min_le_right m n) j) k
  nonneg : ∀ j, 0 ≤ s j
  falling : ∀ j k, j ≤ k → s k ≤ s j

/-- the four conditions that characterise the pseudoinverse of a matrix -/
structure IsPseudoinverse {m n : Nat} (A : Matrix (Fin m) (Fin n) K)
    (X : Matrix (Fin n) (Fin m) K) : Prop where
  axa : A * X * A = A
  xax : X * A * X = X
  ax : (A * X).transpose = A * X
  xa : (X * A).transpose = X * A

/-- the square of the distance of a point from a site, less the weight of the site -/
def power {D : Nat} (x p : Fin D → K) (w : K) : K := ∑ i, (x i - p i) ^ 2 - w

/-- a weighted combination of points whose weights add up to one -/
def Combines {P D : Nat} (pts : Fin P → Fin D → K) (y : Fin P → K) (c : Fin D → K) : Prop :=
  ∑ i, y i = 1 ∧ ∀ j, c j = ∑ i, y i * pts i j

/-- the (weighted) circumcenter: the point of the affine hull of the sites that has the same power
from all of them -/
def IsCenter {P D : Nat} (pts : Fin P → Fin D → K) (w : Fin P → K) (c : Fin D → K) : Prop :=
  (∃ y, Combines pts y c) ∧ ∀ i j, power c (pts i) (w i) = power c (pts j) (w j)

/-- the weights of the sites: zero if there are none -/
def weightsOf {P : Nat} : Option (Fin P → K) → Fin P → K
  | some w => w
  | none => 0

/-- the points, moved to have their mean at the origin -/
def centred {P D : Nat} (pts : Fin P → Fin D → K) : Fin P → Fin D → K :=
  fun i j => pts i j - (∑ k, pts k j) / (P : K)

/-- `μ` is an eigenvalue of the matrix of twice the products of the points, bordered by ones -/
def BorderedEigenvalue {P D : Nat} (pts : Fin P → Fin D → K) (μ : K) : Prop :=
  ∃ (y : Fin P → K) (l : K), (y ≠ 0 ∨ l ≠ 0) ∧
    (∀ i, ∑ k, 2 * (∑ c, pts i c * pts k c) * y k + l = μ * y i) ∧ ∑ k, y k = μ * l

/-- no eigenvalue of any simplex of a list, other than zero, is smaller in size than any eigenvalue of
any simplex of the list by more than the factor `ratio` -/
def EigenvaluesWithin [LinearOrder K] {P D : Nat} (ratio : K) (batch : List (Fin P → Fin D → K)) :
    Prop :=
  ∀ p ∈ batch, ∀ q ∈ batch, ∀ μ ν, BorderedEigenvalue p μ → BorderedEigenvalue q ν →
    μ ≠ 0 → |ν| ≤ ratio * |μ|

end

end Verif.Spec
