/-
Specification notions for the centre of mass: a solid made of tetrahedra and its surface.
-/
import Mathlib.LinearAlgebra.Matrix.Determinant.Basic
import Mathlib.Data.Real.Basic

namespace Verif.Spec

/-- a quantity of triangles that changes sign if two corners are exchanged -/
def Alternating3 (f : Nat → Nat → Nat → ℝ) : Prop :=
  ∀ a b c, f b a c = - f a b c ∧ f b c a = f a b c

/-- a quantity, summed over the triangles -/
def sumTriangles (f : Nat → Nat → Nat → ℝ) (T : List (List Nat)) : ℝ :=
  (T.map fun l => match l with | [a, b, c] => f a b c | _ => 0).sum

/-- the triangles are the surface of the solid made of the tetrahedra: the faces that two tetrahedra
share cancel, the others are the triangles, in the direction of their tetrahedron -/
def IsSurfaceOf (T : List (List Nat)) (Q : List (Nat × Nat × Nat × Nat)) : Prop :=
  ∀ f, Alternating3 f →
    (Q.map fun (a, b, c, d) => f b c d - f a c d + f a b d - f a b c).sum = sumTriangles f T

/-- the signed volume of a tetrahedron -/
noncomputable def tetVolume (p : Nat → Fin 3 → ℝ) : Nat × Nat × Nat × Nat → ℝ
  | (a, b, c, d) => Matrix.det (Matrix.of ![p b - p a, p c - p a, p d - p a]) / 6

/-- the centroid of a tetrahedron -/
noncomputable def tetCentroid (p : Nat → Fin 3 → ℝ) : Nat × Nat × Nat × Nat → Fin 3 → ℝ
  | (a, b, c, d) => fun i => (p a i + p b i + p c i + p d i) / 4

/-- `x` is the centre of mass of the solid: its volume is not zero, and `x` is the mean of the centroids
of the tetrahedra, weighted with their volumes -/
def IsCenterOfMass (p : Nat → Fin 3 → ℝ) (Q : List (Nat × Nat × Nat × Nat)) (x : Fin 3 → ℝ) : Prop :=
  (Q.map (tetVolume p)).sum ≠ 0 ∧
    ∀ i, (Q.map (tetVolume p)).sum * x i = (Q.map fun q => tetVolume p q * tetCentroid p q i).sum

end Verif.Spec
