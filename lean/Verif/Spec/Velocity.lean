/-
Velocities on the simplices of a complex.
-/
import Verif.Spec.Delaunay
import Verif.Spec.Orientation

namespace Verif.Spec

/-- `u` is parallel to the plane of the simplex `l` -/
def Tangent {D : Nat} (V : List (Fin D → ℝ)) (l : List Nat) (u : Fin D → ℝ) : Prop :=
  ∃ z : Nat → ℝ, ∑ v ∈ l.toFinset, z v = 0 ∧ ∀ k, u k = ∑ v ∈ l.toFinset, z v * position V v k

/-- what leaves a simplex through a face enters the simplex on the other side: with one velocity per simplex,
the components at right angles to a common face, each into its own simplex, add up to zero -/
def Conserved {D : Nat} (V : List (Fin D → ℝ)) (simplices : List (List Nat)) (u : Nat → Fin D → ℝ) : Prop :=
  ∀ (e : List Nat) (j1 j2 : Nat) (l1 l2 : List Nat) (g1 g2 : Fin D → ℝ),
    simplices[j1]? = some l1 → simplices[j2]? = some l2 → j1 ≠ j2 → IsFace e l1 → IsFace e l2 →
    IsHeight V e.toFinset (position V (missing l1 e)) g1 → IsHeight V e.toFinset (position V (missing l2 e)) g2 →
    innerProd (u j1) g1 / Real.sqrt (innerProd g1 g1) + innerProd (u j2) g2 / Real.sqrt (innerProd g2 g2) = 0

end Verif.Spec
