/-
Specification notions for triangle meshes: directed edges.
-/
import Verif.Spec.Boundary

namespace Verif.Spec

/-- the directed edges of a triangle -/
def triangleEdges : List Nat → List (Nat × Nat)
  | [a, b, c] => [(a, b), (b, c), (c, a)]
  | _ => []

/-- the directed edges of all triangles -/
def directedEdges (T : List (List Nat)) : List (Nat × Nat) := T.flatMap triangleEdges

/-- every edge is passed as often in one direction as in the other -/
def ClosedSurface (T : List (List Nat)) : Prop :=
  ∀ a b, (directedEdges T).count (a, b) = (directedEdges T).count (b, a)

end Verif.Spec
