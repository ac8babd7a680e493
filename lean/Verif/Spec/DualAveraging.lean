/-
What averaging over the vertices of a dual cell should give.
-/
import Verif.Spec.Averaging
import Verif.Spec.CubeAround

namespace Verif.Spec

/-- the elements of an extracted topology are numbered in the order of the elements they come from -/
def InOrder (parentIdx : List (List Nat)) : Prop := ∀ P ∈ parentIdx, P.Pairwise (· < ·)

/-- The values at the vertices of the dual cell of the simplex with the corners `e`: one vertex for each of the simplices that
have the corners `e`, and one for each of the boundary faces `F` that have them.  The values on the simplices come first. -/
def dualCell {K : Type} [Field K] (simplices F : List (List Nat)) (e : List Nat) (x : Nat → K) : List K :=
  ((incident simplices e).map x) ++ (incident F e).map fun r => x (simplices.length + r)

/-- the values at the vertices of the cell of the dual of the boundary that belongs to the boundary element with the corners `e` -/
def boundaryCell {K : Type} [Field K] (simplices F : List (List Nat)) (e : List Nat) (x : Nat → K) : List K :=
  (incident F e).map fun r => x (simplices.length + r)

/-- the same for the dual cell of the `k`-cube `e` in a mesh of `n`-cubes with the boundary sides `F` -/
def dualCubeCell {K : Type} [Field K] (n k : Nat) (cubes F : List (List Nat)) (e : List Nat) (x : Nat → K) : List K :=
  ((cubesAround n k cubes e).map x) ++ (cubesAround (n - 1) k F e).map fun r => x (cubes.length + r)

/-- and for the cell of the dual of the boundary that belongs to the `k`-cube `e` of the boundary -/
def boundaryCubeCell {K : Type} [Field K] (n k : Nat) (cubes F : List (List Nat)) (e : List Nat) (x : Nat → K) : List K :=
  (cubesAround (n - 1) k F e).map fun r => x (cubes.length + r)

/-- The values expected on the dual elements of the `k`-elements of a mesh, in their order, followed by those on the cells of
the dual of the boundary that belong to the `(k-1)`-elements of the boundary, whose numbers in the mesh are `parents`: in each
case the mean of the values at the vertices. -/
def dualLevel {K : Type} [Field K] (elements : List (List (List Nat))) (parents : List (List Nat))
    (cell bcell : Nat → List Nat → List K) : Nat → List K
  | 0 => (elements[0]?.getD []).map fun e => mean (cell 0 e)
  | k + 1 => ((elements[k + 1]?.getD []).map fun e => mean (cell (k + 1) e)) ++
      (parents[k]?.getD []).map fun p => mean (bcell k ((elements[k]?.getD [])[p]?.getD []))

end Verif.Spec
