/-
Model of `TopologySimplicial.subdivide_simplicial`: a new vertex in every simplex, joined to all its faces.
-/
import Verif.Model.Simplicial

namespace Verif.Model

/-- `np.concatenate([boundary, tips], axis=2).reshape(-1, n_dim + 1)`, `topology/simplicial.py` lines 347-350:
`tips` is the number of the simplex plus the number of vertices, the same for all faces of a simplex -/
def coneRows (nVertices : Nat) (boundary : List (List (List Nat))) : List (List Nat) :=
  (boundary.mapIdx fun j faces => faces.map fun face => face ++ [j + nVertices]).flatten

/-- `TopologySimplicial.subdivide_simplicial`, `topology/simplicial.py` lines 336-350; the width of
`elements[-1]` is `n_dim + 1` -/
def subdivideSimplicial (uniq : List (List Nat) → List (List Nat)) (t : Topo) : Except PyErr Topo := do
  let nDim := t.boundary.length
  let boundary ← generateSimplexBoundary (nDim + 1) (t.elements[t.elements.length - 1]?.getD [])
  fromSimplices uniq (nDim + 1) (coneRows (t.nElements 0) boundary)

/-- the vertices of `BaseComplexSimplicial.subdivide_simplicial`, `complex/simplicial/base.py` lines 28-33:
`np.concatenate([PP[0], PP[-1]], axis=0)` with `PP = self.primal_position` -/
def coneVertices {α : Type} (PP : List (List α)) : List α :=
  PP[0]?.getD [] ++ PP[PP.length - 1]?.getD []

end Verif.Model
