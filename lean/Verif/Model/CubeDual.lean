/-
Model of `sparse_to_elements`, `pycomplex/topology/util.py` lines 147-170, and of the topology made by `n_cube_dual`,
`pycomplex/synthetic.py` lines 127-154.
-/
import Verif.Model.Grid
import Verif.Model.CubicalBoundary
import Verif.Model.Orientation

namespace Verif.Model

/-- `matrix(n, 0)` for `n ≥ 1`, `topology/primal.py` lines 100-123: the elements as `topology_matrix` with the signs
`np.ones_like` -/
def vertexMatrix (elements : List (List Nat)) : Mat Int := topologyMatrix elements (elements.map fun r => r.map fun _ => 1)

/-- `sparse_to_elements(T)`, lines 147-170.  `tocoo` of a csr matrix lists the entries row by row, the columns of a row in
increasing order; `group_by(r)` groups them by rows, so that rows without entries do not appear, and
`split_array_as_array` raises `ValueError` if the groups differ in size. -/
def sparseToElements (T : Mat Int) : Except PyErr (List (List Nat)) :=
  let groups := ((List.range T.rows).map fun r => (List.range T.cols).filter fun c => T.entry r c ≠ 0).filter (· ≠ [])
  if groups.all fun g => g.length = (groups.headD []).length then .ok groups else .error .valueError

/-- the `topology` of `n_cube_dual(n_dim)`, lines 144-154.  `boundary` of the cube is never `None`; if it were, `matrix` would
be looked up on `None`.  `from_simplices` reads the number of corners off the array.  For the
positions see `DualPosition`. -/
def nCubeDual (solve : List (List Int) → Option (List Int)) (uniq : List (List Nat) → List (List Nat)) (nDim : Nat) :
    Except PyErr Topo := do
  let t ← nCubeGrid uniq (List.replicate nDim 1) true
  let b ← cubicalBoundary solve uniq t
  match b with
  | none => .error .attributeError
  | some s => do
    let simplices ← sparseToElements (vertexMatrix (s.topo.elements[nDim - 1]?.getD []))
    let u ← fromSimplices uniq (simplices.headD []).length simplices
    fixOrientation solve uniq u

end Verif.Model
