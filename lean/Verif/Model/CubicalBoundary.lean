/-
Model of subset and boundary extraction for cubical topologies: `PrimalTopology.select_subset` and
`PrimalTopology.boundary` (`pycomplex/topology/primal.py`) with `TopologyCubical.from_elements`
(`pycomplex/topology/cubical.py` lines 159-161) and `TopologyCubical.boundary_type` (lines 145-147).
-/
import Verif.Model.Boundary
import Verif.Model.Cubical

namespace Verif.Model

/-- the common part of `select_subset` (`topology/primal.py` lines 182-188) and `boundary` (lines 215-224) when
the class is `TopologyCubical`: relabel the chosen cubes, build a topology from them with
`from_elements(elements, mirror=True)`, and look its elements up in the original one through `corners`
(lines 78-83, the arrays with all axes of a cube merged) -/
def subCubes (uniq : List (List Nat) → List (List Nat)) (n : Nat) (t : Topo) (rows : List (List Nat)) :
    Except PyErr Sub := do
  let (mapping, new) := relabel rows
  let s ← fromCubes uniq true n new
  let idx ← findCorrespondence t.elements s.elements mapping
  .ok ⟨s, idx⟩

/-- `PrimalTopology.select_subset`, `topology/primal.py` lines 162-188, of a `TopologyCubical` -/
def selectCubes (uniq : List (List Nat) → List (List Nat)) (t : Topo) (chain : List Int) : Except PyErr Sub :=
  let n := t.boundary.length
  if chain.length ≠ t.nElements n then .error .valueError
  else subCubes uniq n t (takeRows (t.elements[n]?.getD []) (flatnonzero chain))

/-- `PrimalTopology.boundary`, `topology/primal.py` lines 191-224, of a `TopologyCubical`; `none` is Python's `None` -/
def cubicalBoundary (solve : List (List Int) → Option (List Int)) (uniq : List (List Nat) → List (List Nat))
    (t : Topo) : Except PyErr (Option Sub) := do
  let oriented ← isOriented solve t
  if !oriented then .error .valueError
  else
    let n := t.boundary.length
    let bIdx := flatnonzero (boundaryChain t)
    if bIdx.length = 0 then .ok none
    else do
      let s ← subCubes uniq (n - 1) t (takeRows (t.elements[n - 1]?.getD []) bIdx)
      .ok (some s)

end Verif.Model
