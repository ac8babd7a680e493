/-
Model of the connected components of a topology, of splitting a topology into them, and of the test for
manifolds: `pycomplex/topology/base.py` lines 23-46 and 95-133, `pycomplex/topology/primal.py` lines 231-243.

`scipy.sparse.csgraph.connected_components` is a parameter: it maps a matrix to the number of components and
the list of labels.  The graph it is given is a product of `int8` matrices; an entry is an edge when it is
not zero.
-/
import Verif.Model.Averaging

namespace Verif.Model

/-- `TnN.T * TnN` with `TnN = self.matrix(-1)`, `topology/base.py` lines 104-105 -/
def faceGraph (t : Topo) : Except PyErr (Mat Int) :=
  let M := t.matrix (t.boundary.length - 1)
  mul8 M.transpose M

/-- `label_connections`, `topology/base.py` lines 95-107 -/
def labelConnections (cc : Mat Int → Nat × List Nat) (t : Topo) : Except PyErr (Nat × List Nat) := do
  let g ← faceGraph t
  .ok (cc g)

/-- `is_connected`, `topology/base.py` lines 109-119 -/
def isConnected (cc : Mat Int → Nat × List Nat) (t : Topo) : Except PyErr Bool := do
  let nl ← labelConnections cc t
  .ok (nl.1 == 1)

/-- `n_elements[-1]` -/
def Topo.nTop (t : Topo) : Nat := t.nElements (t.elements.length - 1)

/-- `split_connected_components`, `topology/primal.py` lines 231-243; `labels == i` is a chain of booleans,
here of zeros and ones, and `sorted` is stable -/
def splitConnectedComponents (cc : Mat Int → Nat × List Nat) (uniq : List (List Nat) → List (List Nat))
    (t : Topo) : Except PyErr (List Sub) := do
  let nl ← labelConnections cc t
  let components ← (List.range nl.1).mapM fun i =>
    selectSubset uniq t (nl.2.map fun l => if l = i then 1 else 0)
  .ok (components.insertionSort fun a b => b.topo.nTop ≤ a.topo.nTop)

/-- `TnN[:, iN]` -/
def selectColumns (M : Mat Int) (idx : List Nat) : Mat Int :=
  ⟨M.rows, idx.length, fun i j => M.entry i (idx[j]?.getD 0)⟩

/-- `regions_per_vertex`, `topology/base.py` lines 23-46.  The loop runs over the vertices that have a stored
entry in `T0N`; the others keep the initial value zero.  `npi.group_by(I0, IN)` collects the columns of one
row; they are listed here in increasing order. -/
def regionsPerVertex (cc : Mat Int → Nat × List Nat) (t : Topo) : Except PyErr (List Nat) := do
  let TnN := t.matrix (t.boundary.length - 1)
  let A ← accumulatedOperatorsN t.matrices
  match A with
  | [] => .error .indexError
  | a :: _ =>
    let T0N := a.transpose
    (List.range (t.nElements 0)).mapM fun i0 =>
      let iN := (List.range T0N.cols).filter fun j => T0N.entry i0 j ≠ 0
      if iN = [] then .ok 0
      else do
        let subset := selectColumns TnN iN
        let g ← mul8 subset.transpose subset
        .ok (cc g).1

/-- `check_manifold` and `is_manifold`, `topology/base.py` lines 121-133: the exception raised by the first is
turned into `False` by the second -/
def isManifold (cc : Mat Int → Nat × List Nat) (t : Topo) : Except PyErr Bool := do
  let regions ← regionsPerVertex cc t
  .ok (regions.all fun r => r == 1)

end Verif.Model
