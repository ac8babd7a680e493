/-
Model of the dual of a topology, simplicial or cubical, as a list of matrices: `dual`,
`pycomplex/topology/primal.py` lines 126-136, with `ClosedDual.matrices` and `Dual.matrices`,
`pycomplex/topology/dual.py` lines 28-30 and 150-173; and of dual 0-forms averaged to the other dual elements:
`average_dual`, `pycomplex/complex/regular.py` lines 202-217, which uses `averaging_operators_0` of the dual.
-/
import Verif.Model.Averaging
import Verif.Model.CubicalBoundary

namespace Verif.Model

/-- `selector_boundary[k]`, `topology/primal.py` lines 265-282, of a topology whose `boundary` is `s` -/
def boundarySelector (t : Topo) (s : Sub) (k : Nat) : Mat Int :=
  let d := List.replicate (t.nElements k) (0 : Int)
  selectionMatrix (match s.parentIdx[k]? with
    | some idx => assign d idx 1
    | none => d)

/-- the matrix of `Dual.matrices` made from primal level `k`, `topology/dual.py` lines 150-173 -/
def gluedMatrix (t : Topo) (s : Sub) (k : Nat) : Except PyErr (Mat Int) :=
  dualBlock (t.matrix k) (boundarySelector t s k)
    (if k = 0 then ⟨0, s.topo.nElements 0, fun _ _ => 0⟩ else s.topo.matrix (k - 1))

/-- `dual.matrices` of a topology with the given `boundary` (`None` if it is closed): the tests of
`topology/primal.py` lines 130-136, then `ClosedDual` or `Dual` -/
def dualMatrices (solve : List (List Int) → Option (List Int)) (t : Topo) (b : Option Sub) :
    Except PyErr (List (Mat Int)) := do
  match b with
  | none => .ok ((List.range t.boundary.length).map (closedDualMatrix t)).reverse
  | some s => do
    let oriented ← isOriented solve s.topo
    if !oriented then .error .valueError
    else do
      let ms ← (List.range t.boundary.length).mapM (gluedMatrix t s)
      .ok ms.reverse

/-- `dual.matrices` of a `TopologySimplicial` -/
def simplicialDual (solve : List (List Int) → Option (List Int)) (uniq : List (List Nat) → List (List Nat)) (t : Topo) :
    Except PyErr (List (Mat Int)) := do
  let b ← boundary solve uniq t
  dualMatrices solve t b

/-- `dual.matrices` of a `TopologyCubical` -/
def cubicalDual (solve : List (List Int) → Option (List Int)) (uniq : List (List Nat) → List (List Nat)) (t : Topo) :
    Except PyErr (List (Mat Int)) := do
  let b ← cubicalBoundary solve uniq t
  dualMatrices solve t b

section

variable {K : Type} [Field K]

/-- `a * d0` for a sparse matrix and a vector; `ValueError` if the shapes do not fit -/
def applyTo (a : Mat K) (x : List K) : Except PyErr (List K) :=
  if a.cols = x.length then
    .ok ((List.range a.rows).map fun i => ((List.range a.cols).map fun j => a.entry i j * x[j]?.getD 0).sum)
  else .error .valueError

/-- `average_dual`, `complex/regular.py` lines 202-217: `[a * d0 for a in self.topology.dual.averaging_operators_0]` -/
def averageDual (ms : List (Mat Int)) (d0 : List K) : Except PyErr (List (List K)) := do
  let A ← averagingOperators0 ms
  A.mapM fun a => applyTo a d0

end

end Verif.Model
