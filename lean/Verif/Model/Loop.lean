/-
Model of Loop subdivision of triangle meshes (`pycomplex/topology/simplicial.py`,
`TopologyTriangular`) and of its transfer matrices.
-/
import Verif.Model.Boundary

namespace Verif.Model

/-- `np.roll(row, +1)` on one row -/
def rollRight1 (l : List Nat) : List Nat :=
  match l.reverse with
  | [] => []
  | a :: r => a :: r.reverse

/-- The four rows `I20s[j]` of `subdivide_loop`, `topology/simplicial.py` lines 373-380, for a
triangle with corner row `I20` and boundary edge row `I21`: the middle triangle, then for every
corner the triangle of that corner and the rolled edge vertices. -/
def loopChildren (nVertices : Nat) (I20 I21 : List Nat) : List (List Nat) :=
  let I20c := I21.map (· + nVertices)
  I20c :: (List.range 3).map fun c =>
    [I20[c]?.getD 0, (rollRight1 I20c)[c]?.getD 0, (rollLeft 1 I20c)[c]?.getD 0]

/-- the array `I20s.reshape(-1, 3)` of `subdivide_loop`, lines 370-382; `incidence[2, 0]` are the
triangle rows and `incidence[2, 1]` their boundary edges (`topology/primal.py` lines 91-98) -/
def loopRows (t : Topo) : List (List Nat) :=
  (List.zipWith (loopChildren (t.nElements 0)) (t.elements[2]?.getD [])
    (t.boundary[1]?.getD [])).flatten

/-- `subdivide_loop`, `topology/simplicial.py` lines 354-386 (the attributes `transfer_matrices`
and `parent` are modelled separately, respectively not at all) -/
def subdivideLoop (uniq : List (List Nat) → List (List Nat)) (t : Topo) : Except PyErr Topo :=
  fromSimplices uniq 3 (loopRows t)

/-- `transfer_matrix`, `topology/util.py` lines 102-124: a sparse matrix with a one added at every
listed position -/
def transferMatrix (r c : List Nat) (nRows nCols : Nat) : Mat Int where
  rows := nRows
  cols := nCols
  entry i j := ((r.zip c).map fun p => if p.1 = i ∧ p.2 = j then (1 : Int) else 0).sum

/-- the edge transfer of `subdivide_loop_transfer`, `topology/simplicial.py` lines 403-408:
`(fine_idx, coarse_idx)` -/
def loopEdgeTransfer (coarse fine : Topo) : List Nat × List Nat :=
  let I10f := (fine.elements[1]?.getD []).map sortRow
  let fineIdx := (List.range I10f.length).filter fun i =>
    ((I10f[i]?.getD [])[0]?.getD 0) < coarse.nElements 0
  (fineIdx, fineIdx.map fun i => ((I10f[i]?.getD []).getLast?.getD 0) - coarse.nElements 0)

/-- `np.repeat(range(n), r)` -/
def repeatRange (n r : Nat) : List Nat := (List.range (n * r)).map (· / r)

/-- `subdivide_loop_transfer`, `topology/simplicial.py` lines 388-420 -/
def loopTransfer (coarse fine : Topo) : List (Mat Int) :=
  let e := loopEdgeTransfer coarse fine
  [transferMatrix (List.range (coarse.nElements 0)) (List.range (coarse.nElements 0))
      (fine.nElements 0) (coarse.nElements 0),
   transferMatrix e.1 e.2 (fine.nElements 1) (coarse.nElements 1),
   transferMatrix (List.range (fine.nElements 2)) (repeatRange (coarse.nElements 2) 4)
      (fine.nElements 2) (coarse.nElements 2)]

end Verif.Model
