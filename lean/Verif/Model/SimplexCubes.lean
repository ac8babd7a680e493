/-
Model of `TopologySimplicial.subdivide_cubical`, `pycomplex/topology/simplicial.py` lines 257-333: every corner of every
simplex becomes a cube.

The array `cubes[N, n_dim + 1, 2, ..., 2]` is a list over the simplices of lists over the corners of arrays of shape
`(2,) * n_dim` in C order, as in `Model/Cubical.lean`.
-/
import Verif.Model.Cubical
import Verif.Model.Subdivide

namespace Verif.Model

/-- `np.roll(row, k)[i]` for `k ≤ len(row)` -/
def rolled (row : List Nat) (k i : Nat) : Nat := row[(i + row.length - k) % row.length]?.getD 0

/-- the entries of a sorted row that are followed by an equal entry: a row of `q[np.where(q[:, 1:] == q[:, :-1])]`,
line 306 -/
def repeated (q : List Nat) : List Nat := ((q.zip q.tail).filter fun ab => ab.1 == ab.2).map (·.1)

/-- `a.reshape(-1, 2)`: `ValueError` for an odd number of entries -/
def reshapePairs : List Nat → Except PyErr (List (List Nat))
  | [] => .ok []
  | [_] => .error .valueError
  | a :: b :: rest => do
    let r ← reshapePairs rest
    .ok ([a, b] :: r)

/-- `edge_containing_faces(l, r)`, lines 300-307, for two columns of numbers of triangles.  (The numbers come from the
boundary array, so the lookups `self.elements[2][l]` are in range.) -/
def edgeContainingFaces (t : Topo) (l r : List Nat) : Except PyErr (List Nat) := do
  let tri : Nat → List Nat := fun i => (t.elements[2]?.getD [])[i]?.getD []
  let q := List.zipWith (fun a b => sortRow (tri a ++ tri b)) l r
  let e ← reshapePairs (q.map repeated).flatten
  e.mapM (elementIndex (t.elements[1]?.getD []))

/-- the assignment of a list to a column of `N` entries: a single value is repeated, another length is refused -/
def assignColumn (N : Nat) (col : List Nat) : Except PyErr (List Nat) :=
  if col.length = N then .ok col
  else if col.length = 1 then .ok (List.replicate N (col[0]?.getD 0))
  else .error .valueError

/-- the squares of one triangle, lines 276-287, before the offsets: `row` are its corners, `edges` its row of
`incidence[2, 1]` and `j` is its number -/
def triangleSquares (row edges : List Nat) (j : Nat) : List (List Nat) :=
  (List.range 3).map fun i => [row[i]?.getD 0, rolled edges 2 i, rolled edges 1 i, j]

/-- pass `i` of the loop over the corners of the tetrahedra, lines 290-320, before the offsets: one cube for every
tetrahedron -/
def tetrahedronCubes (t : Topo) (i : Nat) : Except PyErr (List (List Nat)) := do
  let top := t.elements[3]?.getD []
  let I32 := t.boundary[2]?.getD []
  let f011 := I32.map fun row => rolled row 1 i
  let f101 := I32.map fun row => rolled row 2 i
  let f110 := I32.map fun row => rolled row 3 i
  let e100 ← edgeContainingFaces t f101 f110
  let e100 ← assignColumn top.length e100
  let e010 ← edgeContainingFaces t f011 f110
  let e010 ← assignColumn top.length e010
  let e001 ← edgeContainingFaces t f101 f011
  let e001 ← assignColumn top.length e001
  .ok (top.mapIdx fun j row => [row[i]?.getD 0, e001[j]?.getD 0, e010[j]?.getD 0, f011[j]?.getD 0,
    e100[j]?.getD 0, f101[j]?.getD 0, f110[j]?.getD 0, j])

/-- `cubes[idx] += offset[c.sum()]`, lines 327-330, for one cube -/
def addCornerOffsets (t : Topo) (n : Nat) (cube : List Nat) : List Nat :=
  List.zipWith (fun x (c : List Bool) => x + levelOffset t (c.count true)) cube (cubeIndices n)

/-- the array `cubes` of `subdivide_cubical`, lines 271-330, grouped by simplex -/
def simplexCubes (t : Topo) : Except PyErr (List (List (List Nat))) := do
  let n := t.boundary.length
  let top := t.elements[n]?.getD []
  let cubes ←
    if n = 2 then
      .ok (top.mapIdx fun j row => triangleSquares row ((t.boundary[1]?.getD [])[j]?.getD []) j)
    else if n = 3 then do
      let cols ← (List.range 4).mapM (tetrahedronCubes t)
      .ok ((List.range top.length).map fun j => cols.map fun col => col[j]?.getD [])
    else .error .notImplementedError
  .ok (cubes.map fun cs => cs.map (addCornerOffsets t n))

/-- `TopologySimplicial.subdivide_cubical`, `topology/simplicial.py` lines 257-333 -/
def subdivideToCubes (uniq : List (List Nat) → List (List Nat)) (t : Topo) : Except PyErr Topo := do
  let cubes ← simplexCubes t
  fromCubes uniq true t.boundary.length cubes.flatten

end Verif.Model
