/-
Model of two subdivision helpers of `pycomplex/topology/cubical.py`: the offset decoding of
`subdivide_cubical_relations` and the splitting of quads into triangles.

A quad is the flattened array `Q[2, 2]`: `[Q00, Q01, Q10, Q11]`.
-/
import Verif.Model.Simplicial

namespace Verif.Model

/-- `np.cumsum` -/
def cumsum : Nat → List Nat → List Nat
  | _, [] => []
  | acc, a :: t => (acc + a) :: cumsum (acc + a) t

/-- `subdivide_cubical_relations`, `topology/cubical.py` lines 299-323, for one vertex number `e` of
an element array: `offsets = np.cumsum([0] + n_elements)`, `o = (e >= offsets[1:]).sum()`,
`p = e - offsets[o]`.  (`o` is stored as `uint8`: exact below 256 levels; `IndexError` when `o` is
out of range cannot happen as `offsets` has one entry more than `offsets[1:]`.) -/
def cubicalRelation (nElements : List Nat) (e : Nat) : Nat × Int :=
  let offsets := cumsum 0 (0 :: nElements)
  let o := (offsets.drop 1).countP fun x => e ≥ x
  (o, (e : Int) - (offsets[o]?.getD 0))

/-- the four rows `T20[q]` of `TopologyCubical2.subdivide_simplicial`, `topology/cubical.py` lines
517-523, for a quad and the number of the inserted vertex -/
def quadTriangles (quad : List Nat) (centre : Nat) : List (List Nat) :=
  let Q := fun i j => quad[2 * i + j]?.getD 0
  [[Q 0 0, Q 0 1, centre],     -- Q20[:, 0, ::+1]
   [Q 1 1, Q 1 0, centre],     -- Q20[:, 1, ::-1]
   [Q 1 0, Q 0 0, centre],     -- Q20[:, ::-1, 0]
   [Q 0 1, Q 1 1, centre]]     -- Q20[:, ::+1, 1]

/-- `T20.reshape(-1, 3)` for a quad mesh with `nVertices` vertices -/
def quadRows (nVertices : Nat) (quads : List (List Nat)) : List (List Nat) :=
  (quads.mapIdx fun q quad => quadTriangles quad (q + nVertices)).flatten

/-- `TopologyCubical2.subdivide_simplicial`, `topology/cubical.py` lines 501-528 (the attributes set
by `subdivide_simplicial_transfer` are modelled separately) -/
def quadSubdivide (uniq : List (List Nat) → List (List Nat)) (nVertices : Nat)
    (quads : List (List Nat)) : Except PyErr Topo :=
  fromSimplices uniq 3 (quadRows nVertices quads)

/-- the index pairs `(row, column)` of the triangle-to-quad transfer matrix,
`subdivide_simplicial_transfer`, `topology/cubical.py` lines 541-545 -/
def quadTransfer (nTriangles : Nat) : List (Nat × Nat) :=
  (List.range nTriangles).map fun i => (i, i / 4)

end Verif.Model
