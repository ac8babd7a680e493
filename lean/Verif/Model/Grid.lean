/-
Model of `n_cube_grid`, `pycomplex/synthetic.py` lines 86-124, and of the product of cubical complexes,
`pycomplex/topology/cubical.py` lines 450-473 and `pycomplex/complex/cubical.py` lines 200-227.
-/
import Verif.Model.Cubical
import Mathlib.Algebra.Field.Defs
import Mathlib.Algebra.BigOperators.Group.List.Basic

namespace Verif.Model

/-- `np.indices(shape).reshape(len(shape), -1).T`: the indices of an array in C order -/
def gridIndices : List Nat → List (List Nat)
  | [] => [[]]
  | m :: shape => (List.range m).flatMap fun x => (gridIndices shape).map (x :: ·)

/-- `idx.strides` of a C-ordered array, in units of entries -/
def strides : List Nat → List Nat
  | [] => []
  | _ :: shape => shape.prod :: strides shape

/-- `tuple(np.array(shape) + 1)`, line 106 -/
def vshape (shape : List Nat) : List Nat := shape.map (· + 1)

/-- the corners of the cubes of `n_cube_grid`, lines 112-121.  `np.ndarray` reads the buffer `idx`, the numbers
`0, 1, ...`, at the sum of the products of indices and strides; the strides of the array of vertices serve
both for the position of the cube and for the corner of the cube. -/
def gridCubes (shape : List Nat) : List (List Nat) :=
  let buffer := List.range (vshape shape).prod
  let st := strides (vshape shape)
  (gridIndices shape).map fun c =>
    cubeOf shape.length fun b =>
      (buffer[(List.zipWith (· * ·) (c ++ b.map Bool.toNat) (st ++ st)).sum]?).getD 0

/-- mean of the rows of an array: `vertices.mean(axis=0)`; `n` is the number of columns -/
def columnMean {K : Type} [Field K] (n : Nat) (rows : List (List K)) : List K :=
  (List.range n).map fun k => (rows.map fun r => (r[k]?).getD 0).sum / (rows.length : K)

/-- the vertices of `n_cube_grid`, lines 107-110; floats are replaced by a field -/
def gridVertices {K : Type} [Field K] (shape : List Nat) (centering : Bool) : List (List K) :=
  let vertices := (gridIndices (vshape shape)).map fun r => r.map fun (x : Nat) => (x : K)
  if centering then
    let mean := columnMean shape.length vertices
    vertices.map fun r => List.zipWith (· - ·) r mean
  else vertices

/-- the topology of `n_cube_grid(shape, mirror=mirror)`, line 122 -/
def nCubeGrid (uniq : List (List Nat) → List (List Nat)) (shape : List Nat) (mirror : Bool) : Except PyErr Topo :=
  fromCubes uniq mirror shape.length (gridCubes shape)

/-- corners of one cube of a product: `self_cubes[...] + other_cubes[...] * self.n_elements[0]` for one cube of both
factors, flattened; the axes of the first factor come first -/
def productCube (nv : Nat) (l g : List Nat) : List Nat := l.flatMap fun x => g.map fun y => x + y * nv

/-- all cubes of a product, flattened over both lists of cubes -/
def productCubes (nv : Nat) (F G : List (List Nat)) : List (List Nat) :=
  F.flatMap fun l => G.map fun g => productCube nv l g

/-- `TopologyCubical.product`, `topology/cubical.py` lines 450-473 -/
def productTopology (uniq : List (List Nat) → List (List Nat)) (a b : Topo) : Except PyErr Topo :=
  let n := a.boundary.length
  let m := b.boundary.length
  fromCubes uniq true (n + m) (productCubes (a.nElements 0) (a.elements[n]?.getD []) (b.elements[m]?.getD []))

/-- the vertices of `ComplexCubical.product`, `complex/cubical.py` lines 218-224:
`j, i = np.indices((len(other.vertices), len(self.vertices)))` -/
def productVertices {K : Type} (V W : List (List K)) : List (List K) :=
  (gridIndices [W.length, V.length]).map fun ji =>
    (V[(ji[1]?).getD 0]?).getD [] ++ (W[(ji[0]?).getD 0]?).getD []

end Verif.Model
