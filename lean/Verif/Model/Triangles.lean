/-
Model of the geometry of triangle meshes, `pycomplex/complex/simplicial/euclidian.py` lines 517-587,
and of the maps of `pycomplex/complex/base.py` lines 106-119.

Positions are vectors over an exact field.  Reading a position that does not exist is an `IndexError`;
negative indices, which numpy counts from the end, do not occur in a topology.  Vertices are read
through `self.topology.triangles`, which is the list of corner rows of the topology.
-/
import Verif.Model.Simplicial
import Mathlib.Algebra.BigOperators.Fin
import Mathlib.Algebra.Field.Defs

namespace Verif.Model

section

variable {K : Type} [Field K] {d : Nat}

/-- a position -/
abbrev Vec (K : Type) (d : Nat) : Type := Fin d → K

/-- the sum over the last axis of a product -/
def dot (u v : Vec K d) : K := ∑ i, u i * v i

/-- `np.cross` of two vectors with three entries -/
def cross (u v : Vec K 3) : Vec K 3 :=
  ![u 1 * v 2 - u 2 * v 1, u 2 * v 0 - u 0 * v 2, u 0 * v 1 - u 1 * v 0]

/-- `vertices[i]` -/
def vertexAt (V : List (Vec K d)) (i : Nat) : Except PyErr (Vec K d) :=
  match V[i]? with
  | some v => .ok v
  | none => .error .indexError

/-- one row of `vertices[triangles]`; the rows of a triangle mesh have three corners -/
def cornersAt (V : List (Vec K d)) : List Nat → Except PyErr (Vec K d × Vec K d × Vec K d)
  | [a, b, c] => do
    let x ← vertexAt V a
    let y ← vertexAt V b
    let z ← vertexAt V c
    .ok (x, y, z)
  | _ => .error .valueError

/-- `triangle_normals()`, `complex/simplicial/euclidian.py` lines 520-530 -/
def triangleNormals (V : List (Vec K 3)) (T : List (List Nat)) : Except PyErr (List (Vec K 3)) :=
  T.mapM fun row => do
    let p ← cornersAt V row
    .ok (cross (p.2.1 - p.1) (p.2.2 - p.2.1))

/-- `triangle_centroids()`, lines 532-533 -/
def triangleCentroids (V : List (Vec K d)) (T : List (List Nat)) : Except PyErr (List (Vec K d)) :=
  T.mapM fun row => do
    let p ← cornersAt V row
    .ok fun i => (p.1 i + p.2.1 i + p.2.2 i) / 3

/-- `volume()`, lines 570-587; `self.n_dim` is the number of coordinates, 3 -/
def volume (V : List (Vec K 3)) (T : List (List Nat)) : Except PyErr K := do
  let normals ← triangleNormals V T
  let centroids ← triangleCentroids V T
  .ok ((List.zipWith dot normals centroids).sum / 3 / 2)

/-- `vertex_normals()`, lines 535-550: `npi.group_by` of the flattened corners returns one sum for
every index that occurs, in increasing order -/
def vertexNormals (V : List (Vec K 3)) (T : List (List Nat)) : Except PyErr (List (Vec K 3)) := do
  let normals ← triangleNormals V T
  let flat := T.flatten
  let repeated := normals.flatMap fun n => List.replicate 3 n
  .ok ((npUnique flat).map fun i =>
    (((flat.zip repeated).filter fun p => p.1 = i).map Prod.snd).sum)

/-- `translate(vector)`, `complex/base.py` lines 106-107: the new vertices -/
def translate (V : List (Vec K d)) (t : Vec K d) : List (Vec K d) := V.map (· + t)

/-- `transform(transform)`, lines 109-110: the new vertices -/
def transform (V : List (Vec K d)) (M : Fin d → Fin d → K) : List (Vec K d) :=
  V.map fun v j => ∑ i, v i * M i j

/-- `scale(scale)`, lines 117-118, for a number: the new vertices -/
def scaleVertices (V : List (Vec K d)) (s : K) : List (Vec K d) := V.map fun v i => v i * s

end

end Verif.Model
