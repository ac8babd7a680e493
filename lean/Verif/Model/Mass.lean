/-
Model of the centre of mass, the areas and the edge lengths of triangle meshes,
`pycomplex/complex/simplicial/euclidian.py` lines 552-568 and 589-605.

As in `Model/Euclid.lean`, functions that take a square root are modelled over the real numbers.
-/
import Verif.Model.Euclid

namespace Verif.Model

/-- `np.linalg.norm` of a row -/
noncomputable def norm2 {d : Nat} (v : Vec ℝ d) : ℝ := Real.sqrt (dot v v)

/-- `center_of_mass()`, lines 589-600: every triangle is completed to a tetrahedron with the origin.
`none` is what `0 / 0` gives: `nan` in every coordinate. -/
noncomputable def centerOfMass (V : List (Vec ℝ 3)) (T : List (List Nat)) :
    Except PyErr (Option (Vec ℝ 3)) := do
  let tris ← T.mapM (cornersAt V)
  let tets : List (Matrix (Fin 4) (Fin 3) ℝ) := tris.map fun p => Matrix.of ![p.1, p.2.1, p.2.2, 0]
  let centroids : List (Vec ℝ 3) := tets.map fun P i => (P 0 i + P 1 i + P 2 i + P 3 i) / 4
  let volumes ← tets.mapM unsignedVolume
  if volumes.sum = 0 then .ok none
  else .ok (some fun i => (List.zipWith (fun v c => v * c i) volumes centroids).sum / volumes.sum)

/-- `area()`, lines 602-605 -/
noncomputable def area (V : List (Vec ℝ 3)) (T : List (List Nat)) : Except PyErr ℝ := do
  let normals ← triangleNormals V T
  .ok ((normals.map norm2).sum / 2)

/-- `vertex_areas()`, lines 552-558: `npi.group_by` returns one sum for every index that occurs, in
increasing order -/
noncomputable def vertexAreas (V : List (Vec ℝ 3)) (T : List (List Nat)) : Except PyErr (List ℝ) := do
  let normals ← triangleNormals V T
  let flat := T.flatten
  let repeated := (normals.map norm2).flatMap fun a => List.replicate 3 a
  .ok ((npUnique flat).map fun i =>
    (((flat.zip repeated).filter fun p => p.1 = i).map Prod.snd).sum / 3)

/-- `edge_lengths()`, lines 560-568: the norms of the rows of `matrices[0].T * vertices`; a `ValueError`
if the number of positions does not fit -/
noncomputable def edgeLengths {d : Nat} (t : Topo) (V : List (Vec ℝ d)) : Except PyErr (List ℝ) :=
  let M := t.matrix 0
  if V.length ≠ M.rows then .error .valueError
  else .ok ((List.range M.cols).map fun j =>
    norm2 fun k => ((List.range M.rows).map fun i => (M.entry i j : ℝ) * V[i]?.getD 0 k).sum)

end Verif.Model
