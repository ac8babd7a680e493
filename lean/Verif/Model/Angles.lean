/-
Model of the angles and areas of triangle meshes, `pycomplex/geometry/euclidian.py` lines 311-331 and
`pycomplex/complex/simplicial/euclidian.py` lines 206-273.

Arithmetic is exact, over the real numbers.  At a right angle numpy's `1 / tan` is the inverse of a
very large number; here it is zero.  At an angle of exactly zero or `pi` numpy divides by zero (or by a
rounding error); here the cotangent is zero, and the theorems exclude the case.
-/
import Verif.Model.Metric
import Mathlib.Analysis.SpecialFunctions.Trigonometric.Inverse

namespace Verif.Model

section

variable {D : Nat}

/-- `linalg.normalized(v, ignore_zeros=True)`, `math/linalg.py` lines 25-63, of one vector -/
noncomputable def normalizedVec (v : Vec ℝ D) : Vec ℝ D :=
  let norm := Real.sqrt (dot v v)
  let norm := if norm = 0 then 1 else norm
  fun i => v i / norm

/-- `triangle_angles`, `geometry/euclidian.py` lines 311-331, of one triangle; `np.roll(x, -1)` has
`x[i + 1]` at `i` and `np.roll(x, +1)` has `x[i - 1]`, which is `x[i + 2]` -/
noncomputable def triangleAngles (p : Fin 3 → Vec ℝ D) : Fin 3 → ℝ :=
  let edges : Fin 3 → Vec ℝ D := fun i => p (i + 1) - p (i + 2)
  let edges : Fin 3 → Vec ℝ D := fun i => normalizedVec (edges i)
  fun i => Real.arccos (-(dot (edges (i + 1)) (edges (i + 2))))

/-- `compute_triangle_angles`, `complex/simplicial/euclidian.py` lines 206-217 -/
noncomputable def computeTriangleAngles (V : List (Vec ℝ D)) (T : List (List Nat)) :
    Except PyErr (List (Fin 3 → ℝ)) :=
  T.mapM fun row => do
    let p ← rowValues V 3 row
    .ok (triangleAngles p)

/-- `compute_triangle_areas`, lines 238-247 -/
noncomputable def computeTriangleAreas (V : List (Vec ℝ D)) (T : List (List Nat)) : Except PyErr (List ℝ) :=
  T.mapM fun row => do
    let p ← rowValues V 3 row
    unsignedVolume (Matrix.of p)

/-- `compute_vertex_areas`, lines 219-236 -/
noncomputable def computeVertexAreas (V : List (Vec ℝ D)) (T : List (List Nat)) : Except PyErr (List ℝ) := do
  let areas ← computeTriangleAreas V T
  let repeated := areas.flatMap fun a => List.replicate 3 a
  .ok ((groupSum T.flatten repeated).map fun x => x / 3)

/-- `compute_edge_ratio`, lines 249-272: `assert self.weights is None`, then the cotangents of the
angles summed over `topology._boundary[1]`; for a topology without that entry the list lookup fails -/
noncomputable def computeEdgeRatio (t : Topo) (V : List (Vec ℝ D)) (weights : Option (List ℝ)) :
    Except PyErr (List ℝ) :=
  if weights.isSome then .error .assertionError
  else do
    let angles ← computeTriangleAngles V (t.elements[2]?.getD [])
    let cotan := angles.flatMap fun a => List.ofFn fun i => 1 / Real.tan (a i)
    match t.boundary[1]? with
    | none => .error .indexError
    | some B21 => .ok ((groupSum B21.flatten cotan).map fun x => x / 2)

end

end Verif.Model
