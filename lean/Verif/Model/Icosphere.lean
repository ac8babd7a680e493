/-
Model of `icosahedron` and `icosphere`, `pycomplex/synthetic.py` lines 157-197, and of `subdivide_loop`
on the sphere, `pycomplex/complex/simplicial/spherical.py` lines 229-238.

Arithmetic is exact, over the real numbers.  `subdivide_loop` with a position that is `nan` ends with a
`runtimeError` here; in numpy it goes on to the next `np.linalg.eigh`.
-/
import Verif.Model.SphericalMetric
import Verif.Model.Loop
import Verif.Model.Orientation
import Mathlib.NumberTheory.Real.GoldenRatio

namespace Verif.Model

/-- `phi`, line 164 -/
noncomputable def phi : ℝ := (1 + Real.sqrt 5) / 2

/-- `Q`, line 165: `itertools.product([0], [-1, +1], [-phi, +phi])` -/
noncomputable def icoQ : List (Vec ℝ 3) :=
  [-1, 1].flatMap fun y => [-phi, phi].map fun z => ![0, y, z]

/-- `np.roll(Q, r, axis=1)` of one row: entry `k` comes from entry `k - r` -/
def rollRow (r : Fin 3) (q : Vec ℝ 3) : Vec ℝ 3 := fun k => q (k - r)

/-- `vertices`, line 166 -/
noncomputable def icoVertices : List (Vec ℝ 3) :=
  (List.finRange 3).flatMap fun r => icoQ.map (rollRow r)

/-- `itertools.combinations(range(n), 3)`, line 168 -/
def combinations3 (n : Nat) : List (List Nat) :=
  (List.range n).flatMap fun i => (List.range' (i + 1) (n - (i + 1))).flatMap fun j =>
    (List.range' (j + 1) (n - (j + 1))).map fun k => [i, j, k]

/-- one entry of `d`, lines 169-171: the sum of the distances of the corners from their mean -/
noncomputable def spread (corners : List (Vec ℝ 3)) : ℝ :=
  let center : Vec ℝ 3 := fun k => (corners.map fun p => p k).sum / corners.length
  (corners.map fun p => Real.sqrt (dot (p - center) (p - center))).sum

open Classical in
/-- `triangles`, lines 168-172 -/
noncomputable def icoTriangles : Except PyErr (List (List Nat)) := do
  let triangles := combinations3 12
  let corners ← triangles.mapM fun row => row.mapM (vertexAt icoVertices)
  .ok (((triangles.zip corners).filter fun tc => decide (spread tc.2 < 4)).map Prod.fst)

/-- a list of positions without `nan` -/
noncomputable def withoutNan (positions : List (Option (Vec ℝ 3))) : Except PyErr (List (Vec ℝ 3)) :=
  match positions.mapM id with
  | some V => .ok V
  | none => .error .runtimeError

/-- `icosahedron`, lines 157-177: positions and topology -/
noncomputable def icosahedron (solve : List (List Int) → Option (List Int))
    (uniq : List (List Nat) → List (List Nat)) : Except PyErr (List (Vec ℝ 3) × Topo) := do
  let triangles ← icoTriangles
  let V ← withoutNan (icoVertices.map normalizedNan)
  let t ← fromSimplices uniq 3 triangles
  let t ← fixOrientation solve uniq t
  .ok (V, t)

/-- `subdivide_loop`, `complex/simplicial/spherical.py` lines 229-238 -/
noncomputable def sphericalLoop (eigh : (n : Nat) → Matrix (Fin n) (Fin n) ℝ → Eigh n ℝ) (ratio : ℝ)
    (uniq : List (List Nat) → List (List Nat)) (c : List (Vec ℝ 3) × Topo) :
    Except PyErr (List (Vec ℝ 3) × Topo) := do
  let PP ← sphericalPositions eigh ratio c.2 c.1 none
  let V ← withoutNan (PP.take 2).flatten
  let t ← subdivideLoop uniq c.2
  .ok (V, t)

/-- `icosphere`, lines 180-197 -/
noncomputable def icosphere (eigh : (n : Nat) → Matrix (Fin n) (Fin n) ℝ → Eigh n ℝ) (ratio : ℝ)
    (solve : List (List Int) → Option (List Int)) (uniq : List (List Nat) → List (List Nat)) :
    (refinement : Nat) → Except PyErr (List (Vec ℝ 3) × Topo)
  | 0 => icosahedron solve uniq
  | n + 1 => do
    let sphere ← icosphere eigh ratio solve uniq n
    sphericalLoop eigh ratio uniq sphere

end Verif.Model
