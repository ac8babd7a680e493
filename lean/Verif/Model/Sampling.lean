/-
Model of the power-diagram lifting of `pycomplex/complex/simplicial/base.py` and of multilinear
interpolation over cubes (`pycomplex/complex/regular.py`).

Floating point numbers are replaced by the real numbers, respectively by a field.
-/
import Mathlib.Analysis.Real.Sqrt
import Verif.Model.Basic

namespace Verif.Model

/-- `weights.max()`; `ValueError` on an empty array -/
noncomputable def npMax : List ℝ → Except PyErr ℝ
  | [] => .error .valueError
  | w :: t => .ok (t.foldl max w)

/-- `weights_to_offsets`, `complex/simplicial/base.py` lines 252-267 -/
noncomputable def weightsToOffsets (weights : List ℝ) : Except PyErr (List ℝ) := do
  let m ← npMax weights
  .ok (weights.map fun w => Real.sqrt (-w + m))

/-- `augment`, `complex/simplicial/base.py` lines 284-299, without weights, for one point -/
abbrev augmentZero (point : List ℝ) : List ℝ := point ++ [0]

/-- `augment`, `complex/simplicial/base.py` lines 284-299, with weights; `np.concatenate` raises
`ValueError` when the lengths differ -/
noncomputable def augmentWeights (points : List (List ℝ)) (weights : List ℝ) :
    Except PyErr (List (List ℝ)) := do
  let offsets ← weightsToOffsets weights
  if points.length = offsets.length then
    .ok (List.zipWith (fun p o => p ++ [o]) points offsets)
  else .error .valueError

/-- squared euclidian distance of two rows, as used by the `cKDTree` -/
def sqDist {R : Type} [Ring R] (a b : List R) : R :=
  (List.zipWith (fun x y => (x - y) * (x - y)) a b).sum

/-- `pick_dual`, `complex/simplicial/base.py` lines 428-446, with `pick_precompute` (lines 309-327),
for one query point.  `query sites point` stands for `cKDTree(sites).query(point)`.  `weights` is
`None` or an array. -/
noncomputable def pickDual (query : List (List ℝ) → List ℝ → Nat) (vertices : List (List ℝ))
    (weights : Option (List ℝ)) (point : List ℝ) : Except PyErr Nat :=
  match weights with
  | none => .ok (query vertices point)
  | some w => do
    let sites ← augmentWeights vertices w
    .ok (query sites (augmentZero point))

/-- rows of `np.indices((2,) * n).reshape(n, -1).T`: `cube_corners`, `topology/cubical.py` lines
154-157 -/
def cubeCorners : Nat → List (List Nat)
  | 0 => [[]]
  | n + 1 => ((cubeCorners n).map fun c => 0 :: c) ++ ((cubeCorners n).map fun c => 1 :: c)

/-- `B = np.prod(bary * c + (1 - bary) * (1 - c), axis=1)`, `complex/regular.py` lines 272-273 -/
def cornerWeight {K : Type} [Ring K] (bary : List K) (c : List Nat) : K :=
  (List.zipWith (fun (b : K) (c : Nat) => b * (c : K) + (1 - b) * (1 - (c : K))) bary c).prod

/-- `np.clip(x, 0, 1)` -/
def clip01 {K : Type} [Ring K] [LinearOrder K] (x : K) : K := min (max x 0) 1

/-- the interpolation loop of `sample_primal_0`, `complex/regular.py` lines 264-275, at one point:
`values c` is the datum `p0[verts[c]]` at corner `c` of the picked cube, `bary` the local
coordinates returned by `pick_primal` -/
def samplePrimal0 {K : Type} [Ring K] [LinearOrder K] (values : List Nat → K) (bary : List K) : K :=
  let bary := bary.map clip01
  ((cubeCorners bary.length).map fun c => values c * cornerWeight bary c).sum

end Verif.Model
