/-
Model of `BaseComplex.dual_position`, `pycomplex/complex/base.py` lines 120-141, and of `n_cube_dual` with its positions,
`pycomplex/synthetic.py` lines 127-154.
-/
import Verif.Model.CubeDual
import Verif.Model.CubicalComplex
import Verif.Model.Circle

namespace Verif.Model

/-- `p[idx]` -/
def takePositions {α : Type} (p : List α) (idx : List Nat) : Except PyErr (List α) :=
  idx.mapM fun i => match p[i]? with
    | some x => .ok x
    | none => .error .indexError

/-- `dual_position`, lines 131-141, from `primal_position` and `topology.boundary`.  Both calls of `zip` stop at the end of the
shorter list. -/
def dualPosition {α : Type} (pp : List (List α)) (b : Option Sub) : Except PyErr (List (List α)) :=
  match b with
  | none => .ok pp.reverse
  | some s => do
    let bp ← (List.zip s.parentIdx pp).mapM fun ip => takePositions ip.2 ip.1
    .ok (List.zipWith (fun p b => p ++ b) pp ([] :: bp)).reverse

/-- `n_cube_dual(n_dim)`, lines 144-154: topology and vertices.  `n_cube(n_dim, centering=True)` is
`n_cube_grid((1,) * n_dim, centering=True)`; floats are replaced by real numbers; the checks of the constructor
`ComplexSpherical` are not modelled. -/
noncomputable def nCubeDualComplex (solve : List (List Int) → Option (List Int)) (uniq : List (List Nat) → List (List Nat))
    (nDim : Nat) : Except PyErr (Topo × List (Vec ℝ nDim)) := do
  let t ← nCubeGrid uniq (List.replicate nDim 1) true
  let b ← complexBoundary solve uniq t
    ((gridVertices (K := ℝ) (List.replicate nDim 1) true).map fun r (q : Fin nDim) => r[q.val]?.getD 0)
  match b with
  | none => .error .attributeError
  | some cube => do
    let simplices ← sparseToElements (vertexMatrix (cube.1.elements[nDim - 1]?.getD []))
    let pp ← cubicalPositions cube.2 cube.1
    let bb ← cubicalBoundary solve uniq cube.1
    let dp ← dualPosition pp bb
    let vertices ← normalizedVertices (dp[0]?.getD [])
    let u ← fromSimplices uniq (simplices.headD []).length simplices
    let u ← fixOrientation solve uniq u
    .ok (u, vertices)

end Verif.Model
