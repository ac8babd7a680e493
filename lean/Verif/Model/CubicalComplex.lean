/-
Model of `ComplexCubical.primal_position` and of the vertices of `subdivide_cubical`,
`pycomplex/complex/cubical.py` lines 36-44 and 46-74, without smoothing (for that see `Verif.Model.Smooth`).
-/
import Verif.Model.CubicalDomains
import Verif.Model.Triangles

namespace Verif.Model

variable {K : Type} [Field K] {d : Nat}

/-- `self.vertices[c].mean(axis=1)` for one row `c` of corners, line 44; the arithmetic is exact -/
def cubeMean (V : List (Vec K d)) (c : List Nat) : Except PyErr (Vec K d) := do
  let ps ← c.mapM fun v => match V[v]? with
    | some x => .ok x
    | none => .error .indexError
  .ok fun q => (ps.map fun x => x q).sum / (ps.length : K)

/-- `ComplexCubical.primal_position`, lines 36-44; `topology.corners` are the elements with their axes merged -/
def cubicalPositions (V : List (Vec K d)) (t : Topo) : Except PyErr (List (List (Vec K d))) :=
  t.elements.mapM fun rows => rows.mapM (cubeMean V)

/-- the vertices of `ComplexCubical.subdivide_cubical`, line 60: `np.concatenate(coarse.primal_position, axis=0)` -/
def cubicalVertices (V : List (Vec K d)) (t : Topo) : Except PyErr (List (Vec K d)) := do
  let PP ← cubicalPositions V t
  .ok PP.flatten

end Verif.Model
