/-
Model of the vertices of `BaseComplexSimplicial.subdivide_cubical`, `pycomplex/complex/simplicial/base.py` lines 35-41, and
of `ComplexTriangularEuclidian.subdivide_cubical`, `pycomplex/complex/simplicial/euclidian.py` lines 341-347, for euclidian
complexes without weights.
-/
import Verif.Model.Metric

namespace Verif.Model

/-- `np.concatenate(self.primal_position, axis=0)`; arithmetic is exact -/
noncomputable def simplexCubeVertices {D : Nat} (eigh : (n : Nat) → Matrix (Fin n) (Fin n) ℝ → Eigh n ℝ) (ratio : ℝ)
    (t : Topo) (V : List (Vec ℝ D)) : Except PyErr (List (Vec ℝ D)) := do
  let PP ← primalPositions eigh ratio t V none
  .ok PP.flatten

end Verif.Model
