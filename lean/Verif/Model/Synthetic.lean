/-
Model of `n_simplex`, `pycomplex/synthetic.py` lines 16-47.

The dimension is `n + 1`: for `n_dim = 0` the recursion divides by zero.  The vertices are real numbers;
an array of shape `[n + 2, n + 1]` is a function of the row.
-/
import Verif.Model.Simplicial
import Verif.Model.Euclid

namespace Verif.Model

/-- `simplex_vertices(n + 1)`, lines 30-39: the first unit vector, and below it the vertices of one
dimension less, shrunk, with `-depth` put in front -/
noncomputable def simplexVertices : (n : Nat) → Matrix (Fin (n + 2)) (Fin (n + 1)) ℝ
  | 0 => Matrix.of ![![-1], ![1]]
  | n + 1 =>
    let depth : ℝ := 1 / ((n + 2 : Nat) : ℝ)
    let shrink := Real.sqrt (1 - depth ^ 2)
    let base : Matrix (Fin (n + 2)) (Fin (n + 1)) ℝ := Matrix.of fun i j => simplexVertices n i j * shrink
    let top : Vec ℝ (n + 2) := fun j => if j = 0 then 1 else 0
    Matrix.of (Fin.cons top fun i => Fin.cons (-depth) (base i))

/-- `np.eye(n_dim + 1)[:, 1:]`, line 44 -/
noncomputable def canonicalVertices (n : Nat) : Matrix (Fin (n + 2)) (Fin (n + 1)) ℝ :=
  Matrix.of fun i j => if i = j.succ then 1 else 0

/-- `n_simplex(n + 1, equilateral)`, lines 16-47 -/
noncomputable def nSimplex (uniq : List (List Nat) → List (List Nat)) (n : Nat) (equilateral : Bool) :
    Except PyErr (Topo × Matrix (Fin (n + 2)) (Fin (n + 1)) ℝ) := do
  let vertices := if equilateral then simplexVertices n else canonicalVertices n
  let corners := List.range (n + 2)
  let t ← fromSimplices uniq (n + 2) [corners]
  .ok (t, vertices)

end Verif.Model
