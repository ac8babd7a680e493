/-
Model of `circle` and `cylinder`, `pycomplex/synthetic.py` lines 70-83.
-/
import Verif.Model.CubicalBoundary
import Verif.Model.Smooth
import Verif.Model.Grid
import Verif.Model.Spherical

namespace Verif.Model

/-- `BaseComplex.boundary`, `complex/base.py` lines 81-88, of a cubical complex -/
def complexBoundary {K : Type} {d : Nat} (solve : List (List Int) → Option (List Int))
    (uniq : List (List Nat) → List (List Nat)) (t : Topo) (V : List (Vec K d)) :
    Except PyErr (Option (Topo × List (Vec K d))) := do
  let b ← cubicalBoundary solve uniq t
  match b with
  | none => .ok none
  | some s => do
    let W ← (s.parentIdx[0]?.getD []).mapM fun v => match V[v]? with
      | some x => .ok x
      | none => .error .indexError
    .ok (some (s.topo, W))

/-- `linalg.normalized(vertices)`, `math/linalg.py` lines 25-56; a position that becomes `nan` ends with an error here -/
noncomputable def normalizedVertices {d : Nat} (V : List (Vec ℝ d)) : Except PyErr (List (Vec ℝ d)) :=
  match V.mapM normalizedNan with
  | some W => .ok W
  | none => .error .runtimeError

/-- the body of the loop of `circle`, lines 74-75 -/
noncomputable def circleStep (uniq : List (List Nat) → List (List Nat)) (c : Topo × List (Vec ℝ 2)) :
    Except PyErr (Topo × List (Vec ℝ 2)) := do
  let f ← subdivideComplex uniq c.1 c.2 [] true
  let V ← normalizedVertices f.2
  .ok (f.1, V)

/-- `complex` after `n` passes of the loop of `circle`, lines 72-75: `n_cube(2, centering=True)` is
`n_cube_grid((1, 1), centering=True, mirror=True)` (lines 50-67).  The method `subdivide_cubical` of `None` does not exist. -/
noncomputable def circleLoop (solve : List (List Int) → Option (List Int)) (uniq : List (List Nat) → List (List Nat)) :
    (subdivisions : Nat) → Except PyErr (Topo × List (Vec ℝ 2))
  | 0 => do
    let square ← nCubeGrid uniq [1, 1] true
    let b ← complexBoundary solve uniq square
      ((gridVertices (K := ℝ) [1, 1] true).map fun r (q : Fin 2) => r[q.val]?.getD 0)
    match b with
    | some c => .ok c
    | none => .error .attributeError
  | n + 1 => do
    let c ← circleLoop solve uniq n
    circleStep uniq c

/-- `circle(subdivisions)`, lines 70-76; `as_12` (`complex/cubical.py` lines 235-238) checks the dimension of the topology, and
that of the space, which is two -/
noncomputable def circle (solve : List (List Int) → Option (List Int)) (uniq : List (List Nat) → List (List Nat))
    (subdivisions : Nat) : Except PyErr (Topo × List (Vec ℝ 2)) := do
  let c ← circleLoop solve uniq subdivisions
  if c.1.boundary.length = 1 then .ok c else .error .typeError

/-- `cylinder(length, radius, divisions)`, lines 79-83.  `as_11` (`complex/cubical.py` lines 230-233) checks the dimension of the
topology and that of the space, which is one; `scale` (`complex/base.py` lines 117-118) multiplies the positions. -/
noncomputable def cylinder (solve : List (List Int) → Option (List Int)) (uniq : List (List Nat) → List (List Nat))
    (length radius : ℝ) (divisions : Nat) : Except PyErr (Topo × List (List ℝ)) := do
  let n := 2 ^ divisions
  let line ← nCubeGrid uniq [n] true
  if line.boundary.length = 1 then
    let V := (gridVertices (K := ℝ) [n] true).map fun r => r.map (· * (length / (n : ℕ)))
    let c ← circle solve uniq divisions
    let W := c.2.map fun x => (List.ofFn x).map (· * radius)
    let t ← productTopology uniq line c.1
    .ok (t, productVertices V W)
  else .error .typeError

end Verif.Model
