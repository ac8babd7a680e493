/-
The cubes at the corners of triangles and tetrahedra.
-/
import Verif.Spec.CubicalDomains

namespace Verif.Spec

/-- the other corners of triangle or tetrahedron `l`, in the order in which the axes of the cube at corner `i` lead
to them: forward from corner `i` for triangles, backward for tetrahedra -/
def cornerAxes (n : Nat) (l : List Nat) (i : Nat) : List Nat :=
  if n = 2 then [l[(i + 1) % 3]?.getD 0, l[(i + 2) % 3]?.getD 0]
  else [l[(i + 3) % 4]?.getD 0, l[(i + 2) % 4]?.getD 0, l[(i + 1) % 4]?.getD 0]

/-- `v` is the corner `i` of simplex `l`, or the end of an axis of the cube there along which `b` is 1 -/
def TowardCorner (n : Nat) (l : List Nat) (i : Nat) (b : List Bool) (v : Nat) : Prop :=
  l[i]? = some v ∨ ∃ a : Nat, (cornerAxes n l i)[a]? = some v ∧ b[a]? = some true

end Verif.Spec
