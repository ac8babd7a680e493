/-
The cubes around an element of a cubical complex.
-/
import Verif.Spec.Cubical

namespace Verif.Spec

/-- whether the `(k+d)`-cube `l` has a face of dimension `k`, a side of a side ... of it, with the corners `e` -/
def hasFace : (d k : Nat) → List Nat → List Nat → Bool
  | 0, _, l, e => l.isPerm e
  | d + 1, k, l, e => (List.range (k + d + 1)).any fun i =>
      hasFace d k (side (k + d) i false l) e || hasFace d k (side (k + d) i true l) e

/-- the numbers of the `n`-cubes that have the `k`-cube `e` as a face -/
def cubesAround (n k : Nat) (cubes : List (List Nat)) (e : List Nat) : List Nat :=
  (List.range cubes.length).filter fun j => hasFace (n - k) k (cubes[j]?.getD []) e

end Verif.Spec
