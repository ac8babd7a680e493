/-
Specification of the exterior derivative on a periodic grid.
-/
import Mathlib.Algebra.BigOperators.Group.Finset.Basic
import Mathlib.Data.Finset.Sort
import Mathlib.Data.Fintype.Basic
import Mathlib.Data.ZMod.Defs

namespace Verif.Spec

/-- `u` lists `n` different axes of an `N`-dimensional grid in increasing order -/
def AxisSet (N n : Nat) (u : List Nat) : Prop :=
  u.Pairwise (· < ·) ∧ u.length = n ∧ ∀ x ∈ u, x < N

/-- the neighbour of a grid point along axis `a` in the positive direction; the grid is periodic -/
def next {N : Nat} (sh : Fin N → Nat) (a : Nat) (i : Fin N → Nat) : Fin N → Nat :=
  fun b => if (b : Nat) = a then (if i b + 1 = sh b then 0 else i b + 1) else i b

/-- a cochain of the grid: its value on the cell at `i` with extent in the axes of `U` -/
abbrev Cochain (N : Nat) (R : Type) := Finset Nat → (Fin N → Nat) → R

/-- the exterior derivative (coboundary) of cochains: the cell `U` at `i` is bounded, for each axis
`d` of `U`, by the cells `U \ {d}` at `i` and at the next point, with opposite signs -/
def coboundary {N : Nat} {R : Type} [CommRing R] (sh : Fin N → Nat) (F : Cochain N R) :
    Cochain N R :=
  fun U i => ∑ d ∈ U, (-1) ^ (U.filter fun x => d < x).card *
    (F (U.erase d) (next sh d i) - F (U.erase d) i)

end Verif.Spec
