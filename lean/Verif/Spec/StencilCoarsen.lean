/-
Specification of refinement on a periodic grid: multilinear interpolation normal to the cells.
-/
import Mathlib.Algebra.BigOperators.Group.Finset.Basic
import Mathlib.Algebra.Field.Defs
import Mathlib.Data.Fintype.Pi
import Mathlib.Data.Fintype.Basic

namespace Verif.Spec

/-- along axis `b`, a fine cell at `i` with extent in the axes of `U` lies between two coarse cells if
`b` is not in `U` and `i b` is odd; otherwise it lies in one -/
def between {N : Nat} (U : Finset Nat) (i : Fin N → Nat) (b : Fin N) : Nat :=
  if (b : Nat) ∉ U ∧ i b % 2 = 1 then 2 else 1

/-- the mean of the values on the coarse cells next to the fine cell `U` at `i`; the coarse grid of
shape `sh` is periodic -/
def interpolated {N : Nat} {K : Type} [Field K] (sh : Fin N → Nat) (U : Finset Nat)
    (c : (Fin N → Nat) → K) (i : Fin N → Nat) : K :=
  (∑ o ∈ Fintype.piFinset fun b => Finset.range (between U i b),
    c fun b => (i b / 2 + o b) % sh b) / (∏ b, between U i b : Nat)

end Verif.Spec
