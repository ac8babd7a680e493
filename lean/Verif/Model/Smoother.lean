/-
Model of `smoother` of `pycomplex/stencil/util.py` in any number of dimensions.
-/
import Verif.Model.StencilCoarsen
import Mathlib.Algebra.Order.Ring.Rat
import Mathlib.Data.Rat.Defs
import Mathlib.Algebra.Field.Rat

namespace Verif.Model

/-- `smoother(ndim)`, `stencil/util.py` lines 85-89, as a function of the index in the array, one number per axis.
`smoother(1)` has one axis.  In the product `smoother(1) * smoother(ndim-1)[..., None]` the last axis is the one of `smoother(1)`.
The recursion has no end for `ndim < 1` (`RecursionError`): `none` after the given number of nested calls.  Real numbers are
replaced by rational ones. -/
def smootherGrid : Nat → Int → Option (List Nat → Rat)
  | 0, _ => none
  | limit + 1, ndim =>
    if ndim = 1 then some fun idx => (smootherKernel (K := Rat))[idx.getLastD 0]?.getD 0
    else do
      let one ← smootherGrid limit 1
      let rest ← smootherGrid limit (ndim - 1)
      some fun idx => one [idx.getLastD 0] * rest idx.dropLast

end Verif.Model
