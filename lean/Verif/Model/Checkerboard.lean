/-
Model of `checkerboard_2` of `pycomplex/stencil/util.py`.
-/
import Verif.Model.Basic

namespace Verif.Model

/-- the sum `np.einsum('i, i...->...', 2**np.arange(len(shape)), np.indices(shape) % 2)` at the index `idx` with one number per axis,
`stencil/util.py` line 97 -/
def boardColour (idx : List Nat) : Nat :=
  ((List.range idx.length).map fun k => 2 ^ k * (idx[k]?.getD 0 % 2)).sum

/-- `checkerboard_2(shape, offset)` at the index `idx`, `stencil/util.py` lines 96-97 -/
def checkerboard2 (offset : Nat) (idx : List Nat) : Bool := boardColour idx == offset

end Verif.Model
