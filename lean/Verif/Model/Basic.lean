/-
Shared pieces of the model: Python exceptions as values, sparse matrices.
-/
import Mathlib.Data.List.Sort
import Mathlib.Data.List.Dedup

namespace Verif.Model

/-- The Python exceptions the modelled functions can raise. -/
inductive PyErr where
  | assertionError
  | indexError
  | keyError
  | valueError
  | typeError
  | runtimeError
  | unboundLocalError
  | attributeError
  | notImplementedError
  deriving DecidableEq, Repr

/-- A `scipy.sparse` matrix: a shape and its entries.  Only entries inside the shape are
meaningful. -/
structure Mat (R : Type) where
  rows : Nat
  cols : Nat
  entry : Nat → Nat → R

/-- `A * B` for `scipy.sparse` matrices: a dimension mismatch raises `ValueError`. -/
def Mat.mul {R : Type} [Add R] [Mul R] [Zero R] (A B : Mat R) : Except PyErr (Mat R) :=
  if A.cols = B.rows then
    .ok ⟨A.rows, B.cols, fun i j =>
      ((List.range A.cols).map fun m => A.entry i m * B.entry m j).sum⟩
  else .error .valueError

/-- `A.T` -/
def Mat.transpose {R : Type} (A : Mat R) : Mat R := ⟨A.cols, A.rows, fun i j => A.entry j i⟩

end Verif.Model
