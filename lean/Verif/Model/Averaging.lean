/-
Model of the accumulated topology matrices, the averaging operators and the degrees,
`pycomplex/topology/base.py` lines 207-275, and of `normalize_l1`, `pycomplex/sparse.py` lines 23-29.

The topology matrices are stored in `int8` (`sign_dtype`), and so are their products: sums wrap around.
-/
import Verif.Model.Boundary
import Verif.Model.Iter
import Mathlib.Algebra.Field.Defs

namespace Verif.Model

/-- `np.abs` of an `int8` matrix; the absolute value of -128 is -128 -/
def abs8 (A : Mat Int) : Mat Int := ⟨A.rows, A.cols, fun i j => wrap8 (A.entry i j).natAbs⟩

/-- `A * B` for `int8` sparse matrices -/
def mul8 (A B : Mat Int) : Except PyErr (Mat Int) := do
  let C ← A.mul B
  .ok ⟨C.rows, C.cols, fun i j => wrap8 (C.entry i j)⟩

/-- `list(accumulate(ms, func=operator.mul))`; a mismatch of shapes raises -/
def accumulateMul (ms : List (Mat Int)) : Except PyErr (List (Mat Int)) :=
  (accumulate (fun a b => do
    let x ← a
    let y ← b
    mul8 x y) (ms.map Except.ok)).mapM id

/-- `scipy.sparse.identity(n, dtype=sign_dtype)` -/
def identity8 (n : Nat) : Mat Int := ⟨n, n, fun i j => if i = j then 1 else 0⟩

/-- `matrices`, `topology/primal.py` lines 63-72 -/
def Topo.matrices (t : Topo) : List (Mat Int) := (List.range t.boundary.length).map t.matrix

/-- `accumulated_operators_0()`, lines 207-221; without matrices `A[0]` is an `IndexError` -/
def accumulatedOperators0 (ms : List (Mat Int)) : Except PyErr (List (Mat Int)) := do
  let A ← accumulateMul (ms.map abs8)
  match A with
  | [] => .error .indexError
  | a :: _ => .ok (identity8 a.rows :: A)

/-- `accumulated_operators_N()`, lines 223-234 -/
def accumulatedOperatorsN (ms : List (Mat Int)) : Except PyErr (List (Mat Int)) := do
  let A ← accumulateMul (ms.reverse.map fun m => abs8 m.transpose)
  match A with
  | [] => .error .indexError
  | a :: _ => .ok (identity8 a.rows :: A).reverse

section

variable {K : Type} [Field K]

/-- `normalize_l1(A, axis=1)`, `sparse.py` lines 23-29: the sum over a row is taken in the default
integer type.  Where the sum is zero the code divides by zero in floating point; here the factor is
zero. -/
def normalizeL1 (A : Mat Int) : Mat K :=
  ⟨A.rows, A.cols, fun i j =>
    (1 / (((List.range A.cols).map fun m => wrap8 (A.entry i m).natAbs).sum : ℤ) : K) * (A.entry i j : ℤ)⟩

/-- `averaging_operators_0`, lines 236-247 -/
def averagingOperators0 (ms : List (Mat Int)) : Except PyErr (List (Mat K)) := do
  let A ← accumulatedOperators0 ms
  .ok (A.map fun a => normalizeL1 a.transpose)

/-- `averaging_operators_N`, lines 249-260 -/
def averagingOperatorsN (ms : List (Mat Int)) : Except PyErr (List (Mat K)) := do
  let A ← accumulatedOperatorsN ms
  .ok (A.map fun a => normalizeL1 a.transpose)

end

/-- `ones_like(a.T) * N_elements`, `sparse.py` lines 16-20 and `topology/base.py` line 275, where
`N_elements` is a chain of ones: the stored entries of every row are counted in `int8`.  The stored
entries are taken to be those that are not zero; whether an entry that wrapped around to zero is stored
depends on the version of scipy. -/
def countRows (a : Mat Int) : List Int :=
  (List.range a.transpose.rows).map fun i =>
    wrap8 ((List.range a.transpose.cols).map fun j => if a.transpose.entry i j = 0 then 0 else 1 * 1).sum

/-- `degree`, lines 262-275 -/
def degree (ms : List (Mat Int)) : Except PyErr (List (List Int)) := do
  let A ← accumulatedOperatorsN ms
  .ok (A.map countRows)

end Verif.Model
