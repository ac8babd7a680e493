/-
Model of `orthonormalize`, `power` and `angle_from_rotation`, `pycomplex/math/linalg.py` lines 66-129.

Arithmetic is exact, over the real and the complex numbers.  `np.linalg.svd` and `np.linalg.eig` are
parameters.  Leading axes are dropped.
-/
import Mathlib.LinearAlgebra.Matrix.NonsingularInverse
import Mathlib.Analysis.SpecialFunctions.Pow.Complex
import Mathlib.Analysis.SpecialFunctions.Trigonometric.Inverse
import Mathlib.Data.Real.Sign
import Verif.Model.Circumcenter

namespace Verif.Model

open Matrix

/-- `np.eye(n, m)` -/
def eyeOf (n m : Nat) : Matrix (Fin n) (Fin m) ℝ := Matrix.of fun i j => if i.val = j.val then 1 else 0

/-- `orthonormalize`, `math/linalg.py` lines 66-92.  `np.linalg.det` raises a `LinAlgError`, a kind of
`ValueError`, for a matrix that is not square. -/
noncomputable def orthonormalize (svd : (a b : Nat) → Matrix (Fin a) (Fin b) ℝ → Svd a b ℝ) {n m : Nat}
    (axes : Matrix (Fin n) (Fin m) ℝ) (demirror : Bool) : Except PyErr (Matrix (Fin n) (Fin m) ℝ) :=
  let f := svd n m axes
  if demirror then
    if h : n = m then
      let det := (axes.submatrix id (Fin.cast h)).det
      if m = 0 then .error .indexError
      else
        let v : Matrix (Fin m) (Fin m) ℝ := Matrix.of fun i j =>
          if i.val = 0 then f.v i j * Real.sign det else f.v i j
        .ok (f.u * eyeOf n m * v)
    else .error .valueError
  else .ok (f.u * eyeOf n m * f.v)

/-- what `np.linalg.eig` returns for a matrix of size `n` -/
structure Eig (n : Nat) where
  w : Fin n → ℂ
  v : Matrix (Fin n) (Fin n) ℂ

/-- `power`, `math/linalg.py` lines 95-114.  `np.linalg.eig` returns real numbers if all eigenvalues are real,
and then a power of a negative number is `nan` (here `none`) unless the exponent is an integer.
`np.linalg.inv` raises a `LinAlgError`, a kind of `ValueError`, for a singular matrix.  A negative power of zero
is `inf` in numpy and zero here. -/
noncomputable def power (eig : (n : Nat) → Matrix (Fin n) (Fin n) ℝ → Eig n) {n : Nat}
    (m : Matrix (Fin n) (Fin n) ℝ) (p : ℝ) : Except PyErr (Option (Matrix (Fin n) (Fin n) ℝ)) :=
  open Classical in
  let f := eig n m
  if f.v.det = 0 then .error .valueError
  else if (∀ i, (f.w i).im = 0) ∧ (∃ i, (f.w i).re < 0) ∧ ¬ ∃ k : ℤ, p = k then .ok none
  else .ok (some ((f.v * diagonal (fun i => f.w i ^ (p : ℂ)) * f.v⁻¹).map Complex.re))

/-- `angle_from_rotation`, `math/linalg.py` lines 125-129: `np.arccos(1 - (n - np.einsum('...ii->...', R)) / 2)`;
outside of `[-1, 1]` the result is `nan`, here `none` -/
noncomputable def angleFromRotation {n m : Nat} (R : Matrix (Fin n) (Fin m) ℝ) : Except PyErr (Option ℝ) :=
  open Classical in
  if h : n = m then
    let x := 1 - ((n : ℝ) - (R.submatrix id (Fin.cast h)).trace) / 2
    .ok (if -1 ≤ x ∧ x ≤ 1 then some (Real.arccos x) else none)
  else .error .assertionError

end Verif.Model
