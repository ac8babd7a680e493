/-
Model of the closed-form 3x3 linear algebra of `pycomplex/math/linalg.py`.

Floating point numbers are replaced by an arbitrary commutative ring or field; leading batch axes
are dropped (every function works on each matrix separately).
-/
import Mathlib.LinearAlgebra.Matrix.NonsingularInverse

namespace Verif.Model

/-- `np.cross` of two 3-vectors -/
def npCross {R : Type} [CommRing R] (a b : Fin 3 → R) : Fin 3 → R :=
  ![a 1 * b 2 - a 2 * b 1, a 2 * b 0 - a 0 * b 2, a 0 * b 1 - a 1 * b 0]

/-- `dot`, `math/linalg.py` lines 7-22 -/
def npDot {R : Type} [CommRing R] {n : Nat} (a b : Fin n → R) : R :=
  ((List.finRange n).map fun i => a i * b i).sum

/-- numpy indexing of an axis of length 3 by `i - k`, negative indices counting from the end -/
def wrapIndex (i : Int) : Fin 3 := if i < 0 then Fin.ofNat 3 (i + 3).toNat else Fin.ofNat 3 i.toNat

/-- `adjoint`, `math/linalg.py` lines 132-149: row `i` is `cross(A[i-2], A[i-1])` -/
def adjoint3 {R : Type} [CommRing R] (A : Matrix (Fin 3) (Fin 3) R) : Matrix (Fin 3) (Fin 3) R :=
  Matrix.of fun i => npCross (A (wrapIndex ((i : Nat) - 2))) (A (wrapIndex ((i : Nat) - 1)))

/-- `null`, `math/linalg.py` lines 152-167: the sum of the rows of the adjoint -/
def null3 {R : Type} [CommRing R] (A : Matrix (Fin 3) (Fin 3) R) : Fin 3 → R :=
  fun j => adjoint3 A 0 j + adjoint3 A 1 j + adjoint3 A 2 j

/-- `inverse_transpose`, `math/linalg.py` lines 170-186: `det` is the mean of the three row dot
products.  Division by a zero determinant (`inf`/`nan` with a warning in numpy) is not modelled. -/
def inverseTranspose3 {K : Type} [Field K] (A : Matrix (Fin 3) (Fin 3) K) :
    Matrix (Fin 3) (Fin 3) K :=
  let I := adjoint3 A
  let det := (npDot (I 0) (A 0) + npDot (I 1) (A 1) + npDot (I 2) (A 2)) / 3
  Matrix.of fun i j => I i j / det

/-- `inverse`, `math/linalg.py` lines 189-203 -/
def inverse3 {K : Type} [Field K] (A : Matrix (Fin 3) (Fin 3) K) : Matrix (Fin 3) (Fin 3) K :=
  (inverseTranspose3 A).transpose

/-- `rotation_from_plane`, `math/linalg.py` lines 117-122:
`eye - outer(u, u) - outer(v, v) + p.T @ (R @ p)` with `p = [u, v]`, `R = [[0, 1], [-1, 0]]` -/
def rotationFromPlane {R : Type} [CommRing R] {n : Nat} (u v : Fin n → R) :
    Matrix (Fin n) (Fin n) R :=
  let p : Fin 2 → Fin n → R := ![u, v]
  let r : Fin 2 → Fin 2 → R := ![![0, 1], ![-1, 0]]
  let rp : Fin 2 → Fin n → R := fun a j => npDot (r a) (fun b => p b j)
  Matrix.of fun i j => (if i = j then 1 else 0) - u i * u j - v i * v j +
    npDot (fun a => p a i) (fun a => rp a j)

end Verif.Model
