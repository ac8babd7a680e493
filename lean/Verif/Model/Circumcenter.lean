/-
Model of the circumcenters of `pycomplex/geometry/euclidian.py` lines 12-209 and of the pseudoinverse
`pinv`, `pycomplex/math/linalg.py` lines 206-226.

`np.linalg.eigh` and `np.linalg.svd` are parameters; what is assumed of them is stated by the
theorems (`Verif.Spec.IsEigh`, `Verif.Spec.IsSvd`).  Arithmetic is exact.  The leading axes of
`circumcenter_barycentric` are kept, flattened to a list of simplices, because its tolerance compares
eigenvalues of different simplices; the other functions treat each simplex separately.
-/
import Verif.Model.Triangles
import Mathlib.Algebra.Order.Field.Basic
import Mathlib.Data.Matrix.Basic
import Mathlib.Data.Matrix.Mul

namespace Verif.Model

section

variable {K : Type} [Field K] [LinearOrder K]

/-- what `np.linalg.svd(A)` returns for a matrix of `m` rows and `n` columns -/
structure Svd (m n : Nat) (K : Type) where
  u : Matrix (Fin m) (Fin m) K
  s : Fin (min m n) → K
  v : Matrix (Fin n) (Fin n) K

/-- the inverted singular values of `pinv`, `math/linalg.py` lines 223-224:
`inv = 1 / s; inv[np.abs(s / s[..., :1]) < r] = 0`.  The zero matrix gives `nan` in numpy and zero
here. -/
def invertSingular {m n : Nat} (r : K) (s : Fin (min (m + 1) (n + 1)) → K) :
    Fin (min (m + 1) (n + 1)) → K :=
  fun j => if |s j / s ⟨0, by omega⟩| < r then 0 else 1 / s j

/-- `pinv`, `math/linalg.py` lines 206-226, of a matrix with at least one row and one column:
`np.einsum('...ij,...j,...jk->...ki', u[..., :s.shape[-1]], inv, v)`.  The axis `j` has the length
`min(m, n)` in the first two operands and `n` in the last.  If `m < n` these differ: `einsum` repeats
axes of length one and raises a `ValueError` otherwise. -/
def pinv {m n : Nat} (r : K) (f : Svd (m + 1) (n + 1) K) :
    Except PyErr (Matrix (Fin (n + 1)) (Fin (m + 1)) K) :=
  let inv := invertSingular r f.s
  if n ≤ m then
    .ok (Matrix.of fun k i => ∑ j : Fin (min (m + 1) (n + 1)),
      f.u i (Fin.castLE (by omega) j) * inv j * f.v (Fin.castLE (by omega) j) k)
  else if m = 0 then
    .ok (Matrix.of fun k i => ∑ j : Fin (n + 1), f.u i 0 * inv ⟨0, by omega⟩ * f.v j k)
  else .error .valueError

/-- `circumcenter_construction`, `geometry/euclidian.py` lines 19-54, of one simplex of at least two
points -/
def circumcenterConstruction {m d : Nat}
    (svd : Matrix (Fin (m + 1)) (Fin (d + 1)) K → Svd (m + 1) (d + 1) K) (r : K)
    (pts : Matrix (Fin (m + 2)) (Fin (d + 1)) K) (weights : Option (Vec K (m + 2))) :
    Except PyErr (Vec K (d + 1)) := do
  let first := pts 0
  let moved : Matrix (Fin (m + 1)) (Fin (d + 1)) K := Matrix.of fun i j => pts i.succ j - first j
  let e2 : Vec K (m + 1) := fun i => dot (moved i) (moved i)
  let e2 : Vec K (m + 1) := match weights with
    | some w => fun i => e2 i - (w i.succ - w 0)
    | none => e2
  let p ← pinv r (svd moved)
  .ok fun j => dot (p j) e2 / 2 + first j

/-- what `np.linalg.eigh(A)` returns: eigenvalues, and eigenvectors as columns -/
structure Eigh (n : Nat) (K : Type) where
  v : Fin n → K
  w : Matrix (Fin n) (Fin n) K

/-- the matrix of `circumcenter_barycentric`, lines 152-154: ones, a zero in the corner, and twice
the products of the points -/
def productMatrix {P D : Nat} (pts : Matrix (Fin P) (Fin D) K) :
    Matrix (Fin (P + 1)) (Fin (P + 1)) K :=
  Matrix.of fun i k =>
    if hi : i.val < P then
      if hk : k.val < P then dot (pts ⟨i, hi⟩) (pts ⟨k, hk⟩) * 2 else 1
    else if k.val < P then 1 else 0

/-- the right-hand side of `circumcenter_barycentric`, lines 161-164 -/
def productRhs {P D : Nat} (pts : Matrix (Fin P) (Fin D) K) (weights : Option (Vec K P)) :
    Vec K (P + 1) :=
  fun i => if hi : i.val < P then
      match weights with
      | some w => dot (pts ⟨i, hi⟩) (pts ⟨i, hi⟩) - w ⟨i, hi⟩
      | none => dot (pts ⟨i, hi⟩) (pts ⟨i, hi⟩)
    else 1

/-- `np.abs(1 / v)` of all eigenvalues of all simplices.  An eigenvalue zero gives `inf`, which is
never the least one since the matrix is not zero; it is left out. -/
def absInverses {n : Nat} (es : List (Eigh n K)) : List K :=
  (es.flatMap fun e => (List.finRange n).map e.v).filterMap fun v =>
    if v = 0 then none else some |1 / v|

/-- `circumcenter_barycentric`, `geometry/euclidian.py` lines 104-168, of a list of simplices: `vr` is
`1 / v`, set to zero where `np.abs(vr) > np.abs(vr).min() * ratio`; the minimum is taken over the
whole array.  An empty array has no minimum: `ValueError`. -/
def circumcenterBarycentric {P D : Nat}
    (eigh : Matrix (Fin (P + 1)) (Fin (P + 1)) K → Eigh (P + 1) K) (ratio : K)
    (batch : List (Matrix (Fin P) (Fin D) K × Option (Vec K P))) :
    Except PyErr (List (Vec K P)) :=
  match (absInverses (batch.map fun b => eigh (productMatrix b.1))).min? with
  | none => .error .valueError
  | some least =>
    .ok (batch.map fun b =>
      let e := eigh (productMatrix b.1)
      let vr : Vec K (P + 1) := fun j =>
        if e.v j = 0 ∨ |1 / e.v j| > least * ratio then 0 else 1 / e.v j
      let pinv : Matrix (Fin (P + 1)) (Fin (P + 1)) K :=
        Matrix.of fun i k => ∑ j, e.w i j * vr j * e.w k j
      let x : Vec K (P + 1) := fun i => ∑ k, pinv i k * productRhs b.1 b.2 k
      fun i => x i.castSucc)

/-- `circumcenter`, `geometry/euclidian.py` lines 171-209, of a list of simplices -/
def circumcenter {P D : Nat}
    (eigh : Matrix (Fin (P + 1)) (Fin (P + 1)) K → Eigh (P + 1) K) (ratio : K)
    (batch : List (Matrix (Fin P) (Fin D) K)) : Except PyErr (List (Vec K D)) := do
  let mean : Matrix (Fin P) (Fin D) K → Vec K D := fun pts j => (∑ i, pts i j) / (P : K)
  let centered : List (Matrix (Fin P) (Fin D) K) :=
    batch.map fun pts => Matrix.of fun i j => pts i j - mean pts j
  let bary ← circumcenterBarycentric eigh ratio (centered.map fun pts => (pts, none))
  .ok (List.zipWith (fun (pts : Matrix (Fin P) (Fin D) K × Matrix (Fin P) (Fin D) K) b j =>
    ∑ i, pts.2 i j * b i + mean pts.1 j) (batch.zip centered) bary)

/-- `primal_position`, `complex/simplicial/euclidian.py` lines 129-139, for the elements of one
dimension: the corners and weights of the elements are given, and combined by the coordinates that
`primal_barycentric`, lines 116-127, finds for them -/
def primalPosition {P D : Nat}
    (eigh : Matrix (Fin (P + 1)) (Fin (P + 1)) K → Eigh (P + 1) K) (ratio : K)
    (batch : List (Matrix (Fin P) (Fin D) K × Option (Vec K P))) :
    Except PyErr (List (Vec K D)) := do
  let bary ← circumcenterBarycentric eigh ratio batch
  .ok (List.zipWith (fun (b : Matrix (Fin P) (Fin D) K × Option (Vec K P)) x j =>
    ∑ i, b.1 i j * x i) batch bary)

/-- the matrix of `circumcenter_barycentric_weighted`, lines 84-90: squared distances, less the
weights of both points -/
def distanceMatrix {P D : Nat} (pts : Matrix (Fin P) (Fin D) K) (weights : Option (Vec K P)) :
    Matrix (Fin (P + 1)) (Fin (P + 1)) K :=
  Matrix.of fun i k =>
    if hi : i.val < P then
      if hk : k.val < P then
        let delta : Vec K D := fun c => pts ⟨i, hi⟩ c - pts ⟨k, hk⟩ c
        match weights with
        | some w => dot delta delta - (w ⟨i, hi⟩ + w ⟨k, hk⟩)
        | none => dot delta delta
      else 1
    else if k.val < P then 1 else 0

/-- `circumcenter_barycentric_weighted`, `geometry/euclidian.py` lines 57-101, of one simplex.  An
eigenvalue zero gives `inf` in numpy and zero here. -/
def circumcenterBarycentricWeighted {P D : Nat}
    (eigh : Matrix (Fin (P + 1)) (Fin (P + 1)) K → Eigh (P + 1) K)
    (pts : Matrix (Fin P) (Fin D) K) (weights : Option (Vec K P)) : Vec K P :=
  let e := eigh (distanceMatrix pts weights)
  let vr : Vec K (P + 1) := fun j => 1 / e.v j
  let pinv : Matrix (Fin (P + 1)) (Fin (P + 1)) K :=
    Matrix.of fun i k => ∑ j, e.w i j * vr j * e.w k j
  let b : Vec K (P + 1) := fun i => if i.val < P then 0 else 1
  let x : Vec K (P + 1) := fun i => ∑ k, pinv i k * b k
  fun i => x i.castSucc

end

end Verif.Model
