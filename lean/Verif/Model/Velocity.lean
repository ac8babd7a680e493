/-
Model of `dual_flux_to_dual_velocity`, `pycomplex/complex/base.py` lines 344-446, for Euclidean simplicial
complexes, and of `simplex_normals` and `simplex_gradients`, `pycomplex/geometry/euclidian.py` lines 361-395.

Arithmetic is exact, over the real numbers.  `np.linalg.svd` is a parameter, as in
`Verif.Model.Circumcenter`, for matrices of every size.  The flux has no axes after the first one; the code
treats such axes column by column.
-/
import Verif.Model.Delaunay
import Verif.Model.Boundary
import Verif.Model.Spherical

namespace Verif.Model

section

variable {P d : Nat}

/-- `simplex_normals`, `geometry/euclidian.py` lines 361-376, of one simplex: the columns of the
pseudoinverse of the corners around their mean, at unit length.  A row of `nan` is `none`. -/
noncomputable def simplexNormals (svd : (a b : Nat) → Matrix (Fin a) (Fin b) ℝ → Svd a b ℝ) (r : ℝ)
    (corners : Matrix (Fin (P + 1)) (Fin (d + 1)) ℝ) : Except PyErr (Fin (P + 1) → Option (Vec ℝ (d + 1))) := do
  let moved : Matrix (Fin (P + 1)) (Fin (d + 1)) ℝ :=
    Matrix.of fun i j => corners i j - (∑ k, corners k j) / ((P + 1 : ℕ) : ℝ)
  let g ← pinv r (svd (P + 1) (d + 1) moved)
  .ok fun i => normalizedNan fun k => g k i

/-- `np.roll(corners, -i, axis=-2)[..., 1:, :]`, `geometry/euclidian.py` line 394: the corners after corner
`i`, and from the first one on again -/
def rolledFace {N : Nat} (corners : Matrix (Fin (P + 1)) (Fin N) ℝ) (i : Fin (P + 1)) :
    Matrix (Fin P) (Fin N) ℝ :=
  Matrix.of fun k => corners ⟨(i.val + 1 + k.val) % (P + 1), Nat.mod_lt _ (Nat.succ_pos P)⟩

/-- `simplex_gradients`, `geometry/euclidian.py` lines 379-395, of one simplex -/
noncomputable def simplexGradients (svd : (a b : Nat) → Matrix (Fin a) (Fin b) ℝ → Svd a b ℝ) (r : ℝ)
    (corners : Matrix (Fin (P + 1)) (Fin (d + 1)) ℝ) : Except PyErr (Fin (P + 1) → Option (Vec ℝ (d + 1))) := do
  let normals ← simplexNormals svd r corners
  let areas ← (List.finRange (P + 1)).mapM fun i => unsignedVolume (rolledFace corners i)
  .ok fun i => (normals i).map fun v k => v k * areas[i.val]?.getD 0

/-- the rows, if none of them is `nan` -/
noncomputable def wholeRows {m N : Nat} (g : Fin m → Option (Vec ℝ N)) : Option (Matrix (Fin m) (Fin N) ℝ) :=
  if ∀ i, (g i).isSome then some (Matrix.of fun i => (g i).getD 0) else none

/-- `complex/base.py` lines 392-395: the inverse on the plane of the element of dimension `n`:
`s[:, n:] = np.inf; s = 1 / s; np.einsum('...ij,...j,...jk->...ki', u[..., :s.shape[-1]], s, v)`.  A zero
among the first `n` singular values gives `inf` in numpy and zero here. -/
noncomputable def planeInverse {m : Nat} (n : Nat) (f : Svd (m + 1) (d + 1) ℝ) :
    Except PyErr (Matrix (Fin (d + 1)) (Fin (m + 1)) ℝ) :=
  let s : Fin (min (m + 1) (d + 1)) → ℝ := fun j => if j.val < n then 1 / f.s j else 0
  if d ≤ m then
    .ok (Matrix.of fun k i => ∑ j : Fin (min (m + 1) (d + 1)),
      f.u i (Fin.castLE (by omega) j) * s j * f.v (Fin.castLE (by omega) j) k)
  else .error .valueError

/-- `self.topology.dual.n_elements`, `topology/dual.py` lines 25-26 and 77-95, at the index that belongs to
the primal elements of dimension `k`; with the tests of `topology/primal.py` lines 126-136 -/
def dualElements (solve : List (List Int) → Option (List Int)) (uniq : List (List Nat) → List (List Nat))
    (t : Topo) (k : Nat) : Except PyErr Nat := do
  match ← boundary solve uniq t with
  | none => .ok (t.nElements k)
  | some s => do
    let oriented ← isOriented solve s.topo
    if !oriented then .error .valueError
    else .ok (t.nElements k + if k = 0 then 0 else s.topo.nElements (k - 1))

/-- `complex/base.py` lines 378 and 391-395, of one element: the gradients and their inverse.  A `nan` among
the gradients makes `np.linalg.svd` raise. -/
noncomputable def elementInverse (n : Nat) (svd : (a b : Nat) → Matrix (Fin a) (Fin b) ℝ → Svd a b ℝ) (r : ℝ)
    (V : List (Vec ℝ (d + 1))) (e : List Nat) : Except PyErr (Matrix (Fin (d + 1)) (Fin (n + 1)) ℝ) := do
  let x ← rowValues V (n + 1) e
  let g ← simplexGradients svd r (Matrix.of x)
  match wholeRows g with
  | none => .error .valueError
  | some G => planeInverse n (svd (n + 1) (d + 1) G)

/-- `dual_flux_to_dual_velocity`, `complex/base.py` lines 367-446, applied to a flux, for `n` dimensions.  The
matrix product `bpinv * s * pd * S` is written entry by entry; `P` appends zeros. -/
noncomputable def velocityOfFlux (n : Nat) (solve : List (List Int) → Option (List Int))
    (uniq : List (List Nat) → List (List Nat)) (eigh : (n : Nat) → Matrix (Fin n) (Fin n) ℝ → Eigh n ℝ) (ratio : ℝ)
    (svd : (a b : Nat) → Matrix (Fin a) (Fin b) ℝ → Svd a b ℝ) (r : ℝ) (t : Topo) (V : List (Vec ℝ (d + 1)))
    (weights : Option (List ℝ)) (flux : List ℝ) : Except PyErr (List (Vec ℝ (d + 1))) := do
  let B ← lastOf t.boundary
  let O ← lastOf t.orientation
  let top ← lastOf t.elements
  let inverses ← top.mapM fun e => elementInverse n svd r V e
  let m ← metric solve eigh ratio t V weights
  let pd ← lastButOne (hodgePD m)
  let n1 ← dualElements solve uniq t (n - 1)
  let n0 ← dualElements solve uniq t n
  if flux.length ≠ n1 then .error .valueError
  else do
    let inner := flux.take (t.nElements (n - 1))
    let scaled := List.zipWith (· * ·) pd inner
    let velocity : List (Vec ℝ (d + 1)) := List.zipWith (fun X (bo : List Nat × List Int) =>
      let rhs : List ℝ := List.zipWith (fun b (o : Int) => (o : ℝ) * scaled[b]?.getD 0) bo.1 bo.2
      fun k => ∑ i : Fin (n + 1), X k i * rhs[i.val]?.getD 0) inverses (B.zip O)
    .ok (velocity ++ List.replicate (n0 - t.nElements n) 0)

/-- `dual_flux_to_dual_velocity`, `complex/base.py` lines 344-446, with the test of line 366 -/
noncomputable def dualFluxToDualVelocity (solve : List (List Int) → Option (List Int))
    (uniq : List (List Nat) → List (List Nat)) (eigh : (n : Nat) → Matrix (Fin n) (Fin n) ℝ → Eigh n ℝ) (ratio : ℝ)
    (svd : (a b : Nat) → Matrix (Fin a) (Fin b) ℝ → Svd a b ℝ) (r : ℝ) (t : Topo) (V : List (Vec ℝ (d + 1)))
    (weights : Option (List ℝ)) (flux : List ℝ) : Except PyErr (List (Vec ℝ (d + 1))) := do
  let delaunay ← isPairwiseDelaunay eigh ratio t V weights
  if !delaunay then .error .assertionError
  else velocityOfFlux t.boundary.length solve uniq eigh ratio svd r t V weights flux

end

end Verif.Model
