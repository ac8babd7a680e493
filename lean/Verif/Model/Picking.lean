/-
Model of the lookup of simplices and of linear interpolation over them,
`pycomplex/complex/simplicial/base.py` lines 329-426 and 531-548, for euclidian complexes.

Arithmetic is exact, over the real numbers.  `np.linalg.eigh` is a parameter, as in
`Verif.Model.Circumcenter`, and so are `scipy.sparse.linalg.minres` and the query of a `cKDTree`.
The cached properties are computed where they are read.
-/
import Verif.Model.Delaunay
import Verif.Model.Boundary
import Verif.Model.Sampling
import Mathlib.LinearAlgebra.Matrix.NonsingularInverse

namespace Verif.Model

/-- `A * x` for a sparse matrix of signs and an array; `ValueError` if the lengths differ -/
noncomputable def sparseApply (A : Mat Int) (x : List ℝ) : Except PyErr (List ℝ) :=
  if A.cols = x.length then
    .ok ((List.range A.rows).map fun i =>
      ((List.range A.cols).map fun j => (A.entry i j : ℝ) * x[j]?.getD 0).sum)
  else .error .valueError

/-- `a[i]` for an index that is not negative -/
def itemAt {α : Type} (xs : List α) (i : Nat) : Except PyErr α :=
  match xs[i]? with
  | some x => .ok x
  | none => .error .indexError

section

variable {D : Nat}

/-- `homogenize`, `complex/simplicial/euclidian.py` lines 24-35, of one point -/
def homogenize (p : Vec ℝ D) : Vec ℝ (D + 1) := Fin.snoc p 1

/-- `np.linalg.inv(self.homogenize(corners))`, line 367, for one simplex: `LinAlgError` (here
`ValueError`) if the matrix is not square or singular -/
noncomputable def invertBasis {P : Nat} (corners : Matrix (Fin P) (Fin D) ℝ) :
    Except PyErr (Matrix (Fin (D + 1)) (Fin (D + 1)) ℝ) :=
  if h : D + 1 = P then
    let H : Matrix (Fin (D + 1)) (Fin (D + 1)) ℝ := Matrix.of fun i => homogenize (corners (Fin.cast h i))
    if H.det = 0 then .error .valueError else .ok H⁻¹
  else .error .valueError

/-- the weights of `pick_primal_precomp`, lines 349-361.  `minres` is a parameter.  The products of
the matrices of signs are computed with integers; `int8` would overflow from dimension 127 on. -/
noncomputable def pickWeights (solve : List (List Int) → Option (List Int))
    (uniq : List (List Nat) → List (List Nat))
    (eigh : (n : Nat) → Matrix (Fin n) (Fin n) ℝ → Eigh n ℝ) (ratio : ℝ)
    (minres : Mat Int → List ℝ → List ℝ)
    (t : Topo) (V : List (Vec ℝ D)) (weights : Option (List ℝ)) : Except PyErr (List ℝ) := do
  let n := t.boundary.length
  let ee ← dualEdgeExcess eigh ratio t V weights false
  let S := selectorInterior solve uniq t (n - 1)
  let sums ← remapBoundaryN t ee true
  let q ← sparseApply S sums
  let T ← S.mul (t.matrix (n - 1))
  let L ← T.transpose.mul T
  let rhs ← sparseApply T.transpose q
  let mean := rhs.sum / (rhs.length : ℝ)
  .ok (minres L (rhs.map fun x => x - mean))

/-- `pick_primal_precomp`, lines 329-368: the points of the tree and the inverted bases -/
noncomputable def pickPrimalPrecomp (solve : List (List Int) → Option (List Int))
    (uniq : List (List Nat) → List (List Nat))
    (eigh : (n : Nat) → Matrix (Fin n) (Fin n) ℝ → Eigh n ℝ) (ratio : ℝ)
    (minres : Mat Int → List ℝ → List ℝ)
    (t : Topo) (V : List (Vec ℝ D)) (weights : Option (List ℝ)) (weight : Bool) :
    Except PyErr (List (List ℝ) × List (Matrix (Fin (D + 1)) (Fin (D + 1)) ℝ)) := do
  let delaunay ← isPairwiseDelaunay eigh ratio t V weights
  if !delaunay then .error .assertionError
  else do
    let n := t.boundary.length
    let top ← lastOf t.elements
    let corners ← cornerBatch V none (n + 1) top
    let bary ← primalBarycentric eigh ratio t V weights
    let b ← lastOf bary
    let dual : List (List ℝ) := List.zipWith
      (fun (c : Matrix (Fin (n + 1)) (Fin D) ℝ × Option (Vec ℝ (n + 1))) (x : List ℝ) =>
        List.ofFn fun j => ∑ i, c.1 i j * x[i.val]?.getD 0) corners b
    let points ← if weight then do
        let w ← pickWeights solve uniq eigh ratio minres t V weights
        augmentWeights dual w
      else .ok dual
    let basis ← corners.mapM fun c => invertBasis c.1
    .ok (points, basis)

/-- `np.einsum('tcv,tc->tv', basis[idx], homogeneous)`, line 409, for one point -/
noncomputable def baryOf (basis : List (Matrix (Fin (D + 1)) (Fin (D + 1)) ℝ)) (i : Nat) (p : Vec ℝ D) :
    Except PyErr (Vec ℝ (D + 1)) := do
  let b ← itemAt basis i
  .ok fun v => ∑ c, b c v * homogenize p c

/-- the function `query` of `pick_primal`, lines 405-410, for one point.  `nearest points p` stands for
`cKDTree(points).query(p)`. -/
noncomputable def queryPrimal (nearest : List (List ℝ) → List ℝ → Nat) (weighted : Bool)
    (pre : List (List ℝ) × List (Matrix (Fin (D + 1)) (Fin (D + 1)) ℝ)) (p : Vec ℝ D) :
    Except PyErr (Nat × Vec ℝ (D + 1)) := do
  let i := nearest pre.1 (if weighted then augmentZero (List.ofFn p) else List.ofFn p)
  let b ← baryOf pre.2 i p
  .ok (i, b)

/-- `pick_primal`, lines 378-426.  A `simplex_idx` whose length is not that of `points` is rejected
here; numpy accepts a length of one. -/
noncomputable def pickPrimal (solve : List (List Int) → Option (List Int))
    (uniq : List (List Nat) → List (List Nat))
    (eigh : (n : Nat) → Matrix (Fin n) (Fin n) ℝ → Eigh n ℝ) (ratio : ℝ)
    (minres : Mat Int → List ℝ → List ℝ) (nearest : List (List ℝ) → List ℝ → Nat)
    (t : Topo) (V : List (Vec ℝ D)) (weights : Option (List ℝ))
    (points : List (Vec ℝ D)) (simplexIdx : Option (List Nat)) (weighted : Bool) :
    Except PyErr (List (Nat × Vec ℝ (D + 1))) := do
  let delaunay ← isPairwiseDelaunay eigh ratio t V weights
  if !delaunay then .error .assertionError
  else do
    let pre ← pickPrimalPrecomp solve uniq eigh ratio minres t V weights weighted
    let found ← match simplexIdx with
      | none => points.mapM (queryPrimal nearest weighted pre)
      | some idx =>
        if points.length = idx.length then
          (points.zip idx).mapM fun pi => do
            let b ← baryOf pre.2 pi.2 pi.1
            if ∃ v, b v < 0 then queryPrimal nearest weighted pre pi.1 else .ok (pi.2, b)
        else .error .valueError
    .ok (found.map fun ib => (ib.1, fun v => ib.2 v / ∑ u, ib.2 u))

/-- `sample_primal_0`, lines 531-548 -/
noncomputable def samplePrimalSimplex (solve : List (List Int) → Option (List Int))
    (uniq : List (List Nat) → List (List Nat))
    (eigh : (n : Nat) → Matrix (Fin n) (Fin n) ℝ → Eigh n ℝ) (ratio : ℝ)
    (minres : Mat Int → List ℝ → List ℝ) (nearest : List (List ℝ) → List ℝ → Nat)
    (t : Topo) (V : List (Vec ℝ D)) (weights : Option (List ℝ)) (p0 : List ℝ) (points : List (Vec ℝ D)) :
    Except PyErr (List ℝ) := do
  let picked ← pickPrimal solve uniq eigh ratio minres nearest t V weights points none true
  let simplices ← lastOf t.elements
  picked.mapM fun ib => do
    let row ← itemAt simplices ib.1
    let values ← rowValues p0 (D + 1) row
    .ok (∑ v, values v * ib.2 v)

end

end Verif.Model
