/-
Model of what `pycomplex/complex/simplicial/base.py` and `pycomplex/complex/base.py` compute from the
circumcenters of a simplicial complex: `primal_barycentric`, `dual_edge_excess`, `remap_boundary_N`,
`remap_boundary_0`, the tests `positive_dual_metric`, `is_well_centered`, `is_pairwise_delaunay` and the
hodges.

Arithmetic is exact, over the real numbers.  `np.linalg.eigh` is a parameter, as in
`Verif.Model.Circumcenter`.
-/
import Verif.Model.Metric

namespace Verif.Model

/-- `xs[-1]` -/
def lastOf {α : Type} (xs : List α) : Except PyErr α :=
  match xs.getLast? with
  | some x => .ok x
  | none => .error .indexError

/-- `xs[-2]` -/
def lastButOne {α : Type} (xs : List α) : Except PyErr α := lastOf xs.dropLast

section

variable {D : Nat}

/-- `primal_barycentric`, `complex/simplicial/euclidian.py` lines 116-127, of all dimensions -/
noncomputable def primalBarycentric (eigh : (n : Nat) → Matrix (Fin n) (Fin n) ℝ → Eigh n ℝ) (ratio : ℝ)
    (t : Topo) (V : List (Vec ℝ D)) (weights : Option (List ℝ)) :
    Except PyErr (List (List (List ℝ))) :=
  t.elements.zipIdx.mapM fun ek => do
    let batch ← cornerBatch V weights (ek.2 + 1) ek.1
    let bary ← circumcenterBarycentric (eigh (ek.2 + 1 + 1)) ratio batch
    .ok (bary.map List.ofFn)

/-- `dual_edge_excess`, `complex/simplicial/base.py` lines 43-67 -/
noncomputable def dualEdgeExcess (eigh : (n : Nat) → Matrix (Fin n) (Fin n) ℝ → Eigh n ℝ) (ratio : ℝ)
    (t : Topo) (V : List (Vec ℝ D)) (weights : Option (List ℝ)) (signed : Bool) :
    Except PyErr (List (List ℝ)) := do
  let PP ← primalPositions eigh ratio t V weights
  let B ← lastOf t.boundary
  let top ← lastOf PP
  let faces ← lastButOne PP
  let d ← (top.zip B).mapM fun cb => cb.2.mapM fun i => do
    let f ← vertexAt faces i
    let delta : Vec ℝ D := fun j => cb.1 j - f j
    .ok (dot delta delta)
  if signed then do
    let bary ← primalBarycentric eigh ratio t V weights
    let b ← lastOf bary
    .ok (List.zipWith (List.zipWith fun x y => x * Real.sign y) d b)
  else .ok d

/-- `remap_boundary_N`, `complex/simplicial/base.py` lines 214-232 -/
noncomputable def remapBoundaryN (t : Topo) (field : List (List ℝ)) (oriented : Bool) :
    Except PyErr (List ℝ) := do
  let I ← lastOf t.boundary
  if oriented then do
    let O ← lastOf t.orientation
    .ok (groupSum I.flatten (List.zipWith (List.zipWith fun x (o : Int) => x * (o : ℝ)) field O).flatten)
  else .ok (groupSum I.flatten field.flatten)

/-- `remap_boundary_0`, `complex/simplicial/base.py` lines 234-250 -/
noncomputable def remapBoundary0 (t : Topo) (field : List (List ℝ)) : Except PyErr (List ℝ) := do
  let I ← lastOf t.elements
  .ok (groupSum I.flatten field.flatten)

/-- `is_pairwise_delaunay`, `complex/base.py` lines 255-258 -/
noncomputable def isPairwiseDelaunay (eigh : (n : Nat) → Matrix (Fin n) (Fin n) ℝ → Eigh n ℝ) (ratio : ℝ)
    (t : Topo) (V : List (Vec ℝ D)) (weights : Option (List ℝ)) : Except PyErr Bool := do
  let excess ← dualEdgeExcess eigh ratio t V weights true
  let sums ← remapBoundaryN t excess false
  .ok (sums.all fun x => decide (0 < x))

/-- `is_well_centered`, `complex/base.py` lines 250-253 -/
noncomputable def isWellCentered (eigh : (n : Nat) → Matrix (Fin n) (Fin n) ℝ → Eigh n ℝ) (ratio : ℝ)
    (t : Topo) (V : List (Vec ℝ D)) (weights : Option (List ℝ)) : Except PyErr Bool := do
  let bary ← primalBarycentric eigh ratio t V weights
  .ok (bary.all fun level => level.all fun row => row.all fun x => decide (0 < x))

/-- `positive_dual_metric`, `complex/base.py` lines 245-248 -/
noncomputable def positiveDualMetric (solve : List (List Int) → Option (List Int))
    (eigh : (n : Nat) → Matrix (Fin n) (Fin n) ℝ → Eigh n ℝ) (ratio : ℝ)
    (t : Topo) (V : List (Vec ℝ D)) (weights : Option (List ℝ)) : Except PyErr Bool := do
  let m ← metric solve eigh ratio t V weights
  .ok (m.2.all fun level => level.all fun x => decide (0 < x))

/-- `hodge_PD`, `complex/base.py` lines 234-238.  Division by zero gives `inf` in numpy and zero here. -/
noncomputable def hodgePD (m : List (List ℝ) × List (List ℝ)) : List (List ℝ) :=
  List.zipWith (List.zipWith fun p d => p / d) m.1 m.2.reverse

/-- `hodge_DP`, `complex/base.py` lines 239-243 -/
noncomputable def hodgeDP (m : List (List ℝ) × List (List ℝ)) : List (List ℝ) :=
  List.zipWith (List.zipWith fun p d => d / p) m.1 m.2.reverse

end

end Verif.Model
