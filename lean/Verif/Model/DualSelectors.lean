/-
Model of the numbers of elements and of the selectors of the dual of a topology, and of `matrices_2`,
`pycomplex/topology/dual.py` lines 24-26, 32-48, 76-80, 86-95 and 102-147.
-/
import Verif.Model.DualAveraging

namespace Verif.Model

/-- `scipy.sparse.eye(m, n)` -/
def eyeMat (m n : Nat) : Mat Int := ⟨m, n, fun i j => if i = j then 1 else 0⟩

/-- `A[p:, :]` -/
def dropRows (A : Mat Int) (p : Nat) : Mat Int := ⟨A.rows - p, A.cols, fun i j => A.entry (p + i) j⟩

/-- `dual.n_elements`, lines 24-26, 76-80 and 86-95, of a topology with the given `boundary` -/
def dualNElements (t : Topo) (b : Option Sub) : List Nat :=
  match b with
  | none => (t.elements.map List.length).reverse
  | some s => (List.zipWith (· + ·) (t.elements.map List.length) (0 :: s.topo.elements.map List.length)).reverse

/-- `dual.selector_interior`, lines 36-41 and 117-131 -/
def dualSelectorInterior (t : Topo) (b : Option Sub) : List (Mat Int) :=
  match b with
  | none => t.elements.map fun e => eyeMat e.length e.length
  | some s => List.zipWith eyeMat (t.elements.map List.length) (dualNElements t (some s)).reverse

/-- `dual.selector_boundary`, lines 43-48 and 133-147 -/
def dualSelectorBoundary (t : Topo) (b : Option Sub) : List (Mat Int) :=
  match b with
  | none => t.elements.map fun e => ⟨0, e.length, fun _ _ => 0⟩
  | some s => List.zipWith (fun p d => dropRows (eyeMat d d) p) (t.elements.map List.length)
      (dualNElements t (some s)).reverse

/-- `dual.matrices_2`, lines 32-34 and 102-115; products of `int8` matrices -/
def dualMatrices2 (solve : List (List Int) → Option (List Int)) (t : Topo) (b : Option Sub) :
    Except PyErr (List (Mat Int)) := do
  let M ← dualMatrices solve t b
  match b with
  | none => .ok M
  | some s => (M.zip (dualSelectorInterior t (some s)).reverse.tail).mapM fun ms => mul8 ms.1 ms.2.transpose

end Verif.Model
