/-
Model of `Dual.transfer_matrices`, `pycomplex/topology/dual.py` lines 175-194.
-/
import Verif.Model.DualAveraging

namespace Verif.Model

/-- `selector_boundary` of a topology whose `boundary` is `s`, `topology/primal.py` lines 265-282 -/
def boundarySelectors (t : Topo) (s : Sub) : List (Mat Int) := (List.range t.elements.length).map (boundarySelector t s)

/-- `scipy.sparse.bmat([[A, None], [None, B]])` -/
def blockDiag (A B : Mat Int) : Mat Int where
  rows := A.rows + B.rows
  cols := A.cols + B.cols
  entry i j :=
    if i < A.rows then (if j < A.cols then A.entry i j else 0)
    else (if j < A.cols then 0 else B.entry (i - A.rows) (j - A.cols))

/-- `Dual.transfer_matrices`, from the `transfer_matrices` of the fine primal and the `selector_boundary` of the fine and the
coarse one; products of `int8` matrices -/
def dualTransfer (T Sf Sc : List (Mat Int)) : Except PyErr (List (Mat Int)) := do
  let blocks ← ((T.tail.zip T).zip (Sf.zip Sc)).mapM fun x => do
    let p ← mul8 x.2.1 x.1.2
    let q ← mul8 p x.2.2.transpose
    .ok (blockDiag x.1.1 q)
  match T with
  | [] => .error .indexError
  | t0 :: _ => .ok (t0 :: blocks).reverse

end Verif.Model
