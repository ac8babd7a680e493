/-
Model of `check_chain`, `pycomplex/topology/base.py` lines 198-205.

`n_dim` is the number of matrices (`topology/primal.py` line 48, `topology/dual.py` lines 20-22 and 67-69).
-/
import Verif.Model.Averaging

namespace Verif.Model

/-- `M.nnz` of a product of sparse matrices, which stores no zeros -/
def nnz (M : Mat Int) : Nat :=
  ((List.range M.rows).flatMap fun r => (List.range M.cols).filter fun c => M.entry r c ≠ 0).length

/-- the body of the loop, lines 203-205 -/
def checkPair (ms : List (Mat Int)) (i : Nat) : Except PyErr Unit := do
  match ms[i]?, ms[i + 1]? with
  | some a, some b =>
    let p ← mul8 a b
    if ¬ nnz p = 0 then .error .valueError else .ok ()
  | _, _ => .error .indexError

/-- `check_chain()`, lines 198-205 -/
def checkChain (ms : List (Mat Int)) : Except PyErr Unit := do
  let _ ← (List.range (ms.length - 2)).mapM (checkPair ms)
  .ok ()

end Verif.Model
