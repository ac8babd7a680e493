/-
Model of sums and differences of the block operators of `pycomplex/stencil/block.py`.
-/
import Verif.Model.StencilBlock

namespace Verif.Model

/-- the length of an axis after `np.broadcast_arrays` -/
def bcastLength (a b : Nat) : Except PyErr Nat :=
  if a = b then .ok a
  else if a = 1 then .ok b
  else if b = 1 then .ok a
  else .error .valueError

section

variable {S I R : Type}

/-- the entry of a broadcast array: axes of length one are repeated -/
def BlockOp.bcastEntry (A : BlockOp S I R) (i j : Nat) : Op S I R :=
  A.block (if A.rows = 1 then 0 else i) (if A.cols = 1 then 0 else j)

/-- `broadcasting_operator(other, op)` of two block operators, `stencil/block.py` lines 69-82 -/
def BlockOp.broadcasting (op : Op S I R → Op S I R → Except PyErr (Op S I R)) (A B : BlockOp S I R) :
    Except PyErr (BlockOp S I R) := do
  let r ← bcastLength A.rows B.rows
  let c ← bcastLength A.cols B.cols
  let out ← collect r (fun _ => A.block 0 0) fun i =>
    collect c (A.block 0 0) fun j => op (A.bcastEntry i j) (B.bcastEntry i j)
  .ok ⟨r, c, out⟩

/-- `A + B`, lines 84-86 -/
def BlockOp.add [DecidableEq S] [Field R] [LinearOrder R] (dom : S → Finset I) (A B : BlockOp S I R) :
    Except PyErr (BlockOp S I R) :=
  BlockOp.broadcasting (fun a b => a.add dom b) A B

/-- `a - b` of two operators: the class `StencilOperator`, `stencil/operator.py` lines 8-80, and its subclasses have no `__sub__` -/
def Op.sub (_ _ : Op S I R) : Except PyErr (Op S I R) := .error .typeError

/-- `A - B`, lines 88-90 -/
def BlockOp.sub (A B : BlockOp S I R) : Except PyErr (BlockOp S I R) :=
  BlockOp.broadcasting Op.sub A B

end

end Verif.Model
