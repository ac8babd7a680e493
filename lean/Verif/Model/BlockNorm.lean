/-
Model of `norm_l1` and `as_diagonal` of `pycomplex/block.py` and of their use in `balance` of
`examples/linear_system.py`.
-/
import Verif.Model.Block
import Mathlib.Algebra.Order.Group.Abs
import Mathlib.Algebra.Field.Defs

namespace Verif.Model

section

variable {R : Type} [CommRing R] [LinearOrder R]

/-- `norm(A)`, `block.py` lines 224-225, with `axis=1`: the sums of the absolute values of the rows; `np.abs(None)` raises a
`TypeError` -/
def blkNorm : Blk R → Except PyErr (List R)
  | some A => .ok ((List.range A.rows).map fun i => ((List.range A.cols).map fun j => |A.entry i j|).sum)
  | none => .error .typeError

/-- `a + b` of two vectors; numpy also repeats vectors of length one, which is not modelled: a `ValueError` for all unequal
lengths -/
def addVec (a b : List R) : Except PyErr (List R) :=
  if a.length = b.length then .ok (List.zipWith (· + ·) a b) else .error .valueError

/-- `sum([...])` of vectors, `block.py` lines 227-228: `0 + v` is `v`.  With no block column the sum is the number `0`; the model
returns an empty vector then. -/
def sumVecs : List (List R) → Except PyErr (List R)
  | [] => .ok []
  | v :: t => t.foldlM addVec v

/-- `BlockMatrix.norm_l1`, `block.py` lines 219-230, of a block matrix with `cols` block columns, for `axis` zero (`true`) and one
(`false`) -/
def normL1 (axis0 : Bool) (cols : Nat) (A : List (List (Blk R))) : Except PyErr (DenseBlock R) := do
  let l1s ← (if axis0 then blkTranspose cols A else A).mapM fun row => do
    let ns ← row.mapM blkNorm
    sumVecs ns
  .ok (mkDense l1s)

/-- `scipy.sparse.diags(b)` -/
def blockDiagsMat (b : List R) : Mat R := ⟨b.length, b.length, fun i j => if i = j then b[i]?.getD 0 else 0⟩

/-- `BlockMatrix.as_diagonal`, `block.py` lines 207-217.  `diag.ndim` is two if numpy has collapsed blocks of equal length. -/
def asDiagonal : DenseBlock R → Except PyErr (List (List (Blk R)))
  | .collapsed _ => .error .assertionError
  | .vec bs => .ok ((List.range bs.length).map fun i => (List.range bs.length).map fun j =>
      some (if i = j then blockDiagsMat (bs[i]?.getD []) else
        ⟨(bs[i]?.getD []).length, (bs[j]?.getD []).length, fun _ _ => 0⟩))

end

section

variable {K : Type} [Field K] [LinearOrder K]

/-- `1.0 / (self + reg)`, `__add__`, `__rtruediv__` and `broadcasting_operator`, `block.py` lines 100-127, with numbers: every number
in every block -/
def recipBlocks (reg : K) : DenseBlock K → DenseBlock K
  | .vec bs => .vec (bs.map (List.map fun x => 1 / (x + reg)))
  | .collapsed bs => .collapsed (bs.map (List.map fun x => 1 / (x + reg)))

/-- the matrix of `balance`, `examples/linear_system.py` lines 223-230, for `cols` block columns -/
def balance (reg : K) (cols : Nat) (A : List (List (Blk K))) : Except PyErr (List (List (Blk K))) := do
  let n ← normL1 false cols A
  let bal ← asDiagonal (recipBlocks reg n)
  blkMatMul A.length cols bal A

end

end Verif.Model
