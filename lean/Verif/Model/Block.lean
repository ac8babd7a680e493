/-
Model of the block arrays of `pycomplex/block.py` and of the flattening of block arrays in
`pycomplex/stencil/block.py`.  Nested blocks are not modelled.
-/
import Verif.Model.Basic
import Mathlib.Algebra.Ring.Defs

namespace Verif.Model

/-! ### dense block vectors -/

/-- the object array held by a `DenseBlockArray` built from one-dimensional arrays: numpy keeps one
object per block, or collapses blocks of equal length into a two-dimensional array of numbers -/
inductive DenseBlock (R : Type) where
  | vec (blocks : List (List R))
  | collapsed (rows : List (List R))
  deriving DecidableEq

/-- `DenseBlockArray([b0, b1, ...])`, `block.py` lines 32-34: `np.asarray(block, dtype=object)` -/
def mkDense {R : Type} (blocks : List (List R)) : DenseBlock R :=
  match blocks with
  | [] => .vec []
  | b :: t => if t.all (fun c => c.length == b.length) then .collapsed (b :: t) else .vec (b :: t)

/-- `[0] + list(np.cumsum(axis))`, `block.py` line 295 -/
def splitPoints : Nat → List Nat → List Nat
  | acc, [] => [acc]
  | acc, n :: t => acc :: splitPoints (acc + n) t

/-- `x[s:e]` -/
def npSlice {R : Type} (x : List R) (s e : Nat) : List R := (x.drop s).take (e - s)

/-- `DenseBlockArray.split`, `block.py` lines 291-307, with `shape` (lines 46-55).  For a collapsed
array `shape` indexes axis 1 of a one-dimensional `take`: `IndexError` (if there is a column). -/
def DenseBlock.split {R : Type} (self : DenseBlock R) (x : List R) : Except PyErr (DenseBlock R) :=
  match self with
  | .vec blocks =>
    let splits := splitPoints 0 (blocks.map List.length)
    .ok (.vec ((List.range blocks.length).map fun c =>
      npSlice x (splits[c]?.getD 0) (splits[c + 1]?.getD 0)))
  | .collapsed _ => .error .indexError

/-- the array returned by `merge` -/
inductive Merged (R : Type) where
  | vector (v : List R)
  | matrix (rows : List (List R))
  deriving DecidableEq

/-- `DenseBlockArray.merge`, `block.py` lines 310-315: `np.block` concatenates the blocks; for a
collapsed array it builds a matrix -/
def DenseBlock.merge {R : Type} : DenseBlock R → Merged R
  | .vec blocks => .vector blocks.flatten
  | .collapsed rows => .matrix rows

/-! ### stencil block vectors -/

/-- an array with its shape and its data in C order -/
structure NdArray (R : Type) where
  shape : List Nat
  data : List R
  deriving DecidableEq

/-- the shape fits the data -/
def NdArray.Valid {R : Type} (a : NdArray R) : Prop := a.data.length = a.shape.prod

/-- `s.reshape(shape)`; `ValueError` on a size mismatch -/
def npReshape {R : Type} (shape : List Nat) (s : List R) : Except PyErr (NdArray R) :=
  if s.length = shape.prod then .ok ⟨shape, s⟩ else .error .valueError

/-- `np.split(x, indices)` for a list of split indices -/
def npSplit {R : Type} (x : List R) : Nat → List Nat → List (List R)
  | s, [] => [x.drop s]
  | s, e :: t => npSlice x s e :: npSplit x e t

/-- `BlockArray.to_dense`, `stencil/block.py` lines 137-139 -/
def stencilToDense {R : Type} (blocks : List (NdArray R)) : List R :=
  (blocks.map NdArray.data).flatten

/-- `BlockArray.from_dense`, `stencil/block.py` lines 141-148; `template` are the blocks of `self` -/
def stencilFromDense {R : Type} (template : List (NdArray R)) (x : List R) :
    Except PyErr (List (NdArray R)) :=
  let splits := template.map fun b => b.data.length
  if splits.sum ≠ x.length then .error .assertionError
  else ((npSplit x 0 splits.dropLast).zip template).mapM fun sb => npReshape sb.2.shape sb.1

/-! ### sparse block matrices -/

section

variable {R : Type} [CommRing R]

/-- `A + B` for sparse matrices; `ValueError` on inconsistent shapes -/
def Mat.add (A B : Mat R) : Except PyErr (Mat R) :=
  if A.rows = B.rows ∧ A.cols = B.cols then
    .ok ⟨A.rows, A.cols, fun i j => A.entry i j + B.entry i j⟩
  else .error .valueError

/-- an entry of the object array of blocks: a sparse matrix or `None` -/
abbrev Blk (R : Type) := Option (Mat R)

/-- `self.block[i, j] * other[j, k]`; `None` does not multiply: `TypeError` -/
def blkMul : Blk R → Blk R → Except PyErr (Mat R)
  | some A, some B => A.mul B
  | _, _ => .error .typeError

/-- the value of `output[i, k]` after the loop over `j`, `SparseBlockMatrix.__mul__`, `block.py`
lines 256-259: it starts as the number `0`, modelled by `none`, and `0 + M` is `M` -/
def blkAccumulate : Option (Mat R) → List (Blk R × Blk R) → Except PyErr (Option (Mat R))
  | acc, [] => .ok acc
  | acc, p :: t => do
    let m ← blkMul p.1 p.2
    let acc' ← match acc with
      | none => .ok m
      | some a => a.add m
    blkAccumulate (some acc') t

/-- column `k` of a block matrix -/
def blkColumn (B : List (List (Blk R))) (k : Nat) : List (Blk R) :=
  B.map fun row => (row[k]?).getD none

/-- `SparseBlockMatrix.__mul__` for two block matrices with `cols` and `ocols` block columns,
`block.py` lines 240-261.  The blocks must form an array: the number of block columns is passed
along.  (With no block column at all the entries would be the number `0`: `none`.) -/
def blkMatMul (cols ocols : Nat) (A B : List (List (Blk R))) :
    Except PyErr (List (List (Blk R))) :=
  if cols ≠ B.length then .error .assertionError
  else A.mapM fun row => (List.range ocols).mapM fun k => blkAccumulate none (row.zip (blkColumn B k))

/-- the position of a merged row: block number and row inside the block -/
def locate : List Nat → Nat → Nat × Nat
  | [], n => (0, n)
  | h :: t, n => if n < h then (0, n) else
    let r := locate t (n - h)
    (r.1 + 1, r.2)

/-- `scipy.sparse.bmat(blocks)`, used by `merge`, `block.py` lines 268-271: every block row needs a
common number of rows, every block column a common number of columns; missing blocks are zero;
`ValueError` otherwise.  The sizes are passed along. -/
def bmat (hs ws : List Nat) (A : List (List (Blk R))) : Except PyErr (Mat R) :=
  if A.length = hs.length ∧ ∀ i < hs.length, ∀ j < ws.length,
      ∀ M ∈ ((A[i]?.getD [])[j]?).getD none, M.rows = hs[i]?.getD 0 ∧ M.cols = ws[j]?.getD 0 then
    .ok ⟨hs.sum, ws.sum, fun I J =>
      let ia := locate hs I
      let jb := locate ws J
      match ((A[ia.1]?.getD [])[jb.1]?).getD none with
      | some M => M.entry ia.2 jb.2
      | none => 0⟩
  else .error .valueError

/-- `BlockArray.transpose`, `block.py` lines 80-90, of a block matrix with `cols` block columns -/
def blkTranspose (cols : Nat) (A : List (List (Blk R))) : List (List (Blk R)) :=
  (List.range cols).map fun j => (blkColumn A j).map fun b => b.map Mat.transpose

end

end Verif.Model
