/-
Model of `shape`, `compatible` and `square` of `pycomplex/block.py` and of `shape`, `is_compatible` and `is_square` of
`pycomplex/stencil/block.py`.  Nested block arrays are not modelled.
-/
import Verif.Model.Basic

namespace Verif.Model

/-- an object array of blocks: its shape, and the shape of the block at every index -/
structure ObjArr where
  shape : List Nat
  leaf : List Nat → List Nat

/-- `self.block.take(i, axis=n).shape`, `block.py` line 54: the block itself for a one-dimensional array of blocks, an array of blocks
with one axis less for all others -/
def ObjArr.takeShape (b : ObjArr) (n i : Nat) : List Nat :=
  if b.shape.length = 1 then b.leaf [i] else b.shape.eraseIdx n

/-- `shape`, `block.py` lines 45-54, `stencil/block.py` lines 40-49 -/
def ObjArr.blockShape (b : ObjArr) : Except PyErr (List (List Nat)) :=
  (List.range b.shape.length).mapM fun n => (List.range (b.shape[n]?.getD 0)).mapM fun i =>
    match (b.takeShape n i)[n]? with
    | some s => .ok s
    | none => .error .indexError

/-- `compatible`, `block.py` lines 39-43 (it returns `None`), and `is_compatible`, `stencil/block.py` lines 34-38: the shape is computed, nothing is
compared -/
def ObjArr.isCompatible (b : ObjArr) : Except PyErr Bool := do
  let _ ← b.blockShape
  .ok true

/-- `np.array(lists).T` of lists of one length; a `ValueError` for others -/
def transposeLists (l : List (List Nat)) : Except PyErr (List (List Nat)) :=
  match l with
  | [] => .ok []
  | a :: t => if t.all fun c => c.length == a.length then .ok ((List.range a.length).map fun i => (a :: t).map fun c => c[i]?.getD 0)
    else .error .valueError

/-- `square`, `block.py` lines 191-195, and `is_square`, `stencil/block.py` lines 198-202 -/
def ObjArr.isSquare (b : ObjArr) : Except PyErr Bool := do
  let s ← b.blockShape
  let t ← transposeLists s
  match t with
  | [r, c] => .ok (r == c)
  | _ => .error .valueError

end Verif.Model
