/-
Model of the block operators of `pycomplex/stencil/block.py`, of the systems of
`pycomplex/stencil/linear_system.py` and of the smoothers of `pycomplex/stencil/equation.py`.

A two-dimensional object array of operators is its numbers of rows and columns and a function from
indices to operators, of which only the values inside these bounds are meaningful; likewise a block
vector.  The elements of a list of results are computed by `collect`.
-/
import Verif.Model.StencilOp
import Verif.Model.Stencil

namespace Verif.Model

/-- `[f(i) for i in range(n)]` -/
def collect {α : Type} (n : Nat) (dflt : α) (f : Nat → Except PyErr α) :
    Except PyErr (Nat → α) := do
  let l ← (List.range n).mapM f
  .ok fun i => l[i]?.getD dflt

/-- a `BlockOperator`: `block.shape == (rows, cols)` -/
structure BlockOp (S I R : Type) where
  rows : Nat
  cols : Nat
  block : Nat → Nat → Op S I R

/-- a one-dimensional `BlockArray` -/
structure BlockArr (S I R : Type) where
  size : Nat
  block : Nat → Arr S I R

section

variable {S I R : Type}

/-- `BlockOperator.zeros(L, R)`, `stencil/block.py` lines 181-189 -/
def BlockOp.zeros (m n : Nat) (l r : Nat → S) : BlockOp S I R :=
  ⟨m, n, fun i j => .zero (l i) (r j)⟩

/-- `self.block[i, j] = value` after the checks of `__setitem__`, `stencil/block.py` lines 118-149,
for an operator `value`: a failed assertion on the shapes is swallowed and ends in
`NotImplementedError` -/
def BlockOp.set [DecidableEq S] (A : BlockOp S I R) (i j : Nat) (value : Op S I R) :
    Except PyErr (BlockOp S I R) :=
  if i < A.rows ∧ j < A.cols ∧ (A.block i j).rows = value.rows ∧ (A.block i j).cols = value.cols then
    .ok ⟨A.rows, A.cols, fun i' j' => if i' = i ∧ j' = j then value else A.block i' j'⟩
  else .error .notImplementedError

/-- `self[i, i] = 1`, lines 126-131: the identity of the shape of the entry -/
def BlockOp.setOne [DecidableEq S] (A : BlockOp S I R) (i j : Nat) : Except PyErr (BlockOp S I R) :=
  if i < A.rows ∧ j < A.cols ∧ (A.block i j).rows = (A.block i j).cols then
    .ok ⟨A.rows, A.cols, fun i' j' =>
      if i' = i ∧ j' = j then .identity (A.block i j).rows else A.block i' j'⟩
  else .error .notImplementedError

/-- `BlockOperator.identity(L)`, lines 191-196 -/
def BlockOp.identity [DecidableEq S] (m : Nat) (l : Nat → S) : Except PyErr (BlockOp S I R) :=
  (List.range m).foldlM (fun A i => A.setOne i i) (BlockOp.zeros m m l l)

/-- `transpose()`, lines 57-67 -/
def BlockOp.transpose (A : BlockOp S I R) : BlockOp S I R :=
  ⟨A.cols, A.rows, fun i j => (A.block j i).transpose⟩

/-- `vector_mul`, lines 279-288.  (All of the shapes `L` are read before the loop, here each before
its own row: another exception would be raised if both fail.) -/
def BlockOp.vecMul [DecidableEq S] [CommRing R] (A : BlockOp S I R) (x : BlockArr S I R) :
    Except PyErr (BlockArr S I R) := do
  if A.cols = 0 ∧ 0 < A.rows then .error .indexError
  else do
    let out ← collect A.rows (Arr.zeros (A.block 0 0).rows) fun i =>
      (List.range A.cols).foldlM (fun acc j =>
        if (A.block i j).isZeroOp then .ok acc
        else if j < x.size then do
          let y ← (A.block i j).call (x.block j)
          acc.add y
        else .error .indexError) (Arr.zeros (A.block i 0).rows)
    .ok ⟨A.rows, out⟩

section

variable [DecidableEq S] [Field R] [LinearOrder R]

/-- `self * other` for two block operators, lines 247-277.  The three loops over `i`, `j`, `k` update
every entry `output[i, k]` on its own; here the loop over `j` is the innermost. -/
def BlockOp.mul (dom : S → Finset I) (A B : BlockOp S I R) : Except PyErr (BlockOp S I R) := do
  if A.cols = B.rows then
    if A.cols = 0 then .error .indexError
    else do
      let out ← collect A.rows (fun _ => A.block 0 0) fun i =>
        collect B.cols (A.block 0 0) fun k =>
          (List.range A.cols).foldlM (fun acc j =>
            if (A.block i j).isZeroOp then .ok acc
            else do
              let p ← (A.block i j).mul dom (B.block j k)
              acc.add dom p) (Op.zero (A.block i 0).rows (B.block 0 k).cols)
      .ok ⟨A.rows, B.cols, out⟩
  else .error .assertionError

/-- `simplify()`, lines 105-106 with `apply`, lines 52-55 -/
def BlockOp.simplify (dom : S → Finset I) (A : BlockOp S I R) : Except PyErr (BlockOp S I R) := do
  let out ← collect A.rows (fun _ => A.block 0 0) fun i =>
    collect A.cols (A.block 0 0) fun j => (A.block i j).simplify dom
  .ok ⟨A.rows, A.cols, out⟩

end

/-! ### systems -/

/-- a `System`, `stencil/linear_system.py` lines 16-36, without the complex and the lists `L` and
`R` of form degrees -/
structure StencilSystem (S I R : Type) where
  A : BlockOp S I R
  B : BlockOp S I R

section

variable {N : Nat} [Field R] [LinearOrder R]

/-- `hodge[n]` of a `StencilComplex`, `stencil/complex.py` lines 85-91 -/
def stencilHodge (t : StencilTopology N) (scale : R) (n : Nat) :
    Op (FormShape N) (FormIndex N) R :=
  .diagonal true (fun _ => scale ^ ((N : Int) - (n : Int) * 2)) (n, t.shape)

/-- `System.canonical(complex)`, `stencil/linear_system.py` lines 45-129 -/
def canonicalSystem (t : StencilTopology N) (garbage : Nat → (Fin N → Nat) → R) (scale : R) :
    Except PyErr (StencilSystem (FormShape N) (FormIndex N) R) := do
  let ne : Nat → FormShape N := fun n => (n, t.shape)
  let A := BlockOp.zeros (N + 1) (N + 1) ne ne
  let B ← BlockOp.identity (N + 1) ne
  let A ← (List.range N).foldlM (fun A i => do
    let down ← (stencilHodge t scale (i + 1)).mul t.dom (t.primal garbage i)
    let A ← A.set (i + 1) i down
    let up ← (t.dual garbage i).mul t.dom (stencilHodge t scale (i + 1))
    A.set i (i + 1) up) A
  let A ← (List.range (N + 1)).foldlM (fun A i => A.set i i (stencilHodge t scale i)) A
  .ok ⟨A, B⟩

end

section

variable [DecidableEq S] [Field R] [LinearOrder R]

/-- `normal()`, `stencil/linear_system.py` lines 154-168 -/
def StencilSystem.normal (dom : S → Finset I) (s : StencilSystem S I R) :
    Except PyErr (StencilSystem S I R) := do
  let AT := s.A.transpose
  let a ← AT.mul dom s.A
  let a ← a.simplify dom
  let b ← AT.mul dom s.B
  let b ← b.simplify dom
  .ok ⟨a, b⟩

/-- `normal_ne()`, lines 170-192 -/
def StencilSystem.normalNe (dom : S → Finset I) (s : StencilSystem S I R) :
    Except PyErr (StencilSystem S I R) := do
  let AT := s.A.transpose
  let a ← s.A.mul dom AT
  let a ← a.simplify dom
  .ok ⟨a, s.B⟩

end

end

end Verif.Model
