/-
Model of the smoothers of `pycomplex/stencil/equation.py` and of `BlockOperator.diagonal` in
`pycomplex/stencil/block.py`.

Block vectors are the `BlockArr` of `Verif.Model.StencilBlock`: a list of arrays.  Not modelled:
`np.asarray(blocks, object)` turns a list of arrays that all have the same shape into one array, so
that some of these functions raise in one dimension or with a single block; and `x[i] = value` for
an array `value` of one element that equals 0 or 1, which is replaced by an operator.
-/
import Verif.Model.StencilBlock

namespace Verif.Model

section

variable {S I R : Type}

/-- pointwise operations on two arrays; arrays of different shape would be broadcast or raise
`ValueError`, the model raises -/
def Arr.zipWith [DecidableEq S] (f : R → R → R) (a b : Arr S I R) : Except PyErr (Arr S I R) :=
  if a.shape = b.shape then .ok ⟨a.shape, fun i => f (a.val i) (b.val i)⟩ else .error .valueError

/-- `a * c` for a number `c` -/
def Arr.scale [Mul R] (c : R) (a : Arr S I R) : Arr S I R := ⟨a.shape, fun i => a.val i * c⟩

/-- `broadcasting_operator` for two block vectors, `stencil/block.py` lines 69-82, without the
broadcasting of a single block -/
def BlockArr.zipWith [DecidableEq S] [Zero R] (f : R → R → R) (a b : BlockArr S I R) :
    Except PyErr (BlockArr S I R) :=
  if a.size = b.size then do
    let out ← collect a.size (a.block 0) fun i => (a.block i).zipWith f (b.block i)
    .ok ⟨a.size, out⟩
  else .error .valueError

/-- `x * c` for a block vector and a number, lines 69-82 -/
def BlockArr.scale [Mul R] (c : R) (a : BlockArr S I R) : BlockArr S I R :=
  ⟨a.size, fun i => (a.block i).scale c⟩

/-- `x[i] = value` for an array `value` that has not exactly one element, lines 118-149 -/
def BlockArr.set [DecidableEq S] (x : BlockArr S I R) (i : Nat) (value : Arr S I R) :
    Except PyErr (BlockArr S I R) :=
  if i < x.size ∧ (x.block i).shape = value.shape then
    .ok ⟨x.size, fun j => if j = i then value else x.block j⟩
  else .error .notImplementedError

end

section

variable {S I R : Type} [DecidableEq S] [Field R] [LinearOrder R]

/-- `residual(x, y)`, `stencil/equation.py` lines 15-16 -/
def StencilSystem.residual (s : StencilSystem S I R) (x y : BlockArr S I R) :
    Except PyErr (BlockArr S I R) := do
  let ax ← s.A.vecMul x
  let b ← s.B.vecMul y
  ax.zipWith (· - ·) b

/-- `jacobi(x, y, relaxation)`, lines 106-114; `dinv` is `self.inverse_normal_diagonal` -/
def StencilSystem.jacobi (s : StencilSystem S I R) (dinv x y : BlockArr S I R) (relaxation : R) :
    Except PyErr (BlockArr S I R) := do
  let r ← s.residual x y
  let residual ← s.A.transpose.vecMul r
  let d ← dinv.zipWith (· * ·) residual
  x.zipWith (· - ·) (d.scale (relaxation / 2))

/-- `overrelax(x, y, knots)`, lines 147-160 -/
def StencilSystem.overrelax (s : StencilSystem S I R) (dinv y : BlockArr S I R) (knots : List R)
    (x : BlockArr S I R) : Except PyErr (BlockArr S I R) :=
  knots.foldlM (fun x k => s.jacobi dinv x y k) x

/-- `smooth(x, y, base)`, lines 162-172: `np.linspace(1, 4, 3, endpoint=True) * base` -/
def StencilSystem.smooth (s : StencilSystem S I R) (dinv y : BlockArr S I R) (base : R)
    (x : BlockArr S I R) : Except PyErr (BlockArr S I R) :=
  s.overrelax dinv y ([1, 5 / 2, 4].map (· * base)) x

/-- one addition of `sum(...)`, which starts with the number 0 (`none`) -/
def sumStep (acc : Option (Arr S I R)) (y : Arr S I R) : Except PyErr (Option (Arr S I R)) :=
  match acc with
  | none => .ok (some y)
  | some a => do
    let z ← a.add y
    .ok (some z)

/-- `sum(e * xc for e, xc in zip(A[i, :], x.block)) - b`, lines 131 and 142 -/
def rowResidual (A : BlockOp S I R) (i : Nat) (x : BlockArr S I R) (b : Arr S I R) :
    Except PyErr (Arr S I R) := do
  let acc ← (List.range (min A.cols x.size)).foldlM (fun (acc : Option (Arr S I R)) j => do
    let y ← (A.block i j).call (x.block j)
    sumStep acc y) none
  match acc with
  | none => .ok ⟨b.shape, fun p => 0 - b.val p⟩
  | some a => a.zipWith (· - ·) b

/-- `b[i]` -/
def BlockArr.get (x : BlockArr S I R) (i : Nat) : Except PyErr (Arr S I R) :=
  if i < x.size then .ok (x.block i) else .error .indexError

/-- one iteration of the loop of `NR_BLOCK_GS`, lines 129-133 -/
def StencilSystem.nrStep (nrm : StencilSystem S I R) (dinv by' x : BlockArr S I R) (ri : Nat) :
    Except PyErr (BlockArr S I R) := do
  let b ← by'.get ri
  let residual ← rowResidual nrm.A ri x b
  let di ← dinv.get ri
  let d ← di.zipWith (· * ·) residual
  let xr ← x.get ri
  let v ← xr.zipWith (· - ·) (d.scale (1 / 2))
  x.set ri v

/-- `NR_BLOCK_GS(x, y)`, lines 116-134; `dinv` is `self.inverse_normal_diagonal`, and the length of
`self.system.R` is the number of columns -/
def StencilSystem.nrBlockGS (dom : S → Finset I) (s : StencilSystem S I R)
    (dinv x y : BlockArr S I R) : Except PyErr (BlockArr S I R) := do
  let nrm ← s.normal dom
  let by' ← nrm.B.vecMul y
  (List.range s.A.cols).foldlM (fun x ri => nrm.nrStep dinv by' x ri) x

/-- one iteration of the loop of `NE_BLOCK_GS`, lines 141-144 -/
def StencilSystem.neStep (s : StencilSystem S I R) (di by' x : BlockArr S I R) (ri : Nat) :
    Except PyErr (BlockArr S I R) := do
  let b ← by'.get ri
  let residual ← rowResidual s.A ri x b
  let out ← collect x.size (x.block 0) fun ci => do
    if ci < s.A.cols then do
      let w ← di.get ri
      let w ← w.zipWith (· * ·) residual
      let u ← (s.A.block ri ci).transpose.call (w.scale (1 / 2))
      (x.block ci).add u
    else .error .indexError
  .ok ⟨x.size, out⟩

/-- `NE_BLOCK_GS(x, y)`, lines 136-145; `di` is `self.inverse_normal_ne_diagonal`, and the length of
`self.system.L` is the number of rows -/
def StencilSystem.neBlockGS (s : StencilSystem S I R) (di x y : BlockArr S I R) :
    Except PyErr (BlockArr S I R) := do
  let by' ← s.B.vecMul y
  (List.range s.A.rows).foldlM (fun x ri => s.neStep di by' x ri) x

end

/-! ### diagonals -/

section

variable {N : Nat} {R : Type} [Field R] [LinearOrder R]

/-- `checkerboard(shape)`, `stencil/util.py` lines 92-93 -/
def checkerboard (i : Fin N → Nat) : Nat := (∑ b, i b) % 2

/-- `pattern(shape, c, sign)`, `stencil/block.py` lines 227-230 -/
def diagonalPattern (t : StencilTopology N) (s : FormShape N) (c : Nat) (sign : Bool) :
    Arr (FormShape N) (FormIndex N) R :=
  ⟨s, fun p => if p ∈ t.dom s ∧ p.1 = c then
      if sign then (checkerboard p.2 : R) else 1 - (checkerboard p.2 : R)
    else 0⟩

/-- `do(db, shape, c)`, lines 232-234 -/
def diagonalPart (t : StencilTopology N) (db : Op (FormShape N) (FormIndex N) R) (c : Nat) :
    Except PyErr (Arr (FormShape N) (FormIndex N) R) := do
  let p := diagonalPattern t db.cols c false
  let a := diagonalPattern t db.cols c true
  let dp ← db.call p
  let dp ← dp.zipWith (· * ·) p
  let da ← db.call a
  let da ← da.zipWith (· * ·) a
  dp.add da

/-- `block(i)`, lines 236-239: the sum over the components; `0 + array` is the array -/
def diagonalBlock (t : StencilTopology N) (db : Op (FormShape N) (FormIndex N) R) :
    Except PyErr (Arr (FormShape N) (FormIndex N) R) :=
  (List.range (t.components db.cols.1)).foldlM (fun acc c => do
    let d ← diagonalPart t db c
    acc.add d) (Arr.zeros db.cols)

/-- `diagonal()`, lines 208-241 -/
def BlockOp.diagonal (t : StencilTopology N) (A : BlockOp (FormShape N) (FormIndex N) R) :
    Except PyErr (BlockArr (FormShape N) (FormIndex N) R) := do
  let out ← collect A.rows (Arr.zeros (0, t.shape)) fun i =>
    if i < A.cols then diagonalBlock t (A.block i i) else .error .indexError
  .ok ⟨A.rows, out⟩

/-- `invert()`, lines 102-103; the inverse of zero, which is infinite in numpy, is zero here -/
def BlockArr.invert {S I : Type} (a : BlockArr S I R) : BlockArr S I R :=
  ⟨a.size, fun i => ⟨(a.block i).shape, fun p => 1 / (a.block i).val p⟩⟩

/-- `inverse_normal_diagonal`, `stencil/equation.py` lines 65-74 -/
def inverseNormalDiagonal (t : StencilTopology N)
    (s : StencilSystem (FormShape N) (FormIndex N) R) :
    Except PyErr (BlockArr (FormShape N) (FormIndex N) R) := do
  let nrm ← s.normal t.dom
  let d ← nrm.A.diagonal t
  .ok d.invert

/-- `inverse_normal_ne_diagonal`, lines 76-85 -/
def inverseNormalNeDiagonal (t : StencilTopology N)
    (s : StencilSystem (FormShape N) (FormIndex N) R) :
    Except PyErr (BlockArr (FormShape N) (FormIndex N) R) := do
  let nrm ← s.normalNe t.dom
  let d ← nrm.A.diagonal t
  .ok (BlockArr.invert ⟨d.size, fun i => ⟨(d.block i).shape, fun p => (d.block i).val p + 1 / 10 ^ 16⟩⟩)

end

end Verif.Model
