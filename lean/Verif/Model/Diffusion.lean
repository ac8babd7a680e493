/-
Model of `pycomplex/stencil/diffusion.py` and of the slicing of systems in
`pycomplex/stencil/linear_system.py`, for a periodic `StencilComplex` given by its topology and its
scale.
-/
import Verif.Model.StencilBlock
import Verif.Model.StencilCoarsen

namespace Verif.Model

section

variable {S I R : Type}

/-- `A[i, j]`, `stencil/block.py` lines 115-116 -/
def BlockOp.get (A : BlockOp S I R) (i j : Nat) : Except PyErr (Op S I R) :=
  if i < A.rows ∧ j < A.cols then .ok (A.block i j) else .error .indexError

/-- `system[:k, :l]`, `stencil/linear_system.py` lines 145-152: `A[:k, :l]` and `B[:k, :k]`.  The
lists `L` and `R` of form degrees, which become `range(k)` and `range(l)`, are not stored. -/
def StencilSystem.slice (sys : StencilSystem S I R) (k l : Nat) : StencilSystem S I R :=
  ⟨⟨min k sys.A.rows, min l sys.A.cols, sys.A.block⟩,
    ⟨min k sys.B.rows, min k sys.B.cols, sys.B.block⟩⟩

/-- `op.inverse()`, `stencil/operator.py` lines 33-34, 152-156 and 180-181.  With
`errstate(divide='raise')` a division by zero is a `FloatingPointError`, a subclass of
`ArithmeticError`; it is `valueError` here. -/
def Op.inverse [Field R] [DecidableEq R] (dom : S → Finset I) : Op S I R → Except PyErr (Op S I R)
  | .diagonal h d s =>
    if ∀ p ∈ dom s, d p ≠ 0 then .ok (.diagonal h (fun p => 1 / d p) s) else .error .valueError
  | .identity s => .ok (.identity s)
  | _ => .error .notImplementedError

end

section

variable {N : Nat} {K : Type} [Field K] [LinearOrder K]

/-- the dictionary `fields` -/
structure DiffusionFields (N : Nat) (K : Type) where
  constraint : Form N K
  conductance : Form N K
  resistance : Form N K
  foo : Form N K

/-- `DO(d)`: `DiagonalOperator(d, d.shape)`, `stencil/diffusion.py` lines 61-62 -/
def fieldOp (d : Form N K) : Op (FormShape N) (FormIndex N) K := .diagonal false d.val d.shape

/-- `-d` -/
def negForm (d : Form N K) : Form N K := ⟨d.shape, fun p => -d.val p⟩

/-- `Diffusion.formulate(complex, fields)`, `stencil/diffusion.py` lines 40-70: the system of the
equation -/
def formulate (t : StencilTopology N) (garbage : Nat → (Fin N → Nat) → K) (scale : K)
    (fields : DiffusionFields N K) :
    Except PyErr (StencilSystem (FormShape N) (FormIndex N) K) := do
  let sys ← canonicalSystem t garbage scale
  let sys := sys.slice 2 2
  let e ← sys.A.get 0 0
  let e ← e.mul t.dom (fieldOp (negForm fields.constraint))
  let A ← sys.A.set 0 0 e
  let e ← A.get 0 1
  let e ← e.mul t.dom (fieldOp fields.conductance)
  let A ← A.set 0 1 e
  let e ← A.get 1 1
  let e ← e.mul t.dom (fieldOp fields.resistance)
  let A ← A.set 1 1 e
  let e ← A.get 1 0
  let e ← (fieldOp fields.foo).mul t.dom e
  let A ← A.set 1 0 e
  .ok ⟨A, sys.B⟩

/-- the fields of `coarse`, lines 120-132; the complex of the coarse equation is
`complex.coarse`, with topology `tc` and scale `2 * scale` (`stencil/complex.py` lines 44-51) -/
def coarseFields (t tc : StencilTopology N) (fields : DiffusionFields N K) :
    Except PyErr (DiffusionFields N K) := do
  let c0 ← t.coarsen tc 0
  let c1 ← t.coarsen tc 1
  let constraint ← c0.call fields.constraint
  let conductance ← c1.call fields.conductance
  let resistance ← c1.call fields.resistance
  let foo ← c1.call fields.foo
  .ok ⟨constraint, conductance, resistance, foo⟩

/-- `restrict(y)`, lines 142-146 and 151-152, for the rows `0` and `1`; `zip` stops at the shorter of
the two lists -/
def restrictDual (t tc : StencilTopology N) (scale : K) (y : BlockArr (FormShape N) (FormIndex N) K) :
    Except PyErr (BlockArr (FormShape N) (FormIndex N) K) := do
  let out ← collect (min 2 y.size) (Arr.zeros (0, tc.shape)) fun n => do
    let inv ← (stencilHodge t scale n).inverse t.dom
    let b ← inv.call (y.block n)
    let c ← t.coarsen tc n
    let b ← c.call b
    (stencilHodge tc (scale * 2) n).call b
  .ok ⟨min 2 y.size, out⟩

/-- `restrict_primal(y)`, lines 147-148 -/
def restrictPrimal (t tc : StencilTopology N) (y : BlockArr (FormShape N) (FormIndex N) K) :
    Except PyErr (BlockArr (FormShape N) (FormIndex N) K) := do
  let out ← collect (min 2 y.size) (Arr.zeros (0, tc.shape)) fun n => do
    let c ← t.coarsen tc n
    c.call (y.block n)
  .ok ⟨min 2 y.size, out⟩

/-- `interpolate(x)`, lines 153-154 -/
def interpolateBlocks (t tc : StencilTopology N) (x : BlockArr (FormShape N) (FormIndex N) K) :
    Except PyErr (BlockArr (FormShape N) (FormIndex N) K) := do
  let out ← collect (min 2 x.size) (Arr.zeros (0, t.shape)) fun n => do
    let r ← t.refine tc n
    r.call (x.block n)
  .ok ⟨min 2 x.size, out⟩

end

end Verif.Model
