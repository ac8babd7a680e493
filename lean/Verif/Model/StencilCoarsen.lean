/-
Model of `smoothers`, `coarsen` and `refine` in `pycomplex/stencil/complex.py` and of `smoother` in
`pycomplex/stencil/util.py`: the transfer operators of the multigrid hierarchy on a periodic grid.

Floating point numbers are replaced by an ordered field.
-/
import Verif.Model.Stencil
import Verif.Model.StencilOp
import Mathlib.Algebra.Order.Field.Basic

namespace Verif.Model

section

variable {N : Nat} {K : Type} [Field K] [LinearOrder K]

/-- `smoother(1)`, `stencil/util.py` lines 85-88; only one dimension is used -/
def smootherKernel : List K := [1, 2, 1].map fun w : K => w / 4

/-- the weights `sm` of `smooth(n)`, `stencil/complex.py` lines 107-111 -/
def smootherWeights (scale : Bool) : List K :=
  let sm : List K := smootherKernel
  if !scale then sm.map fun w => w / sm.max?.getD 0 else sm.map fun w => w / sm.sum

/-- one component, with axes `s`, of the loop of `inner`, lines 118-125: the component is smoothed
along one axis after the other, except for the axes in `s` -/
def smoothComponent (sh : Fin N → Nat) (weights : List K) (s : List Nat)
    (f : (Fin N → Nat) → K) : (Fin N → Nat) → K :=
  (List.range N).foldl (fun smoothed i =>
    if s.contains i then smoothed else convolve1d sh weights i smoothed) f

/-- `smoothers(scale)[n]`, lines 93-135 -/
def StencilTopology.smootherOp (t : StencilTopology N) (scale : Bool) (n : Nat) :
    Op (FormShape N) (FormIndex N) K :=
  let symbols := t.symbols[n]?.getD []
  let smooth : Form N K → Form N K := fun f => t.mkForm (n, t.shape) fun c =>
    smoothComponent t.shape (smootherWeights scale) (symbols[c]?.getD []) fun i => f.val (c, i)
  .fn .symmetric smooth smooth (n, t.shape) (n, t.shape)

/-- `coarsen[n]`, lines 137-153: `T * S` -/
def StencilTopology.coarsen (t tc : StencilTopology N) (n : Nat) :
    Except PyErr (Op (FormShape N) (FormIndex N) K) :=
  (t.transfer tc n).mul t.dom (t.smootherOp true n)

/-- `refine[n]`, lines 155-171: `(T * S).transpose()` -/
def StencilTopology.refine (t tc : StencilTopology N) (n : Nat) :
    Except PyErr (Op (FormShape N) (FormIndex N) K) := do
  let op ← (t.transfer tc n).mul t.dom (t.smootherOp false n)
  .ok op.transpose

end

end Verif.Model
