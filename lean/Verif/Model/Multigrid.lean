/-
Model of `pycomplex/stencil/multigrid.py` and of the coarsening of grids in
`pycomplex/stencil/topology.py` and `pycomplex/stencil/complex.py`.
-/
import Verif.Model.Basic
import Mathlib.Algebra.Group.Basic
import Mathlib.Algebra.Field.Defs

namespace Verif.Model

/-! ### grids and hierarchies -/

/-- The attributes of a `StencilComplex` together with those of its `StencilTopology`,
`stencil/topology.py` lines 12-17 and `stencil/complex.py` lines 24-26.  The tables derived from the
number of axes are not repeated here. -/
structure GridComplex (K : Type) where
  boundary : String
  shape : List Nat
  scale : K
  deriving DecidableEq

/-- `StencilTopology.is_even`, `stencil/topology.py` lines 19-21 -/
def gridIsEven (shape : List Nat) : Bool := shape.all fun s => s % 2 == 0

/-- `StencilComplex.coarse`, `stencil/complex.py` lines 44-51, with `StencilTopology.coarse`,
`stencil/topology.py` lines 23-31 -/
def GridComplex.coarse {K : Type} [Field K] (c : GridComplex K) : Except PyErr (GridComplex K) :=
  if gridIsEven c.shape then
    .ok ⟨c.boundary, c.shape.map (fun s => s / 2), c.scale * 2⟩
  else .error .assertionError

/-- `StencilComplex.fine`, `stencil/complex.py` lines 53-59, with `StencilTopology.fine`,
`stencil/topology.py` lines 33-39 -/
def GridComplex.fine {K : Type} [Field K] (c : GridComplex K) : GridComplex K :=
  ⟨c.boundary, c.shape.map (fun s => s * 2), c.scale / 2⟩

/-- the loop of `MultiGridEquation.hierarchy`, `stencil/multigrid.py` lines 33-35; the list is kept
with the last appended element first -/
def hierarchyLoop {α : Type} (coarse : α → Except PyErr α) : Nat → List α → Except PyErr (List α)
  | 0, acc => .ok acc
  | l + 1, acc =>
    match acc with
    | [] => .error .indexError
    | last :: _ => do
      let next ← coarse last
      hierarchyLoop coarse l (next :: acc)

/-- `MultiGridEquation.hierarchy`, `stencil/multigrid.py` lines 21-36.  `coarse` stands for the
attribute `coarse` of the equations.  The list `hierarchy[::-1]` is what `hierarchyLoop` holds. -/
def hierarchy {α : Type} (coarse : α → Except PyErr α) (self : α) (levels : Nat) :
    Except PyErr (List α) :=
  hierarchyLoop coarse levels [self]

/-! ### cycles -/

/-- The interface `MultiGridEquation`, `stencil/multigrid.py` lines 8-19, of an equation for arrays
of type `X` whose coarser neighbour has arrays of type `C`.  Both the unknown and the right-hand
side have type `X`, as in `v_cycle`, which starts from `y * 0`. -/
structure MGEquation (X C : Type) where
  /-- `residual(x, y)` -/
  residual : X → X → X
  /-- `smooth(x, y)` -/
  smooth : X → X → X
  /-- `solve(y, x)` -/
  solve : X → X → X
  restrict : X → C
  interpolate : C → X

section

variable {V : Nat → Type} [∀ l, AddGroup (V l)]

/-- `v_cycle(hierarchy, y, x)`, `stencil/multigrid.py` lines 40-82, for the hierarchy
`[E 0, ..., E l]`, coarsest first.  (`V 0` would be the arrays below the root and is never used.
An empty hierarchy raises `IndexError` and is left out.)  `y * 0` is the zero array. -/
def vCycle (E : ∀ l, MGEquation (V (l + 1)) (V l)) :
    (l : Nat) → V (l + 1) → Option (V (l + 1)) → V (l + 1)
  | 0, y, x => (E 0).solve y (x.getD 0)
  | l + 1, y, x =>
    let fine := E (l + 1)
    let coarsesmooth := fun x : V (l + 2) =>
      let fineRes := fine.residual x y
      let coarseRes := fine.restrict fineRes
      let coarseError := vCycle E l coarseRes none
      let fineError := fine.interpolate coarseError
      x - fineError
    let x := x.getD 0
    let x := fine.smooth x y
    let x := coarsesmooth x
    fine.smooth x y

/-- `solve_v_cycle(hierarchy, y, x, iterations)`, `stencil/multigrid.py` lines 85-104; the result
is `None` (`none`) for no iteration from `x=None` -/
def solveVCycle (E : ∀ l, MGEquation (V (l + 1)) (V l)) (l : Nat) (y : V (l + 1)) :
    Option (V (l + 1)) → Nat → Option (V (l + 1))
  | x, 0 => x
  | x, n + 1 => solveVCycle E l y (some (vCycle E l y x)) n

/-- `solve_full_cycle(hierarchy, y, iterations)`, `stencil/multigrid.py` lines 107-145.  At the root
`fine.solve(y)` starts from `y * 0` (`stencil/equation.py` lines 50-54). -/
def solveFullCycle (E : ∀ l, MGEquation (V (l + 1)) (V l)) :
    (l : Nat) → V (l + 1) → Nat → V (l + 1)
  | 0, y, _ => (E 0).solve y 0
  | l + 1, y, iterations =>
    let fine := E (l + 1)
    let x := fine.interpolate (solveFullCycle E l (fine.restrict y) iterations)
    (solveVCycle E (l + 1) y (some x) iterations).getD x

/-- the function wrapped by `as_preconditioner`, `stencil/multigrid.py` lines 148-178 -/
def preconditioner (E : ∀ l, MGEquation (V (l + 1)) (V l)) (l : Nat)
    (Bi : V (l + 1) → V (l + 1)) (y : V (l + 1)) : V (l + 1) :=
  vCycle E l (Bi y) none

end

end Verif.Model
