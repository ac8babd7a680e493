/-
Model of `solve_cg`, `pycomplex/solvers.py` lines 6-79.

Floating point numbers are replaced by an ordered field `K`, arrays by vectors of a `K`-module `V`.
`deflate` works in place: it is modelled by the function from the old to the new contents.
-/
import Mathlib.Algebra.Order.Field.Basic
import Mathlib.Algebra.Module.Basic

namespace Verif.Model

/-- the local variables of `solve_cg` that live across iterations -/
structure CG (K V : Type) where
  x : V
  r : V
  d : V
  deltaNew : K

section

variable {K V : Type} [Field K] [LinearOrder K] [AddCommGroup V] [Module K V]

/-- `eps = 1e-9`, line 41 -/
def cgEps (K : Type) [Field K] : K := 1 / 10 ^ 9

/-- lines 44-51, before the loop -/
def cgInit (dot : V → V → K) (deflate operator : V → V) (rhs x0 : V) : CG K V :=
  let x := deflate x0
  let r := deflate (rhs - operator x)
  ⟨x, r, r, dot r r⟩

/-- The body of the loop, lines 54-78; the flag says that a `break` was executed.
Division by zero (`nan` or `inf` with a warning in numpy, zero here) can only occur in the two
convergence tests; it does not reach `x` or `r`. -/
def cgIter (dot : V → V → K) (deflate operator : V → V) (rhs x0 : V) (delta0 : K) (i : Nat)
    (s : CG K V) : CG K V × Bool :=
  let d := deflate s.d
  let q := deflate (operator d)
  let dq := dot d q
  if |dq| < cgEps K then (⟨s.x, s.r, d, s.deltaNew⟩, true)
  else
    let alpha := s.deltaNew / dq
    let x := deflate (s.x + alpha • d)
    let r := deflate (if i % 50 = 49 then rhs - operator x else s.r - alpha • q)
    if s.deltaNew / delta0 < cgEps K then (⟨x, r, d, s.deltaNew⟩, true)
    else if dot x0 x / dot x0 x0 > 10 ^ 30 then (⟨x, r, d, s.deltaNew⟩, true)
    else
      let deltaNew := dot r r
      let beta := deltaNew / s.deltaNew
      (⟨x, r, r + beta • d, deltaNew⟩, false)

/-- `for i in range(max_iter)`, lines 53-78, over the remaining indices -/
def cgLoop (dot : V → V → K) (deflate operator : V → V) (rhs x0 : V) (delta0 : K) :
    List Nat → CG K V → CG K V
  | [], s => s
  | i :: is, s =>
    let sb := cgIter dot deflate operator rhs x0 delta0 i s
    if sb.2 then sb.1 else cgLoop dot deflate operator rhs x0 delta0 is sb.1

/-- `solve_cg`, `solvers.py` lines 6-79, with the final value of all its variables (the code returns
`x`); the code has `maxIter = 3000`. -/
def solveCG (dot : V → V → K) (deflate operator : V → V) (rhs x0 : V) (maxIter : Nat) : CG K V :=
  let s := cgInit dot deflate operator rhs x0
  cgLoop dot deflate operator rhs x0 s.deltaNew (List.range maxIter) s

end

end Verif.Model
