/-
Model of the small iteration helpers of `pycomplex/util.py` and `pycomplex/stencil/util.py`.

A generator is modelled by the items it yields and the way it ends.
-/
import Verif.Model.Basic

namespace Verif.Model

/-- how a generator ends -/
inductive Ending where
  | done
  | raised (e : PyErr)
  deriving DecidableEq, Repr

/-- what happens to a `StopIteration` escaping from a generator body: PEP 479 turns it into a
`RuntimeError` (Python 3.7 and later); before that it silently ended the generator. -/
def stopInGenerator (pep479 : Bool) : Ending := if pep479 then .raised .runtimeError else .done

/-- the `while True` loop of `pairs`, `util.py` lines 8-11, after `x = next(it)` -/
def pairsLoop {α : Type} (pep479 : Bool) (x : α) : List α → List (α × α) × Ending
  | [] => ([], stopInGenerator pep479)
  | y :: it =>
    let r := pairsLoop pep479 y it
    ((x, y) :: r.1, r.2)

/-- `pairs`, `util.py` lines 4-11 -/
def pairs {α : Type} (pep479 : Bool) : List α → List (α × α) × Ending
  | [] => ([], stopInGenerator pep479)
  | x :: it => pairsLoop pep479 x it

/-- the `for` loop of `accumulate`, `util.py` lines 24-26 -/
def accumulateLoop {α : Type} (func : α → α → α) (total : α) : List α → List α
  | [] => []
  | e :: it => func total e :: accumulateLoop func (func total e) it

/-- `accumulate`, `util.py` lines 14-26 -/
def accumulate {α : Type} (func : α → α → α) : List α → List α
  | [] => []
  | x :: it => x :: accumulateLoop func x it

/-- the loop of `adjecent_pairs`, `stencil/util.py` lines 100-106; `none` is the initial `None`,
`truthy` is Python's truth value of an item -/
def adjacentLoop {α : Type} (truthy : α → Bool) (j : Option α) : List α → List (α × α)
  | [] => []
  | i :: it =>
    (match j with
      | some x => if truthy x then [(x, i)] else []
      | none => []) ++ adjacentLoop truthy (some i) it

/-- `adjecent_pairs`, `stencil/util.py` lines 100-106 -/
def adjacentPairs {α : Type} (truthy : α → Bool) (l : List α) : List (α × α) :=
  adjacentLoop truthy none l

end Verif.Model
