/-
Integer matrices applied to vectors of values, and the matrices of a dual without the dual of the boundary.
-/
import Verif.Model.Boundary
import Mathlib.Algebra.Field.Defs
import Mathlib.Data.Int.Cast.Defs

namespace Verif.Spec

open Verif.Model

/-- `A` sends the values `x` to the values `y` -/
def Sends {K : Type} [Field K] (A : Mat Int) (x y : List K) : Prop :=
  x.length = A.cols ∧ y.length = A.rows ∧
    ∀ i < A.rows, y[i]? = some ((List.range A.cols).map fun j => (A.entry i j : K) * x[j]?.getD 0).sum

/-- `M2` are the matrices from the duals of the primal elements of dimension `m`, ..., 0: for every `k` a column for every `k`-element, and
rows for the `(k+1)`-elements, which hold the incidence of `k`- and `(k+1)`-elements, and for the boundary elements of dimension `k`, which
hold a 1 at the `k`-element that the boundary element is. -/
def Matrices2 (m : Nat) (t : Topo) (s : Sub) (M2 : List (Mat Int)) : Prop :=
  M2.length = m + 1 ∧ ∀ d k, d + k = m → ∃ M, M2[d]? = some M ∧
    M.rows = t.nElements (k + 1) + s.topo.nElements k ∧ M.cols = t.nElements k ∧
    (∀ c < t.nElements k, ∀ r < t.nElements (k + 1), M.entry r c = (t.matrix k).entry c r) ∧
    ∀ c < t.nElements k, ∀ i < s.topo.nElements k, M.entry (t.nElements (k + 1) + i) c =
      if (s.parentIdx[k]?.getD [])[i]? = some c then 1 else 0

end Verif.Spec
