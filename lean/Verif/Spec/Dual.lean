/-
Specification of selector matrices and of chain conditions.
-/
import Verif.Model.Basic

namespace Verif.Spec

open Verif.Model

/-- row `r` of a selector picks exactly the element `c` -/
def RowPicks (M : Mat Int) (r c : Nat) : Prop :=
  r < M.rows ∧ c < M.cols ∧ ∀ j < M.cols, M.entry r j = if j = c then 1 else 0

/-- all entries inside the shape are zero -/
def IsZero (M : Mat Int) : Prop := ∀ i < M.rows, ∀ j < M.cols, M.entry i j = 0

end Verif.Spec
