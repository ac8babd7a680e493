/-
What averaging over corners or over incident simplices should give.
-/
import Mathlib.Algebra.Field.Defs
import Mathlib.Algebra.BigOperators.Group.List.Basic

namespace Verif.Spec

/-- the arithmetic mean -/
def mean {K : Type} [Field K] (xs : List K) : K := xs.sum / (xs.length : K)

/-- the numbers of the simplices that have all the corners `e` -/
def incident (simplices : List (List Nat)) (e : List Nat) : List Nat :=
  (List.range simplices.length).filter fun j => e.all fun v => (simplices[j]?.getD []).contains v

end Verif.Spec
