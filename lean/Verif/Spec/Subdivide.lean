/-
Specification notions for subdivision: complete flags of faces.
-/
import Verif.Spec.Simplicial

namespace Verif.Spec

/-- `d` is a complete flag of element numbers ending in the `n`-element number `j`: it names one
element of every level `0..n`, each contained in the next -/
def IsFlag (E : List (List (List Nat))) (n j : Nat) (d : List Nat) : Prop :=
  d.length = n + 1 ∧ d[n]? = some j ∧
  ∀ k < n, ∃ (x y : Nat) (e f : List Nat), d[k]? = some x ∧ d[k + 1]? = some y ∧
    (E[k]?.getD [])[x]? = some e ∧ (E[k + 1]?.getD [])[y]? = some f ∧ ∀ v ∈ e, v ∈ f

end Verif.Spec
