/-
Specification notions for STL files.
-/
import Mathlib.Data.List.Nodup

namespace Verif.Spec

/-- the contract of `npi.unique(rows, return_inverse=True)`: the different rows, each once, and for every
row the place where it is listed -/
def UniqueInverse {W : Type} (unique : List W → List W × List Nat) : Prop :=
  ∀ rows, (unique rows).1.Nodup ∧ (∀ r ∈ (unique rows).1, r ∈ rows) ∧
    (unique rows).2.length = rows.length ∧
    ∀ (i : Nat) (r : W), rows[i]? = some r →
      ∃ k, (unique rows).2[i]? = some k ∧ (unique rows).1[k]? = some r

end Verif.Spec
