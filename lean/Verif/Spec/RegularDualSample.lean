/-
Cubes that are put together as the cells of a grid, and points well inside of them.
-/
import Verif.Spec.RegularPicking

namespace Verif.Spec

open Verif.Model

variable {K : Type} [Field K] [LinearOrder K] {n : Nat}

/-- the middle of the box with the corners `l` -/
def cubeCenter (V : List (Vec K n)) (l : List Nat) : Vec K n :=
  fun q => (cornerPosition V l 0 q + cornerPosition V l (2 ^ n - 1) q) / 2

/-- vertices at the same place are the same vertex, and cubes with the same corners are the same cube -/
def Separate (V : List (Vec K n)) (cubes : List (List Nat)) : Prop :=
  (∀ l ∈ cubes, ∀ l' ∈ cubes, ∀ v ∈ l, ∀ w ∈ l', V[v]?.getD 0 = V[w]?.getD 0 → v = w) ∧
  ∀ (i j : Nat) (l l' : List Nat), cubes[i]? = some l → cubes[j]? = some l' → l.Perm l' → i = j

/-- `p` is inside, more than half a cell away from the boundary -/
def WellInside (V : List (Vec K n)) (cubes : List (List Nat)) (h p : Vec K n) : Prop :=
  ∃ r : Vec K n, (∀ q, h q / 2 < r q) ∧ ∀ y : Vec K n, (∀ q, |y q - p q| ≤ r q) → ∃ l ∈ cubes, InBox V l y

end Verif.Spec
