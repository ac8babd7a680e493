/-
Boxes, and the measures of their faces.
-/
import Verif.Spec.CubeAround
import Verif.Model.Euclid
import Mathlib.Algebra.BigOperators.Group.Finset.Basic
import Mathlib.Algebra.Field.Defs
import Mathlib.Data.Fintype.BigOperators
import Mathlib.Order.Lattice

namespace Verif.Spec

open Verif.Model

variable {K : Type} [Field K] [LinearOrder K] {n : Nat}

/-- the cube `l` is a box with sides along the coordinates: its axes are assigned to the coordinates, and coordinate
`σ a` of a corner is `lo (σ a)` or `hi (σ a)` depending on the position of the corner along axis `a` -/
def IsBox (V : List (Vec K n)) (l : List Nat) : Prop :=
  ∃ (lo hi : Vec K n) (σ : Equiv.Perm (Fin n)), (∀ q, lo q ≠ hi q) ∧
    ∀ (c : List Bool) (v : Nat), c.length = n → l[ravel c]? = some v → ∃ x, V[v]? = some x ∧
      ∀ a : Fin n, x (σ a) = if c[a.val]? = some true then hi (σ a) else lo (σ a)

/-- length of the range of coordinate `q` on the vertices `e` -/
def extent (V : List (Vec K n)) (e : List Nat) (q : Fin n) : K :=
  (e.map fun v => (V[v]?.getD 0) q).max?.getD 0 - (e.map fun v => (V[v]?.getD 0) q).min?.getD 0

/-- the measure of a box: the product of its lengths along the coordinates in which it extends -/
def boxMeasure (V : List (Vec K n)) (e : List Nat) : K := ∏ q with extent V e q ≠ 0, extent V e q

/-- the measure of the part of the cell dual to `e` in cube `l`: the product of half of the lengths of the cube along
the coordinates in which `e` does not extend -/
def dualPart (V : List (Vec K n)) (e l : List Nat) : K := ∏ q with extent V e q = 0, extent V l q / 2

/-- the measure of the cell dual to the `k`-cube `e` -/
def dualMeasure (V : List (Vec K n)) (k : Nat) (cubes : List (List Nat)) (e : List Nat) : K :=
  ((cubesAround n k cubes e).map fun j => dualPart V e (cubes[j]?.getD [])).sum

end Verif.Spec
