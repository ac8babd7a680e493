/-
The cross-polytope, in terms of its vertices and simplices only.
-/
import Verif.Spec.Simplicial
import Verif.Spec.Orientation
import Mathlib.Logic.ExistsUnique
import Mathlib.Data.Real.Basic

namespace Verif.Spec

/-- The rows `T` list the simplices of a cross-polytope of `n` axes with the vertices `0, ..., 2 n - 1`, vertex `j` being on side
`sd j` of the axis `axis j`: there is one vertex on either side of every axis, every simplex has one vertex of every axis, and
every choice of sides is the one of exactly one simplex. -/
def CrossAxes (n : Nat) (T : List (List Nat)) (axis : Nat → Nat) (sd : Nat → Bool) : Prop :=
  (∀ j < 2 * n, axis j < n) ∧ (∀ a < n, ∀ s, ∃! j, j < 2 * n ∧ axis j = a ∧ sd j = s) ∧
  (∀ l ∈ T, l.length = n ∧ (∀ j ∈ l, j < 2 * n) ∧ (l.map axis).Perm (List.range n)) ∧
  ∀ f : Nat → Bool, ∃! v : Nat, ∃ l : List Nat, T[v]? = some l ∧ ∀ j ∈ l, sd j = f (axis j)

/-- the rows `T` list the simplices of a cross-polytope of `n` axes -/
def CrossPolytope (n : Nat) (T : List (List Nat)) : Prop := ∃ axis sd, CrossAxes n T axis sd

/-- the unit vector along axis `a`, or its opposite -/
def axisPoint (n a : Nat) (s : Bool) : Fin n → ℝ := fun q => if q.val = a then (if s then 1 else -1) else 0

/-- every face belongs to exactly two of the simplices -/
def EveryFaceTwice (T : List (List Nat)) : Prop :=
  ∀ (j : Nat) (l e : List Nat), T[j]? = some l → IsFace e l → ∃ j', SharedFace T e j j'

/-- row `v` of `T` lists the rows of `F` that contain `v` -/
def ListsIncidence (F T : List (List Nat)) : Prop :=
  ∀ (v : Nat) (l : List Nat), T[v]? = some l → l.Nodup ∧ ∀ j, j ∈ l ↔ ∃ f, F[j]? = some f ∧ v ∈ f

end Verif.Spec
