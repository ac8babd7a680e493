/-
What weighted averages of dual 0-forms should give.
-/
import Verif.Spec.Metric
import Verif.Spec.DualAveraging
import Mathlib.Analysis.Real.Sqrt

namespace Verif.Spec

/-- the distance of two points -/
noncomputable def distance {D : Nat} (p q : Fin D → ℝ) : ℝ := Real.sqrt (dist2 p q)

/-- The share of one way from the face `e` to a simplex around it, on which the corners `v` are added one by one, `i + 1` in all:
the product of the lengths of all steps but the first, divided by the product of the distances from the center of `e` to all later
centers. -/
noncomputable def wayWeight {D : Nat} (ctr : Finset Nat → Fin D → ℝ) (i : Nat) (e v : List Nat) : ℝ :=
  ((List.range i).map fun r => distance (ctr (e ++ v.take (r + 1)).toFinset) (ctr (e ++ v.take (r + 2)).toFinset)).prod /
    ((List.range (i + 1)).map fun r => distance (ctr e.toFinset) (ctr (e ++ v.take (r + 1)).toFinset)).prod

/-- the weight of the simplex `l` in the dual cell of its face `e`, which lacks `i + 1` of its corners: the sum over all ways -/
noncomputable def cellWeight {D : Nat} (ctr : Finset Nat → Fin D → ℝ) (i : Nat) (e l : List Nat) : ℝ :=
  ((l.diff e).permutations.map (wayWeight ctr i e)).sum

/-- the mean of the values `x` on the simplices around `e` with these weights -/
noncomputable def cellMean {D : Nat} (simplices : List (List Nat)) (ctr : Finset Nat → Fin D → ℝ) (i : Nat) (e : List Nat)
    (x : Nat → ℝ) : ℝ :=
  ((incident simplices e).map fun j => cellWeight ctr i e (simplices[j]?.getD []) * x j).sum /
    ((incident simplices e).map fun j => cellWeight ctr i e (simplices[j]?.getD [])).sum

end Verif.Spec
