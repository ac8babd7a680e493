/-
Closed polygons and points on circles.
-/
import Mathlib.Analysis.SpecialFunctions.Trigonometric.Basic
import Mathlib.Data.Nat.ModEq

namespace Verif.Spec

/-- the edges lead from `c 0` to `c 1`, from `c 1` to `c 2`, ..., and from `c (N - 1)` back to `c 0 = c N`; this passes every
vertex `0, ..., N - 1` once -/
structure ClosedPolygon (N : Nat) (edges : List (List Nat)) (c : Nat → Nat) : Prop where
  lt : ∀ k, c k < N
  period : ∀ k l, c k = c l ↔ k ≡ l [MOD N]
  edges : edges.Perm ((List.range N).map fun k => [c k, c (k + 1)])

/-- the point at the angle `θ`, counterclockwise from the first axis, of the circle with radius `r` -/
noncomputable def onCircle (r θ : ℝ) : Fin 2 → ℝ := ![r * Real.cos θ, r * Real.sin θ]

/-! A cylinder has copies of a closed polygon one above the other; the copy number `i` of the vertex `v` has the number
`i + v * nv`, where `nv` is the number of copies. -/

/-- the edge from the copy number `i` of `c k` to that of `c (k + 1)` -/
def ring (nv : Nat) (c : Nat → Nat) (i k : Nat) : List Nat := [i + c k * nv, i + c (k + 1) * nv]

/-- the edge from the copy number `i` of `c k` to the next copy -/
def rod (nv : Nat) (c : Nat → Nat) (i k : Nat) : List Nat := [i + c k * nv, i + 1 + c k * nv]

/-- the quadrilateral between the copies number `i` and `i + 1` of the edge from `c k` to `c (k + 1)` -/
def patch (nv : Nat) (c : Nat → Nat) (i k : Nat) : List Nat := ring nv c i k ++ ring nv c (i + 1) k

end Verif.Spec
