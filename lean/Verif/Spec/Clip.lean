/-
Specification notions for cutting a triangle mesh with a plane.
-/
import Verif.Spec.Triangles
import Mathlib.Algebra.BigOperators.Fin
import Mathlib.Algebra.Field.Defs
import Mathlib.Algebra.Order.Field.Basic

namespace Verif.Spec

section

variable {K : Type} [Field K] {d : Nat}

/-- signed height of a point over the plane through `s` with normal `n` (in units of the length of
`n`) -/
def height (s n v : Fin d → K) : K := ∑ i, (v i - s i) * n i

/-- a point of the segment between two points -/
def OnSegment [LE K] (a b v : Fin d → K) : Prop :=
  ∃ r : K, 0 ≤ r ∧ r ≤ 1 ∧ ∀ i, v i = (1 - r) * a i + r * b i

end

/-- how often a directed edge is passed, minus how often it is passed backwards -/
def net (L : List (Nat × Nat)) (a b : Nat) : ℤ := (L.count (a, b) : ℤ) - L.count (b, a)

/-- the directed edges of a triangle with a vertex `ins a b` placed on every edge between corners on
different sides -/
def refinedEdges (side : Nat → Bool) (ins : Nat → Nat → Nat) (l : List Nat) : List (Nat × Nat) :=
  (triangleEdges l).flatMap fun e =>
    if side e.1 = side e.2 then [e] else [(e.1, ins e.1 e.2), (ins e.1 e.2, e.2)]

end Verif.Spec
