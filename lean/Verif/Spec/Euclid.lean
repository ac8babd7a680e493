/-
What the geometry of simplices should be, independent of `Verif.Model.Euclid`.
-/
import Mathlib.MeasureTheory.Measure.Lebesgue.EqHaar
import Mathlib.Analysis.Convex.Hull

namespace Verif.Spec

/-- the points of a simplex, filled: the smallest convex set that contains them -/
def filled {P N : Nat} (pts : Fin P → Fin N → ℝ) : Set (Fin N → ℝ) := convexHull ℝ (Set.range pts)

/-- the Lebesgue measure of the filled simplex is the number `v` -/
def HasVolume {P N : Nat} (pts : Fin P → Fin N → ℝ) (v : ℝ) : Prop :=
  0 ≤ v ∧ MeasureTheory.volume (filled pts) = ENNReal.ofReal v

/-- squared euclidean distance -/
def dist2 {K : Type} [Field K] {N : Nat} (x y : Fin N → K) : K := ∑ i, (x i - y i) ^ 2

/-- two point sets, possibly in spaces of different dimension, have the same distances -/
def Congruent {K : Type} [Field K] {P N N' : Nat} (p : Fin P → Fin N → K) (q : Fin P → Fin N' → K) :
    Prop :=
  ∀ i j, dist2 (p i) (p j) = dist2 (q i) (q j)

/-- a set of directed edges without boundary: every vertex is the start of as many edges as it is
the end of -/
def NoEnds (edges : List (Nat × Nat)) : Prop := (edges.map Prod.fst).Perm (edges.map Prod.snd)

/-- twice the signed area of the triangle `o a b` of the plane, positive if counterclockwise -/
def twiceArea {K : Type} [Field K] (o a b : Fin 2 → K) : K :=
  (a 0 - o 0) * (b 1 - o 1) - (a 1 - o 1) * (b 0 - o 0)

end Verif.Spec
