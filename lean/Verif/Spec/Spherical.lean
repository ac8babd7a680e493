/-
Triangles on the unit sphere and their area, independent of the model.
-/
import Mathlib.MeasureTheory.Constructions.HaarToSphere
import Mathlib.MeasureTheory.Measure.Haar.InnerProductSpace
import Mathlib.Analysis.InnerProductSpace.PiL2
import Verif.Spec.Angles

namespace Verif.Spec

open MeasureTheory

/-- the unit sphere of space -/
abbrev Sphere2 := Metric.sphere (0 : EuclideanSpace ℝ (Fin 3)) 1

/-- the area of a part of the unit sphere, as defined in Mathlib -/
noncomputable def surfaceArea (S : Set Sphere2) : ℝ :=
  (volume : Measure (EuclideanSpace ℝ (Fin 3))).toSphere.real S

/-- the nonnegative combinations of three vectors -/
def cone3 (a b c : Fin 3 → ℝ) : Set (Fin 3 → ℝ) :=
  {x | ∃ s t u : ℝ, 0 ≤ s ∧ 0 ≤ t ∧ 0 ≤ u ∧ ∀ i, x i = s * a i + t * b i + u * c i}

/-- the part of the unit sphere in a set of directions -/
def onSphere (C : Set (Fin 3 → ℝ)) : Set Sphere2 := {x | (fun i => x.1 i) ∈ C}

/-- the spherical triangle with three corners -/
def sphericalTriangle (a b c : Fin 3 → ℝ) : Set Sphere2 := onSphere (cone3 a b c)

/-- the vectors are linearly independent -/
def Independent3 (a b c : Fin 3 → ℝ) : Prop :=
  ∀ s t u : ℝ, (∀ i, s * a i + t * b i + u * c i = 0) → s = 0 ∧ t = 0 ∧ u = 0

/-- a vector of length one -/
def OnUnitSphere {D : Nat} (a : Fin D → ℝ) : Prop := innerProd a a = 1

/-- the square of the distance of two points through the ball -/
def chordSq {D : Nat} (a b : Fin D → ℝ) : ℝ := ∑ k, (a k - b k) ^ 2

/-- the directions of a triangle whose nearest corner is the i-th one -/
def nearestTo (p : Fin 3 → Fin 3 → ℝ) (i : Fin 3) : Set (Fin 3 → ℝ) :=
  {x | x ∈ cone3 (p 0) (p 1) (p 2) ∧ ∀ j, chordSq x (p i) ≤ chordSq x (p j)}

end Verif.Spec
