/-
Simplices on the sphere, independent of the model: what the measures of `Verif.Model.SphericalMetric` are
compared with.
-/
import Mathlib.Geometry.Euclidean.Angle.Unoriented.Basic
import Verif.Spec.Spherical
import Verif.Spec.Delaunay

namespace Verif.Spec

/-- the angle between two vectors, as defined in Mathlib: the length of the arc between their directions on
the unit sphere -/
noncomputable def arc {D : Nat} (a b : Fin D → ℝ) : ℝ :=
  InnerProductGeometry.angle (WithLp.toLp 2 a : EuclideanSpace ℝ (Fin D)) (WithLp.toLp 2 b)

/-- the corners of a simplex are linearly independent: no plane through the center of the sphere contains
them all -/
def IndependentCorners {D : Nat} (V : List (Fin D → ℝ)) (l : List Nat) : Prop :=
  ∀ c : Nat → ℝ, (∀ k, ∑ v ∈ l.toFinset, c v * position V v k = 0) → ∀ v ∈ l, c v = 0

/-- the nonnegative combinations of the corners of a simplex -/
def coneOf {D : Nat} (V : List (Fin D → ℝ)) (l : List Nat) : Set (Fin D → ℝ) :=
  {x | ∃ c : Nat → ℝ, (∀ v ∈ l, 0 ≤ c v) ∧ ∀ k, x k = ∑ v ∈ l.toFinset, c v * position V v k}

/-- the directions of a simplex whose nearest corner is `v` -/
def nearestPart {D : Nat} (V : List (Fin D → ℝ)) (l : List Nat) (v : Nat) : Set (Fin D → ℝ) :=
  {x | x ∈ coneOf V l ∧ ∀ u ∈ l, chordSq x (position V v) ≤ chordSq x (position V u)}

/-- the triangles cover the sphere, and two of them meet in a set without area -/
structure TilesSphere (V : List (Fin 3 → ℝ)) (top : List (List Nat)) : Prop where
  cover : ∀ x : Sphere2, ∃ l ∈ top, x ∈ onSphere (coneOf V l)
  apart : top.Pairwise fun l l' => surfaceArea (onSphere (coneOf V l) ∩ onSphere (coneOf V l')) = 0

end Verif.Spec
