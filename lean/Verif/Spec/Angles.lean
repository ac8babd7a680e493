/-
Angles and areas of triangles, independent of `Verif.Model.Angles`.
-/
import Mathlib.Analysis.SpecialFunctions.Trigonometric.Inverse
import Verif.Spec.Metric

namespace Verif.Spec

/-- the scalar product -/
def innerProd {D : Nat} (u v : Fin D → ℝ) : ℝ := ∑ c, u c * v c

/-- `α` is the angle between two vectors -/
def IsAngle {D : Nat} (u v : Fin D → ℝ) (α : ℝ) : Prop :=
  0 ≤ α ∧ α ≤ Real.pi ∧ Real.cos α * (Real.sqrt (innerProd u u) * Real.sqrt (innerProd v v)) = innerProd u v

/-- the area of the triangle with corners `a`, `b`, `c` -/
noncomputable def triangleArea {D : Nat} (a b c : Fin D → ℝ) : ℝ :=
  Real.sqrt (innerProd (b - a) (b - a) * innerProd (c - a) (c - a) - innerProd (b - a) (c - a) ^ 2) / 2

/-- the cotangent of the angle at `a` -/
noncomputable def cotangent {D : Nat} (a b c : Fin D → ℝ) : ℝ :=
  innerProd (b - a) (c - a) / (2 * triangleArea a b c)

end Verif.Spec
