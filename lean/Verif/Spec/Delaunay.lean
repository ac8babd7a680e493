/-
Weighted circumcenters of the faces of a simplicial complex, heights, and what makes a triangulation
locally Delaunay, independent of the model.
-/
import Verif.Spec.Metric
import Verif.Spec.Angles

namespace Verif.Spec

/-- the weight of a vertex; zero if there are no weights -/
def weightAt (W : Option (List ℝ)) (v : Nat) : ℝ :=
  match W with
  | none => 0
  | some w => w[v]?.getD 0

/-- `c` is the point of the affine hull of the vertices `S` that has the same power from all of them,
and `y` are its barycentric coordinates -/
structure PowerCoords {D : Nat} (V : List (Fin D → ℝ)) (w : Nat → ℝ) (S : Finset Nat) (y : Nat → ℝ)
    (c : Fin D → ℝ) : Prop where
  one : ∑ v ∈ S, y v = 1
  point : ∀ j, c j = ∑ v ∈ S, y v * position V v j
  equal : ∀ u ∈ S, ∀ v ∈ S, power c (position V u) (w u) = power c (position V v) (w v)

/-- every face has its weighted circumcenter at `ctr`, with coordinates `y` -/
def PowerCenters {D : Nat} (V : List (Fin D → ℝ)) (w : Nat → ℝ) (top : List (List Nat))
    (y : Finset Nat → Nat → ℝ) (ctr : Finset Nat → Fin D → ℝ) : Prop :=
  ∀ S, SpansFace top S → PowerCoords V w S (y S) (ctr S)

/-- `g` is the way from the affine hull of the vertices `F` to the point `p`, at a right angle to `F` -/
structure IsHeight {D : Nat} (V : List (Fin D → ℝ)) (F : Finset Nat) (p : Fin D → ℝ) (g : Fin D → ℝ) :
    Prop where
  foot : ∃ b : Nat → ℝ, ∑ u ∈ F, b u = 1 ∧ ∀ j, g j = p j - ∑ u ∈ F, b u * position V u j
  orthogonal : ∀ u ∈ F, ∀ v ∈ F, innerProd g (position V u - position V v) = 0

/-- the corner of `l` that `e` lacks -/
def missing (l e : List Nat) : Nat := (l.diff e).headD 0

/-- `q` lies in the affine hull of the vertices `F` and of the point `p`, on the other side of `F` -/
def OppositeSide {D : Nat} (V : List (Fin D → ℝ)) (F : Finset Nat) (p q : Fin D → ℝ) : Prop :=
  ∃ (a : Nat → ℝ) (s : ℝ), s < 0 ∧ ∑ u ∈ F, a u + s = 1 ∧ ∀ j, q j = ∑ u ∈ F, a u * position V u j + s * p j

end Verif.Spec
