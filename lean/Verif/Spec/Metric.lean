/-
Circumcenters of the faces of a simplicial complex, independent of the model: what the measures of
`Verif.Model.Metric` are compared with.
-/
import Verif.Spec.Euclid
import Verif.Spec.Circumcenter
import Mathlib.LinearAlgebra.AffineSpace.Independent

namespace Verif.Spec

/-- the position of a vertex -/
def position {D : Nat} (V : List (Fin D → ℝ)) (v : Nat) : Fin D → ℝ := V[v]?.getD 0

/-- the points of the corners of a row -/
def cornersOf {D : Nat} (V : List (Fin D → ℝ)) (P : Nat) (row : List Nat) : Fin P → Fin D → ℝ :=
  fun i => position V (row[i.val]?.getD 0)

/-- a set of vertices that spans a face of a simplex of the list -/
def SpansFace (top : List (List Nat)) (S : Finset Nat) : Prop := S.Nonempty ∧ ∃ l ∈ top, S ⊆ l.toFinset

/-- `c` is the circumcenter of the vertices `S`, and `y` are its barycentric coordinates -/
structure CenterCoords {D : Nat} (V : List (Fin D → ℝ)) (S : Finset Nat) (y : Nat → ℝ) (c : Fin D → ℝ) :
    Prop where
  one : ∑ v ∈ S, y v = 1
  point : ∀ j, c j = ∑ v ∈ S, y v * position V v j
  equidistant : ∀ u ∈ S, ∀ v ∈ S, dist2 c (position V u) = dist2 c (position V v)

/-- every face has its circumcenter at `ctr`, with coordinates `y` -/
def Centers {D : Nat} (V : List (Fin D → ℝ)) (top : List (List Nat)) (y : Finset Nat → Nat → ℝ)
    (ctr : Finset Nat → Fin D → ℝ) : Prop :=
  ∀ S, SpansFace top S → CenterCoords V S (y S) (ctr S)

/-- no simplex is degenerate -/
def NonDegenerate {D : Nat} (V : List (Fin D → ℝ)) (n : Nat) (top : List (List Nat)) : Prop :=
  ∀ l ∈ top, AffineIndependent ℝ (cornersOf V (n + 1) l)

/-- the circumcenters of the faces with up to `k` corners lie inside the faces or on their boundary -/
def InsideUpTo (top : List (List Nat)) (y : Finset Nat → Nat → ℝ) (k : Nat) : Prop :=
  ∀ S, SpansFace top S → S.card ≤ k → ∀ v ∈ S, 0 ≤ y S v

/-- no eigenvalue that `circumcenter_barycentric` meets in `metric` falls below its tolerance -/
structure WithinTolerance {D : Nat} (ratio : ℝ) (V : List (Fin D → ℝ)) (E : List (List (List Nat)))
    (n : Nat) : Prop where
  level : ∀ k ≤ n, EigenvaluesWithin ratio ((E[k]?.getD []).map (cornersOf V (k + 1)))
  centred : EigenvaluesWithin ratio ((E[n]?.getD []).map fun l => centred (cornersOf V (n + 1) l))

/-- the centers of a face and of the faces that arise from it by adding the corners `v` one by one -/
def chainOfCenters {D : Nat} (ctr : Finset Nat → Fin D → ℝ) (e v : List Nat) (i : Nat) :
    Fin (i + 1) → Fin D → ℝ :=
  fun r => ctr (e ++ v.take r).toFinset

end Verif.Spec
