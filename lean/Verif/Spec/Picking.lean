/-
Points inside simplices, the spheres of simplices, Delaunay triangulations, and solvers of linear
systems, independent of the model of `pick_primal`.
-/
import Verif.Spec.Delaunay
import Verif.Spec.Boundary
import Verif.Model.Basic

namespace Verif.Spec

/-- the squared radius of the sphere of a simplex: the power of its center from its corners -/
noncomputable def sphereRadius {D : Nat} (V : List (Fin D → ℝ)) (w : Nat → ℝ) (ctr : Finset Nat → Fin D → ℝ)
    (l : List Nat) : ℝ :=
  power (ctr l.toFinset) (position V (l.headD 0)) (w (l.headD 0))

/-- the power of a point with respect to the sphere of a simplex -/
noncomputable def spherePower {D : Nat} (V : List (Fin D → ℝ)) (w : Nat → ℝ) (ctr : Finset Nat → Fin D → ℝ)
    (l : List Nat) (p : Fin D → ℝ) : ℝ :=
  power p (ctr l.toFinset) (sphereRadius V w ctr l)

/-- `b` are barycentric coordinates of `p` with respect to the corners of `l` -/
def Coordinates {D : Nat} (V : List (Fin D → ℝ)) (l : List Nat) (p : Fin D → ℝ) (b : Nat → ℝ) : Prop :=
  ∑ v ∈ l.toFinset, b v = 1 ∧ ∀ j, p j = ∑ v ∈ l.toFinset, b v * position V v j

/-- `p` lies in the simplex `l` -/
def InSimplex {D : Nat} (V : List (Fin D → ℝ)) (l : List Nat) (p : Fin D → ℝ) : Prop :=
  ∃ b, Coordinates V l p b ∧ ∀ v ∈ l, 0 ≤ b v

/-- a Delaunay triangulation (a regular one, if there are weights): the vertices of the mesh that are
not corners of a simplex lie outside of its sphere -/
def Delaunay {D : Nat} (V : List (Fin D → ℝ)) (w : Nat → ℝ) (ctr : Finset Nat → Fin D → ℝ)
    (simplices : List (List Nat)) : Prop :=
  ∀ l ∈ simplices, ∀ l' ∈ simplices, ∀ v ∈ l', v ∉ l → ∀ u ∈ l,
    power (ctr l.toFinset) (position V u) (w u) < power (ctr l.toFinset) (position V v) (w v)

/-- a way from simplex to simplex through common faces; each time `p` lies on the side of the face that
is left behind (or on the face) -/
inductive AwayFrom {D : Nat} (V : List (Fin D → ℝ)) (simplices : List (List Nat)) (p : Fin D → ℝ) :
    List Nat → List Nat → Prop
  | refl (l : List Nat) : AwayFrom V simplices p l l
  | step {l l' l'' e : List Nat} {b : Nat → ℝ} : l ∈ simplices → l' ∈ simplices → l ≠ l' → IsFace e l →
      IsFace e l' → Coordinates V l p b → 0 ≤ b (missing l e) → AwayFrom V simplices p l' l'' →
      AwayFrom V simplices p l l''

/-- `x` solves the linear system with the matrix `L` and the right-hand side `b` -/
def Solves (L : Verif.Model.Mat Int) (x b : List ℝ) : Prop :=
  x.length = L.cols ∧ b.length = L.rows ∧
    ∀ i < L.rows, ∑ j ∈ Finset.range L.cols, (L.entry i j : ℝ) * x[j]?.getD 0 = b[i]?.getD 0

/-- `minres` solves a symmetric system that has a solution -/
def MinresSpec (minres : Verif.Model.Mat Int → List ℝ → List ℝ) : Prop :=
  ∀ L b, L.rows = L.cols → (∀ i j, L.entry i j = L.entry j i) → (∃ x, Solves L x b) → Solves L (minres L b) b

/-- and of all solutions it finds the one that has no part in the null space -/
def LeastNorm (minres : Verif.Model.Mat Int → List ℝ → List ℝ) : Prop :=
  ∀ L b, L.rows = L.cols → (∀ i j, L.entry i j = L.entry j i) → (∃ x, Solves L x b) →
    ∀ z, Solves L z (List.replicate L.rows 0) →
      ∑ j ∈ Finset.range L.cols, (minres L b)[j]?.getD 0 * z[j]?.getD 0 = 0

end Verif.Spec
