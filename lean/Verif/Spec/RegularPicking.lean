/-
Points in boxes, boxes of equal size, and functions that are affine in every coordinate.
-/
import Verif.Spec.RegularMetric

namespace Verif.Spec

open Verif.Model

variable {K : Type} [Field K] [LinearOrder K] {n : Nat}

/-- the square of the distance of two points -/
def distanceSq (x y : Vec K n) : K := ∑ q, (x q - y q) ^ 2

/-- what a `cKDTree` finds: a point with the least distance -/
def NearestSite (nearest : List (Vec K n) → Vec K n → Nat) : Prop :=
  ∀ (sites : List (Vec K n)) (p : Vec K n), sites ≠ [] →
    ∃ x, sites[nearest sites p]? = some x ∧ ∀ y ∈ sites, distanceSq x p ≤ distanceSq y p

/-- position of corner number `i` of the cube `l` -/
def cornerPosition (V : List (Vec K n)) (l : List Nat) (i : Nat) : Vec K n := V[l[i]?.getD 0]?.getD 0

/-- `p` is in the box with the corners `l`: in every coordinate between two corners -/
def InBox (V : List (Vec K n)) (l : List Nat) (p : Vec K n) : Prop :=
  ∀ q, ∃ v ∈ l, ∃ w ∈ l, (V[v]?.getD 0) q ≤ p q ∧ p q ≤ (V[w]?.getD 0) q

/-- the boxes are cells of a grid: in coordinate `q` with the spacing `h q` and a grid point at `o q` -/
def OnGrid (V : List (Vec K n)) (cubes : List (List Nat)) (o h : Vec K n) : Prop :=
  (∀ q, 0 < h q) ∧ ∀ l ∈ cubes, ∀ q, ∃ z : ℤ, ∀ v ∈ l,
    (V[v]?.getD 0) q = o q + z * h q ∨ (V[v]?.getD 0) q = o q + (z + 1) * h q

/-- `f` is affine in every coordinate -/
def AffineInEach (f : Vec K n → K) : Prop :=
  ∀ (x : Vec K n) (q : Fin n) (a b s : K), f (Function.update x q ((1 - s) * a + s * b)) =
    (1 - s) * f (Function.update x q a) + s * f (Function.update x q b)

/-- the box is not turned: axis `a` of the cube goes along coordinate `a` -/
def Upright (V : List (Vec K n)) (l : List Nat) : Prop :=
  ∀ (c : List Bool) (v w : Nat) (a : Fin n), c.length = n → l[ravel c]? = some v →
    l[ravel (c.set a.val (!(c[a.val]?.getD false)))]? = some w →
    ∀ q : Fin n, q ≠ a → (V[v]?.getD 0) q = (V[w]?.getD 0) q

end Verif.Spec
