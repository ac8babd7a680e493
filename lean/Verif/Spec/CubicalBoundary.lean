/-
Specification notions for the orientation and the boundary of a list of cubes.
-/
import Verif.Spec.Cubical
import Verif.Spec.Boundary

namespace Verif.Spec

/-- `e` lists, in some order, the corners of a side of the `(k+1)`-cube `l` -/
def IsCubeSide (k : Nat) (e l : List Nat) : Prop := ∃ i ≤ k, ∃ s, e.Perm (side k i s l)

/-- the cube `l` gives its side `e` the orientation `τ`: opposite signs for opposite sides and for neighbouring axes,
times the sign of the side relative to the order of corners in `e` -/
def SideSign (k : Nat) (e l : List Nat) (τ : ℤ) : Prop :=
  ∃ i ≤ k, ∃ s σ, SymmetricCube k e (side k i s l) σ ∧ τ = (-1) ^ (i + s.toNat) * σ

/-- `e` is a side of exactly the two cubes number `j1` and `j2` of the list -/
def SharedSide (k : Nat) (cubes : List (List Nat)) (e : List Nat) (j1 j2 : Nat) : Prop :=
  j1 ≠ j2 ∧ j1 < cubes.length ∧ j2 < cubes.length ∧
  ∀ j l, cubes[j]? = some l → (IsCubeSide k e l ↔ j = j1 ∨ j = j2)

/-- every side shared by exactly two cubes receives opposite orientations from them -/
def CubesCoherent (k : Nat) (cubes : List (List Nat)) : Prop :=
  ∀ e j1 j2 l1 l2, cubes[j1]? = some l1 → cubes[j2]? = some l2 → SharedSide k cubes e j1 j2 →
    ∀ τ1 τ2, SideSign k e l1 τ1 → SideSign k e l2 τ2 → τ1 + τ2 = 0

/-- connected through shared sides -/
def CubesConnected (k : Nat) (cubes : List (List Nat)) : Prop :=
  ∀ j1 < cubes.length, ∀ j2 < cubes.length,
    Relation.ReflTransGen (fun a b => ∃ e, SharedSide k cubes e a b) j1 j2

/-- no side belongs to three or more cubes of the list -/
def SidesAtMostTwo (k : Nat) (cubes : List (List Nat)) : Prop :=
  ∀ (e : List Nat) (j1 j2 j3 : Nat) (l1 l2 l3 : List Nat), cubes[j1]? = some l1 → cubes[j2]? = some l2 →
    cubes[j3]? = some l3 → IsCubeSide k e l1 → IsCubeSide k e l2 → IsCubeSide k e l3 → j1 = j2 ∨ j1 = j3 ∨ j2 = j3

/-- `e` is a side of exactly one cube of the list -/
def BoundarySide (k : Nat) (cubes : List (List Nat)) (e : List Nat) : Prop :=
  ∃ (j : Nat) (l : List Nat), cubes[j]? = some l ∧ IsCubeSide k e l ∧
    ∀ (j' : Nat) (l' : List Nat), cubes[j']? = some l' → IsCubeSide k e l' → j' = j

end Verif.Spec
