/-
Products of cubes.
-/
import Verif.Spec.Cubical

namespace Verif.Spec

open Verif.Model

/-- the product of an `n`-cube and an `m`-cube: the first `n` entries of a corner select the corner of the first
factor, the others the corner of the second; the pair of vertices `x`, `y` has the number `x + y nv` -/
def pairCube (nv n m : Nat) (l g : List Nat) : List Nat :=
  cubeOf (n + m) fun b => cubeAt l (b.take n) + cubeAt g (b.drop n) * nv

/-- columns `j1` and `j2` are the two nonzero entries of row `i` -/
def TwoColumns (M : Mat Int) (i j1 j2 : Nat) : Prop :=
  i < M.rows ∧ j1 ≠ j2 ∧ j1 < M.cols ∧ j2 < M.cols ∧ ∀ j < M.cols, M.entry i j ≠ 0 ↔ j = j1 ∨ j = j2

/-- every face shared by exactly two cubes gets opposite signs from them -/
def PairsCancel (M : Mat Int) : Prop := ∀ i j1 j2, TwoColumns M i j1 j2 → M.entry i j1 + M.entry i j2 = 0

/-- all cubes are linked through faces shared by exactly two cubes -/
def Linked (M : Mat Int) : Prop :=
  ∀ j1 < M.cols, ∀ j2 < M.cols, Relation.ReflTransGen (fun j j' => ∃ i, TwoColumns M i j j') j1 j2

end Verif.Spec
