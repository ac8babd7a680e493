/-
Symmetries of cubes and their signs.
-/
import Verif.Spec.Sign
import Verif.Model.Cubical

namespace Verif.Spec

open Verif.Model

/-- rows that list the corners of `n`-cubes: `2 ^ n` different corners each -/
def Cubes (n : Nat) (E : List (List Nat)) : Prop := ∀ l ∈ E, l.length = 2 ^ n ∧ l.Nodup

/-- where the symmetry that carries axis `k` to axis `axes[k]`, after reversing axis `k` if `flips[k]`,
takes a corner: entry `axes[k]` of the result is `b[k] xor flips[k]` -/
def turnIndex (n : Nat) (axes : List Nat) (flips b : List Bool) : List Bool :=
  (List.range n).map fun j =>
    xor (b[axes.idxOf j]?.getD false) (flips[axes.idxOf j]?.getD false)

/-- the same cube listed along other axes -/
def turn (n : Nat) (axes : List Nat) (flips : List Bool) (l : List Nat) : List Nat :=
  cubeOf n fun b => cubeAt l (turnIndex n axes flips b)

/-- the axes and flips of a symmetry of the `n`-cube -/
def IsSymmetry (n : Nat) (axes : List Nat) (flips : List Bool) : Prop :=
  axes.Perm (List.range n) ∧ flips.length = n

/-- a symmetry reverses the orientation when it exchanges an odd number of pairs of axes and flips -/
def symmetrySign (axes : List Nat) (flips : List Bool) : Int := sgn axes * (-1) ^ flips.count true

/-- `l` lists the corners of the cube `e` in the order of a symmetric cube of sign `s` -/
def SymmetricCube (n : Nat) (e l : List Nat) (s : Int) : Prop :=
  ∃ axes flips, IsSymmetry n axes flips ∧ l = turn n axes flips e ∧ s = symmetrySign axes flips

/-- the corners of a `(k+1)`-cube on its side `s` along axis `i`, in the order in which the cube lists them -/
def side (k i : Nat) (s : Bool) (l : List Nat) : List Nat :=
  ((cubeIndices (k + 1)).filter fun b => b[i]? == some s).map (cubeAt l)

/-- `f` is a face of dimension `k` of the `(k+d)`-cube `l`: a side of a side ... of `l` -/
def IsCubeFace : (d k : Nat) → List Nat → List Nat → Prop
  | 0, _, l, f => f = l
  | d + 1, k, l, f => ∃ i ≤ k + d, ∃ s, IsCubeFace d k (side (k + d) i s l) f

/-- faces with the same corners are the same cube: of any two faces of dimension `1 ≤ k < n` with the same corners
the one is the other listed along other axes -/
def FacesAgree (n : Nat) (F : List (List Nat)) : Prop :=
  ∀ k d, 1 ≤ k → k + (d + 1) = n → ∀ l ∈ F, ∀ l' ∈ F, ∀ f f', IsCubeFace (d + 1) k l f → IsCubeFace (d + 1) k l' f' →
    f.Perm f' → ∃ σ, SymmetricCube k f f' σ

/-- `E` lists the sides of the cubes of `F` -/
def SidesOf (k : Nat) (E F : List (List Nat)) : Prop :=
  (∀ l ∈ F, ∀ i ≤ k, ∀ s, ∃ e ∈ E, ∃ σ, SymmetricCube k e (side k i s l) σ) ∧
  (∀ e ∈ E, ∃ l ∈ F, ∃ i ≤ k, ∃ s, ∃ σ, SymmetricCube k e (side k i s l) σ)

/-- `B`, `O` describe the boundary of every cube of `F` in terms of the cubes `E`: the slots `2 i` and `2 i + 1`
hold the sides along axis `i`, with the sign of the stored cube relative to the side and opposite
signs for opposite sides and for neighbouring axes -/
def CubeBoundary (k : Nat) (E F : List (List Nat)) (B : List (List Nat)) (O : List (List Int)) : Prop :=
  B.length = F.length ∧ O.length = F.length ∧
  ∀ (j : Nat) (l : List Nat), F[j]? = some l →
    ∃ b o, B[j]? = some b ∧ O[j]? = some o ∧ b.length = 2 * (k + 1) ∧ o.length = 2 * (k + 1) ∧
      ∀ i ≤ k, ∀ s : Bool, ∃ (x : Nat) (σ : Int) (e : List Nat),
        b[2 * i + s.toNat]? = some x ∧ o[2 * i + s.toNat]? = some (- ((-1) ^ (i + s.toNat) * σ)) ∧
        E[x]? = some e ∧ SymmetricCube k e (side k i s l) σ

end Verif.Spec
