/-
Specification notions for simplicial topologies: what a correct incidence structure is, in terms
of corner lists only.
-/
import Verif.Spec.Sign

namespace Verif.Spec

/-- The corner that the `c`-th boundary slot of a `(k+1)`-element lies opposite to.  For edges
(`k = 0`) the code stores the two end points in corner order, so slot `c` is opposite to the other
corner. -/
def oppositeCorner (k c : Nat) : Nat := if k = 0 then 1 - c else c

/-- global sign convention of the code: `+1` for edges, `-1` for all higher elements -/
def levelSign (k : Nat) : Int := if k = 0 then 1 else -1

/-- A level of `n`-cornered elements: right number of corners, no repeated corner. -/
def Simplices (n : Nat) (E : List (List Nat)) : Prop :=
  ∀ e ∈ E, e.length = n ∧ e.Nodup

/-- no two elements of the level have the same corner set -/
def DistinctElements (E : List (List Nat)) : Prop :=
  E.Pairwise fun a b => ¬ a.Perm b

/-- `E` lists exactly the faces (one corner deleted) of the elements of `F` -/
def FacesOf (E F : List (List Nat)) : Prop :=
  (∀ l ∈ F, ∀ c < l.length, ∃ e ∈ E, e.Perm (l.eraseIdx c)) ∧
  (∀ e ∈ E, ∃ l ∈ F, ∃ c < l.length, e.Perm (l.eraseIdx c))

/-- `B`, `O` describe the boundary of every `(k+1)`-element of `F` in terms of the `k`-elements
`E`: slot `c` holds the index of the face opposite to a corner, and the induced orientation sign
of that face relative to its stored corner order. -/
def InducedBoundary (k : Nat) (E F : List (List Nat)) (B : List (List Nat))
    (O : List (List Int)) : Prop :=
  B.length = F.length ∧ O.length = F.length ∧
  ∀ (j : Nat) (l : List Nat), F[j]? = some l →
    ∃ b o, B[j]? = some b ∧ O[j]? = some o ∧ b.length = k + 2 ∧ o.length = k + 2 ∧
      ∀ c < k + 2, ∃ (i : Nat) (s : Int) (e : List Nat),
        b[c]? = some i ∧ o[c]? = some s ∧ E[i]? = some e ∧
        e.Perm (l.eraseIdx (oppositeCorner k c)) ∧
        s = levelSign k * (-1) ^ (oppositeCorner k c) *
              relSign e (l.eraseIdx (oppositeCorner k c))

/-- the contract assumed of the grouping routine: distinct rows, each once, in any order -/
def UniqSpec (uniq : List (List Nat) → List (List Nat)) : Prop :=
  ∀ rows, (uniq rows).Nodup ∧ ∀ r, r ∈ uniq rows ↔ r ∈ rows

end Verif.Spec
