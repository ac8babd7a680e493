/-
Specification notions for parts of a mesh and for its boundary.
-/
import Verif.Spec.Orientation

namespace Verif.Spec

/-- no face belongs to three or more simplices of the list -/
def AtMostTwo (rows : List (List Nat)) : Prop :=
  ∀ (e : List Nat) (j1 j2 j3 : Nat) (l1 l2 l3 : List Nat), rows[j1]? = some l1 → rows[j2]? = some l2 → rows[j3]? = some l3 →
    IsFace e l1 → IsFace e l2 → IsFace e l3 → j1 = j2 ∨ j1 = j3 ∨ j2 = j3

/-- `e` is a face of exactly one simplex of the list -/
def BoundaryFace (rows : List (List Nat)) (e : List Nat) : Prop :=
  ∃ (j : Nat) (l : List Nat), rows[j]? = some l ∧ IsFace e l ∧
    ∀ (j' : Nat) (l' : List Nat), rows[j']? = some l' → IsFace e l' → j' = j

/-- `idx` leads from the elements `sub` of an extracted mesh back to the elements `full` of the
mesh it was taken from: `idx[0]` maps vertices, and on every level the recorded parent of an
element has the same corners, up to their order. -/
def Corresponds (full sub : List (List (List Nat))) (idx : List (List Nat)) : Prop :=
  idx.length = sub.length ∧ ∃ P0, idx[0]? = some P0 ∧
    ∀ (j : Nat) (E : List (List Nat)), sub[j]? = some E → ∃ (P : List Nat) (F : List (List Nat)),
      idx[j]? = some P ∧ full[j]? = some F ∧ P.length = E.length ∧
      ∀ (i : Nat) (e : List Nat), E[i]? = some e →
        (∀ v ∈ e, v < P0.length) ∧
        ∃ (p : Nat) (e' : List Nat), P[i]? = some p ∧ F[p]? = some e' ∧
          e'.Perm (e.map fun v => P0[v]?.getD 0)

/-- the rows picked by the non-zero entries of a chain, in order -/
def picked (chain : List Int) (rows : List (List Nat)) : List (List Nat) :=
  ((chain.zip rows).filter fun cr => cr.1 ≠ 0).map Prod.snd

end Verif.Spec
