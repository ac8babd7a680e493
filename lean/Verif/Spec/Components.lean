/-
What the connected components of a list of simplices are, and what a program finding the components of a
graph has to deliver.
-/
import Verif.Model.Basic
import Verif.Spec.Orientation

namespace Verif.Spec

open Verif.Model

/-- simplices number `a` and `b` have a face in common -/
def ShareFace (rows : List (List Nat)) (a b : Nat) : Prop :=
  ∃ l l', rows[a]? = some l ∧ rows[b]? = some l' ∧ ∃ e, IsFace e l ∧ IsFace e l'

/-- from simplex `a` one gets to simplex `b` through common faces, meeting only simplices of `S` -/
def FaceLinked (rows : List (List Nat)) (S : List Nat) : Nat → Nat → Prop :=
  Relation.ReflTransGen fun x y => x ∈ S ∧ y ∈ S ∧ ShareFace rows x y

/-- the relation `R` has exactly `k` classes on `S`: there are `k` members of `S`, no two of them related,
to one of which every member of `S` is related -/
def HasClasses (S : List Nat) (R : Nat → Nat → Prop) (k : Nat) : Prop :=
  ∃ reps : List Nat, reps.length = k ∧ (∀ r ∈ reps, r ∈ S) ∧ reps.Pairwise (fun a b => ¬ R a b) ∧
    ∀ a ∈ S, ∃ r ∈ reps, R a r

/-- the edges of a graph given by a matrix -/
def Edge (G : Mat Int) (a b : Nat) : Prop := a < G.rows ∧ b < G.rows ∧ G.entry a b ≠ 0

/-- the contract of `connected_components(graph)` (weak connections): the labels are `0, ..., n - 1`, all of
them are used, and two nodes have the same label exactly when they are connected by edges, followed in
either direction -/
def ComponentsSpec (cc : Mat Int → Nat × List Nat) : Prop :=
  ∀ G : Mat Int, G.rows = G.cols →
    (cc G).2.length = G.rows ∧ (∀ l, l ∈ (cc G).2 ↔ l < (cc G).1) ∧
    ∀ a < G.rows, ∀ b < G.rows, (cc G).2[a]? = (cc G).2[b]? ↔ Relation.EqvGen (Edge G) a b

/-- the renumbered simplices `new`, whose vertex `v` is vertex `P0[v]` of the original, are the simplices
number `K`, and these are one class of simplices linked through common faces.  The vertices of `new` are
numbered without gaps, in the order of the original numbers. -/
structure IsComponent (rows new : List (List Nat)) (P0 K : List Nat) : Prop where
  nonempty : K ≠ []
  increasing : K.Pairwise (· < ·)
  inside : ∀ j ∈ K, j < rows.length
  isClass : ∀ j ∈ K, ∀ i < rows.length, i ∈ K ↔ FaceLinked rows (List.range rows.length) j i
  vertices : P0.Pairwise (· < ·)
  used : ∀ v, (∃ r ∈ new, v ∈ r) ↔ v < P0.length
  same : new.map (fun r => r.map fun v => P0[v]?.getD 0) = K.map fun j => rows[j]?.getD []

end Verif.Spec
