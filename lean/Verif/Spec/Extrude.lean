/-
Specification notions for the extrusion of a surface.
-/
import Verif.Spec.Triangles

namespace Verif.Spec

/-- `E` lists, each once, the directed edges of the surface that no triangle passes backwards: the
border of the surface, in the direction of its triangles -/
def IsBorder (T : List (List Nat)) (E : List (Nat × Nat)) : Prop :=
  E.Nodup ∧ ∀ a b, (a, b) ∈ E ↔ (a, b) ∈ directedEdges T ∧ (b, a) ∉ directedEdges T

/-- the surface, a second copy of it turned over, on vertices renumbered by `n`, and for every border
edge two triangles that join it to its copy -/
def prism (n : Nat) (T : List (List Nat)) (E : List (Nat × Nat)) : List (List Nat) :=
  T ++ T.map (fun l => l.reverse.map (· + n)) ++
    (E.map (fun e => [e.2, e.1, e.1 + n]) ++ E.map (fun e => [e.1 + n, e.2 + n, e.2]))

/-- every edge of the surface lies in exactly two triangles -/
def TwoTriangles (T : List (List Nat)) : Prop := AtMostTwo T ∧ ∀ e, ¬ BoundaryFace T e

end Verif.Spec
