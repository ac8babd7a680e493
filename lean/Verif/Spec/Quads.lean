/-
Specification of orientation for quads.  A quad `[q00, q01, q10, q11]` has the boundary loop
`q00 → q01 → q11 → q10 → q00`.
-/
import Verif.Spec.Orientation

namespace Verif.Spec

/-- the directed edges of the boundary loop of a quad -/
def quadLoop (q : List Nat) : List (List Nat) :=
  match q with
  | [a, b, c, d] => [[a, b], [b, d], [d, c], [c, a]]
  | _ => []

/-- how often the loop runs along `e` minus how often it runs against it -/
def quadSign (e q : List Nat) : Int := ((quadLoop q).map (relSign e)).sum

/-- `e` is a side of the quad -/
def IsSide (e q : List Nat) : Prop := ∃ s ∈ quadLoop q, e.Perm s

/-- every side shared by exactly two quads is run through in opposite directions -/
def CoherentQuads (quads : List (List Nat)) : Prop :=
  ∀ (e : List Nat) (j1 j2 : Nat) (q1 q2 : List Nat), quads[j1]? = some q1 → quads[j2]? = some q2 →
    j1 ≠ j2 → (∀ (j : Nat) (q : List Nat), quads[j]? = some q → (IsSide e q ↔ j = j1 ∨ j = j2)) →
    quadSign e q1 + quadSign e q2 = 0

end Verif.Spec
