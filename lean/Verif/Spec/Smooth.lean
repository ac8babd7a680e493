/-
What smoothing with creases should give.
-/
import Verif.Model.Simplicial
import Verif.Spec.Averaging

namespace Verif.Spec

open Verif.Model

/-- whether element `i` of level `k` is a crease: the chain of its level says so; without a chain just the elements of the top
level `n` are -/
def isCrease (n : Nat) (creases : List (Nat × List Int)) (k i : Nat) : Bool :=
  match creases.lookup k with
  | some c => c[i]?.getD 0 != 0
  | none => k == n

/-- the creases of level `k` at the vertex `v` -/
def creasesAt (t : Topo) (n : Nat) (creases : List (Nat × List Int)) (k v : Nat) : List Nat :=
  (List.range (t.nElements k)).filter fun i =>
    isCrease n creases k i && ((t.elements[k]?.getD [])[i]?.getD []).contains v

/-- the lowest level with a crease at the vertex `v` -/
def creaseLevel (t : Topo) (n : Nat) (creases : List (Nat × List Int)) (v : Nat) : Option Nat :=
  (List.range (n + 1)).find? fun k => !(creasesAt t n creases k v).isEmpty

/-- the smoothed value at a vertex, given the values `x` at vertices and the values `y` at the centers of elements: the mean
over the creases of the lowest level that has any there; a vertex without creases keeps its value -/
def smoothed {K : Type} [Field K] (t : Topo) (n : Nat) (creases : List (Nat × List Int)) (x : Nat → K) (y : Nat → Nat → K)
    (v : Nat) : K :=
  match creaseLevel t n creases v with
  | some k => mean ((creasesAt t n creases k v).map (y k))
  | none => x v

/-- chains of levels that exist, of the right length, and no level twice -/
def ValidCreases (t : Topo) (n : Nat) (creases : List (Nat × List Int)) : Prop :=
  (creases.map (·.1)).Nodup ∧ ∀ kc ∈ creases, kc.1 ≤ n ∧ kc.2.length = t.nElements kc.1

end Verif.Spec
