/-
The vertices and elements of a cubical subdivision.
-/
import Verif.Spec.Cubical

namespace Verif.Spec

open Verif.Model

/-- the vertex put into element `i` of dimension `k`: the vertices are numbered dimension after dimension -/
def subVertex (t : Topo) (k i : Nat) : Nat := ((List.range k).map t.nElements).sum + i

/-- `v` is a corner of the face of cube `l` between its corner `p` and the sides on which `b` agrees with `p` -/
def OnCornerFace (l : List Nat) (p b : List Bool) (v : Nat) : Prop :=
  ∃ c : List Bool, c.length = p.length ∧ (∀ a : Nat, p[a]? = b[a]? → c[a]? = p[a]?) ∧ l[ravel c]? = some v

/-- vertex `v` of the subdivision was put into element `i` of dimension `k` or into one of its faces, that is, an
element of lower dimension all of whose corners are corners of element `i` -/
def InElement (t : Topo) (k i v : Nat) : Prop :=
  v = subVertex t k i ∨ ∃ (m r : Nat) (f e : List Nat), m < k ∧ (t.elements[m]?.getD [])[r]? = some f ∧
    (t.elements[k]?.getD [])[i]? = some e ∧ v = subVertex t m r ∧ ∀ u ∈ f, u ∈ e

/-- entry of the product of two matrices with `m` columns and rows in common -/
def prodEntry (m : Nat) (A B : Nat → Nat → Int) (i j : Nat) : Int := ((List.range m).map fun k => A i k * B k j).sum

end Verif.Spec
