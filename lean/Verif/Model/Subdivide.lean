/-
Model of the subdivision of simplicial topologies into fundamental domains
(`pycomplex/topology/simplicial.py`).
-/
import Verif.Model.Boundary

namespace Verif.Model

/-- `element_indices`, `topology/util.py` lines 193-216, for one row of `that`: the position of the
sorted row among the sorted rows of `this`; `npi.indices` raises `KeyError` when it is missing. -/
def elementIndex (this : List (List Nat)) (row : List Nat) : Except PyErr Nat :=
  if sortRow row ∈ this.map sortRow then .ok ((this.map sortRow).idxOf (sortRow row))
  else .error .keyError

/-- The part of `fundamental_domains`, `topology/simplicial.py` lines 224-230, below one row `row`
with `k + 2` corners: columns `0..k` of the array `domains` for all positions of the axes generated
from that row, in C order.  Each pass of the loop replaces a row by the rows of
`generate_simplex_boundary` (an extra axis) and records their indices in the column of their level;
the last axis of the final `IN0` (line 230) lists the two corners of an edge. -/
def flagRows (E : List (List (List Nat))) : Nat → List Nat → Except PyErr (List (List Nat))
  | 0, row => .ok (row.map fun v => [v])
  | k + 1, row => do
    let parts ← ((List.range row.length).map fun c => simplexFace row c).mapM fun f => do
      let i ← elementIndex (E[k + 1]?.getD []) f
      let fl ← flagRows E k f
      .ok (fl.map fun d => d ++ [i])
    .ok parts.flatten

/-- `fundamental_domains`, `topology/simplicial.py` lines 206-232: for every n-simplex the list of
its domains (axes `1..n` of the array flattened in C order), each a row of `n + 1` indices. -/
def fundamentalDomains (t : Topo) : Except PyErr (List (List (List Nat))) :=
  let n := t.boundary.length
  (t.elements[n]?.getD []).zipIdx.mapM fun lj => do
    let fl ← flagRows t.elements (n - 1) lj.1
    .ok (fl.map fun d => d ++ [lj.2])

/-- `np.cumsum([0] + n_elements)[k]`, `topology/simplicial.py` line 248 -/
def levelOffset (t : Topo) (k : Nat) : Nat := ((List.range k).map t.nElements).sum

/-- `row + offset`, `topology/simplicial.py` line 250 -/
def addOffsets (t : Topo) (d : List Nat) : List Nat := d.mapIdx fun k x => x + levelOffset t k

/-- `row[[-2, -1]] = row[[-1, -2]]` -/
def swapLast {α : Type} (l : List α) : List α := (swap01 l.reverse).reverse

/-- the array `simplices` of `subdivide_fundamental`, `topology/simplicial.py` lines 248-253,
grouped by parent simplex.  `simplices[..., 1, [-2, -1]]` addresses position 1 of the last domain
axis, which has length 2: the odd positions in C order. -/
def fundamentalSimplices (t : Topo) (oriented : Bool) : Except PyErr (List (List (List Nat))) := do
  let doms ← fundamentalDomains t
  .ok (doms.map fun ds => ds.mapIdx fun i d =>
    if oriented ∧ i % 2 = 1 then swapLast (addOffsets t d) else addOffsets t d)

/-- `subdivide_fundamental`, `topology/simplicial.py` lines 234-255 (the attribute `parent` is not
modelled) -/
def subdivideFundamental (uniq : List (List Nat) → List (List Nat)) (t : Topo) (oriented : Bool) :
    Except PyErr Topo := do
  let s ← fundamentalSimplices t oriented
  fromSimplices uniq (t.boundary.length + 1) s.flatten

end Verif.Model
