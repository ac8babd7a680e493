/-
Model of `ComplexTriangularEuclidian.clip`, `pycomplex/complex/simplicial/euclidian.py` lines 349-442,
and of `BaseComplex.select_subset`, `pycomplex/complex/base.py` lines 54-79.

Positions are vectors over an exact ordered field.  The rows of `incidence[2, 0]`, `incidence[2, 1]` and
`incidence[1, 0]` are the corner rows of the triangles, the boundary rows of the triangles and the corner
rows of the edges of the topology.
-/
import Verif.Model.Triangles
import Verif.Model.Boundary
import Mathlib.Algebra.Order.Field.Basic

namespace Verif.Model

section

variable {K : Type} [Field K] [LinearOrder K] {d : Nat}

/-- one entry of `vert_side`, line 397 -/
def side (support direction v : Vec K d) : Bool := decide (0 < dot (v - support) direction)

/-- one row of `vert_side[EV]` or `vert_side[TV]` -/
def sidesAt (support direction : Vec K d) (V : List (Vec K d)) (row : List Nat) :
    Except PyErr (List Bool) :=
  row.mapM fun i => do
    let v ← vertexAt V i
    .ok (side support direction v)

/-- one entry of `v_insert`, lines 404-409: the barycentric weights are the distances of the ends from
the plane, exchanged -/
def insertAt (support direction v0 v1 : Vec K d) : Vec K d :=
  let b0 := dot (v0 - support) direction
  let b1 := dot (v1 - support) direction
  let len := dot (v1 - v0) direction
  fun i => v0 i * |b1 / len| + v1 i * |b0 / len|

/-- one row of `edge_vert` and the vertex inserted on it, lines 404-409 -/
def insertOn (support direction : Vec K d) (V : List (Vec K d)) : List Nat → Except PyErr (Vec K d)
  | [a, b] => do
    let x ← vertexAt V a
    let y ← vertexAt V b
    .ok (insertAt support direction x y)
  | _ => .error .valueError

/-- `values[mask]` for a mask of booleans -/
def maskOf {α : Type} (values : List α) (mask : List Bool) : List α :=
  ((values.zip mask).filter Prod.snd).map Prod.fst

/-- one entry of `edge_cut`, line 398 -/
def edgeCut (sides : List Bool) : Bool := decide (0 < sides.count true % 2)

/-- one entry of `tri_cut`, line 400 -/
def triCut (sides : List Bool) : Bool := decide (0 < sides.count true % 3)

/-- one entry of `tri_keep`, line 401 -/
def triKeep (sides : List Bool) : Bool := decide (sides.count true = 0)

/-- one entry of `tip`, lines 412-414: `argmax` and `argmin` of booleans are the first `True` and the
first `False`; the code reads them for rows with both only -/
def tipOf (sides : List Bool) : Nat :=
  if sides.count true = 1 then sides.idxOf true else sides.idxOf false

/-- `e_lookup` for an edge, lines 416-420: `np.cumsum(edge_cut) - 1`, shifted by the number of vertices
of the topology -/
def edgeLookup (cut : List Bool) (nVertices e : Nat) : Nat :=
  (cut.take (e + 1)).count true + nVertices - 1

/-- the three rows of `NT` of a cut triangle, lines 416-434 -/
def cutTriangle (cut : List Bool) (nVertices : Nat) (tv te : List Nat) (sides : List Bool) :
    List (List Nat) :=
  let tip := tipOf sides
  let e := fun o => edgeLookup cut nVertices (te[(o + tip) % 3]?.getD 0)
  let v := fun o => tv[(o + tip) % 3]?.getD 0
  [[v 0, e 2, e 1], [v 1, e 1, e 2], [v 2, e 1, v 1]]

/-- the vertices and triangles of `cut` and the chain passed to `select_subset`, lines 393-441 -/
structure Cut (K : Type) (d : Nat) where
  vertices : List (Vec K d)
  triangles : List (List Nat)
  keep : List Bool

/-- `clip` up to the call of the constructor, lines 393-436, and the chain of lines 440-441 -/
def cutMesh (V : List (Vec K d)) (t : Topo) (support direction : Vec K d) : Except PyErr (Cut K d) := do
  let TV := t.elements[2]?.getD []
  let TE := t.boundary[1]?.getD []
  let EV := t.elements[1]?.getD []
  let edgeSides ← EV.mapM (sidesAt support direction V)
  let cut := edgeSides.map edgeCut
  let triSides ← TV.mapM (sidesAt support direction V)
  let inserts ← EV.mapM (insertOn support direction V)
  let mask := triSides.map triCut
  let NT := List.zipWith (fun p sides => cutTriangle cut (t.nElements 0) p.1 p.2 sides)
    (maskOf (TV.zip TE) mask) (maskOf triSides mask)
  let NTs ← NT.flatten.mapM fun row => sidesAt support direction V (row.take 1)
  .ok { vertices := V ++ maskOf inserts cut
        triangles := maskOf TV (mask.map (!·)) ++ NT.flatten
        keep := maskOf (triSides.map triKeep) (mask.map (!·)) ++ NTs.map fun b => !(b == [true]) }

/-- `select_subset(n_chain)`, `complex/base.py` lines 54-79, for a complex without weights -/
def selectComplex (uniq : List (List Nat) → List (List Nat)) (V : List (Vec K d)) (t : Topo)
    (chain : List Int) : Except PyErr (List (Vec K d) × Topo) := do
  let s ← selectSubset uniq t chain
  let V' ← (s.parentIdx[0]?.getD []).mapM (vertexAt V)
  .ok (V', s.topo)

/-- `clip(support, direction, clip)`, lines 349-442; the result is a complex: vertices and topology.
The weights of a complex are not passed on by the code. -/
def clip (uniq : List (List Nat) → List (List Nat)) (V : List (Vec K d)) (t : Topo)
    (support direction : Vec K d) (doClip : Bool) : Except PyErr (List (Vec K d) × Topo) := do
  let c ← cutMesh V t support direction
  let topo ← fromSimplices uniq 3 c.triangles
  if doClip then
    selectComplex uniq c.vertices topo (c.keep.map fun b => if b then 1 else 0)
  else .ok (c.vertices, topo)

end

end Verif.Model
