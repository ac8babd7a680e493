/-
Model of `TopologyCubical.cubical_domains`, `subdivide_cubical` and `subdivide_cubical_transfers`,
`pycomplex/topology/cubical.py` lines 13-62, 252-357 and 413-447, for topologies of dimension at least one that are
not empty (`element_indices` divides by the number of elements).

Arrays of shape `(2,) * n` are lists in C order as in `Model/Cubical.lean`.
-/
import Verif.Model.Cubical
import Verif.Model.CubicalSub
import Verif.Model.Subdivide
import Verif.Model.Loop

namespace Verif.Model

/-- `np.moveaxis(arr, src, dst)` for an array of `n` axes and `dst ≤ src` -/
def moveAxis (n src dst : Nat) (l : List Nat) : List Nat :=
  cubeOf n fun b => cubeAt l ((b.eraseIdx dst).insertIdx src (b[dst]?.getD false))

/-- `generate_cube_boundary(cubes, degree=d, return_corners=True)` with `mirror=True`, lines 13-62, of one `n`-cube,
for `1 ≤ d < n`: for every choice of `d` axes the pair of `corner` and `boundary[e, i]`, whose first `d` axes are the
chosen ones -/
def cubeFaces (n d : Nat) (l : List Nat) : List (List Bool × List Nat) :=
  (combinations d (List.range n)).map fun pa =>
    let view := pa.2.zipIdx.foldl (fun v aj => moveAxis n aj.1 aj.2 v) l
    let view := if pa.1 ≠ 0 then flipAxis n (n - 1) view else view
    let view := if d = 1 then
        cubeOf n fun b => cubeAt view (if b[0]? = some true then b.modify (n - 1) not else b)
      else view
    ((List.range n).map (· ∈ pa.2), view)

/-- the passes of the loop in `cubical_domains`, lines 437-445, for one cube: for every choice of axes `corner` and the
array `idx` of the indices of the faces -/
def domainTables (E : List (List (List Nat))) (n : Nat) (l : List Nat) :
    Except PyErr (List (List Bool × List Nat)) :=
  ((List.range' 1 (n - 1)).flatMap fun d => (cubeFaces n d l).map fun cv => (d, cv)).mapM fun dcv => do
    let idx ← (cubeIndices dcv.1).mapM fun s =>
      elementIndex (E[n - dcv.1]?.getD []) ((cubeIndices (n - dcv.1)).map fun b => cubeAt dcv.2.2 (s ++ b))
    .ok (dcv.2.1, idx)

/-- the entries of `p` at the axes of size 2 of the shape `1 + c`, lines 442: broadcasting ignores the others -/
def atAxes (c p : List Bool) : List Bool := ((c.zip p).filter (·.1)).map (·.2)

/-- `domains[j][p][b]` of `cubical_domains`, lines 428-445: `domains[..., 1 - corner] = idx`, after the entries for
`b = 1, ..., 1` (the cube itself) and `b = 0, ..., 0` (its corners) -/
def domainAt (j : Nat) (l : List Nat) (tables : List (List Bool × List Nat)) (p b : List Bool) : Nat :=
  match tables.find? (fun ci => ci.1.map not == b) with
  | some ci => ci.2[ravel (atAxes ci.1 p)]?.getD 0
  | none => if b.all not then cubeAt l p else if b.all id then j else 0     -- the last case is unreachable

/-- the array `new_cubes` of `subdivide_cubical`, lines 273-287, grouped by parent cube -/
def subdivideCubes (t : Topo) : Except PyErr (List (List (List Nat))) :=
  let n := t.boundary.length
  (t.elements[n]?.getD []).zipIdx.mapM fun lj => do
    let tables ← domainTables t.elements n lj.1
    .ok ((cubeIndices n).map fun p =>
      flipAxes n p (cubeOf n fun b => domainAt lj.2 lj.1 tables p b + levelOffset t (b.count true)))

/-- one entry of `subdivide_cubical_transfers`, lines 341-356: the numbers of the fine elements and the numbers of the
coarse ones -/
def cubicalTransfer (nElements : List Nat) (k : Nat) (rows : List (List Nat)) : List Nat × List Nat :=
  let rel := rows.map fun e => e.map (cubicalRelation nElements)
  let f := rel.zipIdx.flatMap fun ri => (ri.1.filter fun x => x.1 == 0).map fun _ => ri.2
  let c := f.flatMap fun i => ((rel[i]?.getD []).filter fun x => x.1 == k).map fun x => x.2.toNat
  (f, c)

/-- `TopologyCubical.subdivide_cubical`, lines 252-297: the topology and its attribute `transfer_matrices` (the
attribute `parent` is not modelled) -/
def subdivideCubical (uniq : List (List Nat) → List (List Nat)) (t : Topo) :
    Except PyErr (Topo × List (Mat Int)) := do
  let s ← subdivideCubes t
  let sub ← fromCubes uniq true t.boundary.length s.flatten
  .ok (sub, sub.elements.mapIdx fun k rows =>
    let fc := cubicalTransfer (t.elements.map List.length) k rows
    transferMatrix fc.1 fc.2 (sub.nElements k) (t.nElements k))

end Verif.Model
