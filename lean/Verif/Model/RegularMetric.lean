/-
Model of the metric of regular complexes: `ComplexRegularMixin.fundamental_domain_postions` and `metric`,
`pycomplex/complex/regular.py` lines 279-350, and of `hypervolume`, `pycomplex/geometry/regular.py` lines 10-31.

Arithmetic is exact, over an ordered field.  The topology is of dimension at least one and not empty.
-/
import Verif.Model.CubicalComplex
import Verif.Model.CubicalDomains
import Verif.Model.Averaging
import Verif.Model.Orientation
import Verif.Model.Triangles
import Mathlib.Algebra.Order.Field.Basic
import Mathlib.Data.List.Sort

namespace Verif.Model

variable {K : Type} [Field K] [LinearOrder K] {d : Nat}

/-- `hypervolume(a, b, n=m)`, lines 10-31, of one cube; `d[:, -m:]` is everything for `m = 0` -/
def hypervolume (a b : Vec K d) (m : Nat) : K :=
  let e := (List.ofFn fun q => |a q - b q|).insertionSort (· ≤ ·)
  |(if m = 0 then e else e.drop (d - m)).prod|

/-- `topology.cubical_domains().reshape((-1,) + cube_shape)`, line 308: one row for every cube and every corner of it,
the last axes merged -/
def cubicalDomains (t : Topo) : Except PyErr (List (List Nat)) := do
  let n := t.boundary.length
  let rows ← (t.elements[n]?.getD []).zipIdx.mapM fun lj => do
    let tables ← domainTables t.elements n lj.1
    .ok ((cubeIndices n).map fun p => (cubeIndices n).map fun b => domainAt lj.2 lj.1 tables p b)
  .ok rows.flatten

/-- `fundamental_domain_postions`, lines 279-288, reshaped as in line 312 -/
def domainPositions (n : Nat) (PP : List (List (Vec K d))) (domains : List (List Nat)) :
    Except PyErr (List (List (Vec K d))) :=
  domains.mapM fun row => ((cubeIndices n).zip row).mapM fun ci =>
    match PP[ci.1.count true]? with
    | some P => vertexAt P ci.2
    | none => .error .indexError

/-- `npi.group_by(keys).sum(values)`: the different keys in increasing order, each with the sum of its values -/
def groupSums (keys : List Nat) (values : List K) : List (Nat × K) :=
  (npUnique keys).map fun k => (k, (((keys.zip values).filter fun p => p.1 = k).map Prod.snd).sum)

/-- `A[g] += sums`, lines 331 and 341; the keys `g` are different -/
def addAt (A : List K) (gs : List (Nat × K)) : Except PyErr (List K) :=
  gs.foldlM (fun A gv => if gv.1 < A.length then .ok (A.modify gv.1 (· + gv.2)) else .error .indexError) A

/-- `cubes[idx(corner)]` of one row; the corner is given by its number -/
def cornerOf (x : List (Vec K d)) (i : Nat) : Vec K d := x[i]?.getD 0

/-- the columns `domains[idx(corner)]`, line 325 -/
def domainColumn (domains : List (List Nat)) (i : Nat) : List Nat := domains.map fun row => row[i]?.getD 0

/-- the loops of lines 328-331 and 337-341 over the corners but the first and the last, where `level` is the list that
the sums of a corner are added to and `value` the array that is summed -/
def addCorners (domains : List (List Nat)) (cubes : List (List (Vec K d))) (level : List Bool → Nat)
    (value : Nat → List Bool → List (Vec K d) → K) (M : List (List K)) (corners : List (List Bool × Nat)) :
    Except PyErr (List (List K)) :=
  corners.foldlM (fun M ci => do
    let sums := groupSums (domainColumn domains ci.2) (cubes.map (value ci.2 ci.1))
    let A ← addAt (M[level ci.1]?.getD []) sums
    .ok (M.set (level ci.1) A)) M

/-- the degrees `topology.degree`, line 334, which are only computed if the loop has a pass -/
def usedDegrees (n : Nat) (t : Topo) : Except PyErr (List (List Int)) :=
  if 1 < n then degree t.matrices else .ok []

/-- `metric`, lines 290-350: the primal and the dual measures; `solve` is the solver behind `is_oriented`.  The division
by `degree` takes arrays of equal length. -/
def regularMetric (solve : List (List Int) → Option (List Int)) (t : Topo) (V : List (Vec K d)) :
    Except PyErr (List (List K) × List (List K)) := do
  let oriented ← isOriented solve t
  if !oriented then .error .assertionError
  else do
    let n := t.boundary.length
    let domains ← cubicalDomains t
    let PP ← cubicalPositions V t
    let cubes ← domainPositions n PP domains
    let PN := t.elements.map List.length
    let PM := PN.mapIdx fun k m => List.replicate m (if k = 0 then (1 : K) else 0)
    let DM := PN.reverse.mapIdx fun k m => List.replicate m (if k = 0 then (1 : K) else 0)
    let last := 2 ^ n - 1
    let inner := (cubeIndices n).zipIdx.tail.dropLast
    let PM ← addCorners domains cubes (fun c => c.count true)
      (fun i c x => hypervolume (cornerOf x 0) (cornerOf x i) (c.count true)) PM inner
    let D ← usedDegrees n t
    let PM := PM.mapIdx fun k A =>
      if 1 ≤ k ∧ k < n then List.zipWith (fun (a : K) (b : Int) => a / (b : K)) A (D[k]?.getD []) else A
    let DM ← addCorners domains cubes (fun c => n - c.count true)
      (fun i c x => hypervolume (cornerOf x i) (cornerOf x last) (n - c.count true) / 2 ^ c.count true) DM inner
    let v := cubes.map fun x => hypervolume (cornerOf x 0) (cornerOf x last) n
    .ok (PM.set (PM.length - 1) ((groupSums (domainColumn domains last) v).map Prod.snd),
      DM.set (DM.length - 1) ((groupSums (domainColumn domains 0) v).map Prod.snd))

end Verif.Model
