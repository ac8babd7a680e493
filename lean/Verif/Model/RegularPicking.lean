/-
Model of `pick_primal`, `pick_fundamental`, `pick_dual` and `sample_primal_0` of regular complexes,
`pycomplex/complex/regular.py` lines 37-200 and 250-277.

Arithmetic is exact, over an ordered field; a division by zero is zero here.  The query of a `cKDTree` is a
parameter.  The cached properties are computed where they are read.  The vertices have as many coordinates as the
topology has dimensions.
-/
import Verif.Model.RegularMetric
import Verif.Model.Sampling

namespace Verif.Model

variable {K : Type} [Field K] [LinearOrder K] {d : Nat}

/-- lines 52-59 and 132-137 for one cube, given by the positions of its corners: its centroid, its first corner and
the diagonal from there to its last corner -/
def cubeBasis (x : List (Vec K d)) : Vec K d × Vec K d × Vec K d :=
  (fun q => (x.map fun y => y q).sum / (x.length : K), cornerOf x 0, fun q => cornerOf x (x.length - 1) q - cornerOf x 0 q)

/-- `compute_baries`, lines 83-85 and 162-164, of one point -/
def cubeBaries (basis : Vec K d × Vec K d × Vec K d) (p : Vec K d) : Vec K d :=
  fun q => (p q - basis.2.1 q) / basis.2.2 q

/-- `basis[i]` -/
def basisAt (pre : List (Vec K d × Vec K d × Vec K d)) (i : Nat) : Except PyErr (Vec K d × Vec K d × Vec K d) :=
  match pre[i]? with
  | some b => .ok b
  | none => .error .indexError

/-- `query`, lines 87-91 and 166-170, of one point: the number of the cube and the coordinates in it.
`nearest points p` stands for `cKDTree(points).query(p)` -/
def queryCube (nearest : List (Vec K d) → Vec K d → Nat) (pre : List (Vec K d × Vec K d × Vec K d)) (p : Vec K d) :
    Except PyErr (Nat × Vec K d) := do
  let i := nearest (pre.map Prod.fst) p
  let b ← basisAt pre i
  .ok (i, cubeBaries b p)

/-- lines 96-103 for one point: the given cube is kept unless a coordinate is negative -/
def updateCube (nearest : List (Vec K d) → Vec K d → Nat) (pre : List (Vec K d × Vec K d × Vec K d)) (p : Vec K d)
    (i : Nat) : Except PyErr (Nat × Vec K d) := do
  let b ← basisAt pre i
  if ∃ q, cubeBaries b p q < 0 then queryCube nearest pre p
  else .ok (i, cubeBaries b p)

/-- `pick_primal_precomp`, lines 37-59 -/
def regularPrecomp (t : Topo) (V : List (Vec K d)) : Except PyErr (List (Vec K d × Vec K d × Vec K d)) :=
  (t.elements[t.boundary.length]?.getD []).mapM fun l => do
    let x ← l.mapM (vertexAt V)
    .ok (cubeBasis x)

/-- `pick_primal`, lines 61-105.  A `cube` whose length is not that of `points` is rejected here; numpy accepts a
length of one. -/
def pickRegular (nearest : List (Vec K d) → Vec K d → Nat) (t : Topo) (V : List (Vec K d)) (points : List (Vec K d))
    (cube : Option (List Nat)) : Except PyErr (List (Nat × Vec K d)) := do
  let pre ← regularPrecomp t V
  match cube with
  | none => points.mapM (queryCube nearest pre)
  | some idx =>
    if points.length = idx.length then (points.zip idx).mapM fun pi => updateCube nearest pre pi.1 pi.2
    else .error .valueError

/-- `pick_fundamental_precomp`, lines 107-139: the domains and the basis -/
def fundamentalPrecomp (t : Topo) (V : List (Vec K d)) :
    Except PyErr (List (List Nat) × List (Vec K d × Vec K d × Vec K d)) := do
  let domains ← cubicalDomains t
  let PP ← cubicalPositions V t
  let cubes ← domainPositions t.boundary.length PP domains
  .ok (domains, cubes.map cubeBasis)

/-- `domains[i]` -/
def domainRow (domains : List (List Nat)) (i : Nat) : Except PyErr (List Nat) :=
  match domains[i]? with
  | some r => .ok r
  | none => .error .indexError

/-- `pick_fundamental`, lines 141-183.  The variable `domain` has no value if domains are given and no point needs an
update. -/
def pickFundamentalRegular (nearest : List (Vec K d) → Vec K d → Nat) (t : Topo) (V : List (Vec K d))
    (points : List (Vec K d)) (domainIdx : Option (List Nat)) : Except PyErr (List (List Nat × Vec K d)) := do
  let pre ← fundamentalPrecomp t V
  match domainIdx with
  | none => points.mapM fun p => do
      let ib ← queryCube nearest pre.2 p
      let row ← domainRow pre.1 ib.1
      .ok (row, ib.2)
  | some idx =>
    if points.length = idx.length then do
      let bs ← idx.mapM (basisAt pre.2)
      if (points.zip bs).any fun pb => decide (∃ q, cubeBaries pb.2 pb.1 q < 0) then
        (points.zip idx).mapM fun pi => do
          let ib ← updateCube nearest pre.2 pi.1 pi.2
          let row ← domainRow pre.1 ib.1
          .ok (row, ib.2)
      else .error .unboundLocalError
    else .error .valueError

/-- `pick_dual`, lines 185-200 -/
def pickDualRegular (nearest : List (Vec K d) → Vec K d → Nat) (t : Topo) (V : List (Vec K d))
    (points : List (Vec K d)) : Except PyErr (List Nat) := do
  let picked ← pickFundamentalRegular nearest t V points none
  picked.mapM fun rb => match rb.1[0]? with
    | some v => .ok v
    | none => .error .indexError

/-- `verts[c]` for a corner `c` given by zeros and ones -/
def cornerNumber (c : List Nat) : Nat := ravel (c.map fun x => x == 1)

/-- `sample_primal_0`, lines 250-277, of values with no axes after the first one -/
def sampleRegular (nearest : List (Vec K d) → Vec K d → Nat) (t : Topo) (V : List (Vec K d)) (p0 : List K)
    (points : List (Vec K d)) : Except PyErr (List K) := do
  let picked ← pickRegular nearest t V points none
  picked.mapM fun ib => do
    let verts ← domainRow (t.elements[t.boundary.length]?.getD []) ib.1
    let values ← verts.mapM fun v => match p0[v]? with
      | some x => .ok x
      | none => .error .indexError
    .ok (samplePrimal0 (fun c => values[cornerNumber c]?.getD 0) (List.ofFn ib.2))

end Verif.Model
