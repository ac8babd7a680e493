/-
Model of the smoothing of complexes, `pycomplex/complex/base.py` lines 143-217, and of the operators of subdivision,
`subdivide_operator` and `subdivide_cubical` of `pycomplex/complex/cubical.py` lines 46-111 and `subdivide_loop_operator` of
`pycomplex/complex/simplicial/euclidian.py` lines 304-338.

`creases` is a `dict` from levels to chains; here it is a list of pairs.  Only chains given as arrays are modelled.  The
arithmetic is exact: vertices that are integers, where numpy rounds the smoothed positions towards zero, are not modelled.
-/
import Verif.Model.Averaging
import Verif.Model.Block
import Verif.Model.CubicalComplex
import Mathlib.Algebra.Order.Field.Basic

namespace Verif.Model

section

variable {K : Type} [Field K] {d : Nat}

/-- an entry of `C` in `smooth`, lines 161-164: `None`, `Ellipsis` or an index array -/
inductive Pick where
  | skip
  | all
  | only (idx : List Nat)
  deriving DecidableEq, Repr

/-- `C` in `smooth`, lines 161-164 -/
def smoothPicks (n : Nat) (creases : List (Nat × List Int)) : Except PyErr (List Pick) :=
  creases.foldlM (fun C nc =>
    if nc.1 < C.length then .ok (C.set nc.1 (.only (flatnonzero nc.2))) else .error .indexError)
    (List.replicate n .skip ++ [.all])

/-- `rows[cr]` -/
def Pick.rows {α : Type} (cr : Pick) (rows : List α) : Except PyErr (List α) :=
  match cr with
  | .skip => .ok []       -- not used
  | .all => .ok rows
  | .only idx => idx.mapM fun i => match rows[i]? with
    | some x => .ok x
    | none => .error .indexError

/-- `npi.group_by(keys).mean(values)`: the distinct keys in increasing order, with the mean of their values; no keys give no
groups -/
def groupMeans (keys : List Nat) (values : List (Vec K d)) : List (Nat × Vec K d) :=
  (npUnique keys).map fun u =>
    let vs := ((keys.zip values).filter fun kv => kv.1 == u).map (·.2)
    (u, fun q => (vs.map fun x => x q).sum / (vs.length : K))

/-- the body of the loop of `smooth`, lines 171-176: `vertices[vertex_i] = vertex_p` -/
def smoothLevel (V : List (Vec K d)) (corners : List (List Nat)) (cr : Pick) (centroids : List (Vec K d)) :
    Except PyErr (List (Vec K d)) :=
  if cr = .skip then .ok V
  else do
    let nPts := (corners[0]?.getD []).length    -- `corners.shape[1]`; all rows have the same length
    let rows ← cr.rows corners
    let cs ← cr.rows centroids
    let groups := groupMeans rows.flatten (cs.flatMap fun c => List.replicate nPts c)
    groups.foldlM (fun V ip => if ip.1 < V.length then .ok (V.set ip.1 ip.2) else .error .indexError) V

/-- the vertices of `smooth(creases)`, lines 143-178, of a complex with `primal_position` `PP` -/
def smooth (t : Topo) (V : List (Vec K d)) (PP : List (List (Vec K d))) (creases : List (Nat × List Int)) :
    Except PyErr (List (Vec K d)) := do
  let C ← smoothPicks t.boundary.length creases
  (t.elements.zip (C.zip PP)).reverse.foldlM (fun V ecp => smoothLevel V ecp.1 ecp.2.1 ecp.2.2) V

/-- `C` in `smooth_operator`, lines 199-205: `C[n][:] = c != 0` repeats a chain of length one and refuses other lengths -/
def operatorCreases (ns : List Nat) (creases : List (Nat × List Int)) : Except PyErr (List (List Int)) :=
  creases.foldlM (fun C nc => match C[nc.1]? with
    | none => .error .indexError
    | some row =>
      let c := nc.2.map fun x => if x ≠ 0 then (1 : Int) else 0
      if c.length = row.length then .ok (C.set nc.1 c)
      else if c.length = 1 then .ok (C.set nc.1 (List.replicate row.length (c[0]?.getD 0)))
      else .error .valueError)
    ((ns.map fun m => List.replicate m (0 : Int)).modify (ns.length - 1) fun row => row.map fun _ => 1)

/-- one row of `S`, lines 209-211: `s[np.unique(corners[c != 0])] = 1` -/
def influence (nVertices : Nat) (c : List Int) (corners : List (List Nat)) : Except PyErr (List Int) :=
  let used := npUnique (((c.zip corners).filter fun cr => cr.1 ≠ 0).map (·.2)).flatten
  used.foldlM (fun s v => if v < s.length then .ok (s.set v 1) else .error .indexError) (List.replicate nVertices (0 : Int))

/-- lines 213-215: lower levels override higher ones -/
def overrideLevels : List (List Int) → List (List Int)
  | [] => []
  | a :: S => a :: overrideLevels (S.map fun b => List.zipWith (fun x y => if y ≠ 0 then 0 else x) b a)
termination_by S => S.length

/-- `scipy.sparse.diags(s)` -/
def diagMat (s : List K) : Mat K := ⟨s.length, s.length, fun i j => if i = j then s[i]?.getD 0 else 0⟩

/-- one of the `smoothers`, line 218: `diags(s) * a.T * diags(c) * a` -/
def smoother (a : Mat K) (s c : List Int) : Except PyErr (Mat K) := do
  let x ← (diagMat (s.map fun y : Int => (y : K))).mul a.transpose
  let y ← x.mul (diagMat (c.map fun y : Int => (y : K)))
  y.mul a

/-- Python's `sum` of sparse matrices, which adds to the number zero; the sum of none of them is that number, which has no
`sum` method -/
def sumMats (l : List (Mat K)) : Except PyErr (Mat K) :=
  match l with
  | [] => .error .typeError
  | A :: l => l.foldlM Mat.add A

/-- `scipy.sparse.vstack` -/
def vstack (l : List (Mat K)) : Except PyErr (Mat K) :=
  match l with
  | [] => .error .valueError
  | A :: l => l.foldlM (fun A B => if A.cols = B.cols then
      .ok ⟨A.rows + B.rows, A.cols, fun i j => if i < A.rows then A.entry i j else B.entry (i - A.rows) j⟩
    else .error .valueError) A

end

section

variable {K : Type} [Field K] [LinearOrder K] {d : Nat}

/-- `normalize_l1(A, axis=1)`, `sparse.py` lines 23-29, of a matrix of floats.  Where a row is zero the code divides by zero
and the row is `nan`; here it is zero. -/
def normalizeRows (A : Mat K) : Mat K :=
  ⟨A.rows, A.cols, fun i j => (1 / ((List.range A.cols).map fun m => |A.entry i m|).sum) * A.entry i j⟩

/-- `smooth_operator(creases)`, lines 180-219 -/
def smoothOperator (t : Topo) (creases : List (Nat × List Int)) : Except PyErr (Mat K) := do
  let C ← operatorCreases (t.elements.map List.length) creases
  let S ← (C.zip t.elements).mapM fun cr => influence (t.nElements 0) cr.1 cr.2
  let S := overrideLevels S
  let A ← averagingOperators0 t.matrices
  let L ← (A.zip (S.zip C)).mapM fun asc => smoother asc.1 asc.2.1 asc.2.2
  let M ← sumMats L
  .ok (normalizeRows M)

/-- `matrix * chain` -/
def mulChain (M : Mat Int) (c : List Int) : Except PyErr (List Int) :=
  if M.cols = c.length then
    .ok ((List.range M.rows).map fun i => ((List.range M.cols).map fun j => M.entry i j * c[j]?.getD 0).sum)
  else .error .valueError

/-- `creases` on the subdivision, `complex/cubical.py` lines 65-67 and 101-104 -/
def fineCreases (T : List (Mat Int)) (creases : List (Nat × List Int)) : Except PyErr (List (Nat × List Int)) :=
  creases.mapM fun nc => match T[nc.1]? with
    | none => .error .indexError
    | some M => do
      let c ← mulChain M nc.2
      .ok (nc.1, c)

/-- the topology and the vertices of `ComplexCubical.subdivide_cubical(creases, smooth)`, `complex/cubical.py` lines 46-74 -/
def subdivideComplex (uniq : List (List Nat) → List (List Nat)) (t : Topo) (V : List (Vec K d))
    (creases : List (Nat × List Int)) (smoothing : Bool) : Except PyErr (Topo × List (Vec K d)) := do
  let V' ← cubicalVertices V t
  let sT ← subdivideCubical uniq t
  let creases ← fineCreases sT.2 creases
  if smoothing then
    let PP ← cubicalPositions V' sT.1
    let V' ← smooth sT.1 V' PP creases
    .ok (sT.1, V')
  else .ok (sT.1, V')

/-- `ComplexCubical.subdivide_operator(creases, smooth)`, `complex/cubical.py` lines 76-111; the matrices of the fine topology
do not depend on the vertices -/
def subdivideOperator (uniq : List (List Nat) → List (List Nat)) (t : Topo) (creases : List (Nat × List Int))
    (smoothing : Bool) : Except PyErr (Mat K) := do
  let A ← averagingOperators0 t.matrices
  let A ← vstack A
  if smoothing then
    let sT ← subdivideCubical uniq t
    let creases ← fineCreases sT.2 creases
    let S ← smoothOperator sT.1 creases
    S.mul A
  else .ok A

/-- `subdivide_loop_operator(smooth, creases)`, `complex/simplicial/euclidian.py` lines 304-338 -/
def subdivideLoopOperator (uniq : List (List Nat) → List (List Nat)) (t : Topo) (creases : List (Nat × List Int))
    (smoothing : Bool) : Except PyErr (Mat K) := do
  let A ← averagingOperators0 t.matrices
  let A ← vstack A
  if smoothing then
    let s ← subdivideLoop uniq t
    let creases ← fineCreases (loopTransfer t s) creases
    let S ← smoothOperator s creases
    S.mul A
  else .ok A

end

end Verif.Model
