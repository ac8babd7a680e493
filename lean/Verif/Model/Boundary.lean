/-
Model of subset and boundary extraction, the interior and boundary selectors
(`pycomplex/topology/primal.py`) and the matrices of the dual (`pycomplex/topology/dual.py`).
-/
import Verif.Model.Orientation

namespace Verif.Model

/-- `int8` arithmetic: two's complement wrap-around (`sign_dtype`, `topology/__init__.py` line 10) -/
def wrap8 (x : Int) : Int := (x + 128) % 256 - 128

/-- `np.flatnonzero` -/
def flatnonzero (c : List Int) : List Nat :=
  (List.range c.length).filter fun i => c[i]?.getD 0 ≠ 0

/-- `rows[idx]` for an index array that is in range (`np.flatnonzero` of a chain of matching
length); out-of-range indices would raise `IndexError`, here they are skipped. -/
def takeRows (rows : List (List Nat)) (idx : List Nat) : List (List Nat) :=
  idx.filterMap fun i => rows[i]?

/-- `mapping, inverse = np.unique(elements.flatten(), return_inverse=True)` and
`inverse.reshape(elements.shape)`, `topology/primal.py` lines 182-183 and 215-216 -/
def relabel (rows : List (List Nat)) : List Nat × List (List Nat) :=
  let mapping := npUnique rows.flatten
  (mapping, rows.map fun r => r.map fun v => mapping.idxOf v)

/-- `npi.indices(this, that)`: position in `this` of every row of `that`; `KeyError` if missing.
(If a row occurs several times in `this` any of its positions may be returned; the model takes the
first.) -/
def npiIndices (this that : List (List Nat)) : Except PyErr (List Nat) :=
  that.mapM fun r => if r ∈ this then .ok (this.idxOf r) else .error .keyError

/-- `mapping[c]` for one row of indices -/
def gather (mapping : List Nat) (row : List Nat) : Except PyErr (List Nat) :=
  row.mapM fun v => match mapping[v]? with
    | some x => .ok x
    | none => .error .indexError

/-- `find_correspondence`, `topology/primal.py` lines 138-160.  For simplices `corners` are the
element arrays themselves. -/
def findCorrespondence (self other : List (List (List Nat))) (mapping : List Nat) :
    Except PyErr (List (List Nat)) :=
  (self.zip other).mapM fun Cc => do
    let c ← Cc.2.mapM (gather mapping)
    npiIndices (Cc.1.map sortRow) (c.map sortRow)

/-- a topology extracted from another, with its `parent_idx` attribute -/
structure Sub where
  topo : Topo
  parentIdx : List (List Nat)
  deriving DecidableEq, Repr

/-- the common part of `select_subset` (`topology/primal.py` lines 182-188) and `boundary`
(lines 215-224): relabel the chosen rows, build a topology from them, and look its elements up in
the original one. -/
def subTopology (uniq : List (List Nat) → List (List Nat)) (nCorners : Nat) (t : Topo)
    (rows : List (List Nat)) : Except PyErr Sub := do
  let (mapping, new) := relabel rows
  let s ← fromSimplices uniq nCorners new
  let idx ← findCorrespondence t.elements s.elements mapping
  .ok ⟨s, idx⟩

/-- `PrimalTopology.select_subset`, `topology/primal.py` lines 162-188 -/
def selectSubset (uniq : List (List Nat) → List (List Nat)) (t : Topo) (chain : List Int) :
    Except PyErr Sub :=
  let n := t.boundary.length
  if chain.length ≠ t.nElements n then .error .valueError
  else subTopology uniq (n + 1) t (takeRows (t.elements[n]?.getD []) (flatnonzero chain))

/-- `self.matrix(-1) * chain_N` with `chain_N` all ones, in `int8`,
`topology/primal.py` lines 204-205 -/
def boundaryChain (t : Topo) : List Int :=
  let M := t.matrix (t.boundary.length - 1)
  (List.range M.rows).map fun i => wrap8 ((List.range M.cols).map fun j => M.entry i j).sum

/-- `PrimalTopology.boundary`, `topology/primal.py` lines 191-224; `none` is Python's `None` -/
def boundary (solve : List (List Int) → Option (List Int))
    (uniq : List (List Nat) → List (List Nat)) (t : Topo) : Except PyErr (Option Sub) := do
  let oriented ← isOriented solve t
  if !oriented then .error .valueError
  else
    let n := t.boundary.length
    let bIdx := flatnonzero (boundaryChain t)
    if bIdx.length = 0 then .ok none
    else do
      let s ← subTopology uniq n t (takeRows (t.elements[n - 1]?.getD []) bIdx)
      .ok (some s)

/-- the indices `self.boundary.parent_idx[i]`, or nothing if evaluating that expression raises
anything (`None` has no `parent_idx`, index out of range, not oriented, ...): the bare
`except: pass` of `topology/primal.py` lines 255-258 and 275-278 -/
def boundaryIndices (solve : List (List Int) → Option (List Int))
    (uniq : List (List Nat) → List (List Nat)) (t : Topo) (i : Nat) : Option (List Nat) :=
  match boundary solve uniq t with
  | .ok (some s) => s.parentIdx[i]?
  | _ => none

/-- `selection_matrix`, `topology/util.py` lines 173-190 -/
def selectionMatrix (s : List Int) : Mat Int where
  rows := (flatnonzero s).length
  cols := s.length
  entry r c := if (flatnonzero s)[r]? = some c then 1 else 0

/-- `d[idx] = v` -/
def assign (d : List Int) (idx : List Nat) (v : Int) : List Int :=
  idx.foldl (fun d i => d.set i v) d

/-- `selector_interior[i]`, `topology/primal.py` lines 245-262 -/
def selectorInterior (solve : List (List Int) → Option (List Int))
    (uniq : List (List Nat) → List (List Nat)) (t : Topo) (i : Nat) : Mat Int :=
  let d := List.replicate (t.nElements i) (1 : Int)
  selectionMatrix (match boundaryIndices solve uniq t i with
    | some idx => assign d idx 0
    | none => d)

/-- `selector_boundary[i]`, `topology/primal.py` lines 265-282 -/
def selectorBoundary (solve : List (List Int) → Option (List Int))
    (uniq : List (List Nat) → List (List Nat)) (t : Topo) (i : Nat) : Mat Int :=
  let d := List.replicate (t.nElements i) (0 : Int)
  selectionMatrix (match boundaryIndices solve uniq t i with
    | some idx => assign d idx 1
    | none => d)

/-- `scipy.sparse.bmat([[t, s.T], [None, -b]]).T`, `topology/dual.py` lines 170-173;
`ValueError` when the block shapes do not fit -/
def dualBlock (t s b : Mat Int) : Except PyErr (Mat Int) :=
  if t.rows = s.cols ∧ s.rows = b.cols then
    .ok { rows := t.cols + s.rows
          cols := t.rows + b.rows
          entry := fun r c =>
            if c < t.rows then (if r < t.cols then t.entry c r else s.entry (r - t.cols) c)
            else (if r < t.cols then 0 else - b.entry (c - t.rows) (r - t.cols)) }
  else .error .valueError

/-- `Dual.matrices[n - 1 - k]`, the matrix made from primal level `k`,
`topology/dual.py` lines 150-173: for `k = 0` the block `b` has no rows. -/
def dualMatrix (solve : List (List Int) → Option (List Int))
    (uniq : List (List Nat) → List (List Nat)) (t : Topo) (s : Sub) (k : Nat) :
    Except PyErr (Mat Int) :=
  dualBlock (t.matrix k) (selectorBoundary solve uniq t k)
    (if k = 0 then ⟨0, s.topo.nElements 0, fun _ _ => 0⟩ else s.topo.matrix (k - 1))

/-- `ClosedDual.matrices[n - 1 - k]`, `topology/dual.py` lines 11-48: the transpose -/
def closedDualMatrix (t : Topo) (k : Nat) : Mat Int := (t.matrix k).transpose

end Verif.Model
