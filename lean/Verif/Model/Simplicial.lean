/-
Model of `pycomplex/topology/simplicial.py` (construction of a simplicial topology) and of the
helpers of `pycomplex/topology/util.py` and `pycomplex/topology/primal.py` it uses.

An integer array `[n_rows, n_cols]` is a list of rows.  The number of columns is passed along
where the code reads it from `shape`.
-/
import Verif.Model.Basic
import Verif.Model.Combinatorial

namespace Verif.Model

/-- `np.roll(row, -c)` for `0 ≤ c < len(row)` -/
def rollLeft (c : Nat) (l : List Nat) : List Nat := l.drop c ++ l.take c

/-- `b[:, c, [0, 1]] = b[:, c, [1, 0]]` on one row with at least two columns -/
def swap01 {α : Type} : List α → List α
  | a :: b :: t => b :: a :: t
  | l => l

/-- Row `b[s, c]` of `generate_simplex_boundary`, `topology/simplicial.py` lines 35-38:
roll by `-c`, drop the first column, and swap two corners if `c` and `n_dim` are both odd. -/
def simplexFace (l : List Nat) (c : Nat) : List Nat :=
  let b := (rollLeft c l).drop 1
  let n_dim := l.length - 1
  if c % 2 = 1 ∧ n_dim % 2 = 1 then swap01 b else b

/-- `generate_simplex_boundary`, `topology/simplicial.py` lines 12-39, for an array with `n_corners`
columns.  `assert n_dim > 0` (line 32); for `n_dim = 1` the swap at line 38 (reached with `c = 1`)
indexes column 1 of an array with one column: `IndexError`. -/
def generateSimplexBoundary (nCorners : Nat) (simplices : List (List Nat)) :
    Except PyErr (List (List (List Nat))) :=
  if nCorners ≤ 1 then .error .assertionError
  else if nCorners = 2 then .error .indexError
  else .ok (simplices.map fun l => (List.range nCorners).map fun c => simplexFace l c)

/-- `np.argsort` of one row, `topology/util.py` line 76.  (numpy's default sort is not stable;
for rows with distinct entries the result is determined.) -/
def argsort (l : List Nat) : List Nat :=
  (l.zipIdx.insertionSort fun a b => a.1 ≤ b.1).map Prod.snd

/-- sorted row, `sort_and_argsort`, `topology/util.py` lines 61-79 -/
def sortRow (l : List Nat) : List Nat := l.insertionSort (· ≤ ·)

/-- one row of `relative_permutations`, `topology/util.py` lines 82-99:
`relative = np.empty_like(self); relative[other] = self`.
The uninitialised array is modelled by zeros; every position is overwritten when `other` is a
permutation. -/
def relativePermutation (self other : List Nat) : List Nat :=
  (other.zip self).foldl (fun acc iv => acc.set iv.1 iv.2) (List.replicate self.length 0)

/-- one row of `relative_simplex_parity`, `topology/simplicial.py` lines 66-89: look the row up
in `permutation_map` (lines 42-63); `npi.indices` raises `KeyError` when it is missing.
(The cast to `int8` is not modelled: it is the identity below 128 corners.) -/
def relativeSimplexParity (row : List Nat) : Except PyErr Nat :=
  match (permutations (List.range row.length)).find? (fun pc => pc.2 == row) with
  | some pc => .ok pc.1
  | none => .error .keyError

/-- `parity_to_orientation`, `topology/util.py` lines 8-19: parity 0 becomes -1, parity 1
becomes +1 -/
def parityToOrientation (p : Nat) : Int := 2 * (p : Int) - 1

/-- `orientation_to_parity`, `topology/util.py` lines 22-33 -/
def orientationToParity (o : Int) : Bool := o < 0

/-- `np.unique` of an integer array: sorted distinct values -/
def npUnique (l : List Nat) : List Nat := sortRow l.dedup

/-- `construct_lower`, `topology/simplicial.py` lines 117-156.

`uniq` stands for the grouping done by `npi.as_index` (line 137): it returns the distinct rows of
its argument in some order.  `index.inverse` is the position of a row in that list; `index.index`
points to the first row of each group.  Reshaping is inlined. Returns `(En0, ENn, orientation)`. -/
def constructLower (uniq : List (List Nat) → List (List Nat)) (nCorners : Nat)
    (EN0 : List (List Nat)) :
    Except PyErr (List (List Nat) × List (List Nat) × List (List Int)) :=
  if nCorners = 2 then
    -- n_dim == 1, lines 122-130
    .ok ((npUnique EN0.flatten).map (fun v => [v]), EN0,
      EN0.map fun _ => [parityToOrientation 0, parityToOrientation 1])
  else do
    let full ← generateSimplexBoundary nCorners EN0
    let corners := full.flatten
    let sorted := corners.map sortRow
    let keys := uniq sorted
    -- En0 = boundary_corners[index.index]
    let En0 := keys.map fun k => (corners[sorted.idxOf k]?).getD []
    let ENn := full.map fun bs => bs.map fun b => keys.idxOf (sortRow b)
    let parity ← full.mapM fun bs => bs.mapM fun b =>
      let canonical := (corners[sorted.idxOf (sortRow b)]?).getD []
      relativeSimplexParity (relativePermutation (argsort b) (argsort canonical))
    .ok (En0, ENn, parity.map fun ps => ps.map parityToOrientation)

/-- A primal topology: the arrays stored by `PrimalTopology.__init__`,
`topology/primal.py` lines 44-48. -/
structure Topo where
  /-- `elements[k]`: rows of corner indices of the k-elements -/
  elements : List (List (List Nat))
  /-- `boundary[k]`: for each (k+1)-element the indices of its boundary k-elements -/
  boundary : List (List (List Nat))
  /-- `orientation[k]`: the matching signs -/
  orientation : List (List (List Int))
  deriving DecidableEq, Repr

/-- the `while True` loop of `from_simplices`, `topology/simplicial.py` lines 168-178, from an
array of `(n+1)`-cornered simplices downwards -/
def lowerLevels (uniq : List (List Nat) → List (List Nat)) :
    (n : Nat) → List (List Nat) → Except PyErr Topo
  | 0, EN0 => .ok ⟨[EN0], [], []⟩
  | n + 1, EN0 => do
    let (En0, ENn, ONn) ← constructLower uniq (n + 2) EN0
    let t ← lowerLevels uniq n En0
    .ok ⟨t.elements ++ [EN0], t.boundary ++ [ENn], t.orientation ++ [ONn]⟩

/-- `PrimalTopology.__init__`, `topology/primal.py` lines 41-42: the vertices must be `0..n-1`.
(The remaining checks, on dtypes and shapes, always pass for arrays built here.) -/
def checkTopo (t : Topo) : Except PyErr Topo :=
  match t.elements with
  | [] => .error .indexError
  | e0 :: _ => if e0.flatten = List.range e0.length then .ok t else .error .valueError

/-- `TopologySimplicial.from_simplices`, `topology/simplicial.py` lines 102-180.
For one column the loop enters `generate_simplex_boundary` with `n_dim = 0`: `AssertionError`;
for no column `E[-1] = EN0` is an `IndexError`. -/
def fromSimplices (uniq : List (List Nat) → List (List Nat)) (nCorners : Nat)
    (simplices : List (List Nat)) : Except PyErr Topo :=
  match nCorners with
  | 0 => .error .indexError
  | 1 => .error .assertionError
  | n + 2 => do
    let t ← lowerLevels uniq (n + 1) simplices
    checkTopo t

/-- `topology_matrix`, `topology/util.py` lines 127-144: the entry at (boundary index, element) is
the sum of the signs listed there; scipy infers the shape from the largest indices. -/
def topologyMatrix (elements : List (List Nat)) (orient : List (List Int)) : Mat Int where
  rows := (elements.flatten.map (· + 1)).foldl max 0
  cols := elements.length
  entry i j := (((elements[j]?.getD []).zip (orient[j]?.getD [])).map fun bo =>
    if bo.1 = i then bo.2 else 0).sum

/-- `PrimalTopology.matrix(k)` with `m=None`, `topology/primal.py` lines 100-123, and
`matrices`, lines 63-72 -/
def Topo.matrix (t : Topo) (k : Nat) : Mat Int :=
  topologyMatrix (t.boundary[k]?.getD []) (t.orientation[k]?.getD [])

/-- `n_elements[k]`, `topology/primal.py` lines 85-88 -/
def Topo.nElements (t : Topo) (k : Nat) : Nat := (t.elements[k]?.getD []).length

end Verif.Model
