/-
Model of the construction of cubical topologies, `pycomplex/topology/cubical.py` lines 13-251.

An array of shape `(2,) * n` is the list of its `2 ^ n` entries in C order, as `flatten` gives it.  An
index is a list of `n` booleans, `false` for 0 and `true` for 1.
-/
import Verif.Model.Simplicial

namespace Verif.Model

/-- the indices of an array of shape `(2,) * n` in C order: `np.indices(shape).reshape(n, -1).T` -/
def cubeIndices : Nat → List (List Bool)
  | 0 => [[]]
  | n + 1 => (cubeIndices n).map (false :: ·) ++ (cubeIndices n).map (true :: ·)

/-- position of an index in C order -/
def ravel : List Bool → Nat
  | [] => 0
  | b :: t => (if b then 2 ^ t.length else 0) + ravel t

/-- `arr[b]` -/
def cubeAt (l : List Nat) (b : List Bool) : Nat := l[ravel b]?.getD 0

/-- the array with the entries `f b` -/
def cubeOf (n : Nat) (f : List Bool → Nat) : List Nat := (cubeIndices n).map f

/-- `np.flip(arr, axis=i)` for an array of `n` axes -/
def flipAxis (n i : Nat) (l : List Nat) : List Nat := cubeOf n fun b => cubeAt l (b.modify i not)

/-- `np.moveaxis(arr, i, 0)[s]` for an array of `n + 1` axes -/
def sliceAxis (n i : Nat) (s : Bool) (l : List Nat) : List Nat := cubeOf n fun b => cubeAt l (b.insertIdx i s)

/-- `np.transpose(arr, axes)`: axis `k` of the result is axis `axes[k]` of `arr` -/
def transposeAxes (n : Nat) (axes : List Nat) (l : List Nat) : List Nat :=
  cubeOf n fun b => cubeAt l ((List.range n).map fun j => (b[axes.idxOf j]?).getD false)

/-- the block `boundary[e, i]` of `generate_cube_boundary(cubes, degree=1, mirror=mirror)`, lines 38-57, for a
cube of dimension `n + 1 ≥ 2`: the two sides along the axis that is pulled forward -/
def cubeSides (n : Nat) (mirror : Bool) (l : List Nat) (p axis : Nat) : List (List Nat) :=
  [false, true].map fun s =>
    let view := sliceAxis n axis s l
    let view := if p ≠ 0 ∧ mirror then flipAxis n (n - 1) view else view
    if s ∧ mirror then flipAxis n (n - 1) view else view

/-- `generate_cube_boundary(cubes, degree=1, mirror=mirror)`, lines 13-62, of one cube of dimension `n + 1 ≥ 2`;
the axes of the result for the direction and the side are merged -/
def cubeBoundary (n : Nat) (mirror : Bool) (l : List Nat) : List (List Nat) :=
  (combinations 1 (List.range (n + 1))).flatMap fun pa =>
    match pa.2 with
    | [axis] => cubeSides n mirror l pa.1 axis
    | _ => []          -- unreachable

/-- `flip(arr, axes)` inside `permutation_map`, lines 94-97 -/
def flipAxes (n : Nat) (axes : List Bool) (l : List Nat) : List Nat :=
  ((List.range n).filter fun i => (axes[i]?).getD false).foldl (fun arr i => flipAxis n i arr) l

/-- `permutation_map(n_dim, rotations)`, lines 65-114: pairs of parity and permutation -/
def cubePermutationMap (n : Nat) (rotations : Bool) : List (Nat × List Nat) :=
  let cube := List.range (2 ^ n)
  let perms := if rotations then permutations (List.range n) else [(0, List.range n)]
  perms.flatMap fun ps =>
    (cubeIndices n).map fun c =>
      ((ps.1 + c.count true) % 2, flipAxes n c (transposeAxes n ps.2 cube))

/-- one row of `relative_cube_parity`, lines 117-140; a row that is missing is a `ValueError` -/
def relativeCubeParity (n : Nat) (row : List Nat) : Except PyErr Nat :=
  match (cubePermutationMap n true).find? (fun pc => pc.2 == row) with
  | some pc => .ok pc.1
  | none => .error .valueError

/-- `lower(EN0)` inside `from_cubes`, lines 179-220, for cubes of dimension `n + 1`.  `uniq` stands for the
grouping of `npi.as_index` as in `constructLower`.  The assertion in `permutation_map` (line 84) limits
the dimension of the faces. -/
def lowerCubes (uniq : List (List Nat) → List (List Nat)) (mirror : Bool) (n : Nat)
    (EN0 : List (List Nat)) :
    Except PyErr (List (List Nat) × List (List Nat) × List (List Int)) :=
  if n = 0 then
    .ok ((npUnique EN0.flatten).map (fun v => [v]), EN0,
      EN0.map fun _ => [parityToOrientation 0, parityToOrientation 1])
  else if 128 ≤ 2 ^ n then .error .assertionError
  else do
    let full := EN0.map (cubeBoundary n mirror)
    let corners := full.flatten
    let sorted := corners.map sortRow
    let keys := uniq sorted
    let En0 := keys.map fun k => (corners[sorted.idxOf k]?).getD []
    let EnN := full.map fun bs => bs.map fun b => keys.idxOf (sortRow b)
    let parity ← full.mapM fun bs => bs.mapM fun b =>
      let canonical := (corners[sorted.idxOf (sortRow b)]?).getD []
      relativeCubeParity n (relativePermutation (argsort b) (argsort canonical))
    .ok (En0, EnN, parity.map fun ps => ps.map parityToOrientation)

/-- the `while True` loop of `from_cubes`, lines 236-249 -/
def cubeLevels (uniq : List (List Nat) → List (List Nat)) (mirror : Bool) :
    (n : Nat) → List (List Nat) → Except PyErr Topo
  | 0, EN0 => .ok ⟨[EN0], [], []⟩
  | n + 1, EN0 => do
    let (En0, EnN, ONn) ← lowerCubes uniq mirror n EN0
    let t ← cubeLevels uniq mirror n En0
    .ok ⟨t.elements ++ [EN0], t.boundary ++ [EnN], t.orientation ++ [ONn]⟩

/-- `TopologyCubical.from_cubes(cubes, mirror)`, lines 163-251, for an array of `n`-cubes: the shape is checked
first, the vertices last (`checkTopo`) -/
def fromCubes (uniq : List (List Nat) → List (List Nat)) (mirror : Bool) (n : Nat)
    (cubes : List (List Nat)) : Except PyErr Topo :=
  if cubes.all fun l => l.length = 2 ^ n then do
    let t ← cubeLevels uniq mirror n cubes
    checkTopo t
  else .error .valueError

end Verif.Model
