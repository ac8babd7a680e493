/-
Model of the volumes and normals of `pycomplex/geometry/euclidian.py` and of the area enclosed by a
closed curve, `pycomplex/complex/cubical.py` lines 345-368.

Floating point numbers are replaced by an exact field; functions that take a square root are modelled
over the real numbers.  `np.linalg.det` is the determinant.  Leading batch axes are dropped: every
function treats each simplex separately.  A simplex is the matrix of its points, one per row.
-/
import Verif.Model.Triangles
import Mathlib.LinearAlgebra.Matrix.Determinant.Basic
import Mathlib.Analysis.Real.Sqrt

namespace Verif.Model

section

variable {K : Type} [Field K]

/-- `head, tail = np.split(pts, [1], axis=-2); A = tail - head`, `geometry/euclidian.py` lines
260-261 and 306-307 -/
def edgeRows {M N : Nat} (pts : Matrix (Fin (M + 1)) (Fin N) K) : Matrix (Fin M) (Fin N) K :=
  Matrix.of fun i j => pts i.succ j - pts 0 j

/-- `signed_volume`, `geometry/euclidian.py` lines 266-308: `det(tail - head) / factorial(M)`, and a
`ValueError` unless there is one point more than there are coordinates -/
def signedVolume {P N : Nat} (pts : Matrix (Fin P) (Fin N) K) : Except PyErr K :=
  match P, pts with
  | 0, _ => .error .valueError
  | M + 1, pts =>
    if h : M = N then
      .ok (((edgeRows pts).submatrix id (Fin.cast h)).det / (M.factorial : K))
    else .error .valueError

/-- `segment_normals`, `geometry/euclidian.py` lines 334-358: entry `c` is the determinant of the
edges without column `c`, with a sign that is flipped after every column.  Without any coordinate
`corners[..., 0]` raises an `IndexError`. -/
def segmentNormals {P N : Nat} (corners : Matrix (Fin P) (Fin N) K) : Except PyErr (Vec K N) :=
  match P, N, corners with
  | 0, 0, _ => .error .indexError
  | 0, _ + 1, _ => .error .assertionError
  | _ + 1, 0, _ => .error .assertionError
  | m + 1, n + 1, corners =>
    if h : m = n then
      let edges : Matrix (Fin m) (Fin (n + 1)) K := edgeRows corners
      .ok fun c => (edges.submatrix (Fin.cast h.symm) c.succAbove).det * (Neg.neg)^[c.val] 1
    else .error .assertionError

/-- one edge of `vertices[elements[1]]` -/
def segmentAt {d : Nat} (V : List (Vec K d)) : List Nat → Except PyErr (Matrix (Fin 2) (Fin d) K)
  | [a, b] => do
    let x ← vertexAt V a
    let y ← vertexAt V b
    .ok (Matrix.of ![x, y])
  | _ => .error .valueError

/-- `ComplexCubical1Euclidian2.volume`, `complex/cubical.py` lines 345-368, of a curve whose
topology says it is closed: half the sum of the products of normals and centroids.  `edges` are the
rows of `elements[1]`. -/
def curveVolume (V : List (Vec K 2)) (isClosed : Bool) (edges : List (List Nat)) :
    Except PyErr K :=
  if !isClosed then .error .valueError
  else do
    let segs ← edges.mapM (segmentAt V)
    let normals ← segs.mapM segmentNormals
    let centroids : List (Vec K 2) := segs.map fun s j => (s 0 j + s 1 j) / 2
    .ok ((List.zipWith dot normals centroids).sum / 2)

end

/-- `unsigned_volume`, `geometry/euclidian.py` lines 212-263: the square root of the determinant of
the Gram matrix of the edges, divided by `factorial(M)`; single points get volume one -/
noncomputable def unsignedVolume {P N : Nat} (pts : Matrix (Fin P) (Fin N) ℝ) : Except PyErr ℝ :=
  match P, pts with
  | 0, _ => .error .valueError
  | M + 1, pts =>
    if M > N then .error .valueError
    else if M = 0 then .ok 1
    else
      let A := edgeRows pts
      let B : Matrix (Fin M) (Fin M) ℝ := Matrix.of fun j k => ∑ i, A j i * A k i
      .ok (Real.sqrt |B.det| / (M.factorial : ℝ))

end Verif.Model
