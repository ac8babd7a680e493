/-
Model of `save_STL` and `load_STL`, `pycomplex/complex/simplicial/euclidian.py` lines 727-769.

A file is the list of its bytes.  A `<f4` number is its bit pattern, a number below `2 ^ 32`; rounding to
it and the number it stands for are parameters, as is `npi.unique`, which compares rows by their bits.
-/
import Verif.Model.Simplicial
import Verif.Model.Spherical

namespace Verif.Model

/-- a bit pattern of four bytes -/
abbrev Word := Fin 4294967296

/-- four bytes, the lowest first -/
def bytes32 (w : Nat) : List Nat := [w % 256, w / 256 % 256, w / 65536 % 256, w / 16777216 % 256]

/-- the number of four bytes, the lowest first -/
def read32 : List Nat → Nat
  | [a, b, c, d] => a + 256 * b + 65536 * c + 16777216 * d
  | _ => 0

/-- one record of `data`: the normal, the three corners, and the two bytes `abc`, lines 736-741 -/
def stlRecord (normal corners : List Word) : List Nat :=
  normal.flatMap (fun w : Word => bytes32 w.val) ++ corners.flatMap (fun w : Word => bytes32 w.val) ++ [0, 0]

/-- `save_STL`, lines 727-746: 80 zeros, the number of triangles (which has to fit in four bytes), and the
records.  `round` and `roundNan` round to a `<f4` number; the normals may be `nan`. -/
noncomputable def saveSTL (round : ℝ → Word) (roundNan : Option ℝ → Word) (V : List (Vec ℝ 3))
    (T : List (List Nat)) : Except PyErr (List Nat) := do
  let corners ← T.mapM (cornersAt V)
  let normals ← triangleNormals V T
  let words : Vec ℝ 3 → List Word := fun x => (List.finRange 3).map fun i => round (x i)
  let normalWords : Vec ℝ 3 → List Word := fun x => (List.finRange 3).map fun i =>
    roundNan ((normalizedNan x).map fun y => y i)
  .ok (List.replicate 80 0 ++ bytes32 T.length ++ (List.zipWith (fun (c : Vec ℝ 3 × Vec ℝ 3 × Vec ℝ 3) n =>
    stlRecord (normalWords n) (words c.1 ++ words c.2.1 ++ words c.2.2)) corners normals).flatten)

/-- the three corners of a record of 50 bytes, `data['vertex']` -/
def recordCorners (rec : List Nat) : List (List Word) :=
  (List.range 3).map fun c => (List.range 3).map fun i =>
    Fin.ofNat _ (read32 ((rec.drop (12 + 12 * c + 4 * i)).take 4))

/-- lines 763-768: `data['vertex'].reshape(-1, 3)`.  `np.fromfile` returns as many complete items as there
are; `[0]` of nothing is an `IndexError`. -/
def stlCorners (file : List Nat) : Except PyErr (List (List Word)) :=
  let rest := file.drop 80
  if rest.length < 4 then .error .indexError
  else
    let triangles := read32 (rest.take 4)
    let body := rest.drop 4
    .ok ((List.range (min triangles (body.length / 50))).flatMap fun k =>
      recordCorners ((body.drop (50 * k)).take 50))

/-- `load_STL`, lines 748-769: the positions and the topology.  `value` is the number of a bit pattern,
`unique` is `npi.unique(..., return_inverse=True)`. -/
noncomputable def loadSTL (value : Word → ℝ) (unique : List (List Word) → List (List Word) × List Nat)
    (uniq : List (List Nat) → List (List Nat)) (file : List Nat) :
    Except PyErr (List (Vec ℝ 3) × Topo) := do
  let corners ← stlCorners file
  let (rows, inverse) := unique corners
  let vertices : List (Vec ℝ 3) := rows.map fun row i => value (row[i.val]?.getD 0)
  let triangles := (List.range (inverse.length / 3)).map fun j => (inverse.drop (3 * j)).take 3
  let t ← fromSimplices uniq 3 triangles
  .ok (vertices, t)

end Verif.Model
