/-
Model of the circumcentric metric of simplicial complexes, `pycomplex/complex/simplicial/euclidian.py`
lines 116-195.

Arithmetic is exact, over the real numbers.  `np.linalg.eigh` is a parameter, as in
`Verif.Model.Circumcenter`, for matrices of every size.  The cached properties are computed where they
are read.
-/
import Verif.Model.Subdivide
import Verif.Model.Orientation
import Verif.Model.Euclid
import Verif.Model.Circumcenter
import Mathlib.Data.Real.Sign

namespace Verif.Model

/-- one row of `values[rows]`, for rows of length `P` -/
def rowValues {α : Type} (values : List α) (P : Nat) (row : List Nat) : Except PyErr (Fin P → α) :=
  if h : row.length = P ∧ ∀ i : Fin row.length, row[i] < values.length then
    .ok fun i => values[row[i]'(by omega)]'(h.2 ⟨i, by omega⟩)
  else .error .indexError

section

variable {D : Nat}

/-- `self.vertices[c]` and `self.weights[c] if self.weights is not None else None`, lines 126-127, for
the rows of elements with `P` corners -/
def cornerBatch (V : List (Vec ℝ D)) (weights : Option (List ℝ)) (P : Nat) (rows : List (List Nat)) :
    Except PyErr (List (Matrix (Fin P) (Fin D) ℝ × Option (Vec ℝ P))) :=
  rows.mapM fun row => do
    let x ← rowValues V P row
    match weights with
    | none => .ok (Matrix.of x, none)
    | some w => do
      let y ← rowValues w P row
      .ok (Matrix.of x, some y)

/-- `primal_position`, lines 129-139, of all dimensions -/
noncomputable def primalPositions (eigh : (n : Nat) → Matrix (Fin n) (Fin n) ℝ → Eigh n ℝ) (ratio : ℝ)
    (t : Topo) (V : List (Vec ℝ D)) (weights : Option (List ℝ)) :
    Except PyErr (List (List (Vec ℝ D))) :=
  t.elements.zipIdx.mapM fun ek => do
    let batch ← cornerBatch V weights (ek.2 + 1) ek.1
    primalPosition (eigh (ek.2 + 1 + 1)) ratio batch

/-- `unsigned_volume` of a list of points -/
noncomputable def volumeOf (pts : List (Vec ℝ D)) : Except PyErr ℝ :=
  unsignedVolume (Matrix.of fun i : Fin pts.length => pts[i])

/-- `npi.group_by(keys).sum(values)[1]`: one sum for every key, keys in increasing order -/
noncomputable def groupSum (keys : List Nat) (values : List ℝ) : List ℝ :=
  (npUnique keys).map fun k => (((keys.zip values).filter fun p => p.1 = k).map Prod.snd).sum

/-- `npi.group_by(keys).mean(values)[1]` -/
noncomputable def groupMean (keys : List Nat) (values : List ℝ) : List ℝ :=
  (npUnique keys).map fun k =>
    (((keys.zip values).filter fun p => p.1 = k).map Prod.snd).sum / (keys.count k : ℝ)

/-- the coordinates `bary` of `metric`, lines 161-164: circumcenters of the highest simplices, moved
to have their mean at the origin; the weights are not used -/
noncomputable def topBarycentric (eigh : (n : Nat) → Matrix (Fin n) (Fin n) ℝ → Eigh n ℝ) (ratio : ℝ)
    (t : Topo) (V : List (Vec ℝ D)) : Except PyErr (List (Vec ℝ (t.boundary.length + 1))) := do
  let n := t.boundary.length
  let corners ← cornerBatch V none (n + 1) (t.elements[n]?.getD [])
  let centred : List (Matrix (Fin (n + 1)) (Fin D) ℝ × Option (Vec ℝ (n + 1))) :=
    corners.map fun b => (Matrix.of fun i j => b.1 i j - (∑ k, b.1 k j) / ((n + 1 : ℕ) : ℝ), none)
  circumcenterBarycentric (eigh (n + 1 + 1)) ratio centred

/-- the array `signs` of `metric`, lines 165-166: the sign of the coordinate of corner `c` for all
domains with position `c` on the first axis of the domains -/
noncomputable def domainSigns {n : Nat} (bary : List (Vec ℝ (n + 1))) : List ℝ :=
  bary.flatMap fun b => (List.finRange (n + 1)).flatMap fun c =>
    List.replicate n.factorial (Real.sign (b c))

/-- lines 168-193 of `metric`: the measures from the domains (of all simplices, in C order), the
positions and the signs -/
noncomputable def metricOf (t : Topo) (domains : List (List Nat)) (PP : List (List (Vec ℝ D)))
    (signs : List ℝ) : Except PyErr (List (List ℝ) × List (List ℝ)) := do
  let n := t.boundary.length
  let corners ← domains.mapM fun d => (PP.zip d).mapM fun pd => vertexAt pd.1 pd.2
  let column : Nat → List Nat := fun k => domains.map fun d => d[k]?.getD 0
  let inner ← (List.range' 1 (n - 1)).mapM fun i => do
    let d := n - i
    let pv ← corners.mapM fun c => volumeOf (c.take (i + 1))
    let dv ← corners.mapM fun c => volumeOf (c.drop d)
    .ok ((groupMean (column i) pv).map fun x => x * ((i + 1).factorial : ℝ),
      (groupSum (column d) (List.zipWith (· * ·) dv signs)).map fun x => x / ((d + 1).factorial : ℝ))
  let v ← corners.mapM volumeOf
  let v := List.zipWith (· * ·) v signs
  .ok ([List.replicate (t.nElements 0) 1] ++ inner.map Prod.fst ++ [groupSum (column n) v],
    [List.replicate (t.nElements n) 1] ++ inner.map Prod.snd ++ [groupSum (column 0) v])

/-- `metric`, lines 141-195: the primal and the dual measures; `solve` is the solver behind
`is_oriented` -/
noncomputable def metric (solve : List (List Int) → Option (List Int))
    (eigh : (n : Nat) → Matrix (Fin n) (Fin n) ℝ → Eigh n ℝ) (ratio : ℝ)
    (t : Topo) (V : List (Vec ℝ D)) (weights : Option (List ℝ)) :
    Except PyErr (List (List ℝ) × List (List ℝ)) := do
  let oriented ← isOriented solve t
  if !oriented then .error .assertionError
  else do
    let PP ← primalPositions eigh ratio t V weights
    let domains ← fundamentalDomains t
    let bary ← topBarycentric eigh ratio t V
    metricOf t domains.flatten PP (domainSigns bary)

end

end Verif.Model
