/-
Model of the metric of complexes on the sphere, `pycomplex/complex/simplicial/spherical.py` lines 115-195.

Arithmetic is exact, over the real numbers; `none` is `nan`, and a sum with a `nan` in it is `nan`.
`np.linalg.eigh` is a parameter, as in `Verif.Model.Circumcenter`.  The cached properties are computed
where they are read.  `primal_barycentric`, lines 115-132, repeats the text of the euclidian complex, so
`is_well_centered` is the function of `Verif.Model.Delaunay`.
-/
import Verif.Model.Spherical
import Verif.Model.Delaunay

namespace Verif.Model

/-- a sum; `nan` if a term is `nan` -/
noncomputable def sumNan (xs : List (Option ℝ)) : Option ℝ := (xs.mapM id).map List.sum

/-- `npi.group_by(keys).sum(values)[1]`: one sum for every key, keys in increasing order -/
noncomputable def groupSumNan (keys : List Nat) (values : List (Option ℝ)) : List (Option ℝ) :=
  (npUnique keys).map fun k => sumNan (((keys.zip values).filter fun p => p.1 = k).map Prod.snd)

/-- `npi.group_by(keys).mean(values)[1]` -/
noncomputable def groupMeanNan (keys : List Nat) (values : List (Option ℝ)) : List (Option ℝ) :=
  (npUnique keys).map fun k =>
    (sumNan (((keys.zip values).filter fun p => p.1 = k).map Prod.snd)).map fun s => s / (keys.count k : ℝ)

section

variable {D : Nat}

/-- `primal_position`, lines 134-143, of all dimensions -/
noncomputable def sphericalPositions (eigh : (n : Nat) → Matrix (Fin n) (Fin n) ℝ → Eigh n ℝ) (ratio : ℝ)
    (t : Topo) (V : List (Vec ℝ D)) (weights : Option (List ℝ)) :
    Except PyErr (List (List (Option (Vec ℝ D)))) := do
  let centers ← primalPositions eigh ratio t V weights
  .ok (centers.map fun level => level.map normalizedNan)

/-- `spherical.unsigned_volume` of a list of points, of which some may be `nan`.  Without a volume, that
is for more than three points, numpy fails on Python's `None`; `metric` never gets there. -/
noncomputable def sphericalVolumeOf (pts : List (Option (Vec ℝ D))) : Except PyErr (Option ℝ) :=
  match pts.mapM id with
  | some ps => do
    match ← sphericalVolume (Matrix.of fun i : Fin ps.length => ps[i]) with
    | some v => .ok v
    | none => .error .typeError
  | none =>
    if pts.length = 3 ∧ D ≠ 3 then .error .valueError
    else if pts.length = 2 ∨ pts.length = 3 then .ok none
    else if pts.length = 1 then .ok (some 1)
    else .error .typeError

/-- `p[d]`, line 167, for one index -/
def positionAt (p : List (Option (Vec ℝ D))) (d : Nat) : Except PyErr (Option (Vec ℝ D)) :=
  match p[d]? with
  | some x => .ok x
  | none => .error .indexError

/-- lines 166-195 of `metric`: the measures from the domains (of all simplices, in C order) and the
positions -/
noncomputable def sphericalMetricOf (t : Topo) (domains : List (List Nat))
    (PP : List (List (Option (Vec ℝ D)))) (radius : ℝ) :
    Except PyErr (List (List (Option ℝ)) × List (List (Option ℝ))) := do
  let n := t.boundary.length
  let corners ← domains.mapM fun d => (PP.zip d).mapM fun pd => positionAt pd.1 pd.2
  let column : Nat → List Nat := fun k => domains.map fun d => d[k]?.getD 0
  let inner ← (List.range' 1 (n - 1)).mapM fun i => do
    let d := n - i
    let pv ← corners.mapM fun c => sphericalVolumeOf (c.take (i + 1))
    let dv ← corners.mapM fun c => sphericalVolumeOf (c.drop d)
    .ok ((groupMeanNan (column i) pv).map fun x => x.map fun x => x * ((i + 1).factorial : ℝ),
      (groupSumNan (column d) dv).map fun x => x.map fun x => x / ((d + 1).factorial : ℝ))
  let v ← corners.mapM sphericalVolumeOf
  let PM := [List.replicate (t.nElements 0) (some 1)] ++ inner.map Prod.fst ++ [groupSumNan (column n) v]
  let DM := [List.replicate (t.nElements n) (some 1)] ++ inner.map Prod.snd ++ [groupSumNan (column 0) v]
  let scale : List (List (Option ℝ)) → List (List (Option ℝ)) := fun M =>
    M.zipIdx.map fun mi => mi.1.map fun x => x.map fun x => x * radius ^ mi.2
  .ok (scale PM, scale DM)

/-- `metric`, lines 145-195: the primal and the dual measures; `solve` is the solver behind
`is_oriented` -/
noncomputable def sphericalMetric (solve : List (List Int) → Option (List Int))
    (eigh : (n : Nat) → Matrix (Fin n) (Fin n) ℝ → Eigh n ℝ) (ratio : ℝ)
    (t : Topo) (V : List (Vec ℝ D)) (weights : Option (List ℝ)) (radius : ℝ) :
    Except PyErr (List (List (Option ℝ)) × List (List (Option ℝ))) := do
  let oriented ← isOriented solve t
  if !oriented then .error .assertionError
  else do
    let centred ← isWellCentered eigh ratio t V weights
    if !centred then .error .assertionError
    else if ¬ t.boundary.length ≤ 2 then .error .assertionError
    else do
      let PP ← sphericalPositions eigh ratio t V weights
      let domains ← fundamentalDomains t
      sphericalMetricOf t domains.flatten PP radius

end

end Verif.Model
