/-
Model of the weighted averages of dual 0-forms: `weighted_average_operators`,
`pycomplex/complex/base.py` lines 261-342, for euclidian simplicial complexes, and of `sample_dual_0`
with its default `weighted=True`, `pycomplex/complex/simplicial/base.py` lines 496-529.

Arithmetic is exact, over the real numbers.  The parameters are those of `Verif.Model.FundamentalPick`.
The cached property is computed where it is read.
-/
import Verif.Model.FundamentalPick

namespace Verif.Model

section

variable {D : Nat}

/-- one entry of `W[n]`, `complex/base.py` lines 308-327, with `c = n_dim - n`: the entry that belongs to
the domain with the corners `pts`.  `edge_length` is lines 309-310, `edge_length_prod` lines 312-313,
`perimeter[c]` line 316.  Division by zero gives `inf` in numpy and zero here. -/
noncomputable def domainWeight (dim c : Nat) (pts : List (Vec ℝ D)) : Except PyErr ℝ := do
  let perimeter ← volumeOf (pts.drop (c + 1))
  let lengths ← (List.range' c (dim - c)).mapM fun i => do
    let p ← itemAt pts c
    let q ← itemAt pts (i + 1)
    volumeOf [p, q]
  .ok (perimeter / lengths.prod)

/-- `scipy.sparse.coo_matrix((w, (i, j)), shape)`, lines 333-337: entries given more than once are added;
an index outside of the shape is a `ValueError` -/
noncomputable def cooMatrix (rows cols : Nat) (entries : List ((Nat × Nat) × ℝ)) : Except PyErr (Mat ℝ) :=
  if entries.all fun x => x.1.1 < rows && x.1.2 < cols then
    .ok ⟨rows, cols, fun i j => ((entries.filter fun x => x.1 = (i, j)).map Prod.snd).sum⟩
  else .error .valueError

/-- `normalize_l1(A, axis=1)`, `sparse.py` lines 23-29.  The factor of a row without entries is `inf` in
numpy; a sparse product has no entries in that row, as here. -/
noncomputable def scaleRows (A : Mat ℝ) : Mat ℝ :=
  ⟨A.rows, A.cols, fun i j => 1 / ((List.range A.cols).map fun k => |A.entry i k|).sum * A.entry i j⟩

/-- `weighted_average_operators`, `complex/base.py` lines 261-342, without its first entry, which is the
number one -/
noncomputable def weightedAverageOperators (solve : List (List Int) → Option (List Int))
    (uniq : List (List Nat) → List (List Nat))
    (eigh : (n : Nat) → Matrix (Fin n) (Fin n) ℝ → Eigh n ℝ) (ratio : ℝ)
    (t : Topo) (V : List (Vec ℝ D)) (weights : Option (List ℝ)) : Except PyErr (List (Mat ℝ)) := do
  let dim := t.boundary.length
  let oriented ← isOriented solve t
  if !oriented then .error .assertionError
  else do
    let centered ← isWellCentered eigh ratio t V weights
    if !centered then .error .assertionError
    else do
      let PP ← primalPositions eigh ratio t V weights
      let domains ← fundamentalDomains t
      let corners ← domains.flatten.mapM fun d => (PP.zip d).mapM fun pd => vertexAt pd.1 pd.2
      let W ← (List.range dim).mapM fun i => corners.mapM (domainWeight dim (dim - (i + 1)))
      let ms ← simplicialDual solve uniq t
      let A ← averagingOperators0 (K := ℝ) ms
      (W.zip A.tail).zipIdx.mapM fun wai => do
        let M ← cooMatrix wai.1.2.rows wai.1.2.cols (List.zipWith (fun d w =>
          ((d[dim - (wai.2 + 1)]?.getD 0, d[dim]?.getD 0), w)) domains.flatten wai.1.1)
        .ok (scaleRows ⟨wai.1.2.rows, wai.1.2.cols, fun i j => wai.1.2.entry i j * M.entry i j⟩)

/-- `[a * d0 for a in self.weighted_average_operators]`, `complex/simplicial/base.py` line 514 -/
noncomputable def averageWeighted (solve : List (List Int) → Option (List Int))
    (uniq : List (List Nat) → List (List Nat))
    (eigh : (n : Nat) → Matrix (Fin n) (Fin n) ℝ → Eigh n ℝ) (ratio : ℝ)
    (t : Topo) (V : List (Vec ℝ D)) (weights : Option (List ℝ)) (d0 : List ℝ) :
    Except PyErr (List (List ℝ)) := do
  let A ← weightedAverageOperators solve uniq eigh ratio t V weights
  let rest ← A.mapM fun a => applyTo a d0
  .ok (d0 :: rest)

/-- `sample_dual_0`, `complex/simplicial/base.py` lines 496-529, with `weighted=True` -/
noncomputable def sampleDualWeighted (solve : List (List Int) → Option (List Int))
    (uniq : List (List Nat) → List (List Nat))
    (eigh : (n : Nat) → Matrix (Fin n) (Fin n) ℝ → Eigh n ℝ) (ratio : ℝ)
    (minres : Mat Int → List ℝ → List ℝ) (nearest : List (List ℝ) → List ℝ → Nat)
    (t : Topo) (V : List (Vec ℝ D)) (weights : Option (List ℝ)) (d0 : List ℝ) (points : List (Vec ℝ D)) :
    Except PyErr (List ℝ) := do
  let averages ← averageWeighted solve uniq eigh ratio t V weights d0
  interpolateDual solve uniq eigh ratio minres nearest t V weights averages points

end

end Verif.Model
