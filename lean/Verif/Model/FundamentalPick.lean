/-
Model of the lookup of fundamental domains and of the interpolation of dual 0-forms over them,
`pycomplex/complex/simplicial/base.py` lines 19-23, 179-212 and 448-529, for euclidian complexes.

Arithmetic is exact, over the real numbers.  The parameters are those of `Verif.Model.Picking`.  The
cached property is computed where it is read.
-/
import Verif.Model.Picking
import Verif.Model.Subdivide
import Verif.Model.DualAveraging

namespace Verif.Model

section

variable {D : Nat}

/-- `subdivide_fundamental`, `complex/simplicial/base.py` lines 19-23: the topology and the vertices of
the subdivision.  It has no weights. -/
noncomputable def complexFundamental (uniq : List (List Nat) → List (List Nat))
    (eigh : (n : Nat) → Matrix (Fin n) (Fin n) ℝ → Eigh n ℝ) (ratio : ℝ)
    (t : Topo) (V : List (Vec ℝ D)) (weights : Option (List ℝ)) (oriented : Bool) :
    Except PyErr (Topo × List (Vec ℝ D)) := do
  let PP ← primalPositions eigh ratio t V weights
  let t' ← subdivideFundamental uniq t oriented
  .ok (t', PP.flatten)

/-- `optimize_weights_fundamental`, lines 179-212, the new weights.  `parents` is
`parent.n_elements[0]`.  Division by zero gives `nan` in numpy and zero here. -/
noncomputable def optimizeWeightsFundamental (parents : Nat) (t : Topo) (V : List (Vec ℝ D))
    (weights : Option (List ℝ)) : Except PyErr (List ℝ) := do
  if weights.isSome then .error .assertionError
  else do
    let edges ← itemAt t.elements 1
    let lengths ← edges.mapM fun e => do
      let pts ← e.mapM (vertexAt V)
      volumeOf pts
    let ops ← averagingOperators0 (K := ℝ) t.matrices
    let a ← itemAt ops 1
    let total ← applyTo a.transpose (lengths.map fun x => x ^ 2)
    let count ← applyTo a.transpose (lengths.map fun _ => 1)
    let scale := List.zipWith (fun x y => x / y) total count
    .ok ((scale.take parents).map (fun x => x / 4) ++ List.replicate (t.nElements 0 - parents) 0)

/-- `pick_fundamental` and `pick_fundamental_precomp`, lines 448-494: for every point the number of the
domain, the coordinates with respect to the corners of the subdivided simplex, and the domain -/
noncomputable def pickFundamental (solve : List (List Int) → Option (List Int))
    (uniq : List (List Nat) → List (List Nat))
    (eigh : (n : Nat) → Matrix (Fin n) (Fin n) ℝ → Eigh n ℝ) (ratio : ℝ)
    (minres : Mat Int → List ℝ → List ℝ) (nearest : List (List ℝ) → List ℝ → Nat)
    (t : Topo) (V : List (Vec ℝ D)) (weights : Option (List ℝ))
    (points : List (Vec ℝ D)) (domainIdx : Option (List Nat)) :
    Except PyErr (List (Nat × Vec ℝ (D + 1) × List Nat)) := do
  let delaunay ← isPairwiseDelaunay eigh ratio t V weights
  if !delaunay then .error .assertionError
  else do
    let sub ← complexFundamental uniq eigh ratio t V weights true
    let w ← optimizeWeightsFundamental (t.nElements 0) sub.1 sub.2 none
    let domains ← fundamentalDomains t
    let picked ← pickPrimal solve uniq eigh ratio minres nearest sub.1 sub.2 (some w) points domainIdx true
    picked.mapM fun ib => do
      let d ← itemAt domains.flatten ib.1
      .ok (ib.1, ib.2, d)

/-- `sample_dual_0`, lines 513-529, from the values on the elements of the dual, the highest elements last -/
noncomputable def interpolateDual (solve : List (List Int) → Option (List Int))
    (uniq : List (List Nat) → List (List Nat))
    (eigh : (n : Nat) → Matrix (Fin n) (Fin n) ℝ → Eigh n ℝ) (ratio : ℝ)
    (minres : Mat Int → List ℝ → List ℝ) (nearest : List (List ℝ) → List ℝ → Nat)
    (t : Topo) (V : List (Vec ℝ D)) (weights : Option (List ℝ)) (averages : List (List ℝ))
    (points : List (Vec ℝ D)) : Except PyErr (List ℝ) := do
  let forms := averages.reverse
  let picked ← pickFundamental solve uniq eigh ratio minres nearest t V weights points none
  picked.mapM fun ibd => do
    let bary := if ibd.1 % 2 = 1 then swapLast (List.ofFn ibd.2.1) else List.ofFn ibd.2.1
    let parts ← (List.range (t.boundary.length + 1)).mapM fun k => do
      let form ← itemAt forms k
      let x ← itemAt ibd.2.2 k
      let f ← itemAt form x
      let b ← itemAt bary k
      .ok (f * b)
    .ok parts.sum

/-- `sample_dual_0`, lines 496-529, with `weighted=False` -/
noncomputable def sampleDualSimplex (solve : List (List Int) → Option (List Int))
    (uniq : List (List Nat) → List (List Nat))
    (eigh : (n : Nat) → Matrix (Fin n) (Fin n) ℝ → Eigh n ℝ) (ratio : ℝ)
    (minres : Mat Int → List ℝ → List ℝ) (nearest : List (List ℝ) → List ℝ → Nat)
    (t : Topo) (V : List (Vec ℝ D)) (weights : Option (List ℝ)) (d0 : List ℝ) (points : List (Vec ℝ D)) :
    Except PyErr (List ℝ) := do
  let ms ← simplicialDual solve uniq t
  let averages ← averageDual ms d0
  interpolateDual solve uniq eigh ratio minres nearest t V weights averages points

end

end Verif.Model
