/-
Model of the geometry of the sphere, `pycomplex/geometry/spherical.py`.

Arithmetic is exact, over the real numbers.  Where numpy would return `nan` (the arc cosine of a number
outside of [-1, 1], the normalization of a zero vector) the model returns `none`.  Leading axes are
dropped, except for `circumcenter`, where the tolerance of the euclidian function compares simplices.
-/
import Verif.Model.Angles
import Verif.Model.Circumcenter

namespace Verif.Model

section

variable {D : Nat}

/-- `np.arccos` -/
noncomputable def arccosNan (x : ℝ) : Option ℝ :=
  if -1 ≤ x ∧ x ≤ 1 then some (Real.arccos x) else none

/-- `linalg.normalized(v)`, `math/linalg.py` lines 25-63, of one vector, without `ignore_zeros` -/
noncomputable def normalizedNan (v : Vec ℝ D) : Option (Vec ℝ D) :=
  let norm := Real.sqrt (dot v v)
  if norm = 0 then none else some fun i => v i / norm

/-- `edge_length`, lines 8-21 -/
noncomputable def sphericalLength (a b : Vec ℝ D) : Option ℝ := arccosNan (dot a b)

/-- `triangle_area_from_normals`, lines 24-40; the index `p - 2` is `p + 1` and `p - 1` is `p + 2` -/
noncomputable def areaFromNormals (normals : Fin 3 → Vec ℝ 3) : ℝ :=
  let planes : Fin 3 → Vec ℝ 3 := fun i => normalizedVec (normals i)
  let angles : Fin 3 → ℝ := fun p => dot (planes (p + 1)) (planes (p + 2))
  ∑ p, Real.arccos (-(min (max (angles p) (-1)) 1)) - Real.pi

/-- `triangle_area_from_corners`, lines 43-56 -/
noncomputable def areaFromCorners (tri : Fin 3 → Vec ℝ 3) : ℝ :=
  areaFromNormals fun v => cross (tri (v + 1)) (tri (v + 2))

/-- `triangle_areas_around_center`, lines 59-77, of one triangle.  The code indexes exactly two leading
axes. -/
noncomputable def areasAroundCenter (center : Vec ℝ 3) (corners : Fin 3 → Vec ℝ 3) : Fin 3 → ℝ :=
  let areas : Fin 3 → ℝ := fun i => areaFromCorners ![center, corners (i + 1), corners (i + 2)]
  fun i => (∑ k, areas k - areas i) / 2

/-- `unsigned_volume`, lines 80-112, of one simplex.  For four or more points (and for none) the function
ends without a `return`: Python's `None` is the outer `none`, `nan` the inner one. -/
noncomputable def sphericalVolume {P : Nat} (pts : Matrix (Fin P) (Fin D) ℝ) :
    Except PyErr (Option (Option ℝ)) :=
  if hP : P = 3 then
    if hD : D = 3 then
      .ok (some (some |areaFromCorners fun i j => pts (Fin.cast hP.symm i) (Fin.cast hD.symm j)|))
    else .error .valueError
  else if hP : P = 2 then
    .ok (some (sphericalLength (pts (Fin.cast hP.symm 0)) (pts (Fin.cast hP.symm 1))))
  else if P = 1 then .ok (some (some 1))
  else .ok none

/-- `edge_circumcenter`, lines 115-119 -/
noncomputable def edgeCircumcenter {P : Nat} (pts : Matrix (Fin P) (Fin D) ℝ) :
    Except PyErr (Option (Vec ℝ D)) :=
  if P = 2 then .ok (normalizedNan fun j => ∑ i, pts i j) else .error .valueError

/-- `triangle_circumcenter`, lines 122-134 -/
noncomputable def triangleCircumcenter {P : Nat} (pts : Matrix (Fin P) (Fin D) ℝ) :
    Except PyErr (Option (Vec ℝ 3)) :=
  if hD : D = 3 then
    if hP : P = 3 then
      let p : Fin 3 → Vec ℝ 3 := fun i j => pts (Fin.cast hP.symm i) (Fin.cast hD.symm j)
      .ok (normalizedNan (cross (p 1 - p 2) (p 0 - p 1)))
    else .error .valueError
  else .error .valueError

/-- `circumcenter`, lines 137-161, of a list of simplices -/
noncomputable def sphericalCircumcenter {P : Nat}
    (eigh : Matrix (Fin (P + 1)) (Fin (P + 1)) ℝ → Eigh (P + 1) ℝ) (ratio : ℝ)
    (batch : List (Matrix (Fin P) (Fin D) ℝ)) : Except PyErr (List (Option (Vec ℝ D))) :=
  if P = 2 then batch.mapM edgeCircumcenter
  else if hP : P = 1 then .ok (batch.map fun pts => some (pts (Fin.cast hP.symm 0)))
  else do
    let centers ← circumcenter eigh ratio batch
    .ok (centers.map normalizedNan)

/-- `intersect_edges`, lines 164-184 -/
noncomputable def intersectEdges (s0 e0 s1 e1 : Vec ℝ 3) : Option (Vec ℝ 3) :=
  let n0 := cross s0 e0
  let n1 := cross s1 e1
  normalizedNan (cross n0 n1)

end

end Verif.Model
